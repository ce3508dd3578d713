import Verif.Model.ParetoHistory
import Verif.Props.Pareto
import Verif.Lemmas.ParetoSound

/-!
# C62: what the caches answer for partially ordered tasks

`runPOps` applies an arbitrary sequence of stores, bound updates and transfers to empty caches. The specification is
`firstFront`: the first non-empty front that was stored for the key and exactly the budget.
-/

namespace Streed

section
variable {S : Type}

/-- The first non-empty front stored for a key (of the call) and exactly the budget; empty if there is none. -/
def firstFront (key : Data → Branch → Bool) (d n : Nat) : List (POp S) → Front S
  | [] => Front.empty
  | .store D b F d' n' :: ops =>
    if key D b = true ∧ d' = d ∧ n' = n ∧ F.sols ≠ [] then ⟨F.sols, []⟩ else firstFront key d n ops
  | _ :: ops => firstFront key d n ops

/-- The calls concern equal data. -/
def sameData (D : Data) : Data → Branch → Bool := fun D' _ => decide (dataKey D' = dataKey D)
/-- The calls concern the same path. -/
def samePath (b : Branch) : Data → Branch → Bool := fun _ b' => decide (b' = b)

/-- At most one entry per budget. -/
def POneEach (es : List (PEntry S)) : Prop := es.Pairwise fun a b => ¬ (a.depth = b.depth ∧ a.nodes = b.nodes)

/-- The entry of a budget. -/
def pEnt (es : List (PEntry S)) (d n : Nat) : Option (PEntry S) := es.find? fun e => e.depth == d && e.nodes == n

theorem pEnt_cons (e : PEntry S) (es : List (PEntry S)) (d n : Nat) :
    pEnt (e :: es) d n = if e.depth = d ∧ e.nodes = n then some e else pEnt es d n := by
  unfold pEnt
  rw [List.find?_cons]
  by_cases h : e.depth = d ∧ e.nodes = n
  · rw [if_pos h]; simp [h.1, h.2]
  · rw [if_neg h]
    have : (e.depth == d && e.nodes == n) = false := by
      rw [Bool.eq_false_iff]; simpa using fun a b => h ⟨a, b⟩
    rw [this]

theorem isNil_empty {F : Front S} (h : F.isNil = true) : F.removeTemp = Front.empty := by
  have : F.sols = [] := by simpa [Front.isNil] using h
  unfold Front.removeTemp Front.empty
  rw [this]

/-- What an entry answers. -/
def pAns : Option (PEntry S) → Front S
  | some e => e.opt.removeTemp
  | none => Front.empty

theorem pRetrieve_eq {es : List (PEntry S)} (h : POneEach es) (d n : Nat) : pRetrieve es d n = pAns (pEnt es d n) := by
  induction es with
  | nil => rfl
  | cons e es ih =>
    unfold POneEach at h
    rw [List.pairwise_cons] at h
    rw [pEnt_cons]
    by_cases hd : e.depth = d ∧ e.nodes = n
    · rw [if_pos hd]
      cases hi : e.opt.isNil with
      | false => simp [pRetrieve, hd.1, hd.2, PEntry.isOpt, hi, pAns]
      | true =>
        have : es.find? (fun e => e.depth == d && e.nodes == n && e.isOpt) = none := by
          rw [List.find?_eq_none]
          intro x hx
          have := h.1 x hx
          rw [hd.1, hd.2] at this
          simp only [Bool.and_eq_true, beq_iff_eq, not_and]
          intro h1
          exact absurd ⟨h1.1.symm, h1.2.symm⟩ (fun q => this q)
        simp only [pRetrieve, List.find?_cons, hd.1, hd.2, PEntry.isOpt, hi, Bool.not_true, Bool.and_false, pAns]
        simp only [PEntry.isOpt] at this
        rw [this]
        exact (isNil_empty hi).symm
    · rw [if_neg hd, ← ih h.2]
      have : (e.depth == d && e.nodes == n && e.isOpt) = false := by
        rw [Bool.eq_false_iff]; simpa using fun a b => absurd ⟨a, b⟩ hd
      unfold pRetrieve
      rw [List.find?_cons, this]

theorem pEnt_none {es : List (PEntry S)} {d n : Nat} :
    pEnt es d n = none ↔ es.any (fun e => e.depth == d && e.nodes == n) = false := by
  unfold pEnt
  rw [List.find?_eq_none, List.any_eq_false]

theorem pEnt_append (es : List (PEntry S)) (x : PEntry S) (d n : Nat) :
    pEnt (es ++ [x]) d n = (pEnt es d n).or (if x.depth = d ∧ x.nodes = n then some x else none) := by
  induction es with
  | nil => rw [List.nil_append, pEnt_cons]; rfl
  | cons e es ih =>
    rw [List.cons_append, pEnt_cons, pEnt_cons, ih]
    split <;> rfl

theorem POneEach.append {es : List (PEntry S)} (h : POneEach es) {x : PEntry S} (hx : pEnt es x.depth x.nodes = none) :
    POneEach (es ++ [x]) := by
  unfold POneEach at *
  rw [List.pairwise_append]
  refine ⟨h, List.pairwise_singleton _ _, ?_⟩
  intro a ha b hb
  rw [List.mem_singleton.1 hb]
  rw [pEnt_none, List.any_eq_false] at hx
  have := hx a ha
  simpa using this

/-- A map that keeps the budgets. -/
theorem POneEach.map {es : List (PEntry S)} (h : POneEach es) (g : PEntry S → PEntry S)
    (hg : ∀ e, (g e).depth = e.depth ∧ (g e).nodes = e.nodes) : POneEach (es.map g) := by
  unfold POneEach at *
  rw [List.pairwise_map]
  refine h.imp ?_
  intro a b hab
  rw [(hg a).1, (hg a).2, (hg b).1, (hg b).2]
  exact hab

theorem pEnt_map (es : List (PEntry S)) (g : PEntry S → PEntry S)
    (hg : ∀ e, (g e).depth = e.depth ∧ (g e).nodes = e.nodes) (d n : Nat) :
    pEnt (es.map g) d n = (pEnt es d n).map g := by
  induction es with
  | nil => rfl
  | cons e es ih =>
    rw [List.map_cons, pEnt_cons, pEnt_cons, (hg e).1, (hg e).2, ih]
    split <;> rfl

/-- The entries after a store: the answer of the budget is the front stored unless there was one, the other answers are
as before. -/
theorem pStore_ans {old : Option (List (PEntry S))} (h : ∀ es, old = some es → POneEach es) (F : Front S) {d n : Nat}
    (hdn : d ≤ n) : POneEach (pStore old F d n) ∧
    ∀ d' n', pAns (pEnt (pStore old F d n) d' n') =
      if d = d' ∧ n = n' ∧ (pAns (pEnt (old.getD []) d' n')).isNil = true then F.removeTemp
      else pAns (pEnt (old.getD []) d' n') := by
  have hnew : ∀ d' n', pEnt [(⟨d, n, F, F⟩ : PEntry S)] d' n' = if d = d' ∧ n = n' then some ⟨d, n, F, F⟩ else none :=
    fun d' n' => pEnt_cons _ _ _ _
  cases old with
  | none =>
    unfold pStore
    rw [if_pos hdn]
    refine ⟨List.pairwise_singleton _ _, ?_⟩
    intro d' n'
    rw [hnew]
    by_cases hq : d = d' ∧ n = n'
    · rw [if_pos hq, if_pos ⟨hq.1, hq.2, rfl⟩]; rfl
    · rw [if_neg hq, if_neg (fun q => hq ⟨q.1, q.2.1⟩)]; rfl
  | some es =>
    have h := h es rfl
    unfold pStore
    dsimp only
    by_cases ha : es.any (fun e => e.depth == d && e.nodes == n) = true
    · rw [if_pos ha]
      have hg : ∀ e : PEntry S, (if e.depth = d ∧ e.nodes = n ∧ e.isOpt = false then (⟨d, n, F, F⟩ : PEntry S) else e).depth = e.depth ∧
          (if e.depth = d ∧ e.nodes = n ∧ e.isOpt = false then (⟨d, n, F, F⟩ : PEntry S) else e).nodes = e.nodes := by
        intro e
        split
        · next q => exact ⟨q.1.symm, q.2.1.symm⟩
        · exact ⟨rfl, rfl⟩
      refine ⟨h.map _ hg, ?_⟩
      intro d' n'
      rw [pEnt_map _ _ hg, Option.getD_some]
      cases he : pEnt es d' n' with
      | none =>
        have hne : ¬ (d = d' ∧ n = n') := by
          rintro ⟨rfl, rfl⟩
          rw [pEnt_none] at he
          rw [he] at ha
          cases ha
        rw [if_neg (fun q => hne ⟨q.1, q.2.1⟩)]
        rfl
      | some e =>
        have hb : e.depth = d' ∧ e.nodes = n' := by
          have := List.find?_some he
          simpa using this
        show (if _ then (⟨d, n, F, F⟩ : PEntry S) else e).opt.removeTemp = _
        by_cases hq : d = d' ∧ n = n' ∧ (pAns (some e)).isNil = true
        · rw [if_pos hq, if_pos ⟨hb.1.trans hq.1.symm, hb.2.trans hq.2.1.symm, by
            unfold PEntry.isOpt
            rw [show e.opt.isNil = true from hq.2.2]; rfl⟩]
        · rw [if_neg hq, if_neg]
          · rfl
          · rintro ⟨q1, q2, q3⟩
            refine hq ⟨q1.symm.trans hb.1, q2.symm.trans hb.2, ?_⟩
            unfold PEntry.isOpt at q3
            show e.opt.isNil = true
            simpa using q3
    · rw [if_neg ha, if_pos hdn]
      have hnone : pEnt es d n = none := pEnt_none.2 (by simpa using ha)
      refine ⟨h.append hnone, ?_⟩
      intro d' n'
      rw [pEnt_append, Option.getD_some]
      by_cases hq : d = d' ∧ n = n'
      · obtain ⟨rfl, rfl⟩ := hq
        rw [hnone, if_pos ⟨rfl, rfl⟩, if_pos ⟨rfl, rfl, rfl⟩]
        rfl
      · rw [if_neg hq, if_neg (fun q => hq ⟨q.1, q.2.1⟩), Option.or_none]

/-- A bound update changes no answer. -/
theorem pUpdateFirst_ans (T : PTask S) (guard : Bool) (v : Front S) (d n : Nat) {es : List (PEntry S)} (h : POneEach es) :
    POneEach (pUpdateFirst T guard v d n es) ∧
    (∀ x ∈ pUpdateFirst T guard v d n es, (x.depth = d ∧ x.nodes = n) ∨ x ∈ es) ∧
    ∀ d' n', pAns (pEnt (pUpdateFirst T guard v d n es) d' n') = pAns (pEnt es d' n') := by
  induction es with
  | nil =>
    refine ⟨List.pairwise_singleton _ _, ?_, ?_⟩
    · intro x hx
      rw [pUpdateFirst, List.mem_singleton] at hx
      subst hx
      exact .inl ⟨rfl, rfl⟩
    · intro d' n'
      rw [pUpdateFirst, pEnt_cons]
      split <;> rfl
  | cons e es ih =>
    have h' := h
    unfold POneEach at h'
    rw [List.pairwise_cons] at h'
    obtain ⟨i1, i2, i3⟩ := ih h'.2
    rw [pUpdateFirst]
    by_cases hq : e.depth = d ∧ e.nodes = n
    · rw [if_pos hq]
      have he : (if (guard && e.isOpt) = true then e else e.updLB T v).depth = e.depth ∧
          (if (guard && e.isOpt) = true then e else e.updLB T v).nodes = e.nodes ∧
          (if (guard && e.isOpt) = true then e else e.updLB T v).opt = e.opt := by split <;> exact ⟨rfl, rfl, rfl⟩
      generalize (if (guard && e.isOpt) = true then e else e.updLB T v) = e' at he
      refine ⟨?_, ?_, ?_⟩
      · unfold POneEach
        rw [List.pairwise_cons, he.1, he.2.1]
        exact h'
      · intro x hx
        rcases List.mem_cons.1 hx with rfl | hx
        · exact .inl ⟨he.1.trans hq.1, he.2.1.trans hq.2⟩
        · exact .inr (List.mem_cons_of_mem _ hx)
      · intro d' n'
        rw [pEnt_cons, pEnt_cons, he.1, he.2.1]
        split
        · show e'.opt.removeTemp = e.opt.removeTemp
          rw [he.2.2]
        · rfl
    · rw [if_neg hq]
      refine ⟨?_, ?_, ?_⟩
      · unfold POneEach
        rw [List.pairwise_cons]
        refine ⟨?_, i1⟩
        intro x hx
        rcases i2 x hx with ⟨a, b⟩ | hx
        · rw [a, b]; exact hq
        · exact h'.1 x hx
      · intro x hx
        rcases List.mem_cons.1 hx with rfl | hx
        · exact .inr (List.mem_cons_self ..)
        · exact (i2 x hx).imp id (List.mem_cons_of_mem _)
      · intro d' n'
        rw [pEnt_cons, pEnt_cons]
        split
        · rfl
        · exact i3 d' n'

theorem pget_put {K : Type} [DecidableEq K] (m : PStore S K) (k k' : K) (es : List (PEntry S)) :
    (m.put k es).get k' = if k = k' then some es else m.get k' := by
  rw [PStore.get_put]
  simp only [eq_comm]

/-- A table and the answers it gives: one entry per budget, and the first front stored under each key. -/
structure PHist {K : Type} [DecidableEq K] (key : K → Data → Branch → Bool) (ops : List (POp S)) (m : PStore S K) : Prop where
  one : ∀ k es, m.get k = some es → POneEach es
  ans : ∀ k d n, pAns (pEnt ((m.get k).getD []) d n) = firstFront (key k) d n ops

theorem firstFront_append (key : Data → Branch → Bool) (d n : Nat) (ops : List (POp S)) (o : POp S) :
    firstFront key d n (ops ++ [o]) =
      if (firstFront key d n ops).isNil = true then firstFront key d n [o] else firstFront key d n ops := by
  have hn : (Front.empty : Front S).isNil = true := rfl
  induction ops with
  | nil => rw [List.nil_append, firstFront, if_pos hn]
  | cons p ops ih =>
    rw [List.cons_append]
    cases p with
    | store D b F d' n' =>
      rw [firstFront, firstFront]
      by_cases h : key D b = true ∧ d' = d ∧ n' = n ∧ F.sols ≠ []
      · rw [if_pos h, if_pos h, if_neg]
        have := h.2.2.2
        simpa [Front.isNil] using this
      · rw [if_neg h, if_neg h]
        exact ih
    | lower D b v d' n' => exact ih
    | transfer a b => exact ih

/-- A store under the key of the call. -/
theorem PHist.store {K : Type} [DecidableEq K] {key : K → Data → Branch → Bool} {ops : List (POp S)} {m : PStore S K}
    (h : PHist key ops m) (D : Data) (b : Branch) (F : Front S) {d n : Nat} (hdn : d ≤ n) (k : K)
    (hk : ∀ k', key k' D b = decide (k = k')) :
    PHist key (ops ++ [.store D b F d n]) (m.put k (pStore (m.get k) F.removeTemp d n)) := by
  have hs := pStore_ans (fun es he => h.one k es he) F.removeTemp hdn
  constructor
  · intro k' es he
    rw [pget_put] at he
    split at he
    · cases he; exact hs.1
    · exact h.one k' es he
  · intro k' d' n'
    rw [pget_put, firstFront_append, firstFront, firstFront, hk, ← h.ans]
    by_cases hkk : k = k'
    · subst hkk
      rw [if_pos rfl, Option.getD_some, hs.2]
      simp only [decide_true, true_and]
      by_cases hnil : (pAns (pEnt ((m.get k).getD []) d' n')).isNil = true
      · rw [if_pos hnil]
        by_cases hb : d = d' ∧ n = n'
        · rw [if_pos ⟨hb.1, hb.2, hnil⟩]
          by_cases hF : F.sols = []
          · rw [if_neg (fun q => q.2.2 hF)]
            show Front.removeTemp (Front.removeTemp F) = _
            exact isNil_empty (by simp [Front.isNil, Front.removeTemp, hF])
          · rw [if_pos ⟨hb.1, hb.2, hF⟩]
            rfl
        · rw [if_neg (fun q => hb ⟨q.1, q.2.1⟩), if_neg (fun q => hb ⟨q.1, q.2.1⟩)]
          cases he : pEnt ((m.get k).getD []) d' n' with
          | none => rfl
          | some e =>
            rw [he] at hnil
            exact isNil_empty hnil
      · rw [if_neg hnil, if_neg (fun q => hnil q.2.2)]
    · rw [if_neg hkk]
      split
      · next hnil =>
        rw [if_neg (fun q => hkk (by simpa using q.1))]
        cases he : pEnt ((m.get k').getD []) d' n' with
        | none => rfl
        | some e =>
          rw [he] at hnil
          exact isNil_empty hnil
      · rfl

/-- A call that stores nothing. -/
theorem PHist.other {K : Type} [DecidableEq K] {key : K → Data → Branch → Bool} {ops : List (POp S)} {m : PStore S K}
    (h : PHist key ops m) (o : POp S) (ho : ∀ k d n, firstFront (key k) d n [o] = Front.empty) : PHist key (ops ++ [o]) m := by
  refine ⟨h.one, fun k d n => ?_⟩
  rw [firstFront_append, ho, ← h.ans]
  split
  · next hnil =>
    cases he : pEnt ((m.get k).getD []) d n with
    | none => rfl
    | some e =>
      rw [he] at hnil
      exact isNil_empty hnil
  · rfl

/-- A bound update under any key. -/
theorem PHist.lower {K : Type} [DecidableEq K] {key : K → Data → Branch → Bool} {ops : List (POp S)} {m : PStore S K}
    (h : PHist key ops m) (T : PTask S) (guard : Bool) (v : Front S) (d n : Nat) (k : K) :
    PHist key ops (m.put k (pUpdateFirst T guard v d n ((m.get k).getD []))) := by
  have h0 : POneEach ((m.get k).getD []) := by
    cases hm : m.get k with
    | none => exact List.Pairwise.nil
    | some es => exact h.one k es hm
  have hs := pUpdateFirst_ans T guard v d n h0
  constructor
  · intro k' es he
    rw [pget_put] at he
    split at he
    · cases he; exact hs.1
    · exact h.one k' es he
  · intro k' d' n'
    rw [pget_put, ← h.ans]
    split
    · next hk =>
      subst hk
      rw [Option.getD_some, hs.2.2]
    · rfl

/-- All stores have depth at most the number of nodes, as in the search. -/
def POp.Fits : POp S → Prop
  | .store _ _ _ d n => d ≤ n
  | _ => True

/-- Not a transfer. -/
def POp.NoTransfer : POp S → Prop
  | .transfer _ _ => False
  | _ => True

theorem runPOps_append (c : PCfg S) (ops : List (POp S)) (o : POp S) :
    runPOps c (ops ++ [o]) = o.apply c (runPOps c ops) := by
  unfold runPOps
  rw [List.foldl_append]
  rfl

theorem dsHist_p (c : PCfg S) (hds : c.useDs = true) (ops : List (POp S)) (hf : ∀ o ∈ ops, o.Fits) :
    PHist (fun k D _ => decide (k = dataKey D)) ops (runPOps c ops).ds := by
  induction ops using List.reverseRecOn with
  | nil => exact ⟨fun k es h => by simp [runPOps, PCache.init, PStore.get] at h, fun k d n => rfl⟩
  | append_singleton ops o ih =>
    have ih := ih fun x hx => hf x (by simp [hx])
    have ho := hf o (by simp)
    rw [runPOps_append]
    cases o with
    | store D b F d n =>
      have := ih.store D b F ho (dataKey D) (fun k' => by simp [eq_comm])
      simpa [POp.apply, PCache.storeOpt, hds] using this
    | lower D b v d n =>
      have h1 := (ih.lower c.T false v d n (dataKey D)).other (.lower D b v d n) (fun _ _ _ => rfl)
      have h2 := ih.other (.lower D b v d n) (fun _ _ _ => rfl)
      by_cases hlb : c.useLB = true
      · simpa [POp.apply, PCache.updateLB, hds, hlb] using h1
      · simpa [POp.apply, PCache.updateLB, hlb] using h2
    | transfer a b =>
      have h2 := ih.other (.transfer a b) (fun _ _ _ => rfl)
      have : (POp.apply c (runPOps c ops) (.transfer a b)).ds = (runPOps c ops).ds := by
        show (PCache.transfer c (runPOps c ops) a b).ds = _
        unfold PCache.transfer
        split
        · split
          · rfl
          · rfl
          · split <;> rfl
        · rfl
      rw [this]
      exact h2

theorem brHist_p (c : PCfg S) (hbr : c.useBr = true) (ops : List (POp S)) (hf : ∀ o ∈ ops, o.Fits)
    (ht : ∀ o ∈ ops, o.NoTransfer) :
    PHist (fun k _ b => decide (k = b)) ops (runPOps c ops).br := by
  induction ops using List.reverseRecOn with
  | nil => exact ⟨fun k es h => by simp [runPOps, PCache.init, PStore.get] at h, fun k d n => rfl⟩
  | append_singleton ops o ih =>
    have ih := ih (fun x hx => hf x (by simp [hx])) (fun x hx => ht x (by simp [hx]))
    have ho := hf o (by simp)
    have hto := ht o (by simp)
    rw [runPOps_append]
    cases o with
    | store D b F d n =>
      have := ih.store D b F ho b (fun k' => by simp [eq_comm])
      simpa [POp.apply, PCache.storeOpt, hbr] using this
    | lower D b v d n =>
      have h1 := (ih.lower c.T true v d n b).other (.lower D b v d n) (fun _ _ _ => rfl)
      have h2 := ih.other (.lower D b v d n) (fun _ _ _ => rfl)
      by_cases hlb : c.useLB = true
      · simpa [POp.apply, PCache.updateLB, hbr, hlb] using h1
      · simpa [POp.apply, PCache.updateLB, hlb] using h2
    | transfer a b => exact hto.elim

theorem PHist.retrieve {K : Type} [DecidableEq K] {key : K → Data → Branch → Bool} {ops : List (POp S)} {m : PStore S K}
    (h : PHist key ops m) (k : K) (d n : Nat) : pRetrieve ((m.get k).getD []) d n = firstFront (key k) d n ops := by
  rw [pRetrieve_eq, h.ans]
  cases hm : m.get k with
  | none => exact List.Pairwise.nil
  | some es => exact h.one k es hm

/-- C62: with the dataset cache (the default), whatever has been stored, bounded and transferred, the front handed out for
data and a budget is the first non-empty one that was stored for equal data and exactly that budget. -/
theorem dataset_front_answer (c : PCfg S) (hds : c.useDs = true) (hbr : c.useBr = false) (ops : List (POp S))
    (hf : ∀ o ∈ ops, o.Fits) (D : Data) (b : Branch) (d n : Nat) :
    (runPOps c ops).retrieveOpt c D b d n = firstFront (sameData D) d n ops := by
  have h := (dsHist_p c hds ops hf).retrieve (dataKey D) d n
  unfold PCache.retrieveOpt
  rw [hbr, hds]
  simp only [Bool.false_eq_true, if_false, if_true]
  rw [if_pos (show (Front.empty : Front S).isNil = true from rfl), h]
  congr 1
  funext D' b'
  unfold sameData
  simp [eq_comm]

/-- C62 for the branch cache, between transfers: the first non-empty front stored for that path and exactly that budget. A
transfer can replace it (`front_transfer_drops`). -/
theorem branch_front_answer_partial (c : PCfg S) (hbr : c.useBr = true) (hds : c.useDs = false) (ops : List (POp S))
    (hf : ∀ o ∈ ops, o.Fits) (ht : ∀ o ∈ ops, o.NoTransfer) (D : Data) (b : Branch) (d n : Nat) :
    (runPOps c ops).retrieveOpt c D b d n = firstFront (samePath b) d n ops := by
  have h := (brHist_p c hbr ops hf ht).retrieve b d n
  have hk : (fun (_ : Data) b' => decide (b = b')) = samePath b := by
    funext D' b'
    unfold samePath
    simp [eq_comm]
  rw [hk] at h
  unfold PCache.retrieveOpt
  rw [hbr, hds, ← h]
  simp only [Bool.false_eq_true, if_false, if_true]
  split
  · next hn =>
    rw [h] at hn ⊢
    have hF : ∀ (key : Data → Branch → Bool) (ops : List (POp S)), (firstFront key d n ops).isNil = true →
        firstFront key d n ops = Front.empty := by
      intro key ops
      induction ops with
      | nil => intro _; rfl
      | cons o ops ih =>
        cases o with
        | store D b F d' n' =>
          rw [firstFront]
          split
          · next q => intro h; exact absurd (by simpa [Front.isNil] using h) q.2.2.2
          · exact ih
        | lower _ _ _ _ _ => exact ih
        | transfer _ _ => exact ih
    exact (hF _ _ hn).symm
  · rfl

end

/-! ### Transfers -/

/-- A path from which answers were transferred, perhaps in several steps. -/
inductive PLinked {S : Type} (ops : List (POp S)) : Branch → Branch → Prop
  | refl (b : Branch) : PLinked ops b b
  | step {a b e : Branch} : PLinked ops a b → POp.transfer b e ∈ ops → PLinked ops a e

theorem PLinked.mono {S : Type} {ops ops' : List (POp S)} (h : ∀ o ∈ ops, o ∈ ops') {a b : Branch} (hl : PLinked ops a b) :
    PLinked ops' a b := by
  induction hl with
  | refl => exact .refl _
  | step _ hm ih => exact .step ih (h _ hm)

section
variable {S : Type}

/-- Where the solutions of an entry come from. -/
def PFrom (ops : List (POp S)) (b : Branch) (e : PEntry S) : Prop :=
  e.isOpt = true → ∃ D' b' F, POp.store D' b' F e.depth e.nodes ∈ ops ∧ e.opt = F.removeTemp ∧ PLinked ops b' b

theorem PFrom.mono {ops ops' : List (POp S)} (h : ∀ o ∈ ops, o ∈ ops') {b : Branch} {e : PEntry S} (he : PFrom ops b e) :
    PFrom ops' b e := by
  intro ho
  obtain ⟨D', b', F, h1, h2, h3⟩ := he ho
  exact ⟨D', b', F, h _ h1, h2, h3.mono h⟩

theorem pStore_mem (old : Option (List (PEntry S))) (F : Front S) (d n : Nat) (e : PEntry S) (he : e ∈ pStore old F d n) :
    e = ⟨d, n, F, F⟩ ∨ e ∈ old.getD [] := by
  cases old with
  | none =>
    unfold pStore at he
    dsimp only at he
    split at he
    · exact .inl (List.mem_singleton.1 he)
    · simp at he
  | some es =>
    unfold pStore at he
    dsimp only at he
    rw [Option.getD_some]
    split at he
    · obtain ⟨x, hx, hxe⟩ := List.mem_map.1 he
      split at hxe
      · exact .inl hxe.symm
      · exact .inr (hxe ▸ hx)
    · split at he
      · rcases List.mem_append.1 he with h | h
        · exact .inr h
        · exact .inl (List.mem_singleton.1 h)
      · exact .inr he

theorem pUpdateFirst_mem (T : PTask S) (guard : Bool) (v : Front S) (d n : Nat) (es : List (PEntry S)) (e : PEntry S)
    (he : e ∈ pUpdateFirst T guard v d n es) :
    e.isOpt = false ∨ ∃ x ∈ es, x.depth = e.depth ∧ x.nodes = e.nodes ∧ x.opt = e.opt := by
  induction es with
  | nil =>
    rw [pUpdateFirst, List.mem_singleton] at he
    subst he
    exact .inl rfl
  | cons x es ih =>
    rw [pUpdateFirst] at he
    split at he
    · rcases List.mem_cons.1 he with h | h
      · right
        refine ⟨x, List.mem_cons_self .., ?_⟩
        rw [h]
        split <;> exact ⟨rfl, rfl, rfl⟩
      · exact .inr ⟨e, List.mem_cons_of_mem _ h, rfl, rfl, rfl⟩
    · rcases List.mem_cons.1 he with h | h
      · exact .inr ⟨x, List.mem_cons_self .., by rw [h]; exact ⟨rfl, rfl, rfl⟩⟩
      · rcases ih h with h | ⟨y, hy, q⟩
        · exact .inl h
        · exact .inr ⟨y, List.mem_cons_of_mem _ hy, q⟩

theorem pTransferOne_mem (T : PTask S) (src : PEntry S) (es : List (PEntry S)) (e : PEntry S)
    (he : e ∈ pTransferOne T src es) : e = src ∨ e ∈ es := by
  induction es with
  | nil => simp [pTransferOne] at he
  | cons x es ih =>
    rw [pTransferOne] at he
    split at he
    · rcases List.mem_cons.1 he with h | h
      · exact .inl h
      · exact .inr (List.mem_cons_of_mem _ h)
    · rcases List.mem_cons.1 he with h | h
      · exact .inr (h ▸ List.mem_cons_self ..)
      · exact (ih h).imp id (List.mem_cons_of_mem _)

theorem pTransfer_mem (T : PTask S) (src dst : List (PEntry S)) (e : PEntry S) (he : e ∈ pTransfer T src dst) :
    e ∈ src ∨ e ∈ dst := by
  unfold pTransfer at he
  induction src generalizing dst with
  | nil => exact .inr he
  | cons x src ih =>
    rw [List.foldl_cons] at he
    rcases ih _ he with h | h
    · exact .inl (List.mem_cons_of_mem _ h)
    · split at h
      · rcases pTransferOne_mem T x dst e h with h | h
        · exact .inl (h ▸ List.mem_cons_self ..)
        · exact .inr h
      · rcases List.mem_append.1 h with h | h
        · exact .inr h
        · exact .inl (List.mem_singleton.1 h ▸ List.mem_cons_self ..)

theorem brFrom (c : PCfg S) (hbr : c.useBr = true) (ops : List (POp S)) (b : Branch) :
    ∀ e ∈ ((runPOps c ops).br.get b).getD [], PFrom ops b e := by
  induction ops using List.reverseRecOn generalizing b with
  | nil => intro e he; simp [runPOps, PCache.init, PStore.get] at he
  | append_singleton ops o ih =>
    have hm : ∀ b, ∀ e ∈ ((runPOps c ops).br.get b).getD [], PFrom (ops ++ [o]) b e := fun b e he =>
      (ih b e he).mono fun x hx => List.mem_append.2 (.inl hx)
    have hlast : o ∈ ops ++ [o] := by simp
    intro e he
    rw [runPOps_append] at he
    cases o with
    | store D b' F d n =>
      have hb : (POp.apply c (runPOps c ops) (.store D b' F d n)).br =
          (runPOps c ops).br.put b' (pStore ((runPOps c ops).br.get b') F.removeTemp d n) := by
        simp [POp.apply, PCache.storeOpt, hbr]
      rw [hb, pget_put] at he
      split at he
      · next hq =>
        subst hq
        rcases pStore_mem _ _ _ _ e he with rfl | h
        · exact fun _ => ⟨D, b', F, hlast, rfl, .refl _⟩
        · exact hm b' e h
      · exact hm b e he
    | lower D b' v d n =>
      by_cases hlb : c.useLB = true
      · have hb : (POp.apply c (runPOps c ops) (.lower D b' v d n)).br =
            (runPOps c ops).br.put b' (pUpdateFirst c.T true v d n (((runPOps c ops).br.get b').getD [])) := by
          simp [POp.apply, PCache.updateLB, hbr, hlb]
        rw [hb, pget_put] at he
        split at he
        · next hq =>
          subst hq
          rcases pUpdateFirst_mem c.T true v d n _ e he with h | ⟨x, hx, q1, q2, q3⟩
          · intro ho; rw [h] at ho; cases ho
          · intro ho
            have := hm b' x hx (by unfold PEntry.isOpt at *; rw [q3]; exact ho)
            rw [q1, q2, q3] at this
            exact this
        · exact hm b e he
      · have hb : (POp.apply c (runPOps c ops) (.lower D b' v d n)).br = (runPOps c ops).br := by
          simp [POp.apply, PCache.updateLB, hlb]
        rw [hb] at he
        exact hm b e he
    | transfer a b' =>
      have link : ∀ e ∈ ((runPOps c ops).br.get a).getD [], PFrom (ops ++ [POp.transfer a b']) b' e := by
        intro e he ho
        obtain ⟨D', p, F, h1, h2, h3⟩ := hm a e he ho
        exact ⟨D', p, F, h1, h2, .step h3 hlast⟩
      change e ∈ ((PCache.transfer c (runPOps c ops) a b').br.get b).getD [] at he
      unfold PCache.transfer at he
      split at he
      · split at he
        · exact hm b e he
        · next es _ ha _ =>
          rw [pget_put] at he
          split at he
          · next hq =>
            subst hq
            exact link e (by rw [ha]; exact he)
          · exact hm b e he
        · next es es' ha hb =>
          split at he
          · rw [pget_put] at he
            split at he
            · next hq =>
              subst hq
              rcases pTransfer_mem c.T es es' e he with h | h
              · exact link e (by rw [ha]; exact h)
              · exact hm b' e (by rw [hb]; exact h)
            · exact hm b e he
          · exact hm b e he
      · exact hm b e he

/-- C62 for the branch cache, with transfers: a front handed out was stored with exactly that budget, for that path or for
one from which answers were transferred to it. -/
theorem branch_front_stored (c : PCfg S) (hbr : c.useBr = true) (hds : c.useDs = false) (ops : List (POp S)) (D : Data)
    (b : Branch) (d n : Nat) (hne : ((runPOps c ops).retrieveOpt c D b d n).sols ≠ []) :
    ∃ D' b' F, POp.store D' b' F d n ∈ ops ∧ ((runPOps c ops).retrieveOpt c D b d n).sols = F.sols ∧ PLinked ops b' b := by
  have hr : (runPOps c ops).retrieveOpt c D b d n = pRetrieve (((runPOps c ops).br.get b).getD []) d n := by
    unfold PCache.retrieveOpt at hne ⊢
    rw [hbr, hds] at hne ⊢
    simp only [Bool.false_eq_true, if_false, if_true] at hne ⊢
    split
    · next h =>
      rw [if_pos h] at hne
      exact absurd rfl hne
    · rfl
  rw [hr] at hne ⊢
  unfold pRetrieve at hne ⊢
  split at hne
  · next e he =>
    have h1 := List.find?_some he
    have h2 := List.mem_of_find?_eq_some he
    simp only [Bool.and_eq_true, beq_iff_eq] at h1
    obtain ⟨D', b', F, q1, q2, q3⟩ := brFrom c hbr ops b e h2 h1.2
    rw [h1.1.1, h1.1.2] at q1
    exact ⟨D', b', F, q1, by show e.opt.sols = _; rw [q2]; rfl, q3⟩
  · exact absurd rfl hne

end

/-! ### What a transfer leaves -/

section
variable {S : Type}

/-- The entry a transfer leaves for a budget. -/
def pMoved (T : PTask S) : Option (PEntry S) → Option (PEntry S) → Option (PEntry S)
  | none, y => y
  | some x, none => some x
  | some x, some y =>
    if (x.isOpt = true ∧ y.isOpt = false) ∨ T.strictlyBelow x.lb y.lb = true then some x else some y

theorem pTransferOne_ent (T : PTask S) (src : PEntry S) (es : List (PEntry S)) (h : POneEach es) (d n : Nat) :
    POneEach (pTransferOne T src es) ∧
    pEnt (pTransferOne T src es) d n = if src.depth = d ∧ src.nodes = n ∧ pEnt es d n ≠ none then pMoved T (some src) (pEnt es d n)
      else pEnt es d n := by
  induction es with
  | nil => exact ⟨List.Pairwise.nil, by simp [pTransferOne, pEnt]⟩
  | cons e es ih =>
    have h' := h
    unfold POneEach at h'
    rw [List.pairwise_cons] at h'
    obtain ⟨i1, i2⟩ := ih h'.2
    rw [pTransferOne]
    by_cases hb : src.depth = e.depth ∧ src.nodes = e.nodes
    · by_cases hc : (src.isOpt = true ∧ e.isOpt = false) ∨ T.strictlyBelow src.lb e.lb = true
      · rw [if_pos ⟨hb.1, hb.2, hc⟩]
        constructor
        · unfold POneEach
          rw [List.pairwise_cons, hb.1, hb.2]
          exact h'
        · rw [pEnt_cons, pEnt_cons]
          by_cases hq : e.depth = d ∧ e.nodes = n
          · have : src.depth = d ∧ src.nodes = n := ⟨hb.1.trans hq.1, hb.2.trans hq.2⟩
            rw [if_pos this, if_pos hq, if_pos ⟨this.1, this.2, by simp⟩]
            exact (if_pos hc).symm
          · have : ¬ (src.depth = d ∧ src.nodes = n) := fun q => hq ⟨hb.1.symm.trans q.1, hb.2.symm.trans q.2⟩
            rw [if_neg this, if_neg hq, if_neg (fun q => this ⟨q.1, q.2.1⟩)]
      · rw [if_neg (fun q => hc q.2.2)]
        -- the other entries have other budgets
        have hrest : ∀ x ∈ es, ¬ (src.depth = x.depth ∧ src.nodes = x.nodes) := by
          intro x hx q
          exact h'.1 x hx ⟨hb.1.symm.trans q.1, hb.2.symm.trans q.2⟩
        have hsame : pTransferOne T src es = es := by
          clear i1 i2 ih h' h
          induction es with
          | nil => rfl
          | cons x es ih =>
            rw [pTransferOne, if_neg (fun q => hrest x (List.mem_cons_self ..) ⟨q.1, q.2.1⟩),
              ih fun y hy => hrest y (List.mem_cons_of_mem _ hy)]
        rw [hsame]
        refine ⟨h, ?_⟩
        rw [pEnt_cons]
        by_cases hq : e.depth = d ∧ e.nodes = n
        · rw [if_pos hq, if_pos ⟨hb.1.trans hq.1, hb.2.trans hq.2, by simp⟩]
          exact (if_neg hc).symm
        · have : ¬ (src.depth = d ∧ src.nodes = n) := fun q => hq ⟨hb.1.symm.trans q.1, hb.2.symm.trans q.2⟩
          rw [if_neg hq, if_neg (fun q => this ⟨q.1, q.2.1⟩)]
    · rw [if_neg (fun q => hb ⟨q.1, q.2.1⟩)]
      constructor
      · unfold POneEach
        rw [List.pairwise_cons]
        refine ⟨?_, i1⟩
        intro x hx
        rcases pTransferOne_mem T src es x hx with rfl | hx
        · exact fun q => hb ⟨q.1.symm, q.2.symm⟩
        · exact h'.1 x hx
      · rw [pEnt_cons, pEnt_cons, i2]
        by_cases hq : e.depth = d ∧ e.nodes = n
        · have : ¬ (src.depth = d ∧ src.nodes = n) := fun q => hb ⟨q.1.trans hq.1.symm, q.2.trans hq.2.symm⟩
          simp only [if_pos hq]
          rw [if_neg (fun q => this ⟨q.1, q.2.1⟩)]
        · simp only [if_neg hq]

theorem pEnt_budget {es : List (PEntry S)} {d n : Nat} {e : PEntry S} (h : pEnt es d n = some e) : e.depth = d ∧ e.nodes = n := by
  have := List.find?_some h
  simpa using this

theorem pTransfer_ent (T : PTask S) (src dst : List (PEntry S)) (hs : POneEach src) (hd : POneEach dst) (d n : Nat) :
    POneEach (pTransfer T src dst) ∧ pEnt (pTransfer T src dst) d n = pMoved T (pEnt src d n) (pEnt dst d n) := by
  unfold pTransfer
  induction src generalizing dst with
  | nil => exact ⟨hd, rfl⟩
  | cons x src ih =>
    have hs' := hs
    unfold POneEach at hs'
    rw [List.pairwise_cons] at hs'
    rw [List.foldl_cons]
    have key : ∀ dst' : List (PEntry S), POneEach dst' →
        pEnt dst' d n = (if x.depth = d ∧ x.nodes = n then pMoved T (some x) (pEnt dst d n) else pEnt dst d n) →
        POneEach (List.foldl (fun dst e => if (dst.any fun x => e.depth == x.depth && e.nodes == x.nodes) = true then
            pTransferOne T e dst else dst ++ [e]) dst' src) ∧
          pEnt (List.foldl (fun dst e => if (dst.any fun x => e.depth == x.depth && e.nodes == x.nodes) = true then
            pTransferOne T e dst else dst ++ [e]) dst' src) d n = pMoved T (pEnt (x :: src) d n) (pEnt dst d n) := by
      intro dst' h1 h2
      obtain ⟨i1, i2⟩ := ih dst' hs'.2 h1
      refine ⟨i1, ?_⟩
      rw [i2, h2, pEnt_cons]
      by_cases hq : x.depth = d ∧ x.nodes = n
      · rw [if_pos hq, if_pos hq]
        have : pEnt src d n = none := by
          rw [pEnt_none, List.any_eq_false]
          intro y hy
          have := hs'.1 y hy
          rw [hq.1, hq.2] at this
          simp only [Bool.and_eq_true, beq_iff_eq]
          exact fun q => this ⟨q.1.symm, q.2.symm⟩
        rw [this]
        cases pMoved T (some x) (pEnt dst d n) <;> rfl
      · rw [if_neg hq, if_neg hq]
    by_cases ha : (dst.any fun y => x.depth == y.depth && x.nodes == y.nodes) = true
    · rw [if_pos ha]
      have h1 := pTransferOne_ent T x dst hd d n
      refine key _ h1.1 ?_
      rw [h1.2]
      by_cases hq : x.depth = d ∧ x.nodes = n
      · have : pEnt dst d n ≠ none := by
          rw [Ne, pEnt_none, ← hq.1, ← hq.2, Bool.not_eq_false, ← ha]
          congr 1
          funext y
          rw [Bool.beq_comm (a := y.depth), Bool.beq_comm (a := y.nodes)]
        rw [if_pos ⟨hq.1, hq.2, this⟩, if_pos hq]
      · rw [if_neg (fun q => hq ⟨q.1, q.2.1⟩), if_neg hq]
    · rw [if_neg ha]
      have hnone : pEnt dst x.depth x.nodes = none := by
        rw [pEnt_none, ← Bool.not_eq_true]
        refine fun q => ha (q ▸ ?_)
        congr 1
        funext y
        rw [Bool.beq_comm (a := y.depth), Bool.beq_comm (a := y.nodes)]
      refine key _ (hd.append hnone) ?_
      rw [pEnt_append]
      by_cases hq : x.depth = d ∧ x.nodes = n
      · rw [if_pos hq, if_pos hq]
        rw [← hq.1, ← hq.2, hnone]
        rfl
      · rw [if_neg hq, if_neg hq, Option.or_none]

theorem pStore_one {old : Option (List (PEntry S))} (h : ∀ es, old = some es → POneEach es) (F : Front S) (d n : Nat) :
    POneEach (pStore old F d n) := by
  by_cases hdn : d ≤ n
  · exact (pStore_ans h F hdn).1
  · unfold pStore
    cases old with
    | none => rw [if_neg hdn]; exact List.Pairwise.nil
    | some es =>
      dsimp only
      split
      · refine (h es rfl).map _ ?_
        intro e
        split
        · next q => exact ⟨q.1.symm, q.2.1.symm⟩
        · exact ⟨rfl, rfl⟩
      · exact h es rfl

/-- In every history each path has one entry per budget. -/
theorem brOne (c : PCfg S) (ops : List (POp S)) (b : Branch) (es : List (PEntry S))
    (h : (runPOps c ops).br.get b = some es) : POneEach es := by
  induction ops using List.reverseRecOn generalizing b es with
  | nil => simp [runPOps, PCache.init, PStore.get] at h
  | append_singleton ops o ih =>
    rw [runPOps_append] at h
    cases o with
    | store D b' F d n =>
      change ((PCache.storeOpt c (runPOps c ops) D b' F d n).br).get b = some es at h
      unfold PCache.storeOpt at h
      dsimp only at h
      split at h
      · rw [pget_put] at h
        split at h
        · cases h; exact pStore_one (ih b') _ _ _
        · exact ih b es h
      · exact ih b es h
    | lower D b' v d n =>
      change ((PCache.updateLB c (runPOps c ops) D b' v d n).br).get b = some es at h
      unfold PCache.updateLB at h
      split at h
      · dsimp only at h
        split at h
        · rw [pget_put] at h
          split at h
          · cases h
            refine (pUpdateFirst_ans c.T true v d n ?_).1
            cases hm : (runPOps c ops).br.get b' with
            | none => exact List.Pairwise.nil
            | some es => exact ih b' es hm
          · exact ih b es h
        · exact ih b es h
      · exact ih b es h
    | transfer a b' =>
      change ((PCache.transfer c (runPOps c ops) a b').br).get b = some es at h
      unfold PCache.transfer at h
      split at h
      · split at h
        · exact ih b es h
        · next ha _ =>
          rw [pget_put] at h
          split at h
          · cases h; exact ih a _ ha
          · exact ih b es h
        · next es1 es2 ha hb =>
          split at h
          · rw [pget_put] at h
            split at h
            · cases h; exact (pTransfer_ent c.T es1 es2 (ih a es1 ha) (ih b' es2 hb) 0 0).1
            · exact ih b es h
          · exact ih b es h
      · exact ih b es h

theorem retrieveOpt_br (c : PCfg S) (hbr : c.useBr = true) (hds : c.useDs = false) (ops : List (POp S)) (D : Data) (b : Branch)
    (d n : Nat) : (runPOps c ops).retrieveOpt c D b d n = pAns (pEnt (((runPOps c ops).br.get b).getD []) d n) := by
  have hone : POneEach (((runPOps c ops).br.get b).getD []) := by
    cases hm : (runPOps c ops).br.get b with
    | none => exact List.Pairwise.nil
    | some es => exact brOne c ops b es hm
  unfold PCache.retrieveOpt
  rw [hbr, hds]
  simp only [Bool.false_eq_true, if_false, if_true]
  rw [pRetrieve_eq hone]
  split
  · next hn =>
    cases he : pEnt (((runPOps c ops).br.get b).getD []) d n with
    | none => rfl
    | some e => rw [he] at hn; exact (isNil_empty hn).symm
  · rfl

/-- C62 for transfers: an answer of the source is known at the destination afterwards. The destination hands out the source's
front if it had none, and one of the two if it had one. -/
theorem transfer_front_answer (c : PCfg S) (hlb : c.useLB = true) (hbr : c.useBr = true) (hds : c.useDs = false)
    (ops : List (POp S)) (D : Data) (a b : Branch) (hab : a.length = b.length) (d n : Nat)
    (hne : ((runPOps c ops).retrieveOpt c D a d n).sols ≠ []) :
    (((runPOps c ops).retrieveOpt c D b d n).sols = [] →
      (runPOps c (ops ++ [.transfer a b])).retrieveOpt c D b d n = (runPOps c ops).retrieveOpt c D a d n) ∧
    ((runPOps c (ops ++ [.transfer a b])).retrieveOpt c D b d n = (runPOps c ops).retrieveOpt c D a d n ∨
      (runPOps c (ops ++ [.transfer a b])).retrieveOpt c D b d n = (runPOps c ops).retrieveOpt c D b d n) := by
  have h1 := brOne c ops
  have hstep : (runPOps c (ops ++ [.transfer a b])).br = ((runPOps c ops).transfer c a b).br := by rw [runPOps_append]; rfl
  rw [retrieveOpt_br c hbr hds, retrieveOpt_br c hbr hds, retrieveOpt_br c hbr hds, hstep] at *
  unfold PCache.transfer
  by_cases hsame : a = b
  · subst hsame
    simp only [bne_self_eq_false, Bool.and_false, Bool.false_eq_true, if_false]
    exact ⟨fun _ => trivial, .inl trivial⟩
  · rw [if_pos (by simp [hlb, hbr, hsame])]
    cases ha : (runPOps c ops).br.get a with
    | none => rw [ha] at hne; exact absurd rfl hne
    | some es =>
      rw [ha] at hne
      cases hb : (runPOps c ops).br.get b with
      | none =>
        dsimp only
        rw [pget_put, if_pos rfl]
        exact ⟨fun _ => rfl, .inl rfl⟩
      | some es' =>
        dsimp only
        rw [if_pos hab]
        dsimp only
        rw [pget_put, if_pos rfl]
        simp only [Option.getD_some] at hne ⊢
        rw [(pTransfer_ent c.T es es' (h1 a es ha) (h1 b es' hb) d n).2]
        cases hx : pEnt es d n with
        | none => rw [hx] at hne; exact absurd rfl hne
        | some x =>
          rw [hx] at hne
          have hxo : x.isOpt = true := by
            unfold PEntry.isOpt Front.isNil
            cases hq : x.opt.sols with
            | nil => exact absurd hq hne
            | cons _ _ => rfl
          cases hy : pEnt es' d n with
          | none => exact ⟨fun _ => rfl, .inl rfl⟩
          | some y =>
            unfold pMoved
            dsimp only
            constructor
            · intro hempty
              have hyo : y.isOpt = false := by
                unfold PEntry.isOpt Front.isNil
                rw [show y.opt.sols = [] from hempty]; rfl
              rw [if_pos (.inl ⟨hxo, hyo⟩)]
            · split
              · exact .inl rfl
              · exact .inr rfl

/-! ### Bounds handed out -/

/-- A point was recorded as a bound, or stored as a solution, for the path or data and a budget at least as large. -/
def PRecorded (ops : List (POp S)) (key : Data → Branch → Prop) (d n : Nat) (u : PNode S) : Prop :=
  ∃ D b F d' n', (POp.lower D b F d' n' ∈ ops ∨ POp.store D b F d' n' ∈ ops) ∧ key D b ∧ u ∈ F.sols ∧ d ≤ d' ∧ n ≤ n'

/-- The points of an entry's bound were recorded with its budget. -/
def PBoundOf (T : PTask S) (ops : List (POp S)) (key : Data → Branch → Prop) (e : PEntry S) : Prop :=
  ∀ u ∈ e.lb.sols, u = ⟨T.best, 0⟩ ∨ PRecorded ops key e.depth e.nodes u

theorem PRecorded.mono {ops ops' : List (POp S)} (h : ∀ o ∈ ops, o ∈ ops') {key key' : Data → Branch → Prop}
    (hk : ∀ D b, key D b → key' D b) {d n d' n' : Nat} (hd : d' ≤ d) (hn : n' ≤ n) {u : PNode S} (hu : PRecorded ops key d n u) :
    PRecorded ops' key' d' n' u := by
  obtain ⟨D, b, F, x, y, h1, h2, h3, h4, h5⟩ := hu
  exact ⟨D, b, F, x, y, h1.imp (h _) (h _), hk _ _ h2, h3, Nat.le_trans hd h4, Nat.le_trans hn h5⟩

theorem PBoundOf.mono {T : PTask S} {ops ops' : List (POp S)} (h : ∀ o ∈ ops, o ∈ ops') {key key' : Data → Branch → Prop}
    (hk : ∀ D b, key D b → key' D b) {e : PEntry S} (he : PBoundOf T ops key e) : PBoundOf T ops' key' e :=
  fun u hu => (he u hu).imp id fun q => q.mono h hk (Nat.le_refl _) (Nat.le_refl _)

theorem lb0_mem (T : PTask S) {u : PNode S} (h : u ∈ T.lb0.sols) : u = ⟨T.best, 0⟩ := by
  unfold PTask.lb0 PTask.put Front.add Front.empty at h
  simpa using h

theorem pRetrieveLB_mem (T : PTask S) (es : List (PEntry S)) (d n : Nat) (u : PNode S) (h : u ∈ (pRetrieveLB T es d n).sols) :
    u = ⟨T.best, 0⟩ ∨ ∃ e ∈ es, d ≤ e.depth ∧ n ≤ e.nodes ∧ u ∈ e.lb.sols := by
  have gen : ∀ (es : List (PEntry S)) (F : Front S), u ∈ (es.foldl (fun best e =>
      if n ≤ e.nodes ∧ d ≤ e.depth ∧ e.lb.isNil = false then
        (if best.isNil then e.lb.removeTemp else T.putInv best e.lb.sols)
      else best) F).sols → u ∈ F.sols ∨ ∃ e ∈ es, d ≤ e.depth ∧ n ≤ e.nodes ∧ u ∈ e.lb.sols := by
    intro es
    induction es with
    | nil => exact fun F h => .inl h
    | cons e es ih =>
      intro F h
      rw [List.foldl_cons] at h
      rcases ih _ h with h | ⟨x, hx, q⟩
      · split at h
        · next hq =>
          have hin : u ∈ e.lb.sols → ∃ x ∈ e :: es, d ≤ x.depth ∧ n ≤ x.nodes ∧ u ∈ x.lb.sols :=
            fun q => ⟨e, List.mem_cons_self .., hq.2.1, hq.1, q⟩
          split at h
          · exact .inr (hin h)
          · exact (mem_front_addAll h).imp id hin
        · exact .inl h
      · exact .inr ⟨x, List.mem_cons_of_mem _ hx, q⟩
  exact (gen es T.lb0 h).imp (lb0_mem T) id

theorem pUpdateFirst_bound {T : PTask S} {ops : List (POp S)} {key : Data → Branch → Prop} (guard : Bool) {v : Front S} {d n : Nat}
    (hv : ∀ u ∈ v.sols, PRecorded ops key d n u) {es : List (PEntry S)} (h : ∀ e ∈ es, PBoundOf T ops key e) :
    ∀ e ∈ pUpdateFirst T guard v d n es, PBoundOf T ops key e := by
  have upd : ∀ e : PEntry S, e.depth = d → e.nodes = n → PBoundOf T ops key e → PBoundOf T ops key (e.updLB T v) := by
    intro e h1 h2 he u hu
    rcases mem_front_addAll hu with hu | hu
    · exact he u hu
    · right
      show PRecorded ops key e.depth e.nodes u
      rw [h1, h2]
      exact hv u hu
  induction es with
  | nil =>
    intro e he
    rw [pUpdateFirst, List.mem_singleton] at he
    rw [he]
    exact upd _ rfl rfl fun u hu => .inl (lb0_mem T hu)
  | cons x es ih =>
    intro e he
    have hx := h x (List.mem_cons_self ..)
    rw [pUpdateFirst] at he
    split at he
    · next hq =>
      rcases List.mem_cons.1 he with rfl | he
      · split
        · exact hx
        · exact upd x hq.1 hq.2 hx
      · exact h e (List.mem_cons_of_mem _ he)
    · rcases List.mem_cons.1 he with rfl | he
      · exact hx
      · exact ih (fun y hy => h y (List.mem_cons_of_mem _ hy)) e he

theorem dsBound (c : PCfg S) (ops : List (POp S)) (k : List Nat) :
    ∀ e ∈ ((runPOps c ops).ds.get k).getD [], PBoundOf c.T ops (fun D _ => dataKey D = k) e := by
  induction ops using List.reverseRecOn generalizing k with
  | nil => intro e he; simp [runPOps, PCache.init, PStore.get] at he
  | append_singleton ops o ih =>
    have hm : ∀ k, ∀ e ∈ ((runPOps c ops).ds.get k).getD [], PBoundOf c.T (ops ++ [o]) (fun D _ => dataKey D = k) e :=
      fun k e he => (ih k e he).mono (fun x hx => List.mem_append.2 (.inl hx)) fun _ _ q => q
    have hlast : o ∈ ops ++ [o] := by simp
    intro e he
    rw [runPOps_append] at he
    cases o with
    | store D b F d n =>
      change e ∈ (((runPOps c ops).storeOpt c D b F d n).ds.get k).getD [] at he
      unfold PCache.storeOpt at he
      dsimp only at he
      split at he
      · rw [pget_put] at he
        split at he
        · next hk =>
          rcases pStore_mem _ _ _ _ e he with rfl | h
          · exact fun u hu => .inr ⟨D, b, F, d, n, .inr hlast, hk, hu, Nat.le_refl _, Nat.le_refl _⟩
          · exact hm k e (hk ▸ h)
        · exact hm k e he
      · exact hm k e he
    | lower D b v d n =>
      change e ∈ (((runPOps c ops).updateLB c D b v d n).ds.get k).getD [] at he
      unfold PCache.updateLB at he
      split at he
      · dsimp only at he
        split at he
        · rw [pget_put] at he
          split at he
          · next hk =>
            subst hk
            exact pUpdateFirst_bound false (fun u hu => ⟨D, b, v, d, n, .inl hlast, rfl, hu, Nat.le_refl _, Nat.le_refl _⟩)
              (hm (dataKey D)) e he
          · exact hm k e he
        · exact hm k e he
      · exact hm k e he
    | transfer a b =>
      have : (POp.apply c (runPOps c ops) (.transfer a b)).ds = (runPOps c ops).ds := by
        show (PCache.transfer c (runPOps c ops) a b).ds = _
        unfold PCache.transfer
        split
        · split
          · rfl
          · rfl
          · split <;> rfl
        · rfl
      rw [this] at he
      exact hm k e he

theorem brBound (c : PCfg S) (ops : List (POp S)) (b : Branch) :
    ∀ e ∈ ((runPOps c ops).br.get b).getD [], PBoundOf c.T ops (fun _ b' => PLinked ops b' b) e := by
  induction ops using List.reverseRecOn generalizing b with
  | nil => intro e he; simp [runPOps, PCache.init, PStore.get] at he
  | append_singleton ops o ih =>
    have hsub : ∀ x ∈ ops, x ∈ ops ++ [o] := fun x hx => List.mem_append.2 (.inl hx)
    have hm : ∀ b, ∀ e ∈ ((runPOps c ops).br.get b).getD [], PBoundOf c.T (ops ++ [o]) (fun _ b' => PLinked (ops ++ [o]) b' b) e :=
      fun b e he => (ih b e he).mono hsub fun _ _ q => q.mono hsub
    have hlast : o ∈ ops ++ [o] := by simp
    intro e he
    rw [runPOps_append] at he
    cases o with
    | store D b' F d n =>
      change e ∈ (((runPOps c ops).storeOpt c D b' F d n).br.get b).getD [] at he
      unfold PCache.storeOpt at he
      dsimp only at he
      split at he
      · rw [pget_put] at he
        split at he
        · next hk =>
          subst hk
          rcases pStore_mem _ _ _ _ e he with rfl | h
          · exact fun u hu => .inr ⟨D, b', F, d, n, .inr hlast, .refl _, hu, Nat.le_refl _, Nat.le_refl _⟩
          · exact hm b' e h
        · exact hm b e he
      · exact hm b e he
    | lower D b' v d n =>
      change e ∈ (((runPOps c ops).updateLB c D b' v d n).br.get b).getD [] at he
      unfold PCache.updateLB at he
      split at he
      · dsimp only at he
        split at he
        · rw [pget_put] at he
          split at he
          · next hk =>
            subst hk
            exact pUpdateFirst_bound true (fun u hu => ⟨D, b', v, d, n, .inl hlast, .refl _, hu, Nat.le_refl _, Nat.le_refl _⟩)
              (hm b') e he
          · exact hm b e he
        · exact hm b e he
      · exact hm b e he
    | transfer a b' =>
      have link : ∀ e ∈ ((runPOps c ops).br.get a).getD [],
          PBoundOf c.T (ops ++ [POp.transfer a b']) (fun _ x => PLinked (ops ++ [POp.transfer a b']) x b') e := fun e he =>
        (hm a e he).mono (fun _ q => q) fun _ _ q => .step q hlast
      change e ∈ ((PCache.transfer c (runPOps c ops) a b').br.get b).getD [] at he
      unfold PCache.transfer at he
      split at he
      · split at he
        · exact hm b e he
        · next es _ ha _ =>
          rw [pget_put] at he
          split at he
          · next hq =>
            subst hq
            exact link e (by rw [ha]; exact he)
          · exact hm b e he
        · next es es' ha hb =>
          split at he
          · rw [pget_put] at he
            split at he
            · next hq =>
              subst hq
              rcases pTransfer_mem c.T es es' e he with h | h
              · exact link e (by rw [ha]; exact h)
              · exact hm b' e (by rw [hb]; exact h)
            · exact hm b e he
          · exact hm b e he
      · exact hm b e he

/-- C62 for bounds: every point of the bound handed out is the best value of the task, or was recorded for equal data, or for the
path or one linked to it by transfers, with a budget at least as large as the one asked for. -/
theorem front_bound_recorded (c : PCfg S) (ops : List (POp S)) (D : Data) (b : Branch) (d n : Nat) (u : PNode S)
    (hu : u ∈ ((runPOps c ops).retrieveLB c D b d n).sols) :
    u = ⟨c.T.best, 0⟩ ∨
    PRecorded ops (fun D' b' => (c.useDs = true ∧ dataKey D' = dataKey D) ∨ (c.useBr = true ∧ PLinked ops b' b)) d n u := by
  have ds : c.useDs = true → u ∈ (pRetrieveLB c.T (((runPOps c ops).ds.get (dataKey D)).getD []) d n).sols →
      u = ⟨c.T.best, 0⟩ ∨
      PRecorded ops (fun D' b' => (c.useDs = true ∧ dataKey D' = dataKey D) ∨ (c.useBr = true ∧ PLinked ops b' b)) d n u := by
    intro hds h
    rcases pRetrieveLB_mem _ _ _ _ _ h with h | ⟨e, he, h1, h2, h3⟩
    · exact .inl h
    · exact (dsBound c ops _ e he u h3).imp id fun q => q.mono (fun _ q => q) (fun _ _ q => .inl ⟨hds, q⟩) h1 h2
  unfold PCache.retrieveLB at hu
  split at hu
  · split at hu
    · next hbr =>
      have br : ∀ es, (runPOps c ops).br.get b = some es → u ∈ (pRetrieveLB c.T es d n).sols → u = ⟨c.T.best, 0⟩ ∨
          PRecorded ops (fun D' b' => (c.useDs = true ∧ dataKey D' = dataKey D) ∨ (c.useBr = true ∧ PLinked ops b' b)) d n u := by
        intro es hes h
        rcases pRetrieveLB_mem _ _ _ _ _ h with h | ⟨e, he, h1, h2, h3⟩
        · exact .inl h
        · exact (brBound c ops b e (by rw [hes]; exact he) u h3).imp id
            fun q => q.mono (fun _ q => q) (fun _ _ q => .inr ⟨hbr, q⟩) h1 h2
      dsimp only at hu
      cases hes : (runPOps c ops).br.get b with
      | none =>
        rw [hes] at hu
        dsimp only at hu
        split at hu
        · exact .inl (lb0_mem _ hu)
        · split at hu
          · next hds => exact ds hds hu
          · exact .inl (lb0_mem _ hu)
      | some es =>
        rw [hes] at hu
        dsimp only at hu
        split at hu
        · exact br es hes hu
        · split at hu
          · next hds => exact ds hds hu
          · exact .inl (lb0_mem _ hu)
    · split at hu
      · next hds => exact ds hds hu
      · exact .inl (lb0_mem _ hu)
  · exact .inl (lb0_mem _ hu)

end

/-! ### Concrete cases -/

/-- A setting with the given caches and bounds on. -/
def frontCacheCfg (br ds : Bool) : PCfg F1Sol := f1Cfg 2 ⟨1, true, true, true, true, true, br, ds, fun _ => [0, 1]⟩ (rowsOf [(0, 0), (1, 1)])

/-- Two fronts. -/
def frontA : Front F1Sol := ⟨[⟨⟨3, 0⟩, 0⟩, ⟨⟨0, 2⟩, 1⟩], []⟩
/-- A second front. -/
def frontB : Front F1Sol := ⟨[⟨⟨1, 1⟩, 1⟩], []⟩

example : ((runPOps (frontCacheCfg false true) [.lower [] [0] frontB 1 1, .store [] [0] frontA 1 1, .store [] [2] frontB 1 1,
    .store [] [0] frontB 1 2]).retrieveOpt (frontCacheCfg false true) [] [4] 1 1).sols.map (·.sol) = [⟨3, 0⟩, ⟨0, 2⟩] := by decide

example : ((runPOps (frontCacheCfg true false) [.lower [] [0] frontB 1 1, .store [] [0] frontA 1 1, .store [] [2] frontB 1 1,
    .store [] [0] frontB 1 2]).retrieveOpt (frontCacheCfg true false) [] [0] 1 2).sols.map (·.sol) = [⟨1, 1⟩] := by decide

/-- After a transfer the front of the other path is handed out. -/
example : ((runPOps (frontCacheCfg true false) [.store [] [0] frontA 1 1, .transfer [0] [2]]).retrieveOpt
    (frontCacheCfg true false) [] [2] 1 1).sols.map (·.sol) = [⟨3, 0⟩, ⟨0, 2⟩] := by decide

/-- The bound for one node uses the bound recorded for two, not the other way round. -/
example : ((runPOps (frontCacheCfg false true) [.lower [] [0] frontB 1 2]).retrieveLB (frontCacheCfg false true) [] [] 1 1).sols.map (·.sol) =
    [⟨1, 1⟩] ∧ ((runPOps (frontCacheCfg false true) [.lower [] [0] frontB 1 1]).retrieveLB (frontCacheCfg false true) [] [] 1 2).sols.map
      (·.sol) = [⟨0, 0⟩] := by decide

/-- The full claim of C62 for the branch cache. -/
def BranchFrontsKept : Prop := ∀ (ops : List (POp F1Sol)) (D : Data) (b : Branch) (d n : Nat), (∀ o ∈ ops, o.Fits) →
  (firstFront (samePath b) d n ops).sols ≠ [] →
  (runPOps (frontCacheCfg true false) ops).retrieveOpt (frontCacheCfg true false) D b d n = firstFront (samePath b) d n ops

/-- A transfer replaces a stored front by an entry that has only a bound. -/
theorem front_transfer_drops : ¬ BranchFrontsKept := by
  intro h
  have := h [.store [] [0] frontA 1 1, .lower [] [2] ⟨[⟨⟨0, 0⟩, 0⟩], []⟩ 1 1, .transfer [2] [0]] [] [0] 1 1
    (by intro o ho; simp only [List.mem_cons, List.not_mem_nil, or_false] at ho; rcases ho with rfl | rfl | rfl <;> simp [POp.Fits])
    (by decide)
  have := congrArg (fun F => F.sols.length) this
  revert this
  decide

end Streed
