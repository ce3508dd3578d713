import Verif.Lemmas.Pareto
import Verif.Lemmas.Sound

/-! The search for partially ordered tasks is sound for all options: every node of a result stands for a tree within the
budget that satisfies the constraint. -/

namespace Streed

variable {S : Type}

/-- What soundness needs. -/
structure PSound (c : PCfg S) (T : Data) : Prop where
  feats : ∀ D f, f ∈ c.order D → f < c.T.nF
  sorted : IdSorted T
  inRange : ∀ i ∈ T, i.label < c.T.nL
  free : c.T.constrained = false → ∀ s, c.T.ok s = true

/-- Every node of the front stands for a tree. -/
def FReal (c : PCfg S) (D : Data) (d n : Nat) (F : Front S) : Prop := ∀ m ∈ F.sols, PReal c D d n m

theorem FReal.mono {c : PCfg S} {D : Data} {d n d' n' : Nat} {F : Front S} (h : FReal c D d n F) (hd : d ≤ d')
    (hn : n ≤ n') : FReal c D d' n' F := fun m hm => (h m hm).mono hd hn

theorem FReal.empty (c : PCfg S) (D : Data) (d n : Nat) : FReal c D d n Front.empty := by
  intro m hm; simp [Front.empty] at hm

/-! ### Containers -/

theorem mem_front_add {cmp key : S → S → Bool} {check : Bool} {F : Front S} {n m : PNode S}
    (h : m ∈ (F.add cmp key check n).sols) : m ∈ F.sols ∨ m = n := by
  unfold Front.add at h
  split at h
  · right; simpa using h
  · split at h
    · exact .inl h
    · split at h
      · exact .inl h
      · rcases List.mem_append.1 h with h | h
        · exact .inl (List.mem_filter.1 h).1
        · right; simpa using h

theorem mem_front_addAll {cmp key : S → S → Bool} {check : Bool} {ns : List (PNode S)} {F : Front S} {m : PNode S}
    (h : m ∈ (F.addAll cmp key check ns).sols) : m ∈ F.sols ∨ m ∈ ns := by
  induction ns generalizing F with
  | nil => exact .inl h
  | cons n ns ih =>
    rw [Front.addAll] at h
    rcases ih h with h | h
    · rcases mem_front_add h with h | h
      · exact .inl h
      · exact .inr (by simp [h])
    · exact .inr (by simp [h])

theorem FReal.put {c : PCfg S} {D : Data} {d n : Nat} {F : Front S} (h : FReal c D d n F) {m : PNode S}
    (hm : PReal c D d n m) : FReal c D d n (c.T.put F m) := by
  intro x hx
  rcases mem_front_add hx with hx | hx
  · exact h x hx
  · rw [hx]; exact hm

theorem FReal.putAt {c : PCfg S} {D : Data} {d n : Nat} {F : Front S} (h : FReal c D d n F) {m : PNode S}
    (hm : PReal c D d n m) (k : Nat) : FReal c D d n (c.T.putAt k F m) := by
  intro x hx
  unfold PTask.putAt at hx
  split at hx
  · rcases mem_front_add hx with hx | hx
    · exact h x hx
    · rw [hx]; exact hm
  · exact h.put hm x hx

theorem FReal.putAll {c : PCfg S} {D : Data} {d n : Nat} {F : Front S} (h : FReal c D d n F) {ms : List (PNode S)}
    (hm : ∀ m ∈ ms, PReal c D d n m) : FReal c D d n (c.T.putAll F ms) := by
  intro x hx
  rcases mem_front_addAll hx with hx | hx
  · exact h x hx
  · exact hm x hx

theorem FReal.putAllAt {c : PCfg S} {D : Data} {d n : Nat} {F : Front S} (h : FReal c D d n F) {ms : List (PNode S)}
    (hm : ∀ m ∈ ms, PReal c D d n m) (k : Nat) : FReal c D d n (c.T.putAllAt k F ms) := by
  induction ms generalizing F with
  | nil => exact h
  | cons m ms ih =>
    rw [PTask.putAllAt]
    exact ih (h.putAt (hm m (by simp)) k) fun x hx => hm x (by simp [hx])

theorem FReal.filterAdd {c : PCfg S} {D : Data} {d n : Nat} {F : Front S} (h : FReal c D d n F) {ms : List (PNode S)}
    (hm : ∀ m ∈ ms, PReal c D d n m) (k : Nat) (UB : Front S) : FReal c D d n (pFilterAdd c k ms F UB).1 := by
  induction ms generalizing F UB with
  | nil => exact h
  | cons m ms ih =>
    rw [pFilterAdd]
    split
    · exact ih h (fun x hx => hm x (by simp [hx])) _
    · exact ih (h.putAt (hm m (by simp)) k) (fun x hx => hm x (by simp [hx])) _

theorem solveLeaf_psound (c : PCfg S) (D : Data) (k d n : Nat) (UB : Front S) : FReal c D d n (pSolveLeaf c D k UB).1 := by
  unfold pSolveLeaf
  split
  · exact FReal.empty _ _ _ _
  · rename_i hsz
    apply (FReal.empty c D d n).filterAdd
    intro m hm
    obtain ⟨hm, ho⟩ := List.mem_filter.1 hm
    obtain ⟨k, hk, rfl⟩ := List.mem_map.1 hm
    exact ⟨.leaf k, ⟨Nat.zero_le _, Nat.zero_le _, List.mem_range.1 hk, by omega⟩, rfl, rfl, ho⟩

/-! ### The caches -/

/-- The front of an entry. -/
def PSEntry (c : PCfg S) (D : Data) (e : PEntry S) : Prop := FReal c D e.depth e.nodes e.opt

/-- All fronts of the caches. -/
structure PSCache (c : PCfg S) (T : Data) (C : PCache S) : Prop where
  br : ∀ b es, C.br.get b = some es → ∀ e ∈ es, PSEntry c (sel b T) e
  ds : ∀ D es, ViewOf T D → C.ds.get (dataKey D) = some es → ∀ e ∈ es, PSEntry c D e

section
variable {c : PCfg S} {T : Data}

theorem PSCache.init : PSCache c T (PCache.init : PCache S) :=
  ⟨by intro b es h; simp [PCache.init, PStore.get] at h, by intro b es _ h; simp [PCache.init, PStore.get] at h⟩

theorem PSCache.brD {C : PCache S} (h : PSCache c T C) (b : Branch) : ∀ e ∈ (C.br.get b).getD [], PSEntry c (sel b T) e := by
  intro e he
  cases hg : C.br.get b with
  | none => rw [hg] at he; simp at he
  | some es => rw [hg] at he; exact h.br b es hg e he

theorem PSCache.dsD {C : PCache S} (h : PSCache c T C) {D : Data} (hv : ViewOf T D) :
    ∀ e ∈ (C.ds.get (dataKey D)).getD [], PSEntry c D e := by
  intro e he
  cases hg : C.ds.get (dataKey D) with
  | none => rw [hg] at he; simp at he
  | some es => rw [hg] at he; exact h.ds D es hv hg e he

theorem pStore_psound {D : Data} {old : Option (List (PEntry S))} {F : Front S} {d n : Nat}
    (hold : ∀ es, old = some es → ∀ e ∈ es, PSEntry c D e) (hF : FReal c D d n F) :
    ∀ e ∈ pStore old F d n, PSEntry c D e := by
  intro e he
  unfold pStore at he
  cases old with
  | none =>
    simp only at he
    split at he
    · rw [List.mem_singleton.1 he]; exact hF
    · simp at he
  | some es =>
    simp only at he
    split at he
    · obtain ⟨e', he', rfl⟩ := List.mem_map.1 he
      split
      · exact hF
      · exact hold es rfl e' he'
    · split at he
      · rcases List.mem_append.1 he with he | he
        · exact hold es rfl e he
        · rw [List.mem_singleton.1 he]; exact hF
      · exact hold es rfl e he

theorem updateFirst_psound {D : Data} {guard : Bool} {v : Front S} {d n : Nat} {es : List (PEntry S)}
    (hes : ∀ e ∈ es, PSEntry c D e) : ∀ e ∈ pUpdateFirst c.T guard v d n es, PSEntry c D e := by
  induction es with
  | nil =>
    intro e he
    rw [pUpdateFirst, List.mem_singleton] at he
    rw [he]
    exact FReal.empty _ _ _ _
  | cons x es ih =>
    intro e he
    rw [pUpdateFirst] at he
    split at he
    · rcases List.mem_cons.1 he with he | he
      · rw [he]
        split
        · exact hes x (by simp)
        · exact hes x (by simp)
      · exact hes e (by simp [he])
    · rcases List.mem_cons.1 he with he | he
      · rw [he]; exact hes x (by simp)
      · exact ih (fun y hy => hes y (by simp [hy])) e he

theorem transferOne_psound {D : Data} {src : PEntry S} (hsrc : PSEntry c D src) {es : List (PEntry S)}
    (hes : ∀ e ∈ es, PSEntry c D e) : ∀ e ∈ pTransferOne c.T src es, PSEntry c D e := by
  induction es with
  | nil => intro e he; rw [pTransferOne] at he; simp at he
  | cons x es ih =>
    intro e he
    rw [pTransferOne] at he
    split at he
    · rcases List.mem_cons.1 he with he | he
      · rw [he]; exact hsrc
      · exact hes e (by simp [he])
    · rcases List.mem_cons.1 he with he | he
      · rw [he]; exact hes x (by simp)
      · exact ih (fun y hy => hes y (by simp [hy])) e he

theorem transfer_psound {D : Data} {src dst : List (PEntry S)} (hsrc : ∀ e ∈ src, PSEntry c D e)
    (hdst : ∀ e ∈ dst, PSEntry c D e) : ∀ e ∈ pTransfer c.T src dst, PSEntry c D e := by
  unfold pTransfer
  induction src generalizing dst with
  | nil => exact hdst
  | cons x src ih =>
    rw [List.foldl_cons]
    refine ih (fun y hy => hsrc y (by simp [hy])) ?_
    split
    · exact transferOne_psound (hsrc x (by simp)) hdst
    · intro e he
      rcases List.mem_append.1 he with he | he
      · exact hdst e he
      · rw [List.mem_singleton.1 he]; exact hsrc x (by simp)

variable (G : PSound c T)
include G

theorem diff_zero_p {D E : Data} (hD : ViewOf T D) (hE : ViewOf T E) (h : totalDifference c.T.nL D E = 0) : D = E := by
  have hl : ∀ i ∈ D ++ E, i.label < c.T.nL := by
    intro i hi
    rcases List.mem_append.1 hi with h | h
    · exact G.inRange i (hD.subset h)
    · exact G.inRange i (hE.subset h)
  have hc := (difference_counts c.T.nL D E).1
  have e1 : (computeDifference c.T.nL D E).1 = [] := List.length_eq_zero_iff.1 (by omega)
  have e2 : (computeDifference c.T.nL D E).2 = [] := List.length_eq_zero_iff.1 (by omega)
  have hp := difference_apply c.T.nL D E (hD.sorted G.sorted) (hE.sorted G.sorted) hl (hD.consistent hE G.sorted)
  rw [e1, e2, List.append_nil, List.append_nil] at hp
  exact sorted_ext (hD.sorted G.sorted) (hE.sorted G.sorted) fun i => hp.symm.mem_iff

/-- Overwriting the entries of one path and one data set. -/
theorem PSCache.putBoth {C : PCache S} (h : PSCache c T C) {D : Data} {b : Branch} (ha : D = sel b T) (x y : Bool)
    {es fs : List (PEntry S)} (h1 : ∀ e ∈ es, PSEntry c D e) (h2 : ∀ e ∈ fs, PSEntry c D e) :
    PSCache c T ⟨if x then C.br.put b es else C.br, if y then C.ds.put (dataKey D) fs else C.ds⟩ := by
  have hv : ViewOf T D := by rw [ha]; exact sel_view b T
  constructor
  · intro b' es' hes e he
    simp only at hes
    split at hes
    · rw [PStore.get_put] at hes
      split at hes
      · rename_i hb
        rw [hb, ← ha]
        rw [← Option.some.inj hes] at he
        exact h1 e he
      · exact h.br b' es' hes e he
    · exact h.br b' es' hes e he
  · intro D' es' hv' hes e he
    simp only at hes
    split at hes
    · rw [PStore.get_put] at hes
      split at hes
      · rename_i hb
        rw [dataKey_inj G.sorted hv' hv hb]
        rw [← Option.some.inj hes] at he
        exact h2 e he
      · exact h.ds D' es' hv' hes e he
    · exact h.ds D' es' hv' hes e he

theorem PSCache.storeOpt {C : PCache S} (h : PSCache c T C) {D : Data} {b : Branch} (ha : D = sel b T) {F : Front S}
    {d n : Nat} (hF : FReal c D d n F) : PSCache c T (C.storeOpt c D b F d n) := by
  have hv : ViewOf T D := by rw [ha]; exact sel_view b T
  unfold PCache.storeOpt
  exact h.putBoth G ha _ _ (pStore_psound (fun es he => by rw [ha]; exact h.br b es he) hF)
    (pStore_psound (fun es he => h.ds D es hv he) hF)

theorem PSCache.updateLB {C : PCache S} (h : PSCache c T C) {D : Data} {b : Branch} (ha : D = sel b T) (v : Front S)
    (d n : Nat) : PSCache c T (C.updateLB c D b v d n) := by
  have hv : ViewOf T D := by rw [ha]; exact sel_view b T
  unfold PCache.updateLB
  split
  · exact h.putBoth G ha _ _ (updateFirst_psound (by rw [ha]; exact h.brD b)) (updateFirst_psound (h.dsD hv))
  · exact h

omit G in
theorem PSCache.transfer {C : PCache S} (h : PSCache c T C) {b b' : Branch} (ha : sel b' T = sel b T) :
    PSCache c T (C.transfer c b' b) := by
  have put : ∀ es, (∀ e ∈ es, PSEntry c (sel b T) e) → PSCache c T { C with br := C.br.put b es } := by
    intro es hes
    refine ⟨?_, h.ds⟩
    intro x es' hx e he
    simp only at hx
    rw [PStore.get_put] at hx
    split at hx
    · rename_i hb
      rw [hb]
      rw [← Option.some.inj hx] at he
      exact hes e he
    · exact h.br x es' hx e he
  unfold PCache.transfer
  split
  · split
    · exact h
    · rename_i es he _
      exact put es (by rw [← ha]; exact h.br b' es he)
    · rename_i es es' he he'
      split
      · exact put _ (transfer_psound (by rw [← ha]; exact h.br b' es he) (h.br b es' he'))
      · exact h
  · exact h

omit G in
theorem pRetrieve_psound {D : Data} {es : List (PEntry S)} {d n : Nat} (hes : ∀ e ∈ es, PSEntry c D e) :
    FReal c D d n (pRetrieve es d n) := by
  unfold pRetrieve
  split
  · rename_i e he
    have h1 := List.find?_some he
    simp only [Bool.and_eq_true, beq_iff_eq] at h1
    obtain ⟨⟨h1, h2⟩, h3⟩ := h1
    subst h1 h2
    exact hes e (List.mem_of_find?_eq_some he)
  · exact FReal.empty _ _ _ _

omit G in
theorem PSCache.retrieveOpt {C : PCache S} (h : PSCache c T C) {D : Data} {b : Branch} (ha : D = sel b T) (d n : Nat) :
    FReal c D d n (C.retrieveOpt c D b d n) := by
  have hv : ViewOf T D := by rw [ha]; exact sel_view b T
  have r1 : FReal c D d n (if c.useBr then pRetrieve ((C.br.get b).getD []) d n else Front.empty) := by
    split
    · exact pRetrieve_psound (by rw [ha]; exact h.brD b)
    · exact FReal.empty _ _ _ _
  unfold PCache.retrieveOpt
  simp only
  generalize (if c.useBr then pRetrieve ((C.br.get b).getD []) d n else Front.empty) = F at *
  split
  · split
    · exact pRetrieve_psound (h.dsD hv)
    · exact FReal.empty _ _ _ _
  · exact r1

/-! ### The depth-two solver -/

theorem keep_ok {UB : Front S} {m : PNode S} (h : pKeep c UB m = true) : c.T.ok m.sol = true := by
  unfold pKeep at h
  cases hc : c.T.constrained with
  | false => exact G.free hc _
  | true =>
    rw [hc] at h
    simp only [Bool.not_true, Bool.false_or, Bool.and_eq_true] at h
    exact h.1

theorem leaves_psound (UB : Front S) (D : Data) (d n : Nat) : FReal c D d n (pLeaves c UB D) := by
  unfold pLeaves
  split
  · exact FReal.empty _ _ _ _
  · rename_i hsz
    apply (FReal.empty c D d n).putAll
    intro m hm
    obtain ⟨hm, ho⟩ := List.mem_filter.1 hm
    have ho := keep_ok G ho
    obtain ⟨k, hk, rfl⟩ := List.mem_map.1 hm
    exact ⟨.leaf k, ⟨Nat.zero_le _, Nat.zero_le _, List.mem_range.1 hk, by omega⟩, rfl, rfl, ho⟩

omit G in
theorem stumps_psound {D : Data} {f : Nat} (hf : f < c.T.nF) (hm : c.T.may f = true) {m : PNode S} (h : m ∈ pStumps c D f)
    (ho : c.T.ok m.sol = true) : PReal c D 1 1 m := by
  unfold pStumps at h
  split at h
  · simp at h
  · rename_i hsz
    obtain ⟨p, hp, rfl⟩ := List.mem_map.1 h
    obtain ⟨h1, h2, _⟩ := mem_labelPairs.1 hp
    exact ⟨.node f (.leaf p.1) (.leaf p.2), ⟨by simp [Tree.depth], by simp [Tree.nodes],
      hf, hm, ⟨h1, by omega⟩, ⟨h2, by omega⟩⟩, rfl, rfl, ho⟩

theorem oneLoop_psound {D : Data} (ms : List (PNode S)) (hms : ∀ m ∈ ms, c.T.ok m.sol = true → PReal c D 1 1 m) (F UB : Front S)
    (hF : FReal c D 1 1 F) : FReal c D 1 1 (pOneLoop c ms F UB).1 := by
  induction ms generalizing F UB with
  | nil => exact hF
  | cons m ms ih =>
    rw [pOneLoop]
    have hms' : ∀ x ∈ ms, c.T.ok x.sol = true → PReal c D 1 1 x := fun x hx => hms x (by simp [hx])
    split
    · rename_i hk
      exact ih hms' _ _ (hF.put (hms m (by simp) (keep_ok G hk)))
    · exact ih hms' _ _ hF

theorem one_psound (UB : Front S) (D : Data) : FReal c D 1 1 (pOne c UB D).1 := by
  unfold pOne
  refine oneLoop_psound G _ ?_ _ _ (leaves_psound G UB D 1 1)
  intro m hm ho
  unfold pAllStumps at hm
  obtain ⟨f, hf, hm⟩ := List.mem_flatMap.1 hm
  obtain ⟨hf, hy⟩ := List.mem_filter.1 hf
  exact stumps_psound (List.mem_range.1 hf) hy hm ho

/-- The children found so far. -/
def PChOK (c : PCfg S) (D : Data) (ch : PChildren S) : Prop :=
  ∀ f, FReal c (without f D) 1 1 (ch.at f).1 ∧ FReal c (having f D) 1 1 (ch.at f).2

omit G in
theorem PChOK.set {D : Data} {ch : PChildren S} (h : PChOK c D ch) {f : Nat} {x : Front S × Front S}
    (h1 : FReal c (without f D) 1 1 x.1) (h2 : FReal c (having f D) 1 1 x.2) : PChOK c D (Tbl.set ch f x) := by
  intro g
  unfold PChildren.at
  rw [Tbl.get_set]
  split
  · rename_i e; subst e; exact ⟨h1, h2⟩
  · exact h g

theorem pair_psound {UB : Front S} {D : Data} {f1 f2 : Nat} {ch : PChildren S} (h : PChOK c D ch)
    (hf1 : f1 < c.T.nF) (hm1 : c.T.may f1 = true) (hf2 : f2 < c.T.nF) (hm2 : c.T.may f2 = true) :
    PChOK c D (pPair c UB D f1 ch f2) := by
  have st : ∀ {E : Data} {f : Nat} {F : Front S}, f < c.T.nF → c.T.may f = true → FReal c E 1 1 F →
      FReal c E 1 1 (c.T.putAll F ((pStumps c E f).filter (pKeep c UB))) := by
    intro E f F hf hm hF
    apply hF.putAll
    intro m hmem
    obtain ⟨h1, h2⟩ := List.mem_filter.1 hmem
    exact stumps_psound hf hm h1 (keep_ok G h2)
  unfold pPair
  exact (h.set (st hf2 hm2 (h f1).1) (st hf2 hm2 (h f1).2)).set (st hf1 hm1 (h f2).1) (st hf1 hm1 (h f2).2)

theorem pairs_psound {UB : Front S} {D : Data} {f1 : Nat} (hf1 : f1 < c.T.nF) (hm1 : c.T.may f1 = true) (fs : List Nat)
    (hfs : ∀ f ∈ fs, f < c.T.nF ∧ c.T.may f = true) {ch : PChildren S} (h : PChOK c D ch) :
    PChOK c D (fs.foldl (pPair c UB D f1) ch) := by
  induction fs generalizing ch with
  | nil => exact h
  | cons f fs ih =>
    rw [List.foldl_cons]
    obtain ⟨h1, h2⟩ := hfs f (by simp)
    exact ih (fun x hx => hfs x (by simp [hx])) (pair_psound G h hf1 hm1 h1 h2)

theorem products_keep {UB : Front S} {D : Data} {d n nl nr f : Nat} {l r : Front S} (hf : f < c.T.nF) (hy : c.T.may f = true)
    (hd : 1 ≤ d) (hn : nl + nr + 1 ≤ n) (hl : FReal c (without f D) (d - 1) nl l) (hr : FReal c (having f D) (d - 1) nr r) :
    ∀ m ∈ (pProducts c.T f l r).filter (pKeep c UB), PReal c D d n m := by
  intro m hm
  obtain ⟨h1, h2⟩ := List.mem_filter.1 hm
  exact products_real hf hy hd hn hl hr m (List.mem_filter.2 ⟨h1, keep_ok G h2⟩)

theorem pairLoop_psound (UB : Front S) (D : Data) (fs : List Nat) (hfs : ∀ f ∈ fs, f < c.T.nF ∧ c.T.may f = true)
    (ch : PChildren S) (hch : PChOK c D ch) (two three : Front S) (h2 : FReal c D 2 2 two) (h3 : FReal c D 2 3 three) :
    FReal c D 2 2 (pPairLoop c UB D fs ch two three).1 ∧ FReal c D 2 3 (pPairLoop c UB D fs ch two three).2 := by
  induction fs generalizing ch two three with
  | nil => exact ⟨h2, h3⟩
  | cons f fs ih =>
    rw [pPairLoop]
    split
    · exact ⟨h2, h3⟩
    · obtain ⟨hf, hm⟩ := hfs f (by simp)
      have hfs' : ∀ g ∈ fs, g < c.T.nF ∧ c.T.may g = true := fun g hg => hfs g (by simp [hg])
      have hch' := pairs_psound G (UB := UB) hf hm fs hfs' hch
      obtain ⟨a, b⟩ := hch' f
      refine ih hfs' _ hch' _ _ ?_ ?_
      · refine (h2.putAll ?_).putAll ?_
        · exact products_keep G hf hm (by decide) (nl := 1) (nr := 0) (by decide) a (leaves_psound G UB _ _ _)
        · exact products_keep G hf hm (by decide) (nl := 0) (nr := 1) (by decide) (leaves_psound G UB _ _ _) b
      · exact h3.putAll (products_keep G hf hm (by decide) (nl := 1) (nr := 1) (by decide) a b)

/-- The results of the depth-two solver. -/
structure PResOK (c : PCfg S) (D : Data) (r : PRes S) : Prop where
  one : FReal c D 1 1 r.one
  two : FReal c D 2 2 r.two
  three : FReal c D 2 3 r.three

theorem terminal_psound (D : Data) (b : Branch) (UB : Front S) (n : Nat) : PResOK c D (pTerminal c D b UB n).1 := by
  unfold pTerminal
  have e := fun d n => FReal.empty c D d n
  split
  · exact ⟨e _ _, e _ _, e _ _⟩
  · have h1 := one_psound G UB D
    simp only
    generalize pOne c UB D = x at h1
    split
    · exact ⟨h1, e _ _, e _ _⟩
    · split
      · have h2 : FReal c D 2 2 (c.T.putAll Front.empty x.1.sols) := (e 2 2).putAll (h1.mono (by decide) (by decide))
        exact ⟨h1, h2, (e 2 3).putAll (h2.mono (by decide) (by decide))⟩
      · have hp := pairLoop_psound G x.2 D (pFeatures c D b) (by
          intro f hf
          unfold pFeatures at hf
          obtain ⟨hf, hm⟩ := List.mem_filter.1 hf
          simp only [Bool.and_eq_true] at hm
          exact ⟨List.mem_range.1 hf, hm.1.1.1⟩) [] (by
          intro f
          exact ⟨FReal.empty _ _ _ _, FReal.empty _ _ _ _⟩) Front.empty Front.empty (e 2 2) (e 2 3)
        generalize pPairLoop c x.2 D (pFeatures c D b) [] Front.empty Front.empty = r at hp
        have h2 : FReal c D 2 2 (c.T.putAll r.1 x.1.sols) := hp.1.putAll (h1.mono (by decide) (by decide))
        exact ⟨h1, h2, hp.2.putAll (h2.mono (by decide) (by decide))⟩

/-- A depth-two solver between two calls. -/
def PTSOK (c : PCfg S) (T : Data) (t : PTS S) : Prop := ∀ x, t = some x → ViewOf T x.1 ∧ PResOK c x.1 x.2.2

theorem ts_psound {t : PTS S} (ht : PTSOK c T t) {D : Data} {b : Branch} (ha : D = sel b T) (UB : Front S) (n : Nat) :
    PResOK c D (t.solve c D b UB n).1 ∧ PTSOK c T (t.solve c D b UB n).2.2 := by
  have hv : ViewOf T D := by rw [ha]; exact sel_view b T
  have hr := terminal_psound G D b UB n
  have new : PTSOK c T (some (D, n, (pTerminal c D b UB n).1)) := by
    intro x hx
    rw [← Option.some.inj hx]
    exact ⟨hv, hr⟩
  cases t with
  | none => exact ⟨hr, new⟩
  | some x =>
    unfold PTS.solve
    simp only
    split
    · rename_i h
      simp only [Bool.and_eq_true, beq_iff_eq] at h
      obtain ⟨h1, h2⟩ := ht x rfl
      rw [← diff_zero_p G h1 hv h.1.2]
      exact ⟨h2, ht⟩
    · exact ⟨hr, new⟩

/-! ### The search -/

/-- State of the search. -/
structure PSInv (c : PCfg S) (T : Data) (s : PSt S) : Prop where
  cache : PSCache c T s.cache
  arch : ∀ d, ∀ p ∈ Tbl.get s.arch d [], p.1 = sel p.2 T
  ts1 : PTSOK c T s.ts1
  ts2 : PTSOK c T s.ts2

omit G in
theorem PSInv.init : PSInv c T (PSt.init : PSt S) :=
  ⟨PSCache.init, by intro d p hp; simp [PSt.init, Tbl.get] at hp, by intro x hx; simp [PSt.init] at hx,
    by intro x hx; simp [PSt.init] at hx⟩

omit G in
theorem PSInv.setCache {s : PSt S} (h : PSInv c T s) {C : PCache S} (hC : PSCache c T C) : PSInv c T { s with cache := C } :=
  ⟨hC, h.arch, h.ts1, h.ts2⟩

omit G in
theorem PSInv.archive {s : PSt S} (h : PSInv c T s) {D : Data} {b : Branch} (ha : D = sel b T) (d : Nat) :
    PSInv c T (pUpdateArchive c s D b d) := by
  unfold pUpdateArchive
  split
  · exact h
  · refine ⟨h.cache, ?_, h.ts1, h.ts2⟩
    intro d' p hp
    simp only at hp
    rw [Tbl.get_set] at hp
    split at hp
    · split at hp
      · rcases List.mem_append.1 hp with hp | hp
        · exact h.arch d p hp
        · rw [List.mem_singleton.1 hp]; exact ha
      · rcases mem_replaceSimilar hp with hp | hp
        · exact h.arch d p hp
        · rw [hp]; exact ha
    · exact h.arch d' p hp

theorem simLoop_psound {D : Data} {b : Branch} (ha : D = sel b T) (d n : Nat) (es : List (Data × Branch))
    (hes : ∀ p ∈ es, p.1 = sel p.2 T) (lb : Front S) (C : PCache S) (hC : PSCache c T C) :
    PSCache c T (pSimLoop c D b d n es lb C).2.2 := by
  induction es generalizing lb C with
  | nil => exact hC
  | cons p es ih =>
    obtain ⟨D', b'⟩ := p
    have hD' := hes (D', b') (by simp)
    simp only at hD'
    have hes' := fun p (hp : p ∈ es) => hes p (by simp [hp])
    unfold pSimLoop
    split
    · exact ih hes' _ _ hC
    · split
      · exact ih hes' _ _ hC
      · simp only
        split
        · rename_i h0
          have e := diff_zero_p G (by rw [hD']; exact sel_view b' T) (by rw [ha]; exact sel_view b T) h0
          have ht : PSCache c T (C.transfer c b' b) := hC.transfer (by rw [← hD', e, ha])
          split
          · exact ht
          · exact ih hes' _ _ ht
        · exact ih hes' _ _ hC

theorem useSimilarity_psound {s : PSt S} (hs : PSInv c T s) {D : Data} {b : Branch} (ha : D = sel b T) (d n : Nat) :
    PSInv c T (pUseSimilarity c s D b d n).2 := by
  have h1 := simLoop_psound G ha d n (Tbl.get s.arch d []) (hs.arch d) c.T.lb0 s.cache hs.cache
  unfold pUseSimilarity
  split
  · exact hs
  · simp only
    generalize pSimLoop c D b d n (Tbl.get s.arch d []) c.T.lb0 s.cache = r at h1
    split
    · exact hs.setCache h1
    · split
      · exact hs.setCache h1
      · split
        · exact hs.setCache (h1.updateLB G ha _ _ _)
        · exact hs.setCache h1

theorem storeTerminal_psound {C : PCache S} (hC : PSCache c T C) {D : Data} {b : Branch} (ha : D = sel b T) (UB : Front S)
    {F : Front S} {d n : Nat} (hF : FReal c D d n F) : PSCache c T (pStoreTerminal c D b UB F d n C) := by
  unfold pStoreTerminal
  split
  · exact hC
  · split
    · exact hC.storeOpt G ha hF
    · exact hC.updateLB G ha _ _ _

/-- What is known of the result of a call. -/
structure PSPost (c : PCfg S) (T : Data) (D : Data) (d n : Nat) (r : Front S × Front S × PSt S) : Prop where
  st : PSInv c T r.2.2
  real : FReal c D d n r.1

/-- The recursive call meets its specification. -/
def PSRecOK (c : PCfg S) (T : Data) (rec : PRec S) : Prop :=
  ∀ D b UB d n s, D = sel b T → (c.useTerm = true → n + 1 ≤ 2 ^ d) → PSInv c T s → PSPost c T D d n (rec D b UB d n s)

theorem solveTerminal_psound {D : Data} {b : Branch} (ha : D = sel b T) (UB : Front S) {d n : Nat} (hd : 1 ≤ d) (hn : 1 ≤ n)
    (hp : n + 1 ≤ 2 ^ d) {s : PSt S} (hs : PSInv c T s) :
    PSInv c T (pSolveTerminal c D b UB d n s).2 ∧ FReal c D d n (pSolveTerminal c D b UB d n s).1 := by
  unfold pSolveTerminal
  simp only
  generalize decide (s.ts1.probe c.T.nL D < s.ts2.probe c.T.nL D) = first
  have hts : PTSOK c T (if first = true then s.ts1 else s.ts2) := by split; exact hs.ts1; exact hs.ts2
  obtain ⟨h1, h2⟩ := ts_psound G hts ha UB n
  generalize (if first = true then s.ts1 else s.ts2).solve c D b UB n = x at h1 h2
  have hs' : PSInv c T (if first = true then { s with ts1 := x.2.2 } else { s with ts2 := x.2.2 }) := by
    split
    · exact ⟨hs.cache, hs.arch, h2, hs.ts2⟩
    · exact ⟨hs.cache, hs.arch, hs.ts1, h2⟩
  generalize (if first = true then { s with ts1 := x.2.2 } else { s with ts2 := x.2.2 } : PSt S) = s' at hs'
  constructor
  · exact (hs'.setCache (storeTerminal_psound G (storeTerminal_psound G (storeTerminal_psound G hs'.cache ha _ h1.one) ha _ h1.two)
      ha _ h1.three)).archive ha d
  · have two : 2 ≤ n → 2 ≤ d := by
      intro h
      by_contra hc
      have : d = 1 := by omega
      subst this
      omega
    have hF : FReal c D d n (if n = 1 then x.1.one else if n = 2 then x.1.two else x.1.three) := by
      split
      · exact h1.one.mono hd hn
      · split
        · exact h1.two.mono (two (by omega)) (by omega)
        · exact h1.three.mono (two (by omega)) (by omega)
    generalize (if n = 1 then x.1.one else if n = 2 then x.1.two else x.1.three) = F at hF
    split
    · exact FReal.empty _ _ _ _
    · exact hF

omit G in
theorem lowerCached_psound {s : PSt S} (h : PSCache c T s.cache) {D : Data} {b : Branch} (ha : D = sel b T) (n l d : Nat)
    (hl : l ≤ d) : FReal c D d n (pLowerCached c s D b n l) := by
  induction l with
  | zero => exact FReal.empty _ _ _ _
  | succ l ih =>
    rw [pLowerCached]
    split
    · exact (h.retrieveOpt ha _ _).mono hl (Nat.min_le_left _ _)
    · exact ih (by omega)

/-- The sides of a split. -/
structure PSSplit (c : PCfg S) (T : Data) (D : Data) (L R : PSide) (sw : Bool) (f : Nat) : Prop where
  aL : L.D = sel L.b T
  aR : R.D = sel R.b T
  feat : f < c.T.nF
  may : c.T.may f = true
  data : if sw then L.D = having f D ∧ R.D = without f D else L.D = without f D ∧ R.D = having f D

omit G in
theorem sizeStep_psound {rec : PRec S} {D : Data} {k d n ls f : Nat} {L R : PSide} {sw : Bool} {v : PLoc S} {s : PSt S}
    (hrec : PSRecOK c T rec) (hsp : PSSplit c T D L R sw f) (hd : 1 ≤ d) (hls : ls + 1 ≤ n)
    (hp1 : c.useTerm = true → ls + 1 ≤ 2 ^ (min (d - 1) ls))
    (hp2 : c.useTerm = true → n - ls - 1 + 1 ≤ 2 ^ (min (d - 1) (n - ls - 1)))
    (hs : PSInv c T s) (hv : FReal c D d n v.sols) :
    PSInv c T (pSizeStep c rec k f L R sw d n ls v s).2 ∧ FReal c D d n (pSizeStep c rec k f L R sw d n ls v s).1.sols := by
  unfold pSizeStep
  simp only
  generalize pComputeLRLB c s f L.D L.b (min (d - 1) ls) ls R.D R.b (min (d - 1) (n - ls - 1)) (n - ls - 1) = lbs
  split
  · exact ⟨hs, hv⟩
  · split
    · exact ⟨hs, hv⟩
    · have qL := hrec L.D L.b (pSubtract c k v.UB lbs.2.2 v.sols) (min (d - 1) ls) ls s hsp.aL hp1 hs
      generalize rec L.D L.b (pSubtract c k v.UB lbs.2.2 v.sols) (min (d - 1) ls) ls s = lr at qL
      split
      · exact ⟨qL.st, hv⟩
      · have qR := hrec R.D R.b (pSubtract c k v.UB lr.1 v.sols) (min (d - 1) (n - ls - 1)) (n - ls - 1) lr.2.2 hsp.aR hp2 qL.st
        generalize rec R.D R.b (pSubtract c k v.UB lr.1 v.sols) (min (d - 1) (n - ls - 1)) (n - ls - 1) lr.2.2 = rr at qR
        split
        · exact ⟨qR.st, hv⟩
        · refine ⟨qR.st, ?_⟩
          apply hv.filterAdd
          have rl := qL.real.mono (Nat.min_le_left (d - 1) ls) (Nat.le_refl ls)
          have rr' := qR.real.mono (Nat.min_le_left (d - 1) (n - ls - 1)) (Nat.le_refl (n - ls - 1))
          have hdat := hsp.data
          cases sw with
          | false =>
            simp only [Bool.false_eq_true, if_false] at hdat ⊢
            rw [hdat.1] at rl
            rw [hdat.2] at rr'
            exact products_real hsp.feat hsp.may hd (by omega) rl rr'
          | true =>
            simp only [if_true] at hdat ⊢
            rw [hdat.1] at rl
            rw [hdat.2] at rr'
            exact products_real hsp.feat hsp.may hd (by omega) rr' rl

omit G in
theorem sizeLoop_psound {rec : PRec S} {D : Data} {k d n f : Nat} {L R : PSide} {sw : Bool}
    (hrec : PSRecOK c T rec) (hsp : PSSplit c T D L R sw f) (hd : 1 ≤ d) (lss : List Nat)
    (hls : ∀ ls ∈ lss, ls + 1 ≤ n ∧ (c.useTerm = true → ls + 1 ≤ 2 ^ (min (d - 1) ls)) ∧
      (c.useTerm = true → n - ls - 1 + 1 ≤ 2 ^ (min (d - 1) (n - ls - 1))))
    (v : PLoc S) (s : PSt S) (hs : PSInv c T s) (hv : FReal c D d n v.sols) :
    PSInv c T (pSizeLoop c rec k f L R sw d n lss v s).2 ∧ FReal c D d n (pSizeLoop c rec k f L R sw d n lss v s).1.sols := by
  induction lss generalizing v s with
  | nil => exact ⟨hs, hv⟩
  | cons ls lss ih =>
    rw [pSizeLoop]
    obtain ⟨h1, h2, h3⟩ := hls ls (by simp)
    obtain ⟨a1, a2⟩ := sizeStep_psound (k := k) hrec hsp hd h1 h2 h3 hs hv
    exact ih (fun x hx => hls x (by simp [hx])) _ _ a1 a2

omit G in
theorem sel_side {D : Data} {b : Branch} (ha : D = sel b T) (f : Nat) :
    without f D = sel (b.child f false) T ∧ having f D = sel (b.child f true) T := by
  rw [sel_child, sel_child, ← ha, side_false, side_true]
  exact ⟨rfl, rfl⟩

omit G in
theorem sizes_psound {d n : Nat} (hd : 1 ≤ d) (hn : 1 ≤ n) (hp : c.useTerm = true → n + 1 ≤ 2 ^ d) (ls : Nat)
    (h : ls ∈ sizes d n) : ls + 1 ≤ n ∧ (c.useTerm = true → ls + 1 ≤ 2 ^ (min (d - 1) ls)) ∧
      (c.useTerm = true → n - ls - 1 + 1 ≤ 2 ^ (min (d - 1) (n - ls - 1))) := by
  refine ⟨?_, fun ht => (sizes_pok hd hn (hp ht) ls h).2.1, fun ht => (sizes_pok hd hn (hp ht) ls h).2.2⟩
  unfold sizes at h
  obtain ⟨h1, h2⟩ := List.mem_range'_1.1 h
  omega

omit G in
theorem featLoop_psound {rec : PRec S} {D : Data} {b : Branch} {d n : Nat} (hrec : PSRecOK c T rec) (ha : D = sel b T)
    (hd : 1 ≤ d) (hn : 1 ≤ n) (hp : c.useTerm = true → n + 1 ≤ 2 ^ d) (blb : Front S) (fs : List Nat) (hfs : ∀ f ∈ fs, f < c.T.nF)
    (v : PLoc S) (s : PSt S) (hs : PSInv c T s) (hv : FReal c D d n v.sols) :
    PSInv c T (pFeatLoop c rec D b d n blb fs v s).2 ∧ FReal c D d n (pFeatLoop c rec D b d n blb fs v s).1.sols := by
  induction fs generalizing v s with
  | nil => exact ⟨hs, hv⟩
  | cons f fs ih =>
    have hfs' : ∀ g ∈ fs, g < c.T.nF := fun g hg => hfs g (by simp [hg])
    rw [pFeatLoop]
    split
    · exact ⟨hs, hv⟩
    · split
      · exact ⟨hs, hv⟩
      · split
        · exact ih hfs' v s hs hv
        · rename_i hb
          have hmay : c.T.may f = true := by
            cases h : c.T.may f with
            | true => rfl
            | false => rw [h] at hb; simp at hb
          simp only
          split
          · exact ih hfs' v s hs hv
          · obtain ⟨e0, e1⟩ := sel_side ha f
            split
            · obtain ⟨a1, a2⟩ := sizeLoop_psound (k := b.length) (L := ⟨having f D, b.child f true⟩) (R := ⟨without f D, b.child f false⟩)
                (sw := true) hrec ⟨e1, e0, hfs f (by simp), hmay, ⟨rfl, rfl⟩⟩ hd (sizes d n) (sizes_psound hd hn hp) v s hs hv
              exact ih hfs' _ _ a1 a2
            · obtain ⟨a1, a2⟩ := sizeLoop_psound (k := b.length) (L := ⟨without f D, b.child f false⟩) (R := ⟨having f D, b.child f true⟩)
                (sw := false) hrec ⟨e0, e1, hfs f (by simp), hmay, ⟨rfl, rfl⟩⟩ hd (sizes d n) (sizes_psound hd hn hp) v s hs hv
              exact ih hfs' _ _ a1 a2

theorem general_psound {rec : PRec S} {D : Data} {b : Branch} {d n : Nat} (hrec : PSRecOK c T rec) (ha : D = sel b T)
    (hd : 1 ≤ d) (hn : 1 ≤ n) (hp : c.useTerm = true → n + 1 ≤ 2 ^ d) (UB : Front S) (s : PSt S) (hs : PSInv c T s) :
    PSPost c T D d n (pGeneral c rec D b UB d n s) := by
  have hl := solveLeaf_psound c D b.length d n UB
  unfold pGeneral
  simp only
  split
  · exact ⟨hs, hl⟩
  · have h1 := hl.filterAdd (lowerCached_psound hs.cache ha n (d - 1) d (by omega)) b.length (pSolveLeaf c D b.length UB).2
    generalize pFilterAdd c b.length (pLowerCached c s D b n (d - 1)).sols (pSolveLeaf c D b.length UB).1
      (pSolveLeaf c D b.length UB).2 = st at *
    obtain ⟨g1, g2⟩ := featLoop_psound hrec ha hd hn hp (pComputeLB c s D b d n) (c.order D)
      (G.feats D) ⟨st.1, st.2, Front.empty⟩ s hs h1
    generalize pFeatLoop c rec D b d n (pComputeLB c s D b d n) (c.order D) ⟨st.1, st.2, Front.empty⟩ s = q at *
    refine ⟨?_, g2⟩
    refine PSInv.archive (g1.setCache ?_) ha d
    split
    · exact g1.cache.storeOpt G ha g2
    · exact g1.cache.updateLB G ha _ _ _

theorem subTree_psound {rec : PRec S} {D : Data} {b : Branch} {d n : Nat} (hrec : PSRecOK c T rec) (ha : D = sel b T)
    (hp : c.useTerm = true → n + 1 ≤ 2 ^ d) (UB : Front S) (s : PSt S) (hs : PSInv c T s) :
    PSPost c T D d n (pSubTree c rec D b UB d n s) := by
  unfold pSubTree
  split
  · exact ⟨hs, solveLeaf_psound _ _ _ _ _ _⟩
  · rename_i h0
    have hd : 1 ≤ d := by omega
    have hn : 1 ≤ n := by omega
    simp only
    split
    · exact ⟨hs, hs.cache.retrieveOpt ha _ _⟩
    · have go : ∀ (lf : Front S) (s : PSt S), PSInv c T s → PSPost c T D d n
          (if c.useTerm = true ∧ d ≤ 2 then
            ((pSolveTerminal c D b (if c.useUB then pRelax c b.length UB.removeTemp lf else UB.removeTemp) d n s).1, UB,
              (pSolveTerminal c D b (if c.useUB then pRelax c b.length UB.removeTemp lf else UB.removeTemp) d n s).2)
          else pGeneral c rec D b UB d n s) := by
        intro lf s hs
        split
        · rename_i ht
          obtain ⟨a, b⟩ := solveTerminal_psound G ha (if c.useUB then pRelax c b.length UB.removeTemp lf else UB.removeTemp) hd hn
            (hp ht.1) hs
          exact ⟨a, b⟩
        · exact general_psound G hrec ha hd hn hp UB s hs
      split
      · have h1 := useSimilarity_psound G hs ha d n
        generalize pUseSimilarity c s D b d n = sim at h1
        split
        · exact ⟨h1, h1.cache.retrieveOpt ha _ _⟩
        · split
          · exact ⟨h1, FReal.empty _ _ _ _⟩
          · split
            · exact ⟨h1, solveLeaf_psound _ _ _ _ _ _⟩
            · exact go _ _ h1
      · exact go _ _ hs

theorem solveSub_psound (fuel : Nat) : PSRecOK c T (pSolveSub c fuel) := by
  induction fuel with
  | zero =>
    intro D b UB d n s ha hp hs
    refine subTree_psound G ?_ ha hp UB s hs
    intro D b UB d n s _ _ hs
    exact ⟨hs, FReal.empty _ _ _ _⟩
  | succ k ih =>
    intro D b UB d n s ha hp hs
    exact subTree_psound G ih ha hp UB s hs

omit G in
theorem pBudgets_ok {md mn : Nat} {allTrees : Bool} (hp : mn + 1 ≤ 2 ^ md) {p : Nat × Nat} (h : p ∈ pBudgets md mn allTrees) :
    p.1 ≤ md ∧ p.2 ≤ mn ∧ p.2 + 1 ≤ 2 ^ p.1 := by
  have pw : ∀ k, k + 1 ≤ 2 ^ md → k + 1 ≤ 2 ^ (min md k) := by
    intro k hk
    rcases Nat.le_total md k with h | h
    · rw [Nat.min_eq_left h]; exact hk
    · rw [Nat.min_eq_right h]; exact Nat.lt_two_pow_self
  unfold pBudgets at h
  split at h
  · obtain ⟨k, hk, rfl⟩ := List.mem_map.1 h
    obtain ⟨h1, h2⟩ := List.mem_range'_1.1 hk
    exact ⟨Nat.min_le_left _ _, by simp only; omega, pw k (by omega)⟩
  · obtain ⟨k, hk, rfl⟩ := List.mem_map.1 h
    obtain ⟨h1, h2⟩ := List.mem_range'_1.1 hk
    have : 1 ≤ 2 ^ k := Nat.one_le_two_pow
    exact ⟨by simp only; omega, Nat.min_le_left _ _, by simp only; omega⟩

theorem runs_psound (md mn : Nat) (bs : List (Nat × Nat)) (hbs : ∀ p ∈ bs, p.1 ≤ md ∧ p.2 ≤ mn ∧ p.2 + 1 ≤ 2 ^ p.1)
    (r : PRun S) (hs : PSInv c T r.st) (hr : FReal c T md mn r.result) :
    PSInv c T (bs.foldl (pRootRun c md T) r).st ∧ FReal c T md mn (bs.foldl (pRootRun c md T) r).result := by
  induction bs generalizing r with
  | nil => exact ⟨hs, hr⟩
  | cons p bs ih =>
    rw [List.foldl_cons]
    obtain ⟨h1, h2, h3⟩ := hbs p (by simp)
    have q := solveSub_psound G md T [] r.gUB p.1 p.2 r.st (sel_nil T).symm (fun _ => h3) hs
    exact ih (fun x hx => hbs x (by simp [hx])) _ q.st (hr.putAllAt (q.real.mono h1 h2) 0)

/-- The search is sound whatever the options. -/
theorem pSolve_sound (md mn : Nat) (hp : mn + 1 ≤ 2 ^ md) (allTrees : Bool) :
    PSInv c T (pSolve c md mn allTrees T).st ∧ FReal c T md mn (pSolve c md mn allTrees T).result := by
  unfold pSolve
  exact runs_psound G md mn _ (fun p h => pBudgets_ok hp h) _ PSInv.init (solveLeaf_psound c T 0 md mn Front.empty)

end

end Streed
