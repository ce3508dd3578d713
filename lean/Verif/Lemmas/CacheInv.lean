import Verif.Model.Solver
import Verif.Lemmas.Terminal

/-! Cache invariant: every entry is a fact about its data. -/

namespace Streed

/-! ### Paths and the data they select -/

/-- Does an instance satisfy a decision code? -/
def fits (i : Inst) (c : Nat) : Bool := i.feat (c / 2) == (c % 2 == 1)

/-- The training instances selected by a path. -/
def sel (b : Branch) (T : Data) : Data := T.filter (fun i => b.all (fits i))

theorem fits_code (i : Inst) (f : Nat) (x : Bool) : fits i (code f x) = (i.feat f == x) := by
  unfold fits code
  cases x
  · have h1 : (2 * f + 0) / 2 = f := by omega
    simp
  · have h1 : (2 * f + 1) / 2 = f := by omega
    have h2 : (2 * f + 1) % 2 = 1 := by omega
    simp [h1, h2]

theorem all_insertCode (p : Nat → Bool) (c : Nat) (b : List Nat) :
    (insertCode c b).all p = (p c && b.all p) := by
  induction b with
  | nil => simp [insertCode]
  | cons x xs ih =>
    unfold insertCode
    split
    · rfl
    · simp only [List.all_cons, ih]
      cases p x <;> cases p c <;> rfl

theorem sel_nil (T : Data) : sel [] T = T := by simp [sel]

theorem sel_child (b : Branch) (f : Nat) (x : Bool) (T : Data) :
    sel (b.child f x) T = side f x (sel b T) := by
  unfold sel side Branch.child
  rw [List.filter_filter]
  congr 1; funext i
  rw [all_insertCode, fits_code]

theorem sel_view (b : Branch) (T : Data) : ViewOf T (sel b T) := List.filter_sublist

theorem mem_sel {b : Branch} {T : Data} {i : Inst} : i ∈ sel b T ↔ i ∈ T ∧ ∀ c ∈ b, fits i c = true := by
  simp [sel, List.mem_filter]

theorem sel_pathOK (b : Branch) (T : Data) : PathOK (sel b T) b := by
  intro f hf
  unfold Branch.has at hf
  obtain ⟨c, hc, h⟩ := List.any_eq_true.1 hf
  simp only [Bool.or_eq_true, beq_iff_eq] at h
  rcases h with h | h
  · left
    apply List.filter_eq_nil_iff.2
    intro i hi
    have := (mem_sel.1 hi).2 c hc
    rw [h, fits_code] at this
    simpa using this
  · right
    apply List.filter_eq_nil_iff.2
    intro i hi
    have := (mem_sel.1 hi).2 c hc
    rw [h, fits_code] at this
    simpa using this

/-! ### Views are determined by their ids -/

theorem sorted_ext {A B : Data} (hA : IdSorted A) (hB : IdSorted B) (h : ∀ i, i ∈ A ↔ i ∈ B) : A = B := by
  unfold IdSorted at *
  induction A generalizing B with
  | nil =>
    cases B with
    | nil => rfl
    | cons b B => have := (h b).2 (List.mem_cons_self ..); simp at this
  | cons a A ih =>
    cases B with
    | nil => have := (h a).1 (List.mem_cons_self ..); simp at this
    | cons b B =>
      have pa := List.pairwise_cons.1 hA
      have pb := List.pairwise_cons.1 hB
      have hab : a = b := by
        rcases List.mem_cons.1 ((h a).1 (List.mem_cons_self ..)) with e | e
        · exact e
        · rcases List.mem_cons.1 ((h b).2 (List.mem_cons_self ..)) with e' | e'
          · exact e'.symm
          · have := pb.1 a e; have := pa.1 b e'; omega
      subst hab
      congr 1
      refine ih pa.2 pb.2 fun i => ?_
      constructor
      · intro hi
        rcases List.mem_cons.1 ((h i).1 (List.mem_cons_of_mem _ hi)) with e | e
        · subst e; have := pa.1 i hi; omega
        · exact e
      · intro hi
        rcases List.mem_cons.1 ((h i).2 (List.mem_cons_of_mem _ hi)) with e | e
        · subst e; have := pb.1 i hi; omega
        · exact e

theorem dataKey_inj {T D E : Data} (hT : IdSorted T) (hD : ViewOf T D) (hE : ViewOf T E)
    (h : dataKey D = dataKey E) : D = E := by
  have sub : ∀ {A B : Data}, ViewOf T A → ViewOf T B → dataKey A = dataKey B → ∀ i, i ∈ A → i ∈ B := by
    intro A B hA hB h i hi
    have : i.id ∈ dataKey B := by rw [← h]; exact List.mem_map_of_mem hi
    obtain ⟨j, hj, e⟩ := List.mem_map.1 this
    rw [sorted_unique hT (hA.subset hi) (hB.subset hj) e.symm]; exact hj
  exact sorted_ext (hD.sorted hT) (hE.sorted hT) fun i => ⟨sub hD hE h i, sub hE hD h.symm i⟩

/-! ### Maps -/

theorem Store.find_set {K : Type} [DecidableEq K] (m : Store K) (k j : K) (es : List Entry) :
    (m.set k es).find j = if j = k then some es else m.find j := by
  unfold Store.find
  induction m with
  | nil =>
    by_cases h : j = k
    · simp [Store.set, h]
    · simp [Store.set, h, Ne.symm h]
  | cons p m ih =>
    unfold Store.set
    by_cases hp : p.1 = k
    · rw [if_pos hp]
      by_cases h : j = k
      · simp [h]
      · simp [h, Ne.symm h, hp]
    · rw [if_neg hp]
      simp only [List.find?_cons]
      by_cases h : p.1 = j
      · have : j ≠ k := fun e => hp (h.trans e)
        simp [h, this]
      · simp only [h, decide_false]
        exact ih

/-! ### Facts about data -/

/-- Budgets the search uses: with the depth-two solver only complete ones (`n = 2^d - 1`). -/
def BudOK (c : Cfg) (d n : Nat) : Prop := c.useTerm = false ∨ n + 1 = 2 ^ d

/-- `x` is a lower bound for every budget of the search up to `(d, n)`. -/
def LBOK (c : Cfg) (d n : Nat) (D : Data) (x : Int) : Prop :=
  ∀ d' n', BudOK c d' n' → d' ≤ d → n' ≤ n → LowerBound c.P c.mls d' n' D x

theorem LBOK.mono {c : Cfg} {d n d' n' : Nat} {D : Data} {x : Int} (h : LBOK c d n D x) (hd : d' ≤ d)
    (hn : n' ≤ n) : LBOK c d' n' D x := fun a b hb ha hb' => h a b hb (by omega) (by omega)

theorem LowerBound.lbok {c : Cfg} {d n : Nat} {D : Data} {x : Int} (h : LowerBound c.P c.mls d n D x) :
    LBOK c d n D x := fun _ _ _ hd hn t ht => h t ⟨by have := ht.1; omega, by have := ht.2.1; omega, ht.2.2⟩

theorem LBOK.lower {c : Cfg} {d n : Nat} {D : Data} {x : Int} (h : LBOK c d n D x) (hb : BudOK c d n) :
    LowerBound c.P c.mls d n D x := h d n hb (Nat.le_refl _) (Nat.le_refl _)

/-- An entry states facts about `D`; the bounds only count while `H` (no time-out so far). -/
structure EntryOK (c : Cfg) (H : Prop) (D : Data) (e : Entry) : Prop where
  real : e.opt.isEmpty = false → Real c.P c.mls e.depth D e.opt ∧ e.opt.numNodes ≤ e.nodes
  opt : H → e.opt.isEmpty = false → LBOK c e.depth e.nodes D e.opt.sol
  lb : H → e.lb.isEmpty = false → LBOK c e.depth e.nodes D e.lb.sol

theorem EntryOK.weaken {c : Cfg} {H H' : Prop} {D : Data} {e : Entry} (h : EntryOK c H D e) (hh : H' → H) :
    EntryOK c H' D e := ⟨h.real, fun x => h.opt (hh x), fun x => h.lb (hh x)⟩

/-- Cache invariant. -/
structure CInv (c : Cfg) (T : Data) (H : Prop) (C : Cache) : Prop where
  br : ∀ b es, C.br.find b = some es → ∀ e ∈ es, EntryOK c H (sel b T) e
  ds : ∀ D es, ViewOf T D → C.ds.find (dataKey D) = some es → ∀ e ∈ es, EntryOK c H D e

theorem CInv.weaken {c : Cfg} {T : Data} {H H' : Prop} {C : Cache} (h : CInv c T H C) (hh : H' → H) :
    CInv c T H' C :=
  ⟨fun b es e x hx => (h.br b es e x hx).weaken hh, fun D es v e x hx => (h.ds D es v e x hx).weaken hh⟩

theorem CInv.init (c : Cfg) (T : Data) (H : Prop) : CInv c T H Cache.init :=
  ⟨fun b es h => by simp [Cache.init, Store.find] at h, fun D es _ h => by simp [Cache.init, Store.find] at h⟩

/-- All entries of a list are facts. -/
def EsOK (c : Cfg) (H : Prop) (D : Data) (es : List Entry) : Prop := ∀ e ∈ es, EntryOK c H D e

theorem CInv.brs {c : Cfg} {T : Data} {H : Prop} {C : Cache} (h : CInv c T H C) (b : Branch) :
    EsOK c H (sel b T) ((C.br.find b).getD []) := by
  intro e he
  cases hf : C.br.find b with
  | none => rw [hf] at he; simp at he
  | some es => rw [hf] at he; exact h.br b es hf e he

theorem CInv.dss {c : Cfg} {T : Data} {H : Prop} {C : Cache} (h : CInv c T H C) (D : Data) (hD : ViewOf T D) :
    EsOK c H D ((C.ds.find (dataKey D)).getD []) := by
  intro e he
  cases hf : C.ds.find (dataKey D) with
  | none => rw [hf] at he; simp at he
  | some es => rw [hf] at he; exact h.ds D es hD hf e he

theorem mem_budgets {lo n od d : Nat} {p : Nat × Nat} (h : p ∈ budgets lo n od d) :
    lo ≤ p.2 ∧ p.2 ≤ n ∧ od ≤ p.1 ∧ p.1 ≤ d ∧ p.1 ≤ p.2 := by
  unfold budgets at h
  obtain ⟨nb, hnb, h⟩ := List.mem_flatMap.1 h
  obtain ⟨db, hdb, rfl⟩ := List.mem_map.1 h
  have h1 := List.mem_range'_1.1 hnb
  have h2 := List.mem_range'_1.1 hdb
  simp only
  omega

theorem Real.depth_min {P : Problem} {mls d d' : Nat} {D : Data} {v : Node} (h : Real P mls d D v)
    (hd : min d v.numNodes ≤ d') : Real P mls d' D v := by
  obtain ⟨t, h1, h2, h3, h4⟩ := h
  have := t.depth_le_nodes
  rw [h1.nodes] at this
  exact ⟨t, h1, by omega, h3, h4⟩

section
variable {c : Cfg} {T : Data} {H : Prop}

theorem storeEntries_ok {D : Data} {old : Option (List Entry)} {v : Node} {od d n : Nat}
    (hold : EsOK c H D (old.getD [])) (hod : min d v.numNodes ≤ od)
    (hv : Real c.P c.mls d D v) (hlb : H → LBOK c d n D v.sol) :
    EsOK c H D (storeEntries old v od d n) := by
  have fact : ∀ d' n', od ≤ d' → d' ≤ d → v.numNodes ≤ n' → n' ≤ n →
      (Real c.P c.mls d' D v ∧ v.numNodes ≤ n') ∧ (H → LBOK c d' n' D v.sol) := fun d' n' h1 h2 h3 h4 =>
    ⟨⟨hv.depth_min (by omega), h3⟩, fun h => (hlb h).mono h2 h4⟩
  have fresh : ∀ p ∈ budgets v.numNodes n od d, EntryOK c H D (Entry.solved p.1 p.2 v) := by
    intro p hp
    have hp := mem_budgets hp
    obtain ⟨f1, f2⟩ := fact p.1 p.2 hp.2.2.1 hp.2.2.2.1 hp.1 hp.2.1
    exact ⟨fun _ => f1, fun h _ => f2 h, fun h _ => f2 h⟩
  unfold storeEntries
  cases old with
  | none =>
    intro e he
    obtain ⟨p, hp, rfl⟩ := List.mem_map.1 he
    exact fresh p hp
  | some es =>
    intro e he
    rcases List.mem_append.1 he with he | he
    · obtain ⟨e0, h0, rfl⟩ := List.mem_map.1 he
      have hok := hold e0 h0
      split
      · rename_i hc
        split
        · exact hok
        · obtain ⟨f1, f2⟩ := fact e0.depth e0.nodes hc.2.2.1 hc.2.2.2 hc.1 hc.2.1
          refine ⟨fun _ => f1, fun h _ => f2 h, fun h hl => ?_⟩
          unfold Entry.setOpt at hl ⊢
          simp only at hl ⊢
          rw [if_neg (by simp [hv.nonempty])]
          exact f2 h
      · exact hok
    · obtain ⟨p, hp, rfl⟩ := List.mem_map.1 he
      exact fresh p (List.mem_filter.1 hp).1

theorem updLB_ok {D : Data} {e : Entry} {v : Node} (he : EntryOK c H D e)
    (hv : H → v.isEmpty = false → LBOK c e.depth e.nodes D v.sol) : EntryOK c H D (e.updLB v) := by
  refine ⟨he.real, he.opt, fun h hl => ?_⟩
  unfold Entry.updLB at hl ⊢
  simp only at hl ⊢
  rcases addMax_cases e.lb v with hm | hm <;> rw [hm] at hl ⊢
  · exact he.lb h hl
  · exact hv h hl

theorem fresh_ok {D : Data} {w : Int} {d n : Nat} : EntryOK c H D (Entry.fresh w d n) :=
  ⟨fun h => by simp [Entry.fresh, Node.empty, Node.isEmpty] at h,
   fun _ h => by simp [Entry.fresh, Node.empty, Node.isEmpty] at h,
   fun _ h => by simp [Entry.fresh, Node.value, Node.isEmpty] at h⟩

theorem updateFirst_ok {D : Data} {g : Bool} {v : Node} {d n : Nat} {es : List Entry} (hes : EsOK c H D es)
    (hv : H → v.isEmpty = false → LBOK c d n D v.sol) : EsOK c H D (updateFirst g v d n es) := by
  induction es with
  | nil => exact hes
  | cons e es ih =>
    have h1 := hes e (List.mem_cons_self ..)
    have h2 : EsOK c H D es := fun x hx => hes x (List.mem_cons_of_mem _ hx)
    unfold updateFirst
    split
    · rename_i hc
      intro x hx
      rcases List.mem_cons.1 hx with rfl | hx
      · split
        · exact h1
        · exact updLB_ok h1 (by rw [hc.1, hc.2]; exact hv)
      · exact h2 x hx
    · intro x hx
      rcases List.mem_cons.1 hx with rfl | hx
      · exact h1
      · exact ih h2 x hx

theorem updateLBEntries_ok {D : Data} {w : Int} {g : Bool} {old : Option (List Entry)} {v : Node} {d n : Nat}
    (hold : EsOK c H D (old.getD [])) (hv : H → v.isEmpty = false → LBOK c d n D v.sol) :
    EsOK c H D (updateLBEntries w g old v d n) := by
  have hf : EntryOK c H D ((Entry.fresh w d n).updLB v) := updLB_ok fresh_ok hv
  unfold updateLBEntries
  cases old with
  | none => intro e he; rw [List.mem_singleton.1 he]; exact hf
  | some es =>
    simp only
    split
    · exact updateFirst_ok hold hv
    · intro e he
      rcases List.mem_append.1 he with he | he
      · exact hold e he
      · rw [List.mem_singleton.1 he]; exact hf

/-- Writing the entries of one path and of the data it selects keeps the invariant. -/
theorem CInv.write {C C' : Cache} (h : CInv c T H C) (hT : IdSorted T) {D : Data} {b : Branch} (hD : D = sel b T)
    {es es' : List Entry} (hbr : C'.br = C.br ∨ C'.br = C.br.set b es)
    (hds : C'.ds = C.ds ∨ C'.ds = C.ds.set (dataKey D) es') (he : EsOK c H D es) (he' : EsOK c H D es') :
    CInv c T H C' := by
  constructor
  · intro b' es1 hf e hx
    rcases hbr with hb | hb
    · rw [hb] at hf; exact h.br b' es1 hf e hx
    · rw [hb, Store.find_set] at hf
      split at hf
      · rename_i eq
        simp only [Option.some.injEq] at hf
        subst hf
        rw [eq, ← hD]; exact he e hx
      · exact h.br b' es1 hf e hx
  · intro D' es1 hv hf e hx
    rcases hds with hb | hb
    · rw [hb] at hf; exact h.ds D' es1 hv hf e hx
    · rw [hb, Store.find_set] at hf
      split at hf
      · rename_i eq
        simp only [Option.some.injEq] at hf
        subst hf
        rw [dataKey_inj hT hv (by rw [hD]; exact sel_view b T) eq]; exact he' e hx
      · exact h.ds D' es1 hv hf e hx

theorem storeOpt_inv {C : Cache} (h : CInv c T H C) (hT : IdSorted T) {D : Data} {b : Branch} (hD : D = sel b T)
    {v : Node} {d n : Nat} (hv : Real c.P c.mls d D v) (hn : v.numNodes ≤ n) (hlb : H → LBOK c d n D v.sol) :
    CInv c T H (C.storeOpt c.cc D b v d n) := by
  have hv1 : ViewOf T D := by rw [hD]; exact sel_view b T
  have e1 := h.brs b
  rw [← hD] at e1
  refine h.write hT hD (es := storeEntries (C.br.find b) v (min d n) d n)
    (es' := storeEntries (C.ds.find (dataKey D)) v (min d v.numNodes) d n) ?_ ?_
    (storeEntries_ok e1 (by omega) hv hlb) (storeEntries_ok (h.dss D hv1) (by omega) hv hlb)
  · unfold Cache.storeOpt; simp only; split
    · exact .inr rfl
    · exact .inl rfl
  · unfold Cache.storeOpt; simp only; split
    · exact .inr rfl
    · exact .inl rfl

theorem updateLB_inv {C : Cache} (h : CInv c T H C) (hT : IdSorted T) {D : Data} {b : Branch} (hD : D = sel b T)
    {v : Node} {d n : Nat} (hv : H → v.isEmpty = false → LBOK c d n D v.sol) :
    CInv c T H (C.updateLB c.cc D b v d n) := by
  have hv1 : ViewOf T D := by rw [hD]; exact sel_view b T
  have e1 := h.brs b
  rw [← hD] at e1
  unfold Cache.updateLB
  split
  · refine h.write hT hD (es := updateLBEntries c.cc.worst true (C.br.find b) v d n)
      (es' := updateLBEntries c.cc.worst false (C.ds.find (dataKey D)) v d n) ?_ ?_
      (updateLBEntries_ok e1 hv) (updateLBEntries_ok (h.dss D hv1) hv)
    · simp only; split
      · exact .inr rfl
      · exact .inl rfl
    · simp only; split
      · exact .inr rfl
      · exact .inl rfl
  · exact h

theorem transferOne_ok {D : Data} {src : Entry} {es : List Entry} (hs : EntryOK c H D src) (h : EsOK c H D es) :
    EsOK c H D (transferOne src es) := by
  induction es with
  | nil => exact h
  | cons e es ih =>
    have h1 := h e (List.mem_cons_self ..)
    have h2 : EsOK c H D es := fun x hx => h x (List.mem_cons_of_mem _ hx)
    unfold transferOne
    split
    · intro x hx
      rcases List.mem_cons.1 hx with rfl | hx
      · exact hs
      · exact h2 x hx
    · intro x hx
      rcases List.mem_cons.1 hx with rfl | hx
      · exact h1
      · exact ih h2 x hx

theorem transferEntries_ok {D : Data} {src es : List Entry} (hs : EsOK c H D src) (h : EsOK c H D es) :
    EsOK c H D (transferEntries src es) := by
  unfold transferEntries
  refine foldl_inv (EsOK c H D) _ _ _ h ?_
  intro es hes e he
  split
  · exact transferOne_ok (hs e he) hes
  · intro x hx
    rcases List.mem_append.1 hx with hx | hx
    · exact hes x hx
    · rw [List.mem_singleton.1 hx]; exact hs e he

theorem transfer_inv {C : Cache} (h : CInv c T H C) {src dst : Branch} (heq : sel src T = sel dst T) :
    CInv c T H (C.transfer c.cc src dst) := by
  have wr : ∀ es, EsOK c H (sel dst T) es → CInv c T H { C with br := C.br.set dst es } := by
    intro es hes
    refine ⟨?_, h.ds⟩
    intro b' es1 hf e hx
    rw [Store.find_set] at hf
    split at hf
    · rename_i eq
      simp only [Option.some.injEq] at hf
      subst hf
      rw [eq]; exact hes e hx
    · exact h.br b' es1 hf e hx
  unfold Cache.transfer
  split
  · split
    · exact h
    · rename_i es hs hd
      exact wr es fun e he => by rw [← heq]; exact h.br src es hs e he
    · rename_i es es' hs hd
      split
      · refine wr _ (transferEntries_ok (fun e he => ?_) (fun e he => h.br dst es' hd e he))
        rw [← heq]; exact h.br src es hs e he
      · exact h
  · exact h

theorem retrieveOptEntries_spec {D : Data} {es : List Entry} {w : Int} {d n : Nat} (h : EsOK c H D es)
    (hne : (retrieveOptEntries w es d n).isEmpty = false) :
    (Real c.P c.mls d D (retrieveOptEntries w es d n) ∧ (retrieveOptEntries w es d n).numNodes ≤ n) ∧
      (H → LBOK c d n D (retrieveOptEntries w es d n).sol) := by
  unfold retrieveOptEntries at hne ⊢
  cases hf : es.find? fun e => e.depth == d && e.nodes == n && e.isOpt with
  | none => rw [hf] at hne; simp [Node.empty, Node.isEmpty] at hne
  | some e =>
    rw [hf] at hne
    simp only at hne ⊢
    have hm := List.mem_of_find?_eq_some hf
    have hp := List.find?_some hf
    simp only [Bool.and_eq_true, beq_iff_eq] at hp
    obtain ⟨⟨rfl, rfl⟩, _⟩ := hp
    exact ⟨(h e hm).real hne, fun x => (h e hm).opt x hne⟩

theorem retrieveOptEntries_empty {es : List Entry} {w : Int} {d n : Nat} :
    (retrieveOptEntries w es d n).isEmpty = true → retrieveOptEntries w es d n = Node.empty w := by
  unfold retrieveOptEntries
  cases hf : es.find? fun e => e.depth == d && e.nodes == n && e.isOpt with
  | none => intro _; rfl
  | some e =>
    have hp := List.find?_some hf
    simp only [Bool.and_eq_true, Entry.isOpt, Bool.not_eq_true'] at hp
    intro h; rw [hp.2] at h; simp at h

theorem retrieveOpt_spec {C : Cache} (h : CInv c T H C) {D : Data} {b : Branch} (hD : D = sel b T) {d n : Nat}
    (hne : (C.retrieveOpt c.cc D b d n).isEmpty = false) :
    (Real c.P c.mls d D (C.retrieveOpt c.cc D b d n) ∧ (C.retrieveOpt c.cc D b d n).numNodes ≤ n) ∧
      (H → LBOK c d n D (C.retrieveOpt c.cc D b d n).sol) := by
  have hv1 : ViewOf T D := by rw [hD]; exact sel_view b T
  have e1 := h.brs b
  rw [← hD] at e1
  have key : C.retrieveOpt c.cc D b d n = Node.empty c.worst ∨
      (C.retrieveOpt c.cc D b d n = retrieveOptEntries c.cc.worst ((C.br.find b).getD []) d n) ∨
      (C.retrieveOpt c.cc D b d n = retrieveOptEntries c.cc.worst ((C.ds.find (dataKey D)).getD []) d n) := by
    unfold Cache.retrieveOpt
    simp only
    by_cases h1 : c.cc.useBr = true <;> by_cases h2 : c.cc.useDs = true
    · rw [if_pos h1, if_pos h2]; split
      · exact .inr (.inr rfl)
      · exact .inr (.inl rfl)
    · rw [if_pos h1, if_neg h2]; split
      · exact .inl rfl
      · exact .inr (.inl rfl)
    · rw [if_neg h1, if_pos h2]; split
      · exact .inr (.inr rfl)
      · exact .inl rfl
    · rw [if_neg h1, if_neg h2]; split
      · exact .inl rfl
      · exact .inl rfl
  rcases key with k | k | k <;> rw [k] at hne ⊢
  · simp [Node.empty, Node.isEmpty] at hne
  · exact retrieveOptEntries_spec e1 hne
  · exact retrieveOptEntries_spec (h.dss D hv1) hne

theorem isOptEntries_retrieve {es : List Entry} {w : Int} {d n : Nat} (h : isOptEntries es d n = true) :
    (retrieveOptEntries w es d n).isEmpty = false := by
  unfold isOptEntries at h
  cases hf : es.find? fun e => e.nodes == n && e.depth == d with
  | none => rw [hf] at h; simp at h
  | some e =>
    rw [hf] at h
    have hm := List.mem_of_find?_eq_some hf
    have hp := List.find?_some hf
    simp only [Bool.and_eq_true, beq_iff_eq] at hp
    unfold retrieveOptEntries
    cases hg : es.find? fun e => e.depth == d && e.nodes == n && e.isOpt with
    | none =>
      have := List.find?_eq_none.1 hg e hm
      simp [hp.1, hp.2] at this
      simp only at h
      rw [this] at h; simp at h
    | some e' =>
      have hp' := List.find?_some hg
      simp only [Bool.and_eq_true, Entry.isOpt, Bool.not_eq_true'] at hp'
      exact hp'.2

theorem isOptCached_retrieve {C : Cache} {cc : CacheCfg} {D : Data} {b : Branch} {d n : Nat}
    (h : C.isOptCached cc D b d n = true) : (C.retrieveOpt cc D b d n).isEmpty = false := by
  unfold Cache.isOptCached at h
  unfold Cache.retrieveOpt
  simp only
  simp only [Bool.or_eq_true, Bool.and_eq_true] at h
  by_cases h1 : (if cc.useBr = true then retrieveOptEntries cc.worst ((C.br.find b).getD []) d n
    else Node.empty cc.worst).isEmpty = true
  · rw [if_pos h1]
    rcases h with ⟨hb, hi⟩ | ⟨hd, hi⟩
    · rw [if_pos hb, isOptEntries_retrieve hi] at h1; simp at h1
    · rw [if_pos hd]; exact isOptEntries_retrieve hi
  · rw [if_neg h1]; simpa using h1

theorem retrieveLBEntries_spec {D : Data} {es : List Entry} {d n : Nat} (h : EsOK c H D es) (hH : H)
    (h0 : LBOK c d n D 0) : LBOK c d n D (retrieveLBEntries es d n).sol := by
  unfold retrieveLBEntries
  refine foldl_inv (fun v : Node => LBOK c d n D v.sol) _ _ _ h0 ?_
  intro best hb e he
  split
  · rename_i hc
    have hl : LBOK c d n D e.lb.sol := ((h e he).lb hH hc.2.2).mono hc.2.1 hc.1
    split
    · exact hl
    · rcases addMax_cases best e.lb with hm | hm <;> rw [hm] <;> assumption
  · exact hb

theorem retrieveLB_spec {C : Cache} (h : CInv c T H C) {D : Data} {b : Branch} (hD : D = sel b T) {d n : Nat}
    (hH : H) (h0 : LBOK c d n D 0) : LBOK c d n D (C.retrieveLB c.cc D b d n).sol := by
  have hv1 : ViewOf T D := by rw [hD]; exact sel_view b T
  have e1 := h.brs b
  rw [← hD] at e1
  have h0' : LBOK c d n D (Node.value 0).sol := h0
  have r1 := retrieveLBEntries_spec e1 hH h0
  have r2 := retrieveLBEntries_spec (h.dss D hv1) hH h0
  have r3 : LBOK c d n D (if c.cc.useBr = true then retrieveLBEntries ((C.br.find b).getD []) d n
      else Node.value 0).sol := by split <;> assumption
  have r4 : LBOK c d n D (if c.cc.useDs = true then retrieveLBEntries ((C.ds.find (dataKey D)).getD []) d n
      else Node.value 0).sol := by split <;> assumption
  unfold Cache.retrieveLB
  simp only
  by_cases hl : c.cc.useLB = true
  · rw [if_pos hl]
    by_cases hx : (if c.cc.useBr = true then retrieveLBEntries ((C.br.find b).getD []) d n
      else Node.value 0).isEmpty = true
    · rw [if_pos hx]
      by_cases hy : (if c.cc.useDs = true then retrieveLBEntries ((C.ds.find (dataKey D)).getD []) d n
        else Node.value 0).isEmpty = true
      · rw [if_pos hy]; exact h0'
      · rw [if_neg hy]; exact r4
    · rw [if_neg hx]; exact r3
  · rw [if_neg hl]; exact h0'

end
end Streed
