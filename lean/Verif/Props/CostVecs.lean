import Verif.Model.CostVecs
import Verif.Lemmas.Tasks

/-!
# C104: cost vectors of any length
-/

namespace Streed

open TaskLemmas

namespace Vecs

theorem argminFrom_spec (xs pre : List Rat) (best : Nat) (least : Rat) (hb : pre[best]? = some least) (hl : ∀ x ∈ pre, least ≤ x) :
    ∃ m, (pre ++ xs)[argminFrom best least pre.length xs]? = some m ∧ ∀ x ∈ pre ++ xs, m ≤ x := by
  induction xs generalizing pre best least with
  | nil => exact ⟨least, by simpa [argminFrom] using hb, by simpa using hl⟩
  | cons x xs ih =>
    unfold argminFrom
    have e : pre ++ x :: xs = (pre ++ [x]) ++ xs := by simp
    have el : pre.length + 1 = (pre ++ [x]).length := by simp
    rw [e, el]
    by_cases h : x < least
    · rw [if_pos h]
      refine ih (pre ++ [x]) pre.length x (by simp) fun y hy => ?_
      rcases List.mem_append.1 hy with hy | hy
      · exact le_trans (le_of_lt h) (hl y hy)
      · simp only [List.mem_singleton] at hy; rw [hy]
    · rw [if_neg h]
      refine ih (pre ++ [x]) best least ?_ fun y hy => ?_
      · have : best < pre.length := by
          by_contra hc
          rw [List.getElem?_eq_none (by omega)] at hb; cases hb
        rw [List.getElem?_append_left this]; exact hb
      · rcases List.mem_append.1 hy with hy | hy
        · exact hl y hy
        · simp only [List.mem_singleton] at hy; rw [hy]; exact not_lt.1 h

end Vecs

/-- The label given to a row is one that costs least. -/
theorem argminVec_least {v : List Rat} {k : Nat} (h : argminVec v = some k) : ∃ m, v[k]? = some m ∧ ∀ x ∈ v, m ≤ x := by
  cases v with
  | nil => cases h
  | cons x xs =>
    simp only [argminVec, Option.some.injEq] at h
    have := Vecs.argminFrom_spec xs [x] 0 x rfl (by simp)
    rw [List.length_singleton, h] at this
    exact this

namespace Vecs

theorem mapM_argmin {vs : List (List Rat)} {ls : List Nat} : vs.mapM argminVec = some ls ↔ (∀ v ∈ vs, v ≠ []) ∧ ls = vs.filterMap argminVec := by
  induction vs generalizing ls with
  | nil => simp [eq_comm]
  | cons v vs ih =>
    rw [List.mapM_cons]
    cases v with
    | nil => simp [argminVec]
    | cons x xs =>
      have e : argminVec (x :: xs) = some (argminFrom 0 x 1 xs) := rfl
      rw [e, List.filterMap_cons_some e]
      cases hm : vs.mapM argminVec with
      | none =>
        simp only [Option.bind_eq_bind, Option.bind_some, Option.bind_none, reduceCtorEq, List.mem_cons, forall_eq_or_imp, ne_eq, not_false_eq_true, true_and, false_iff, not_and]
        intro h1 _
        have := (ih (ls := vs.filterMap argminVec)).2 ⟨h1, rfl⟩
        rw [hm] at this; cases this
      | some l' =>
        obtain ⟨h1, h2⟩ := ih.1 hm
        simp only [Option.bind_eq_bind, Option.bind_some, Option.pure_def, Option.some.injEq, List.mem_cons, forall_eq_or_imp, ne_eq, reduceCtorEq, not_false_eq_true, true_and]
        rw [← h2]
        exact ⟨fun h => ⟨h1, h.symm⟩, fun h => h.2.symm⟩

theorem lt_vecLabels {ls : List Nat} {k : Nat} : k < vecLabels ls ↔ ∃ l ∈ ls, k ≤ l := by
  have : ∀ (ls : List Nat) (m : Nat), k < ls.foldl (fun m l => max m (l + 1)) m ↔ k < m ∨ ∃ l ∈ ls, k ≤ l := by
    intro ls
    induction ls with
    | nil => simp
    | cons l ls ih =>
      intro m
      rw [List.foldl_cons, ih]
      simp only [List.mem_cons, exists_eq_or_imp]
      constructor
      · rintro (h | h)
        · rcases Nat.lt_or_ge k m with h' | h'
          · exact .inl h'
          · exact .inr (.inl (by omega))
        · exact .inr (.inr h)
      · rintro (h | h | h)
        · exact .inl (by omega)
        · exact .inl (by omega)
        · exact .inr h
  unfold vecLabels; simpa using this ls 0

theorem foldlM_read {α : Type} (g : α → Option Rat) (op : Rat → Rat → Rat) (l : List α) (s : Rat) :
    l.foldlM (fun s a => (g a).map fun c => op s c) s =
      if ∀ a ∈ l, (g a).isSome = true then some (l.foldl (fun s a => op s ((g a).getD 0)) s) else none := by
  induction l generalizing s with
  | nil => simp
  | cons a l ih =>
    rw [List.foldlM_cons]
    cases h : g a with
    | none => simp [h]
    | some c =>
      simp only [Option.map_some, Option.bind_eq_bind, Option.bind_some, ih, List.mem_cons, forall_eq_or_imp, h, Option.isSome_some, true_and,
        List.foldl_cons, Option.getD_some]

theorem mapM_isSome {α β : Type} (f : α → Option β) (l : List α) : (l.mapM f).isSome = true ↔ ∀ a ∈ l, (f a).isSome = true := by
  induction l with
  | nil => simp
  | cons a l ih =>
    rw [List.mapM_cons]
    cases h : f a with
    | none => simp [h]
    | some b =>
      cases h' : l.mapM f with
      | none => rw [h'] at ih; simp [h] at ih ⊢; exact ih
      | some c => rw [h'] at ih; simp [h] at ih ⊢; exact ih

theorem worst_isSome (nL : Nat) (vs : List (List Rat)) : (worstPerLabel nL vs).isSome = true ↔ ∀ v ∈ vs, nL ≤ v.length := by
  unfold worstPerLabel
  rw [mapM_isSome]
  simp only [foldlM_read (fun v : List Rat => v[_]?) (fun w c => if c > w then c else w), List.mem_range]
  constructor
  · intro h v hv
    by_contra hc
    have := h v.length (by omega)
    rw [if_neg] at this
    · cases this
    · intro h'; have := h' v hv; simp at this
  · intro h l hl
    rw [if_pos]
    · rfl
    · intro v hv
      have := h v hv
      rw [List.getElem?_eq_getElem (by omega)]; rfl

end Vecs

/-- The shape that is asked for: an array has at least two columns, and as many as the array of the fit; lists may have any. -/
def VecInput.Shape (n : Option Nat) (y : VecInput) : Prop := ∀ w rows, y = .array w rows → 2 ≤ w ∧ ∀ k, n = some k → w = k

theorem shapeOK_iff (n : Option Nat) (y : VecInput) : y.shapeOK n = true ↔ y.Shape n := by
  unfold VecInput.Shape VecInput.shapeOK
  cases y with
  | list vs => simp
  | array w rows =>
    cases n with
    | none => simp
    | some k =>
      simp only [Bool.and_eq_true, decide_eq_true_eq, beq_iff_eq]
      constructor
      · rintro ⟨h1, h2⟩ w' rows' e
        injection e with e1 e2
        subst e1
        exact ⟨h1, fun j hj => by injection hj with hj; omega⟩
      · intro h
        obtain ⟨h1, h2⟩ := h w rows rfl
        exact ⟨h1, (h2 k rfl).symm⟩

/-- **C104**: `fit` is refused exactly if an array has a wrong shape, a vector is empty, or a row has no cost for some label up to one that is the
cheapest of another row. -/
theorem vectors_accepted_iff (y : VecInput) : (startVecs y).isSome = true ↔
    y.Shape none ∧ (∀ v ∈ y.vecs, v ≠ []) ∧ ∀ u ∈ y.vecs, ∀ k, argminVec u = some k → ∀ v ∈ y.vecs, k < v.length := by
  rw [← shapeOK_iff]
  unfold startVecs checkVecs
  by_cases hs : y.shapeOK none = true
  · rw [if_pos hs]
    cases hm : y.vecs.mapM argminVec with
    | none =>
      simp only [Option.map_none, Option.bind_none, Option.isSome_none, Bool.false_eq_true, false_iff]
      rintro ⟨-, h, -⟩
      have := Vecs.mapM_argmin.2 ⟨h, rfl⟩
      rw [hm] at this; cases this
    | some ls =>
      obtain ⟨h1, h2⟩ := Vecs.mapM_argmin.1 hm
      simp only [Option.map_some, Option.bind_some, Option.isSome_map, Vecs.worst_isSome]
      constructor
      · intro h
        refine ⟨hs, h1, fun u hu k hk v hv => Nat.lt_of_lt_of_le (Vecs.lt_vecLabels.2 ⟨k, ?_, Nat.le_refl k⟩) (h v hv)⟩
        rw [h2]; exact List.mem_filterMap.2 ⟨u, hu, hk⟩
      · rintro ⟨-, -, h⟩ v hv
        by_contra hc
        obtain ⟨l, hl, hle⟩ := Vecs.lt_vecLabels.1 (Nat.not_le.1 hc)
        rw [h2] at hl
        obtain ⟨u, hu, hk⟩ := List.mem_filterMap.1 hl
        have := h u hu l hk v hv
        omega
  · rw [if_neg hs]
    simp [hs]

/-- The cost of giving a row a label, if the row has one. -/
def costOf (vs : List (List Rat)) (i : Inst) (label : Nat) : Option Rat := (vs[i.id]?).bind fun v => v[label]?

/-- The total costs of a tree are read without an exception exactly if every row has a cost for the label the tree gives it, and are then
the sum of these costs. -/
theorem vecCost_iff (vs : List (List Rat)) (t : Tree) (D : Data) (s : Rat) :
    vecCost vs t D = some s ↔ (∀ i ∈ D, (costOf vs i (t.predict i)).isSome = true) ∧
      s = (D.map fun i => (costOf vs i (t.predict i)).getD 0).sum := by
  induction t generalizing D s with
  | leaf k =>
    unfold vecCost vecLeaf
    have e : ∀ (D : Data) (s : Rat), D.foldl (fun s i => s + (costOf vs i k).getD 0) s = s + (D.map fun i => (costOf vs i k).getD 0).sum := by
      intro D
      induction D with
      | nil => simp
      | cons i D ih => intro s; rw [List.foldl_cons, ih]; simp only [List.map_cons, List.sum_cons]; ring
    rw [show (D.foldlM (fun (s : Rat) i => ((vs[i.id]?).bind fun v => v[k]?).map fun c => s + c) 0) = _ from
      Vecs.foldlM_read (fun i => costOf vs i k) (fun s c => s + c) D 0, e, zero_add]
    simp only [Tree.predict]
    split
    · rename_i h
      simp only [Option.some.injEq]
      exact ⟨fun e => ⟨h, e.symm⟩, fun e => e.2.symm⟩
    · rename_i h
      exact ⟨fun e => (by simp at e), fun e => absurd e.1 h⟩
  | node f l r ihl ihr =>
    have hsum : (D.map fun i => (costOf vs i ((Tree.node f l r).predict i)).getD 0).sum =
        ((without f D).map fun i => (costOf vs i (l.predict i)).getD 0).sum + ((having f D).map fun i => (costOf vs i (r.predict i)).getD 0).sum := by
      rw [← sum_filter_split _ f D]
      congr 2
      · apply List.map_congr_left; intro i hi
        have : i.feat f = false := by simpa using (List.mem_filter.1 hi).2
        simp [Tree.predict, this]
      · apply List.map_congr_left; intro i hi
        have : i.feat f = true := by simpa using (List.mem_filter.1 hi).2
        simp [Tree.predict, this]
    have hall : (∀ i ∈ D, (costOf vs i ((Tree.node f l r).predict i)).isSome = true) ↔
        (∀ i ∈ without f D, (costOf vs i (l.predict i)).isSome = true) ∧ ∀ i ∈ having f D, (costOf vs i (r.predict i)).isSome = true := by
      constructor
      · intro h
        refine ⟨fun i hi => ?_, fun i hi => ?_⟩
        · have := h i (List.mem_filter.1 hi).1
          have hf : i.feat f = false := by simpa using (List.mem_filter.1 hi).2
          simpa [Tree.predict, hf] using this
        · have := h i (List.mem_filter.1 hi).1
          have hf : i.feat f = true := by simpa using (List.mem_filter.1 hi).2
          simpa [Tree.predict, hf] using this
      · rintro ⟨h1, h2⟩ i hi
        cases hf : i.feat f with
        | false => simpa [Tree.predict, hf] using h1 i (List.mem_filter.2 ⟨hi, by simp [hf]⟩)
        | true => simpa [Tree.predict, hf] using h2 i (List.mem_filter.2 ⟨hi, by simp [hf]⟩)
    rw [hsum, hall]
    unfold vecCost
    simp only [Option.bind_eq_some_iff, Option.map_eq_some_iff, ihl, ihr]
    constructor
    · rintro ⟨x, ⟨h1, rfl⟩, y, ⟨h2, rfl⟩, rfl⟩; exact ⟨⟨h1, h2⟩, rfl⟩
    · rintro ⟨⟨h1, h2⟩, rfl⟩; exact ⟨_, ⟨h1, rfl⟩, _, ⟨h2, rfl⟩, rfl⟩

/-- **C104** for `fit`: once the search has started, every tree over the labels considered has the sum of the costs of its predictions, without an
exception, whatever the lengths of the vectors. -/
theorem vectors_search (y : VecInput) (ls : List Nat) (nL nF : Nat) (h : startVecs y = some (ls, nL)) (t : Tree) (ht : t.Over nF nL) (D : Data)
    (hD : ∀ i ∈ D, i.id < y.vecs.length) :
    vecCost y.vecs t D = some ((D.map fun i => ((y.vecs.getD i.id []).getD (t.predict i) 0)).sum) := by
  have hlen : ∀ v ∈ y.vecs, nL ≤ v.length := by
    unfold startVecs at h
    cases hc : checkVecs none y with
    | none => rw [hc] at h; cases h
    | some r =>
      rw [hc] at h
      simp only [Option.bind_some, Option.map_eq_some_iff] at h
      obtain ⟨w, hw, e⟩ := h
      have := (Vecs.worst_isSome (vecLabels r.1) y.vecs).1 (by rw [hw]; rfl)
      rw [← (Prod.mk.inj e).2]; exact this
  have hp : ∀ (t : Tree), t.Over nF nL → ∀ i, t.predict i < nL := by
    intro t
    induction t with
    | leaf k => intro ht i; exact ht
    | node f l r ihl ihr =>
      intro ht i
      cases hf : i.feat f with
      | false => simpa [Tree.predict, hf] using ihl ht.2.1 i
      | true => simpa [Tree.predict, hf] using ihr ht.2.2 i
  have hr : ∀ i ∈ D, costOf y.vecs i (t.predict i) = some ((y.vecs.getD i.id []).getD (t.predict i) 0) := by
    intro i hi
    have h1 := hD i hi
    have h2 : t.predict i < (y.vecs[i.id]).length := Nat.lt_of_lt_of_le (hp t ht i) (hlen _ (List.getElem_mem h1))
    unfold costOf
    rw [List.getD_eq_getElem?_getD, List.getD_eq_getElem?_getD, List.getElem?_eq_getElem h1]
    simp only [Option.bind_some, Option.getD_some]
    rw [List.getElem?_eq_getElem h2]; rfl
  rw [vecCost_iff]
  refine ⟨fun i hi => by rw [hr i hi]; rfl, ?_⟩
  congr 1
  apply List.map_congr_left
  intro i hi
  rw [hr i hi]; rfl

/-- **C104** for `score`: it raises, or the answer is the sum over the rows of the cost of the predicted label. It raises exactly if an array does not have the
stored number of columns, a vector is empty, or a row has no cost for its predicted label. -/
theorem vectors_score (n : Nat) (t : Tree) (y : VecInput) (D : Data) (s : Rat) :
    scoreVecs n t y D = some s ↔ y.Shape (some n) ∧ (∀ v ∈ y.vecs, v ≠ []) ∧
      (∀ i ∈ D, (costOf y.vecs i (t.predict i)).isSome = true) ∧ s = (D.map fun i => (costOf y.vecs i (t.predict i)).getD 0).sum := by
  rw [← shapeOK_iff]
  unfold scoreVecs checkVecs
  by_cases hs : y.shapeOK (some n) = true
  · rw [if_pos hs]
    cases hm : y.vecs.mapM argminVec with
    | none =>
      simp only [Option.map_none, Option.bind_none, reduceCtorEq, false_iff]
      rintro ⟨-, h, -⟩
      have := Vecs.mapM_argmin.2 ⟨h, rfl⟩
      rw [hm] at this; cases this
    | some ls =>
      have h1 := (Vecs.mapM_argmin.1 hm).1
      simp only [Option.map_some, Option.bind_some, vecCost_iff]
      exact ⟨fun h => ⟨hs, h1, h⟩, fun h => h.2.2⟩
  · rw [if_neg hs]
    simp [hs]

/-- **C104**, violated: making a `CostVector` from an empty list reads past its end; from any other list it does not. -/
theorem empty_vector_undefined (c : List Rat) : makeCostVector c = none ↔ c = [] := by
  cases c <;> simp [makeCostVector]

/-- Vectors of different lengths can be accepted, and can be refused: what matters is which labels are cheapest. -/
theorem ragged_cases : (startVecs (.list [[0, 1], [2, 1, 5]])) = some ([0, 1], 2) ∧ startVecs (.list [[0, 1], [2, 2, 1]]) = none :=
  ⟨by decide +kernel, by decide +kernel⟩

/-- The hypotheses are met, by a tree with a test. -/
example : ∃ s, vecCost [[0, 1], [2, 1, 5]] (.node 0 (.leaf 0) (.leaf 1)) [⟨0, fun _ => false, 0⟩, ⟨1, fun _ => true, 1⟩] = some s ∧ s = 1 :=
  ⟨1, by decide +kernel, rfl⟩

end Streed
