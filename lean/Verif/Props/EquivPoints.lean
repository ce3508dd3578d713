import Verif.Lemmas.EquivPoints

/-!
# The equivalent-points bound (C36)

Instances with the same features get the same prediction from every tree, so that in every such group the
instances outside the largest class are misclassified. The specification is `misclassified`, the number of
instances of the view that a tree gives a wrong label.
-/

namespace Streed

/-- The bound never exceeds the number of errors of any tree, on any view of the training data, in whatever order the
sort leaves instances with equal features. -/
theorem equiv_points_sound {nF nL : Nat} {T S : List Inst} (_hS : SortedByFeatures nF T S) {D : List EInst}
    (hD : ∀ e ∈ D, e ∈ assignGroups nF S) {b : Nat} (hb : equivBound nL D = some b) (t : Tree) (ht : t.Over nF nL) :
    b ≤ misclassified t (D.map (·.inst)) := by
  have := equivBound_le (h := fun e => t.predict e.inst) ⟨fun e _ => over_predict_lt ht _, fun x hx y hy hxy =>
    predict_congr ht (assignGroups_same nF S x (hD x hx) y (hD y hy) hxy)⟩ hb
  rw [misclassified, List.countP_map]
  exact this

/-- On a view that holds an instance the computation is defined. -/
theorem equiv_points_defined {nL : Nat} {D : List EInst} (hne : D ≠ []) (hl : ∀ e ∈ D, e.inst.label < nL) :
    ∃ b, equivBound nL D = some b := by
  obtain ⟨e, es, rfl⟩ := List.exists_cons_of_ne_nil hne
  exact equivBound_some ⟨e, by simp, hl e (by simp)⟩

/-- On an empty view it is not: the last element of an empty vector is read. -/
theorem equiv_points_empty_undefined (nL : Nat) : equivBound nL [] = none := by
  have : ∀ l : List Nat, popEmptyRev (fun _ => []) l = none := by
    intro l
    induction l with
    | nil => rfl
    | cons k ks ih => simpa [popEmptyRev] using ih
  simp [equivBound, this]

/-- Instances get the same group exactly if they have the same features. -/
theorem groups_are_feature_vectors {nF : Nat} {T S : List Inst} (hS : SortedByFeatures nF T S) (a : EInst)
    (ha : a ∈ assignGroups nF S) (b : EInst) (hb : b ∈ assignGroups nF S) :
    a.gid = b.gid ↔ ∀ f < nF, a.inst.feat f = b.inst.feat f :=
  ⟨assignGroups_same nF S a ha b hb, assignGroups_sorted nF S hS.2 a ha b hb⟩

/-! ### Concrete cases -/

/-- Six instances with two features; the instances with neither feature have labels 1, 0, 0, 0. -/
def eqpData : List Inst :=
  let v := fun (a b : Bool) (l : Nat) => (⟨0, fun f => if f = 0 then a else if f = 1 then b else false, l⟩ : Inst)
  [v true true 1, v true true 1, v true false 0, v false false 0, v false false 1, v false false 0]

example : SortedByFeatures 2 eqpData eqpData := ⟨List.Perm.refl _, by decide⟩
example : equivBound 2 (assignGroups 2 eqpData) = some 1 := by decide
example : (assignGroups 2 eqpData).map (·.gid) = [0, 0, 1, 2, 2, 2] := by decide

/-- The bound is that number if the first instance of the view shares its features and label with another one. -/
theorem equiv_points_exact_partial {nF nL : Nat} {T S : List Inst} (_hS : SortedByFeatures nF T S) {D : List EInst}
    (hD : D.Sublist (assignGroups nF S)) (hl : ∀ e ∈ D, e.inst.label < nL) {e : EInst} {D' : List EInst}
    (he : D = e :: D') (hf : ∃ e' ∈ D', e'.inst.label = e.inst.label ∧ ∀ f < nF, e'.inst.feat f = e.inst.feat f) :
    equivBound nL D = some (groupErrors nL D) := by
  have ho := assignGroups_order nF S
  obtain ⟨e', h1, h2, h3⟩ := hf
  refine equivBound_exact hl (ho.1.sublist hD) (ho.2.sublist hD) he ⟨e', h1, h2, ?_⟩
  exact (groups_are_feature_vectors _hS e' (hD.mem (by rw [he]; simp [h1])) e (hD.mem (by rw [he]; simp))).2 h3

example : (∃ e' ∈ (assignGroups 2 eqpData).tail, e'.inst.label = 1 ∧ ∀ f < 2, e'.inst.feat f = true) ∧
    groupErrors 2 (assignGroups 2 eqpData) = 1 := by decide

/-- Two instances with the same features and different labels. -/
def eqpPair : List Inst := [⟨0, fun _ => false, 0⟩, ⟨0, fun _ => false, 1⟩]

/-- The bound can be smaller than that: if the first instance is the only one with its label, the loop does not run
at all. -/
theorem equiv_points_not_tight :
    ∃ S, SortedByFeatures 1 S S ∧ equivBound 2 (assignGroups 1 S) = some 0 ∧
      groupErrors 2 (assignGroups 1 S) = 1 :=
  ⟨eqpPair, ⟨List.Perm.refl _, by decide⟩, by decide, by decide⟩

/-- The value remembered for a branch belongs to the data it was computed for: nothing removes it when a solver is
given other data, and then it can exceed the errors of the best tree. -/
theorem equiv_points_cache_stale :
    ∃ (S₁ S₂ : List Inst) (c : List (Nat × Nat)) (b : Nat) (c' : List (Nat × Nat)) (t : Tree),
      equivBoundCached 2 [] 0 (assignGroups 2 S₁) = some (1, c) ∧
      equivBoundCached 2 c 0 (assignGroups 2 S₂) = some (b, c') ∧
      t.Over 2 2 ∧ misclassified t ((assignGroups 2 S₂).map (·.inst)) < b :=
  ⟨eqpData, [⟨0, fun _ => false, 0⟩], [(0, 1)], 1, [(0, 1)], .leaf 0, by decide, by decide,
    by unfold Tree.Over; omega, by decide⟩

/-- With a cache filled from the same data, the answer is the bound. -/
theorem equiv_points_cache_fresh {κ : Type} [DecidableEq κ] (nL : Nat) (view : κ → List EInst) (cache : List (κ × Nat))
    (hc : ∀ k v, cache.lookup k = some v → equivBound nL (view k) = some v) (k : κ) (v : Nat) (cache' : List (κ × Nat))
    (h : equivBoundCached nL cache k (view k) = some (v, cache')) :
    equivBound nL (view k) = some v ∧ ∀ k v, cache'.lookup k = some v → equivBound nL (view k) = some v := by
  unfold equivBoundCached at h
  split at h
  · next w hw =>
    cases h
    exact ⟨hc k v hw, hc⟩
  · obtain ⟨w, hw, he⟩ := Option.map_eq_some_iff.1 h
    cases he
    refine ⟨hw, ?_⟩
    intro k' v' h'
    rw [List.lookup_cons] at h'
    by_cases hk : k' = k
    · subst hk
      simp only [beq_self_eq_true] at h'
      cases h'
      exact hw
    · have : (k' == k) = false := by simpa using hk
      rw [this] at h'
      exact hc k' v' h'

end Streed
