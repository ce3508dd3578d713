import Verif.Lemmas.Difference

/-!
# C16: the difference between two views

`ComputeDifference` returns exactly the instances of the new view missing from the old one, and
exactly the instances of the old view missing from the new one; applying the difference to the old
view gives the new one; the counting variant returns the sizes of these sets.
-/

namespace Streed

/-- Per label the code returns the set differences, in order (C16). -/
theorem difference_exact (nL : Nat) (old new : Data) (ho : IdSorted old) (hn : IdSorted new) :
    computeDifference nL old new =
      ((List.range nL).flatMap fun k => minus (byLabel new k) (byLabel old k),
       (List.range nL).flatMap fun k => minus (byLabel old k) (byLabel new k)) := by
  unfold computeDifference
  have e : ∀ k, mergeDiff (byLabel old k) (byLabel new k) =
      (minus (byLabel new k) (byLabel old k), minus (byLabel old k) (byLabel new k)) :=
    fun k => mergeDiff_eq _ _ (ho.filter _) (hn.filter _)
  simp only [e]

/-- Membership form: an instance is reported as added iff it is in the new view and no instance with
its id and label is in the old view; symmetrically for removals. -/
theorem difference_mem (nL : Nat) (old new : Data) (ho : IdSorted old) (hn : IdSorted new)
    (hl : ∀ i ∈ old ++ new, i.label < nL) (i : Inst) :
    (i ∈ (computeDifference nL old new).1 ↔
      i ∈ new ∧ ∀ j ∈ old, j.label = i.label → j.id ≠ i.id) ∧
    (i ∈ (computeDifference nL old new).2 ↔
      i ∈ old ∧ ∀ j ∈ new, j.label = i.label → j.id ≠ i.id) := by
  rw [difference_exact nL old new ho hn]
  simp only [List.mem_flatMap, List.mem_range, minus, byLabel, List.mem_filter, decide_eq_true_eq,
    Bool.not_eq_true', List.any_eq_false, beq_iff_eq, and_imp]
  constructor
  · constructor
    · rintro ⟨k, hk, ⟨hi, rfl⟩, h⟩; exact ⟨hi, fun j hj e => h j hj e⟩
    · rintro ⟨hi, h⟩
      exact ⟨i.label, hl i (List.mem_append_right _ hi), ⟨hi, rfl⟩, fun j hj e => h j hj e⟩
  · constructor
    · rintro ⟨k, hk, ⟨hi, rfl⟩, h⟩; exact ⟨hi, fun j hj e => h j hj e⟩
    · rintro ⟨hi, h⟩
      exact ⟨i.label, hl i (List.mem_append_left _ hi), ⟨hi, rfl⟩, fun j hj e => h j hj e⟩

/-- The counting variant agrees with the lists. -/
theorem difference_counts (nL : Nat) (old new : Data) :
    totalDifference nL old new =
      (computeDifference nL old new).1.length + (computeDifference nL old new).2.length ∧
    totalRemovals nL old new = (computeDifference nL old new).2.length := by
  unfold totalDifference totalRemovals computeDifference numRemovals
  simp only [mergeCount_eq, List.length_flatMap]
  refine ⟨?_, trivial⟩
  induction List.range nL with
  | nil => rfl
  | cons k ks ih => simp only [List.map_cons, List.sum_cons, ih]; omega

/-- Applying the difference gives the new view: old plus additions is new plus removals. -/
theorem difference_apply (nL : Nat) (old new : Data) (ho : IdSorted old) (hn : IdSorted new)
    (hl : ∀ i ∈ old ++ new, i.label < nL) (hc : Consistent old new) :
    (new ++ (computeDifference nL old new).2).Perm (old ++ (computeDifference nL old new).1) := by
  rw [difference_exact nL old new ho hn]
  have hnew := byLabel_flat_perm nL new fun i hi => hl i (List.mem_append_right _ hi)
  have hold := byLabel_flat_perm nL old fun i hi => hl i (List.mem_append_left _ hi)
  refine (hnew.symm.append_right _).trans (List.Perm.trans ?_ (hold.append_right _))
  clear hnew hold hl
  induction List.range nL with
  | nil => exact List.Perm.refl _
  | cons k ks ih =>
    simp only [List.flatMap_cons]
    have h1 := minus_perm (byLabel old k) (byLabel new k) (ho.filter _) (hn.filter _)
      (fun a ha b hb => hc a (List.mem_filter.1 ha).1 b (List.mem_filter.1 hb).1)
    have key : ∀ a b c d : Data, (a ++ b ++ (c ++ d)).Perm ((a ++ c) ++ (b ++ d)) := by
      intro a b c d
      rw [List.append_assoc, List.append_assoc]
      refine List.Perm.append_left a ?_
      rw [← List.append_assoc, ← List.append_assoc]
      exact List.Perm.append_right d List.perm_append_comm
    exact (key _ _ _ _).trans ((h1.append ih).trans (key _ _ _ _).symm)

/-- Instances used in examples: bits of `b` are the features. -/
def exInst (id b label : Nat) : Inst := ⟨id, fun f => b.testBit f, label⟩

example : IdSorted [exInst 0 1 0, exInst 2 3 1, exInst 5 2 0] ∧
    IdSorted [exInst 1 1 1, exInst 2 3 1] ∧
    ((computeDifference 2 [exInst 0 1 0, exInst 2 3 1, exInst 5 2 0]
      [exInst 1 1 1, exInst 2 3 1]).1.map (·.id)) = [1] ∧
    ((computeDifference 2 [exInst 0 1 0, exInst 2 3 1, exInst 5 2 0]
      [exInst 1 1 1, exInst 2 3 1]).2.map (·.id)) = [0, 5] := by
  refine ⟨by simp [IdSorted, exInst], by simp [IdSorted, exInst], ?_, ?_⟩ <;> decide

end Streed
