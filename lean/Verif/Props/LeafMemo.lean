import Verif.Model.LeafMemo

/-!
# C93: the linear model of a leaf is fitted on the rows of that leaf
-/

namespace Streed

private theorem calls_eq {α : Type} (isWorst : α → Bool) (fit : Data → α) (T : Data) (bs : List Branch) (m : LeafMemo α)
    (hm : 0 < m.branch.length → m.sol = fit (sel m.branch T)) :
    (m.calls isWorst fit T bs).1 = bs.map fun b => fit (sel b T) := by
  induction bs generalizing m with
  | nil => rfl
  | cons b bs ih =>
    simp only [LeafMemo.calls, LeafMemo.call, List.map_cons]
    split
    · rename_i h
      rw [ih m hm, h.1, hm h.2.1]
    · rw [ih _ fun _ => rfl]

/-- C93: in every sequence of runs of one task object, on any data and with any penalties, every leaf call is answered with the model
fitted on the rows of its branch with the penalties of its run, whatever the object remembers from before. -/
theorem leaf_memory_exact {α : Type} (isWorst : α → Bool) (m : LeafMemo α) (rs : List (LeafRun α)) :
    m.runs isWorst rs = rs.map fun r => r.fit r.T :: r.rest.map fun b => r.fit (sel b r.T) := by
  induction rs generalizing m with
  | nil => rfl
  | cons r rs ih =>
    simp only [LeafMemo.runs, List.map_cons, ih]
    congr 1
    simp only [LeafMemo.calls, LeafMemo.call]
    split
    · rename_i h
      obtain ⟨h1, h2, _⟩ := h
      rw [← h1] at h2
      exact absurd h2 (Nat.lt_irrefl 0)
    · rw [calls_eq isWorst r.fit r.T r.rest _ fun _ => rfl]
      have e : sel [] r.T = r.T := by simp [sel]
      rw [e]

/-- The memory is used: the second of two calls for a branch does not fit again. -/
theorem leaf_memory_used {α : Type} (isWorst : α → Bool) (fit fit' : Data → α) (T : Data) (b : Branch) (hb : b ≠ [])
    (hw : isWorst (fit (sel b T)) = false) (m : LeafMemo α) (hm : b ≠ m.branch) :
    ((m.call isWorst fit (sel b T) b).2.call isWorst fit' (sel b T) b).1 = fit (sel b T) := by
  simp only [LeafMemo.call, hm, false_and, if_false, hw, and_true, true_and]
  rw [if_pos (List.length_pos_iff.2 hb)]

/-- Why the first call must be for the root: a run that starts at another branch would return the model of the run before, fitted on other
data. -/
theorem leaf_memory_needs_root : ∃ (fit : Data → Nat) (T T' : Data) (b : Branch),
    let m := ((LeafMemo.init 0).calls (· == 0) fit T [[], b]).2
    (m.calls (· == 0) fit T' [b]).1 ≠ [fit (sel b T')] :=
  ⟨List.length, [⟨0, fun _ => true, 0⟩], [⟨0, fun _ => true, 0⟩, ⟨1, fun _ => true, 0⟩], Branch.child [] 0 true, by decide⟩

/-- Two runs that end and begin with calls for the same branch, on different data. -/
example : (LeafMemo.init 0).runs (· == 0)
    [⟨List.length, [⟨0, fun _ => true, 0⟩], [Branch.child [] 0 true]⟩,
      ⟨List.length, [⟨0, fun _ => true, 0⟩, ⟨1, fun _ => true, 0⟩], [Branch.child [] 0 true, Branch.child [] 0 true]⟩] = [[1, 1], [2, 2, 2]] := by
  decide

end Streed
