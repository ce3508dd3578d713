import Verif.Lemmas.Shallow
import Verif.Props.Reconstruct

/-!
# C51: the complexity-penalised search

`fitPenalised` is preprocessing, sorting for the equivalent-points bound and the search on a fresh solver. An error
costs `e` units and a branching node `p` units.
-/

namespace Streed

/-- `v` is the smallest penalised number of errors of any tree of depth at most `d`. -/
def PenalisedBest (nF nL e p d : Nat) (T : Data) (v : Int) : Prop :=
  (∃ t : Tree, t.Over nF nL ∧ t.depth ≤ d ∧ (e * misclassified t T + p * t.nodes : Int) = v) ∧
  ∀ t : Tree, t.Over nF nL → t.depth ≤ d → v ≤ e * misclassified t T + p * t.nodes

theorem penalisedBest_of_isOpt {nF nL e p d : Nat} {T : Data} {v : Int} (hT : T ≠ [])
    (h : IsOpt (penalised nF nL e p) 1 d (2 ^ d - 1) T v) : PenalisedBest nF nL e p d T v := by
  obtain ⟨⟨t, ⟨h1, h2, h3⟩, h4⟩, h5⟩ := h
  refine ⟨⟨t, legal_over_pen h3, h1, by rw [← penalised_cost nF nL]; exact h4⟩, fun x hx hd => ?_⟩
  have hn : (prune x T).nodes ≤ 2 ^ d - 1 := by
    have h1 := (prune x T).nodes_lt_pow
    have h2 : 2 ^ (prune x T).depth ≤ 2 ^ d := Nat.pow_le_pow_right (by decide) (Nat.le_trans (prune_depth x T) hd)
    omega
  have h6 := h5 (prune x T) ⟨Nat.le_trans (prune_depth x T) hd, hn, prune_legal (over_legal_pen hx T) hT⟩
  have h7 := prune_cost_le (P := penalised nF nL e p) (Int.natCast_nonneg p) x T
  rw [penalised_cost nF nL e p x] at h7
  exact Int.le_trans h6 h7

/-- C51 without lower bounds: a run that reports `is_optimal` found the best trade-off between errors and nodes. Covers
the reduction of the budgets by the node price, the early stop of the loop over the features and the depth-two solver.
The default options have lower bounds on, for which the claim fails (`penalised_not_optimal`). -/
theorem penalised_optimal_partial {nF nL e p : Nat} {o : Options} {T S : Data} (d : Nat) (ub : Int) (hw : World nF o)
    (hi : Input nL T) (hT : T ≠ []) (hS : SortedByFeatures nF (preprocess (penalised nF nL e p) 1 T) S)
    (hN : (e + p) * T.length < e * int32Max) (hlb : o.useLB = false) (huub : o.useUB = true)
    (hub : ((e * int32Max : Nat) : Int) ≤ ub) (hopt : (fitPenalised nF nL e p 1 o ⟨d, 2 ^ d - 1, false, ub⟩ T S).2 = true) :
    PenalisedBest nF nL e p d T (fitPenalised nF nL e p 1 o ⟨d, 2 ^ d - 1, false, ub⟩ T S).1.result.sol := by
  have hp : 1 ≤ 2 ^ d := Nat.one_le_two_pow
  refine penalisedBest_of_isOpt hT (fitPenalised_spec (t := ⟨d, 2 ^ d - 1, false, ub⟩) hi (Nat.le_refl 1)
    (List.length_pos_iff.2 hT) hS hN hw.order hw.clock (fun _ => ⟨rfl, ?_, fun h => by simp at h⟩) (fun _ => rfl) hlb huub ?_ hub hopt).2
  · show 2 ^ d - 1 + 1 = 2 ^ d; omega
  · show 2 ^ d - 1 + 1 ≤ 2 ^ d; omega

/-- C51 for depth at most two with the depth-two solver and upper bounding, whatever the other options: in particular
for the default options. -/
theorem penalised_depth_two_partial {nF nL e p : Nat} {o : Options} {T S : Data} (d : Nat) (ub : Int) (hd : d ≤ 2)
    (hw : World nF o) (hi : Input nL T) (hT : T ≠ []) (hS : SortedByFeatures nF (preprocess (penalised nF nL e p) 1 T) S)
    (hN : (e + p) * T.length < e * int32Max) (hterm : o.useTerm = true) (huub : o.useUB = true)
    (hub : ((e * int32Max : Nat) : Int) ≤ ub) (hopt : (fitPenalised nF nL e p 1 o ⟨d, 2 ^ d - 1, false, ub⟩ T S).2 = true) :
    PenalisedBest nF nL e p d T (fitPenalised nF nL e p 1 o ⟨d, 2 ^ d - 1, false, ub⟩ T S).1.result.sol := by
  have hp : 1 ≤ 2 ^ d := Nat.one_le_two_pow
  refine penalisedBest_of_isOpt hT (fitPenalised_shallow (t := ⟨d, 2 ^ d - 1, false, ub⟩) hi
    (List.length_pos_iff.2 hT) hS hN hw.order hw.clock hterm huub hd ?_ rfl hub hopt).2
  show 2 ^ d - 1 + 1 = 2 ^ d; omega

/-! ### The default options at depth three -/

/-- The user's reading of C51 for the default options. -/
def PenalisedOptimal : Prop := ∀ (nF nL e p d : Nat) (T S : Data), Input nL T → T ≠ [] →
  SortedByFeatures nF (preprocess (penalised nF nL e p) 1 T) S → (e + p) * T.length < e * int32Max →
  (fitPenalised nF nL e p 1 (giniOptions nF nL) ⟨d, 2 ^ d - 1, false, (e * int32Max : Nat)⟩ T S).2 = true →
  PenalisedBest nF nL e p d T
    (fitPenalised nF nL e p 1 (giniOptions nF nL) ⟨d, 2 ^ d - 1, false, (e * int32Max : Nat)⟩ T S).1.result.sol

/-- Eleven instances with four features; a node costs as much as an error (`cost_complexity` is 1/11). -/
def penData : Data := [exInst 0 0 0, exInst 1 7 0, exInst 2 9 1, exInst 3 0 0, exInst 4 9 1, exInst 5 3 0, exInst 6 4 1,
  exInst 7 8 0, exInst 8 4 1, exInst 9 2 1, exInst 10 10 1]

/-- Four nodes, no errors. -/
def penBest : Tree := .node 0 (.node 1 (.node 2 (.leaf 0) (.leaf 1)) (.leaf 1)) (.node 1 (.leaf 1) (.leaf 0))

/-- The data as the task sorts it. -/
def penSorted : Data := (preprocess (penalised 4 2 1 1) 1 penData).insertionSort (fun a b => featGt 4 b a = false)

theorem penData_input : Input 2 penData :=
  ⟨by decide, by simp [penData, exInst], by simp [penData, exInst, IdSorted], by decide⟩

set_option maxRecDepth 100000 in
theorem penSorted_ok : SortedByFeatures 4 (preprocess (penalised 4 2 1 1) 1 penData) penSorted :=
  ⟨List.perm_insertionSort _ _, by decide +kernel⟩

set_option maxRecDepth 100000 in
theorem penData_search : (fitPenalised 4 2 1 1 1 (giniOptions 4 2) ⟨3, 2 ^ 3 - 1, false, (1 * int32Max : Nat)⟩ penData penSorted).1.result.sol = 5 := by
  decide +kernel

/-- With all default options and depth three the search reports `is_optimal` for a value that is not the optimum. After
the search with depth two, `ComputeLowerBound` assumes that any better subtree needs more nodes than the depth that is
left of the finished search; but such a subtree may be shallow below a deep one. -/
theorem penalised_not_optimal : ¬ PenalisedOptimal := by
  intro h
  have := (h 4 2 1 1 3 penData penSorted penData_input (by simp [penData]) penSorted_ok (by decide) rfl).2 penBest
    (by simp [penBest, Tree.Over]) (by decide)
  rw [penData_search] at this
  revert this
  decide

/-! ### The hypotheses are met -/

/-- The best trade-off on the same data without lower bounds: four nodes and no errors. -/
example : let o : Options := { giniOptions 4 2 with useLB := false }
    World 4 o ∧ Input 2 penData ∧ SortedByFeatures 4 (preprocess (penalised 4 2 1 1) 1 penData) penSorted ∧
    (1 + 1) * penData.length < 1 * int32Max ∧ o.useUB = true ∧
    (fitPenalised 4 2 1 1 1 o ⟨3, 2 ^ 3 - 1, false, (1 * int32Max : Nat)⟩ penData penSorted).2 = true ∧
    (fitPenalised 4 2 1 1 1 o ⟨3, 2 ^ 3 - 1, false, (1 * int32Max : Nat)⟩ penData penSorted).1.result.sol = 4 :=
  ⟨⟨(giniOptions_world 4 2).order, fun _ _ _ _ => rfl⟩, penData_input, penSorted_ok, by decide, rfl, rfl, by decide +kernel⟩

/-- Default options at depth two. -/
example : World 4 (giniOptions 4 2) ∧ (giniOptions 4 2).useTerm = true ∧ (giniOptions 4 2).useUB = true ∧
    (giniOptions 4 2).useLB = true ∧
    (fitPenalised 4 2 1 1 1 (giniOptions 4 2) ⟨2, 2 ^ 2 - 1, false, (1 * int32Max : Nat)⟩ penData penSorted).2 = true ∧
    (fitPenalised 4 2 1 1 1 (giniOptions 4 2) ⟨2, 2 ^ 2 - 1, false, (1 * int32Max : Nat)⟩ penData penSorted).1.result.sol = 5 :=
  ⟨giniOptions_world 4 2, rfl, rfl, rfl, rfl, by decide +kernel⟩

end Streed
