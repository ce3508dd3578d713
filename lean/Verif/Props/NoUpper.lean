import Verif.Lemmas.NoUpper
import Verif.Props.Reconstruct

/-!
# C01, C08: switching upper bounding off

`optimal_default_budget_partial` leaves out one combination of options: the depth-two solver with
`use_upper_bound = False`. The depth-two solver looks at the upper bound whatever that option says, while the code above it
takes a missing result for a proof. Up to depth three this does no harm; at depth four it can.
-/

namespace Streed

/-- C01 for the search up to depth three, for every combination of options: the value found by a run that reports
`is_optimal` is the smallest number of misclassifications of any tree of that depth. -/
theorem optimal_depth_three {nF nL : Nat} {o : Options} {T : Data} (d : Nat) (ub : Int) (hd : d ≤ 3) (hw : World nF o)
    (hi : Input nL T) (hT : T ≠ []) (hub : (int32Max : Int) ≤ ub)
    (hopt : (fitAccuracy nF nL 1 o ⟨d, 2 ^ d - 1, false, ub⟩ T).2 = true) :
    BestScore nF nL d (2 ^ d - 1) T (fitAccuracy nF nL 1 o ⟨d, 2 ^ d - 1, false, ub⟩ T).1.result.sol := by
  by_cases hterm : o.useTerm = true → o.useUB = true
  · exact optimal_default_budget_partial d ub hw hi hT hub hterm hopt
  have ht : o.useTerm = true := by by_contra h; exact hterm fun h' => absurd h' h
  have hu : o.useUB = false := by
    cases h : o.useUB with
    | false => rfl
    | true => exact absurd (fun _ => h) hterm
  have hlen : 1 ≤ T.length := List.length_pos_iff.2 hT
  have G := accCfg_good (o := { o with useUB := true }) hi (Nat.le_refl 1) hw.order (fun _ => ⟨rfl, rfl⟩) (fun _ => rfl)
  have hp : 1 ≤ 2 ^ d := Nat.one_le_two_pow
  have hs := NoUpper.solve_spec (c := accCfg nF nL 1 o (isRedundant (accuracy nF nL) 1 T)) G hu rfl ht ⟨d, 2 ^ d - 1, false, ub⟩
    (by rw [preprocess_length]; exact hlen) hw.clock hd (by show 2 ^ d - 1 + 1 = 2 ^ d; omega) (fun h => by simp at h)
  obtain ⟨h1, h2⟩ := hs
  obtain ⟨_, h4⟩ := h2 hopt
  unfold fitAccuracy
  generalize solve (accCfg nF nL 1 o (isRedundant (accuracy nF nL) 1 T)) ⟨d, 2 ^ d - 1, false, ub⟩
    (preprocess (accuracy nF nL) 1 T) = r at *
  refine bestScore_of_isOpt hT ((preprocess_optimum (accuracy_featureFree nF nL) (fun _ _ => rfl) (Nat.le_refl 1) T _ _ _).1
    ⟨h1.2.1.attained h1.2.2, fun x hx => (h4 x hx ?_).2⟩)
  have := accuracy_lt nF nL (preprocess (accuracy nF nL) 1 T) x int32Max (by
    rw [preprocess_length]; have := hi.size; omega)
  exact Int.le_trans (Int.le_of_lt this) hub

/-- C08 for the search up to depth three: the value found depends on none of the options. -/
theorem search_options_do_not_matter_depth_three {nF nL : Nat} {o o' : Options} {T : Data} (d : Nat) (ub ub' : Int) (hd : d ≤ 3)
    (hw : World nF o) (hw' : World nF o') (hi : Input nL T) (hT : T ≠ []) (hub : (int32Max : Int) ≤ ub) (hub' : (int32Max : Int) ≤ ub')
    (hopt : (fitAccuracy nF nL 1 o ⟨d, 2 ^ d - 1, false, ub⟩ T).2 = true)
    (hopt' : (fitAccuracy nF nL 1 o' ⟨d, 2 ^ d - 1, false, ub'⟩ T).2 = true) :
    (fitAccuracy nF nL 1 o ⟨d, 2 ^ d - 1, false, ub⟩ T).1.result.sol =
      (fitAccuracy nF nL 1 o' ⟨d, 2 ^ d - 1, false, ub'⟩ T).1.result.sol :=
  bestScore_unique (optimal_depth_three d ub hd hw hi hT hub hopt) (optimal_depth_three d ub' hd hw' hi hT hub' hopt')

/-! ### At depth four upper bounding cannot be switched off -/

/-- The default options without upper bounding. -/
def noUB (nF : Nat) : Options := { defaultOptions nF with useUB := false }

theorem noUB_world (nF : Nat) : World nF (noUB nF) :=
  ⟨fun _ f => by simp [noUB, defaultOptions], fun _ _ _ _ => rfl⟩

/-- Twelve instances with eight features. -/
def ubData : Data := [exInst 0 125 1, exInst 1 55 1, exInst 2 2 0, exInst 3 8 0, exInst 4 0 1, exInst 5 60 1, exInst 6 208 0,
  exInst 7 128 0, exInst 8 15 0, exInst 9 195 0, exInst 10 0 1, exInst 11 32 0]

/-- A tree of depth four without errors. -/
def ubBest : Tree := .node 1 (.node 3 (.node 5 (.node 7 (.leaf 1) (.leaf 0)) (.leaf 0)) (.node 0 (.node 2 (.leaf 0) (.leaf 1)) (.leaf 1)))
  (.node 0 (.leaf 0) (.node 2 (.leaf 0) (.node 3 (.leaf 1) (.leaf 0))))

theorem ubData_input : Input 2 ubData :=
  ⟨by decide, by simp [ubData, exInst], by simp [ubData, exInst, IdSorted], by decide⟩

set_option maxRecDepth 100000 in
theorem ubData_search : (fitAccuracy 8 2 1 (noUB 8) ⟨4, 2 ^ 4 - 1, false, int32Max⟩ ubData).1.result.sol = 1 := by decide +kernel

/-- C01 with `use_upper_bound = False` and all other options at their defaults. -/
def NoUpperBoundOptimal : Prop := ∀ (nF nL : Nat) (T : Data) (d : Nat), Input nL T → T ≠ [] →
  (fitAccuracy nF nL 1 (noUB nF) ⟨d, 2 ^ d - 1, false, int32Max⟩ T).2 = true →
  BestScore nF nL d (2 ^ d - 1) T (fitAccuracy nF nL 1 (noUB nF) ⟨d, 2 ^ d - 1, false, int32Max⟩ T).1.result.sol

/-- Without upper bounding `fit()` can report `is_optimal` for a value that is not the best one: here it finds one
misclassification at depth four although a tree without any exists. -/
theorem no_upper_bound_not_optimal : ¬ NoUpperBoundOptimal := by
  intro h
  have := bestScore_depth (h 8 2 ubData 4 ubData_input (by simp [ubData]) rfl) ubBest (by simp [ubBest, Tree.Over]) (by decide)
  rw [ubData_search] at this
  revert this
  decide

/-- C08 for the search, for all options: two runs that report `is_optimal` find the same value. -/
def SearchOptionsDoNotMatter : Prop := ∀ (nF nL : Nat) (T : Data) (d : Nat) (o o' : Options), Input nL T → T ≠ [] →
  World nF o → World nF o' →
  (fitAccuracy nF nL 1 o ⟨d, 2 ^ d - 1, false, int32Max⟩ T).2 = true →
  (fitAccuracy nF nL 1 o' ⟨d, 2 ^ d - 1, false, int32Max⟩ T).2 = true →
  (fitAccuracy nF nL 1 o ⟨d, 2 ^ d - 1, false, int32Max⟩ T).1.result.sol =
    (fitAccuracy nF nL 1 o' ⟨d, 2 ^ d - 1, false, int32Max⟩ T).1.result.sol

/-- Switching upper bounding off changes the value found. -/
theorem upper_bound_option_matters : ¬ SearchOptionsDoNotMatter := by
  intro h
  have h1 := h 8 2 ubData 4 (noUB 8) (defaultOptions 8) ubData_input (by simp [ubData]) (noUB_world 8) (defaultOptions_world 8) rfl rfl
  have h2 := bestScore_depth (optimal_default_budget_partial 4 int32Max (defaultOptions_world 8) ubData_input (by simp [ubData])
    (Int.le_refl _) (fun _ => rfl) rfl) ubBest (by simp [ubBest, Tree.Over]) (by decide)
  rw [← h1, ubData_search] at h2
  revert h2
  decide

/-! ### The hypotheses are met -/

set_option maxRecDepth 100000 in
/-- Depth three without upper bounding on the same data: one misclassification is the best there is. -/
example : World 8 (noUB 8) ∧ Input 2 ubData ∧ ubData ≠ [] ∧
    (fitAccuracy 8 2 1 (noUB 8) ⟨3, 2 ^ 3 - 1, false, int32Max⟩ ubData).2 = true ∧
    (fitAccuracy 8 2 1 (noUB 8) ⟨3, 2 ^ 3 - 1, false, int32Max⟩ ubData).1.result.sol = 1 :=
  ⟨noUB_world 8, ubData_input, by simp [ubData], rfl, by decide +kernel⟩

end Streed
