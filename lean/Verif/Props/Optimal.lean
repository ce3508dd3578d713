import Verif.Lemmas.Fit

/-!
# C01–C04, C07, C08: the result of a finished run

`fitAccuracy` is preprocessing followed by the search on a fresh solver, for arbitrary options, feature
order and clock. Its second component is the reported flag `is_optimal`.
-/

namespace Streed

/-- The outside world behaves: the feature order lists exactly the features, and a time limit that is
exceeded stays exceeded. -/
structure World (nF : Nat) (o : Options) : Prop where
  order : ∀ D f, f ∈ o.order D ↔ f < nF
  clock : Monotone o.clock

theorem over_legal {nF nL : Nat} {t : Tree} (h : t.Over nF nL) (D : Data) : t.Legal (accuracy nF nL) 0 D := by
  induction t generalizing D with
  | leaf k => exact ⟨h, Nat.zero_le _⟩
  | node f l r ihl ihr => exact ⟨h.1, rfl, ihl h.2.1 _, ihr h.2.2 _⟩

theorem legal_over {nF nL mls : Nat} {t : Tree} {D : Data} (h : t.Legal (accuracy nF nL) mls D) : t.Over nF nL := by
  induction t generalizing D with
  | leaf k => exact h.1
  | node f l r ihl ihr => exact ⟨h.1, ihl h.2.2.1, ihr h.2.2.2⟩

/-- `v` is the smallest number of misclassifications of any tree over the features and labels with depth at
most `d` and at most `n` branching nodes. -/
def BestScore (nF nL d n : Nat) (T : Data) (v : Int) : Prop :=
  (∃ t : Tree, t.Over nF nL ∧ t.depth ≤ d ∧ t.nodes ≤ n ∧ (misclassified t T : Int) = v) ∧
  ∀ t : Tree, t.Over nF nL → t.depth ≤ d → t.nodes ≤ n → v ≤ misclassified t T

theorem bestScore_of_isOpt {nF nL d n : Nat} {T : Data} {v : Int} (hT : T ≠ []) (h : IsOpt (accuracy nF nL) 1 d n T v) :
    BestScore nF nL d n T v := by
  obtain ⟨⟨t, ⟨h1, h2, h3⟩, h4⟩, h5⟩ := h
  refine ⟨⟨t, legal_over h3, h1, h2, by rw [← cost_eq_misclassified nF nL]; exact h4⟩, fun x hx hd hn => ?_⟩
  have := h5 (prune x T) ⟨Nat.le_trans (prune_depth x T) hd, Nat.le_trans (prune_nodes x T) hn, prune_legal (over_legal hx T) hT⟩
  rw [prune_cost rfl, cost_eq_misclassified] at this
  exact this

/-- C01 for the search: with the default node budget and leaf size one, the value found by a run that reports
`is_optimal` is the smallest number of misclassifications of any tree of that depth. Holds for every dataset, feature
order, clock and every combination of options except the depth-two solver without upper bounding. The tree that is
rebuilt from the caches afterwards can be worse (`returned_not_optimal`); for the returned tree see
`returned_tree_optimal_partial`. -/
theorem optimal_default_budget_partial {nF nL : Nat} {o : Options} {T : Data} (d : Nat) (ub : Int) (hw : World nF o)
    (hi : Input nL T) (hT : T ≠ []) (hub : (int32Max : Int) ≤ ub) (hterm : o.useTerm = true → o.useUB = true)
    (hopt : (fitAccuracy nF nL 1 o ⟨d, 2 ^ d - 1, false, ub⟩ T).2 = true) :
    BestScore nF nL d (2 ^ d - 1) T (fitAccuracy nF nL 1 o ⟨d, 2 ^ d - 1, false, ub⟩ T).1.result.sol := by
  have hp : 1 ≤ 2 ^ d := Nat.one_le_two_pow
  have := fit_spec (nF := nF) (nL := nL) (mls := 1) (o := o) (T := T) (t := ⟨d, 2 ^ d - 1, false, ub⟩) hi (Nat.le_refl _)
    (List.length_pos_iff.2 hT) hw.order hw.clock (fun h => ⟨rfl, hterm h, by show 2 ^ d - 1 + 1 = 2 ^ d; omega, fun h => by simp at h⟩)
    (fun _ => rfl) (by show 2 ^ d - 1 + 1 ≤ 2 ^ d; omega) hub hopt
  exact bestScore_of_isOpt hT this.2.1

/-- In C01 the node bound is no restriction. -/
theorem bestScore_depth {nF nL d : Nat} {T : Data} {v : Int} (h : BestScore nF nL d (2 ^ d - 1) T v) (t : Tree)
    (ht : t.Over nF nL) (hd : t.depth ≤ d) : v ≤ misclassified t T := by
  refine h.2 t ht hd ?_
  have h1 := t.nodes_lt_pow
  have h2 : 2 ^ t.depth ≤ 2 ^ d := Nat.pow_le_pow_right (by decide) hd
  omega

theorem bestScore_unique {nF nL d n : Nat} {T : Data} {v w : Int} (hv : BestScore nF nL d n T v)
    (hw : BestScore nF nL d n T w) : v = w := by
  obtain ⟨⟨t, a1, a2, a3, a4⟩, a5⟩ := hv
  obtain ⟨⟨x, b1, b2, b3, b4⟩, b5⟩ := hw
  have h1 := a5 x b1 b2 b3
  have h2 := b5 t a1 a2 a3
  omega

/-- C08 for the search: two finished default-budget runs on the same data find the same value, whatever the options,
feature orders and clocks. The values of the returned trees can differ (`options_matter`). -/
theorem options_do_not_matter_partial {nF nL : Nat} {o o' : Options} {T : Data} (d : Nat) (ub ub' : Int) (hw : World nF o)
    (hw' : World nF o') (hi : Input nL T) (hT : T ≠ []) (hub : (int32Max : Int) ≤ ub) (hub' : (int32Max : Int) ≤ ub')
    (hterm : o.useTerm = true → o.useUB = true) (hterm' : o'.useTerm = true → o'.useUB = true)
    (hopt : (fitAccuracy nF nL 1 o ⟨d, 2 ^ d - 1, false, ub⟩ T).2 = true)
    (hopt' : (fitAccuracy nF nL 1 o' ⟨d, 2 ^ d - 1, false, ub'⟩ T).2 = true) :
    (fitAccuracy nF nL 1 o ⟨d, 2 ^ d - 1, false, ub⟩ T).1.result.sol =
      (fitAccuracy nF nL 1 o' ⟨d, 2 ^ d - 1, false, ub'⟩ T).1.result.sol :=
  bestScore_unique (optimal_default_budget_partial d ub hw hi hT hub hterm hopt) (optimal_default_budget_partial d ub' hw' hi hT hub' hterm' hopt')

/-- C07, other direction: a run in which some time check failed does not report `is_optimal`. -/
theorem timeout_reported {nF nL mls : Nat} {o : Options} {T : Data} (t : Top) (hw : World nF o) (i : Nat)
    (hi : i < (fitAccuracy nF nL mls o t T).1.st.tick) (hf : o.clock i = false) :
    (fitAccuracy nF nL mls o t T).2 = false := by
  unfold fitAccuracy solve solveFrom at *
  dsimp only [St.next] at *
  generalize (if t.allTrees = true ∨ t.maxNodes = 1 then _ else _ : Run) = r at *
  cases h : Cfg.ok (accCfg nF nL mls o (isRedundant (accuracy nF nL) mls T)) r.st with
  | false => rfl
  | true =>
    have h1 : o.clock r.st.tick = true := h
    have := hw.clock i r.st.tick (by omega) h1
    rw [hf] at this; simp at this

/-- C02, restricted to runs without the depth-two solver: optimal among all trees within the node limit. With
the depth-two solver the claim is false (`node_limit_not_optimal`). -/
theorem optimal_node_limit_partial {nF nL : Nat} {o : Options} {T : Data} (d n : Nat) (ub : Int) (hw : World nF o)
    (hi : Input nL T) (hT : T ≠ []) (hub : (int32Max : Int) ≤ ub) (hterm : o.useTerm = false) (hn : n ≤ 2 ^ d - 1)
    (hopt : (fitAccuracy nF nL 1 o ⟨d, n, false, ub⟩ T).2 = true) :
    BestScore nF nL d n T (fitAccuracy nF nL 1 o ⟨d, n, false, ub⟩ T).1.result.sol := by
  have hp : 1 ≤ 2 ^ d := Nat.one_le_two_pow
  have := fit_spec (nF := nF) (nL := nL) (mls := 1) (o := o) (T := T) (t := ⟨d, n, false, ub⟩) hi (Nat.le_refl _)
    (List.length_pos_iff.2 hT) hw.order hw.clock (fun h => by rw [hterm] at h; simp at h)
    (fun _ => rfl) (by show n + 1 ≤ 2 ^ d; omega) hub hopt
  exact bestScore_of_isOpt hT this.2.1

/-- C03, restricted to runs without depth-two solver and similarity bound: optimal among all trees whose leaves
hold at least `mls` instances. -/
theorem optimal_leaf_size_partial {nF nL mls : Nat} {o : Options} {T : Data} (d n : Nat) (ub : Int) (hw : World nF o)
    (hi : Input nL T) (hmls : 1 ≤ mls) (hT : mls ≤ T.length) (hub : (int32Max : Int) ≤ ub) (hterm : o.useTerm = false)
    (hsim : o.simLB = false) (hn : n ≤ 2 ^ d - 1)
    (hopt : (fitAccuracy nF nL mls o ⟨d, n, false, ub⟩ T).2 = true) :
    IsOpt (accuracy nF nL) mls d n T (fitAccuracy nF nL mls o ⟨d, n, false, ub⟩ T).1.result.sol := by
  have hp : 1 ≤ 2 ^ d := Nat.one_le_two_pow
  exact (fit_spec (nF := nF) (nL := nL) (mls := mls) (o := o) (T := T) (t := ⟨d, n, false, ub⟩) hi hmls hT hw.order hw.clock
    (fun h => by rw [hterm] at h; simp at h) (fun h => by rw [hsim] at h; simp at h)
    (by show n + 1 ≤ 2 ^ d; omega) hub hopt).2.1

/-- C04, restricted to runs without the depth-two solver: with `all_trees` the result is optimal for the node
limit, hence at least as good as the best tree of each smaller size. -/
theorem optimal_all_trees_partial {nF nL : Nat} {o : Options} {T : Data} (d n : Nat) (ub : Int) (hw : World nF o)
    (hi : Input nL T) (hT : T ≠ []) (hub : (int32Max : Int) ≤ ub) (hterm : o.useTerm = false) (hn : n ≤ 2 ^ d - 1)
    (hopt : (fitAccuracy nF nL 1 o ⟨d, n, true, ub⟩ T).2 = true) :
    BestScore nF nL d n T (fitAccuracy nF nL 1 o ⟨d, n, true, ub⟩ T).1.result.sol := by
  have hp : 1 ≤ 2 ^ d := Nat.one_le_two_pow
  have := fit_spec (nF := nF) (nL := nL) (mls := 1) (o := o) (T := T) (t := ⟨d, n, true, ub⟩) hi (Nat.le_refl _)
    (List.length_pos_iff.2 hT) hw.order hw.clock (fun h => by rw [hterm] at h; simp at h)
    (fun _ => rfl) (by show n + 1 ≤ 2 ^ d; omega) hub hopt
  exact bestScore_of_isOpt hT this.2.1

/-! ### Witnesses -/

/-- The default options: everything on except the branch cache, features in order, no time limit. -/
def defaultOptions (nF : Nat) : Options where
  useLB := true
  useUB := true
  subUB := true
  simLB := true
  useTerm := true
  useBr := false
  useDs := true
  order := fun _ => List.range nF
  clock := fun _ => true

theorem defaultOptions_world (nF : Nat) : World nF (defaultOptions nF) :=
  ⟨fun _ f => by simp [defaultOptions], fun _ _ _ _ => rfl⟩

/-- The claim of C02 for the default options. -/
def NodeLimitOptimal : Prop := ∀ (nF nL : Nat) (T : Data) (d n : Nat), Input nL T → T ≠ [] → n ≤ 2 ^ d - 1 →
  BestScore nF nL d n T (fitAccuracy nF nL 1 (defaultOptions nF) ⟨d, n, false, int32Max⟩ T).1.result.sol

theorem node_limit_not_optimal : ¬ NodeLimitOptimal := by
  intro h
  have := (h 3 2 twoData 2 2 ⟨by decide, by simp [twoData, exInst], by simp [twoData, exInst, IdSorted], by decide⟩
    (by simp [twoData]) (by decide)).2 (.node 1 (.leaf 0) (.node 2 (.leaf 0) (.leaf 1))) (by simp [Tree.Over]) (by decide) (by decide)
  revert this
  decide

/-- The claim of C03 for the default options. -/
def LeafSizeOptimal : Prop := ∀ (nF nL mls : Nat) (T : Data) (d : Nat), Input nL T → 1 ≤ mls → mls ≤ T.length →
  IsOpt (accuracy nF nL) mls d (2 ^ d - 1) T (fitAccuracy nF nL mls (defaultOptions nF) ⟨d, 2 ^ d - 1, false, int32Max⟩ T).1.result.sol

theorem leaf_size_not_optimal : ¬ LeafSizeOptimal := by
  intro h
  have := (h 2 2 2 leafData 2 ⟨by decide, by simp [leafData, exInst], by simp [leafData, exInst, IdSorted], by decide⟩
    (by decide) (by decide)).2 (.node 0 (.node 1 (.leaf 0) (.leaf 1)) (.leaf 0)) (by decide)
  revert this
  decide

/-- The exclusive or of two features. -/
def xorData : Data := [exInst 0 0 1, exInst 1 3 1, exInst 2 1 0, exInst 3 2 0]

theorem xorData_input : Input 2 xorData :=
  ⟨by decide, by simp [xorData, exInst], by simp [xorData, exInst, IdSorted], by decide⟩

/-- The claim of C04 for the default options. -/
def AllTreesOptimal : Prop := ∀ (nF nL : Nat) (T : Data) (d n : Nat), Input nL T → T ≠ [] → n ≤ 2 ^ d - 1 →
  BestScore nF nL d n T (fitAccuracy nF nL 1 (defaultOptions nF) ⟨d, n, true, int32Max⟩ T).1.result.sol

/-- With `all_trees` the search for one node stores the value of the best leaf as lower bound for two and three
nodes, so larger trees are never searched: on the exclusive or of two features the run returns a leaf. -/
theorem all_trees_not_optimal : ¬ AllTreesOptimal := by
  intro h
  have := (h 2 2 xorData 2 3 xorData_input (by simp [xorData]) (by decide)).2
    (.node 0 (.node 1 (.leaf 1) (.leaf 0)) (.node 1 (.leaf 0) (.leaf 1))) (by simp [Tree.Over]) (by decide) (by decide)
  revert this
  decide

/-! ### The hypotheses are met -/

/-- C01, C07, C08: default options on the exclusive or; the flag is set and the value is 0. -/
example : World 2 (defaultOptions 2) ∧ Input 2 xorData ∧ xorData ≠ [] ∧
    (fitAccuracy 2 2 1 (defaultOptions 2) ⟨2, 3, false, int32Max⟩ xorData).2 = true ∧
    (fitAccuracy 2 2 1 (defaultOptions 2) ⟨2, 3, false, int32Max⟩ xorData).1.result.sol = 0 :=
  ⟨defaultOptions_world 2, xorData_input, by simp [xorData], rfl, by decide +kernel⟩

/-- C07: a clock that expires at the third check; the flag is not set. -/
example : let o : Options := { defaultOptions 2 with clock := fun i => decide (i < 2) }
    World 2 o ∧ 2 < (fitAccuracy 2 2 1 o ⟨2, 3, false, int32Max⟩ xorData).1.st.tick ∧
    (fitAccuracy 2 2 1 o ⟨2, 3, false, int32Max⟩ xorData).2 = false := by
  refine ⟨⟨fun _ f => by simp [defaultOptions], fun i j hij h => ?_⟩, by decide +kernel, by decide +kernel⟩
  simp only [decide_eq_true_eq] at *; omega

/-- C02–C04: the same without depth-two solver and similarity bound. -/
example : let o : Options := { defaultOptions 2 with useTerm := false, simLB := false }
    World 2 o ∧ (fitAccuracy 2 2 1 o ⟨2, 2, false, int32Max⟩ xorData).1.result.sol = 1 ∧
    (fitAccuracy 2 2 2 o ⟨2, 3, false, int32Max⟩ xorData).1.result.sol = 2 ∧
    (fitAccuracy 2 2 1 o ⟨2, 3, true, int32Max⟩ xorData).1.result.sol = 0 :=
  ⟨⟨fun _ f => by simp [defaultOptions], fun _ _ _ _ => rfl⟩, by decide +kernel, by decide +kernel, by decide +kernel⟩

end Streed
