import Verif.Lemmas.NoCache
import Verif.Props.Reconstruct
import Verif.Props.Timeout

/-!
# C63, and C01, C06, C08 up to depth three: the size and the value of the returned tree

The tree is rebuilt after the search from whatever the caches answer, subproblem by subproblem. Up to depth three (the default
of the Python layer is three) every answer is the one the search used.
-/

namespace Streed

/-- The tree behind a fitted result. -/
theorem fitTree_elim {nF nL mls : Nat} {o : Options} {T : Data} {t : Top} {r : Fitted} (h : fitTree nF nL mls o t T = some (some r)) :
    ∃ tr, returned (accCfg nF nL mls o (isRedundant (accuracy nF nL) mls T)) (preprocess (accuracy nF nL) mls T)
        (fitAccuracy nF nL mls o t T).1 = some (some tr) ∧ r.tree = unflip (flipped (accuracy nF nL) T) tr ∧
      r.value = trainValue (accuracy nF nL) tr (preprocess (accuracy nF nL) mls T) 0 := by
  unfold fitTree at h
  dsimp only at h
  cases hr : returned (accCfg nF nL mls o (isRedundant (accuracy nF nL) mls T)) (preprocess (accuracy nF nL) mls T)
      (fitAccuracy nF nL mls o t T).1 with
  | none => rw [hr] at h; simp at h
  | some x =>
    cases x with
    | none => rw [hr] at h; simp at h
    | some tr =>
      rw [hr] at h
      simp only [Option.map_some, Option.some.injEq] at h
      exact ⟨tr, rfl, by rw [← h], by rw [← h]⟩

/-- C63: with an explicit node limit, the returned tree has at most that many branching nodes. For every dataset, leaf size, feature
order and clock (so also after a time-out) and all bounding options, with the branch cache off (the default), and
`max_depth` at most three or no caches at all. Missing: the dataset cache with `max_depth` above three, and the branch cache. -/
theorem returned_tree_node_limit_partial {nF nL mls : Nat} {o : Options} {T : Data} (d n : Nat) (all : Bool)
    (ho : ∀ D f, f ∈ o.order D → f < nF) (hi : Input nL T) (hmls : 1 ≤ mls) (hT : mls ≤ T.length) (hn : n ≤ 2 ^ d - 1)
    (hbr : o.useBr = false) (hd : d ≤ 3 ∨ o.useDs = false) :
    ∃ r : Fitted, fitTree nF nL mls o ⟨d, n, all, int32Max⟩ T = some (some r) ∧
      r.tree.nodes ≤ n ∧ r.tree.depth ≤ d ∧ r.tree.Over nF nL ∧ LeavesHold mls r.tree T := by
  have G := accCfg_base (nF := nF) (mls := mls) (o := o) hi ho
  have hp : 1 ≤ 2 ^ d := Nat.one_le_two_pow
  have hfit : n + 1 ≤ 2 ^ d := by omega
  obtain ⟨e, he⟩ := solve_sound G ⟨d, n, all, int32Max⟩ hfit
  have hne := he.ne (Int.le_refl _) (by rw [preprocess_length]; exact hT)
  rcases returned_spec G False _ he (fun _ _ _ => rfl) (fun h => h.elim) with ⟨_, h⟩ | ⟨tr, h1, h2, h3, _⟩
  · omega
  · obtain ⟨b1, b2⟩ := fitTree_back hmls T tr h3
    have hnodes : tr.nodes ≤ n := by
      cases hds : o.useDs with
      | false =>
        have := returned_size G hbr hds _ he (fun _ _ _ => rfl) h1
        exact Nat.le_trans this.1 this.2
      | true =>
        have hd3 : d ≤ 3 := hd.resolve_right (by rw [hds]; simp)
        obtain ⟨e', he', hh⟩ := solve_h G hbr hds hmls ⟨d, n, all, int32Max⟩ hfit hd3
        have := returned_h G hbr hds hmls ⟨d, n, all, int32Max⟩ hd3 he' hh (fun _ _ _ => rfl) h1
        exact Nat.le_trans this.1 this.2.1
    exact ⟨⟨_, _⟩, by unfold fitTree fitAccuracy; dsimp only; rw [h1]; rfl, by dsimp only; rw [unflip_nodes]; exact hnodes,
      by dsimp only; rw [unflip_depth]; exact h2, legal_over b1, legal_leavesHold b1⟩

/-- With the depth-two solver and `max_depth` at most three the returned tree misclassifies at most as many training instances as the
best solution the search has found, for any node limit, leaf size and clock (so also after a time-out). -/
theorem returned_value_depth_three {nF nL mls : Nat} {o : Options} {T : Data} (t : Top) (ho : ∀ D f, f ∈ o.order D → f < nF)
    (hi : Input nL T) (hmls : 1 ≤ mls) (hfit : t.maxNodes + 1 ≤ 2 ^ t.maxDepth) (hd : t.maxDepth ≤ 3) (hterm : o.useTerm = true)
    (hbr : o.useBr = false) (hds : o.useDs = true) (r : Fitted) (h : fitTree nF nL mls o t T = some (some r)) :
    misclassified r.tree T ≤ (fitAccuracy nF nL mls o t T).1.result.sol := by
  have G := accCfg_base (nF := nF) (mls := mls) (o := o) hi ho
  rw [← reported_score_is_tree_score t ho hi hmls hfit r h]
  obtain ⟨tr, h1, _, h3⟩ := fitTree_elim h
  obtain ⟨e', he', hh⟩ := solve_h G hbr hds hmls t hfit hd
  have := (returned_h G hbr hds hmls t hd he' hh (fun _ _ _ => rfl) h1).2.2 hterm
  rw [h3, trainValue_eq, Int.zero_add]
  exact this

/-- C01 and C06 up to depth three, default caches: a run that reports `is_optimal` returns a tree with the value found by
the search, and no tree of that depth misclassifies fewer training instances. Beyond depth three the claim is false
(`returned_not_optimal`). -/
theorem returned_optimal_depth_three {nF nL : Nat} {o : Options} {T : Data} (d : Nat) (hw : World nF o)
    (hi : Input nL T) (hT : T ≠ []) (hd : d ≤ 3) (hbr : o.useBr = false) (hds : o.useDs = true)
    (hterm : o.useTerm = true → o.useUB = true)
    (hopt : (fitAccuracy nF nL 1 o ⟨d, 2 ^ d - 1, false, int32Max⟩ T).2 = true) :
    ∃ r : Fitted, fitTree nF nL 1 o ⟨d, 2 ^ d - 1, false, int32Max⟩ T = some (some r) ∧
      r.value = misclassified r.tree T ∧
      r.value = (fitAccuracy nF nL 1 o ⟨d, 2 ^ d - 1, false, int32Max⟩ T).1.result.sol ∧
      r.tree.Over nF nL ∧ r.tree.depth ≤ d ∧
      ∀ t : Tree, t.Over nF nL → t.depth ≤ d → r.value ≤ misclassified t T := by
  cases hu : o.useTerm with
  | false => exact returned_tree_optimal_partial d false hw hi hT hu hopt
  | true =>
    have hp : 1 ≤ 2 ^ d := Nat.one_le_two_pow
    have hfit : 2 ^ d - 1 + 1 ≤ 2 ^ d := by omega
    have ho := fun D f h => (hw.order D f).1 h
    obtain ⟨r, h1, h2, _, h4, _⟩ := returned_tree_within_limits (mls := 1) (o := o) d false ho hi (Nat.le_refl 1) (List.length_pos_iff.2 hT)
    have hv := reported_score_is_tree_score ⟨d, 2 ^ d - 1, false, int32Max⟩ ho hi (Nat.le_refl 1) hfit r h1
    have hle := returned_value_depth_three ⟨d, 2 ^ d - 1, false, int32Max⟩ ho hi (Nat.le_refl 1) hfit hd hu hbr hds r h1
    have hlb := bestScore_depth (optimal_default_budget_partial d int32Max hw hi hT (Int.le_refl _) hterm hopt)
    have heq : r.value = (fitAccuracy nF nL 1 o ⟨d, 2 ^ d - 1, false, int32Max⟩ T).1.result.sol := by
      have := hlb r.tree h4 h2
      omega
    exact ⟨r, h1, hv, heq, h4, h2, fun t ht htd => by rw [heq]; exact hlb t ht htd⟩

/-- The default options: `fit()` with `max_depth` at most three and no time limit returns a tree with the fewest misclassifications
of any tree of that depth. -/
theorem default_fit_optimal {nF nL : Nat} {T : Data} (d : Nat) (hi : Input nL T) (hT : T ≠ []) (hd : d ≤ 3) :
    ∃ r : Fitted, fitTree nF nL 1 (giniOptions nF nL) ⟨d, 2 ^ d - 1, false, int32Max⟩ T = some (some r) ∧
      r.value = misclassified r.tree T ∧ r.tree.Over nF nL ∧ r.tree.depth ≤ d ∧
      ∀ t : Tree, t.Over nF nL → t.depth ≤ d → misclassified r.tree T ≤ misclassified t T := by
  obtain ⟨r, h1, h2, _, h4, h5, h6⟩ := returned_optimal_depth_three d (giniOptions_world nF nL) hi hT hd rfl rfl (fun _ => rfl)
    (unlimited_reported ⟨d, 2 ^ d - 1, false, int32Max⟩ (fun _ _ => rfl))
  exact ⟨r, h1, h2, h4, h5, fun t ht htd => by have := h6 t ht htd; omega⟩

/-- C08 up to depth three, default caches: two finished default-budget runs on the same data return trees of the same value,
whatever the bounds, depth-two solver, feature orders and clocks. -/
theorem options_do_not_matter_depth_three {nF nL : Nat} {o o' : Options} {T : Data} (d : Nat) (hw : World nF o) (hw' : World nF o')
    (hi : Input nL T) (hT : T ≠ []) (hd : d ≤ 3) (hbr : o.useBr = false) (hds : o.useDs = true) (hbr' : o'.useBr = false)
    (hds' : o'.useDs = true) (hterm : o.useTerm = true → o.useUB = true) (hterm' : o'.useTerm = true → o'.useUB = true)
    (hopt : (fitAccuracy nF nL 1 o ⟨d, 2 ^ d - 1, false, int32Max⟩ T).2 = true)
    (hopt' : (fitAccuracy nF nL 1 o' ⟨d, 2 ^ d - 1, false, int32Max⟩ T).2 = true) (r r' : Fitted)
    (h : fitTree nF nL 1 o ⟨d, 2 ^ d - 1, false, int32Max⟩ T = some (some r))
    (h' : fitTree nF nL 1 o' ⟨d, 2 ^ d - 1, false, int32Max⟩ T = some (some r')) : r.value = r'.value := by
  obtain ⟨a, a1, a2, _, a4, a5, a6⟩ := returned_optimal_depth_three d hw hi hT hd hbr hds hterm hopt
  obtain ⟨b, b1, b2, _, b4, b5, b6⟩ := returned_optimal_depth_three d hw' hi hT hd hbr' hds' hterm' hopt'
  rw [h] at a1
  rw [h'] at b1
  simp only [Option.some.injEq] at a1 b1
  rw [a1, b1]
  have := a6 b.tree b4 b5
  have := b6 a.tree a4 a5
  omega

/-! ### The hypotheses are met -/

set_option maxRecDepth 100000 in
/-- Eight instances, depth three, at most four nodes, default options. -/
example : (∀ D f, f ∈ (giniOptions 5 2).order D → f < 5) ∧ Input 2 recData ∧ 1 ≤ recData.length ∧ (giniOptions 5 2).useBr = false ∧
    (fitTree 5 2 1 (giniOptions 5 2) ⟨3, 4, false, int32Max⟩ recData).map (·.map fun r => (r.tree.nodes, r.tree.depth, r.value)) = some (some (4, 3, 1)) :=
  ⟨fun D f h => (gini_order_complete 5 2 D f).1 h, recData_input, by decide, rfl, by decide +kernel⟩

set_option maxRecDepth 100000 in
/-- The same with the full budget: the tree of depth three is optimal. -/
example : recData ≠ [] ∧ (fitAccuracy 5 2 1 (giniOptions 5 2) ⟨3, 2 ^ 3 - 1, false, int32Max⟩ recData).2 = true ∧
    (fitTree 5 2 1 (giniOptions 5 2) ⟨3, 2 ^ 3 - 1, false, int32Max⟩ recData).map (·.map fun r => (r.tree.nodes, r.tree.depth, r.value)) =
      some (some (6, 3, 1)) :=
  ⟨by simp [recData], rfl, by decide +kernel⟩

set_option maxRecDepth 100000 in
/-- No caches, depth four, at most five nodes. -/
example : (fitTree 5 2 1 { giniOptions 5 2 with useDs := false } ⟨4, 5, false, int32Max⟩ recData).map
    (·.map fun r => (r.tree.nodes, r.tree.depth, r.value)) = some (some (3, 3, 1)) := by decide +kernel

end Streed
