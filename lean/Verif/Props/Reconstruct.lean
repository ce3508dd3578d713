import Verif.Model.FitTree
import Verif.Model.Heap
import Verif.Lemmas.ReturnedTop
import Verif.Props.Optimal
import Verif.Props.Queue

/-!
# C05, C06: the returned tree

`fitTree` is the whole of `fit()` for the accuracy classifier: preprocessing, search, rebuilding the tree from the
caches, scoring it, undoing the flips.
-/

namespace Streed

theorem trainValue_eq (P : Problem) (t : Tree) (D : Data) (a : Int) : trainValue P t D a = a + t.cost P D := by
  induction t generalizing D a with
  | leaf k => rfl
  | node f l r ihl ihr => simp only [trainValue, Tree.cost, ihl, ihr]; omega

theorem accCfg_base {nF nL mls : Nat} {o : Options} {T : Data} (h : Input nL T) (ho : ∀ D f, f ∈ o.order D → f < nF) :
    Base (accCfg nF nL mls o (isRedundant (accuracy nF nL) mls T)) (preprocess (accuracy nF nL) mls T) where
  labels := h.labels
  bc := Int.le_refl 0
  nonneg := accuracy_nonneg _ _ _
  worst := by show (0 : Int) ≤ (int32Max : Int); decide
  small := fun D hD t _ => accuracy_lt _ _ _ _ _ (by
    have h1 := hD.length_le
    rw [preprocess_length] at h1
    have h2 := h.size
    show (D.length : Int) < (int32Max : Int)
    omega)
  custom := fun _ _ => by show (0 : Int) ≤ (int32Max : Int); decide
  md := by show (0 : Int) ≤ 1; decide
  sorted := preprocess_sorted h.sorted
  inRange := fun i hi => by
    obtain ⟨j, hj, rfl⟩ := List.mem_map.1 hi
    exact h.inRange j hj
  order := ho
  worstPer := fun _ => .inl (by show (0 : Int) ≤ 1; decide)
  simInst := fun _ h => by cases h

/-- Undoing the flips of a legal tree on the preprocessed data. -/
theorem fitTree_back {nF nL mls : Nat} (hmls : 1 ≤ mls) (T : Data) (tr : Tree)
    (h : tr.Legal (accuracy nF nL) mls (preprocess (accuracy nF nL) mls T)) :
    (unflip (flipped (accuracy nF nL) T) tr).Legal (accuracy nF nL) mls T ∧
    trainValue (accuracy nF nL) tr (preprocess (accuracy nF nL) mls T) 0 = misclassified (unflip (flipped (accuracy nF nL) T) tr) T := by
  obtain ⟨a1, a2⟩ := prep_backward (accuracy_featureFree nF nL) hmls _ _ tr T h
  refine ⟨a1, ?_⟩
  rw [trainValue_eq, ← cost_eq_misclassified nF nL, a2]
  exact Int.zero_add _

/-- Every leaf of the tree receives at least `mls` of the instances. -/
def LeavesHold (mls : Nat) : Tree → Data → Prop
  | .leaf _, D => mls ≤ D.length
  | .node f l r, D => LeavesHold mls l (without f D) ∧ LeavesHold mls r (having f D)

theorem legal_leavesHold {P : Problem} {mls : Nat} {t : Tree} {D : Data} (h : t.Legal P mls D) : LeavesHold mls t D := by
  induction t generalizing D with
  | leaf k => exact h.2
  | node f l r ihl ihr => exact ⟨ihl h.2.2.1, ihr h.2.2.2⟩

/-- C05: for every dataset, every depth and leaf size, every combination of options, every feature order and
every clock (so also after a time-out), `fit()` returns a tree whenever the data are large enough for one leaf. The tree
has depth at most `max_depth`, at most `2^max_depth - 1` nodes, existing features and labels, and enough instances
in every leaf. -/
theorem returned_tree_within_limits {nF nL mls : Nat} {o : Options} {T : Data} (d : Nat) (all : Bool)
    (ho : ∀ D f, f ∈ o.order D → f < nF) (hi : Input nL T) (hmls : 1 ≤ mls) (hT : mls ≤ T.length) :
    ∃ r : Fitted, fitTree nF nL mls o ⟨d, 2 ^ d - 1, all, int32Max⟩ T = some (some r) ∧
      r.tree.depth ≤ d ∧ r.tree.nodes ≤ 2 ^ d - 1 ∧ r.tree.Over nF nL ∧ LeavesHold mls r.tree T := by
  have G := accCfg_base (nF := nF) (mls := mls) (o := o) hi ho
  have hp : 1 ≤ 2 ^ d := Nat.one_le_two_pow
  obtain ⟨e, he⟩ := solve_sound G ⟨d, 2 ^ d - 1, all, int32Max⟩ (by show 2 ^ d - 1 + 1 ≤ 2 ^ d; omega)
  have hne := he.ne (Int.le_refl _) (by rw [preprocess_length]; exact hT)
  have := returned_spec G False _ he (fun _ _ _ => rfl) (fun h => h.elim)
  rcases this with ⟨_, h⟩ | ⟨tr, h1, h2, h3, _⟩
  · omega
  · obtain ⟨b1, b2⟩ := fitTree_back hmls T tr h3
    have hd : (unflip (flipped (accuracy nF nL) T) tr).depth ≤ d := by rw [unflip_depth]; exact h2
    refine ⟨⟨_, _⟩, by unfold fitTree fitAccuracy; dsimp only; rw [h1]; rfl, hd, ?_, legal_over b1, legal_leavesHold b1⟩
    have h4 := (unflip (flipped (accuracy nF nL) T) tr).nodes_lt_pow
    have h5 : 2 ^ (unflip (flipped (accuracy nF nL) T) tr).depth ≤ 2 ^ d := Nat.pow_le_pow_right (by decide) hd
    dsimp only
    omega

/-- C06, first half: the reported train value is the number of training instances the returned tree misclassifies,
for any node limit, options and clock. -/
theorem reported_score_is_tree_score {nF nL mls : Nat} {o : Options} {T : Data} (t : Top)
    (ho : ∀ D f, f ∈ o.order D → f < nF) (hi : Input nL T) (hmls : 1 ≤ mls) (hfit : t.maxNodes + 1 ≤ 2 ^ t.maxDepth)
    (r : Fitted) (h : fitTree nF nL mls o t T = some (some r)) : r.value = misclassified r.tree T := by
  have G := accCfg_base (nF := nF) (mls := mls) (o := o) hi ho
  obtain ⟨e, he⟩ := solve_sound G t hfit
  unfold fitTree fitAccuracy at h
  dsimp only at h
  rcases returned_spec G False _ he (fun _ _ _ => rfl) (fun h => h.elim) with ⟨h1, _⟩ | ⟨tr, h1, _, h3, _⟩
  · rw [h1] at h; simp at h
  · rw [h1] at h
    simp only [Option.map_some, Option.some.injEq] at h
    rw [← h]
    exact (fitTree_back hmls T tr h3).2

/-- Runs without the depth-two solver: the returned tree is at least as good as the value found by the search, and no
tree within the limits is better. -/
theorem returned_general {nF nL mls : Nat} {o : Options} {T : Data} (t : Top) (hw : World nF o) (hi : Input nL T)
    (hmls : 1 ≤ mls) (hT : mls ≤ T.length) (hterm : o.useTerm = false) (hsim : o.simLB = true → mls = 1)
    (hfit : t.maxNodes + 1 ≤ 2 ^ t.maxDepth) (hub : (int32Max : Int) ≤ t.ub) (hopt : (fitAccuracy nF nL mls o t T).2 = true) :
    ∃ r : Fitted, fitTree nF nL mls o t T = some (some r) ∧ r.value = misclassified r.tree T ∧
      r.value ≤ (fitAccuracy nF nL mls o t T).1.result.sol ∧ r.tree.Legal (accuracy nF nL) mls T ∧ r.tree.depth ≤ t.maxDepth ∧
      ∀ x : Tree, x.Legal (accuracy nF nL) mls T → x.depth ≤ t.maxDepth → x.nodes ≤ t.maxNodes → r.value ≤ misclassified x T := by
  have G := accCfg_base (nF := nF) (mls := mls) (o := o) hi (fun D f h => (hw.order D f).1 h)
  have nt : ∀ {p : Prop}, o.useTerm = true → p := fun a => by rw [hterm] at a; cases a
  have good := accCfg_good (o := o) hi hmls hw.order nt hsim
  obtain ⟨e, he⟩ := solve_sound G t hfit
  have hne := he.ne hub (by rw [preprocess_length]; exact hT)
  have hbest := fit_spec hi hmls hT hw.order hw.clock nt hsim hfit hub hopt
  have hspec := solve_spec good t (by rw [preprocess_length]; exact hT) hw.clock hfit nt
  obtain ⟨hall, _⟩ := hspec.2 hopt
  have hst := solve_st good hterm t (by rw [preprocess_length]; exact hT) hfit
  rcases returned_spec G True _ he (fun _ _ _ => rfl) (fun _ => ⟨⟨good.clock _, hterm⟩, hst.clock hall _⟩) with
    ⟨_, h⟩ | ⟨tr, h1, h2, h3, h4⟩
  · omega
  · obtain ⟨b1, b2⟩ := fitTree_back hmls T tr h3
    have hval : trainValue (accuracy nF nL) tr (preprocess (accuracy nF nL) mls T) 0 ≤ (fitAccuracy nF nL mls o t T).1.result.sol := by
      rw [trainValue_eq, Int.zero_add]; exact h4 trivial
    refine ⟨⟨_, _⟩, by unfold fitTree fitAccuracy; dsimp only; rw [h1]; rfl, b2, hval, b1,
      by rw [unflip_depth]; exact h2, fun x hx hd hn => ?_⟩
    refine Int.le_trans hval ?_
    rw [← cost_eq_misclassified nF nL]
    exact hbest.2.1.2 x ⟨hd, hn, hx⟩

/-- C06, second half, for runs without the depth-two solver: a run that reports `is_optimal` returns a tree with the
value found by the search, and no tree of that depth does better. With the depth-two solver the claim is false
(`returned_not_optimal`). -/
theorem returned_tree_optimal_partial {nF nL : Nat} {o : Options} {T : Data} (d : Nat) (all : Bool) (hw : World nF o)
    (hi : Input nL T) (hT : T ≠ []) (hterm : o.useTerm = false)
    (hopt : (fitAccuracy nF nL 1 o ⟨d, 2 ^ d - 1, all, int32Max⟩ T).2 = true) :
    ∃ r : Fitted, fitTree nF nL 1 o ⟨d, 2 ^ d - 1, all, int32Max⟩ T = some (some r) ∧
      r.value = misclassified r.tree T ∧
      r.value = (fitAccuracy nF nL 1 o ⟨d, 2 ^ d - 1, all, int32Max⟩ T).1.result.sol ∧
      r.tree.Over nF nL ∧ r.tree.depth ≤ d ∧
      ∀ t : Tree, t.Over nF nL → t.depth ≤ d → r.value ≤ misclassified t T := by
  have hp : 1 ≤ 2 ^ d := Nat.one_le_two_pow
  have hfit : 2 ^ d - 1 + 1 ≤ 2 ^ d := by omega
  have hlen : 1 ≤ T.length := List.length_pos_iff.2 hT
  obtain ⟨r, h1, h2, h3, h4, h5, h6⟩ := returned_general ⟨d, 2 ^ d - 1, all, int32Max⟩ hw hi (Nat.le_refl 1) hlen hterm
    (fun _ => rfl) hfit (Int.le_refl _) hopt
  have hbest : BestScore nF nL d (2 ^ d - 1) T (fitAccuracy nF nL 1 o ⟨d, 2 ^ d - 1, all, int32Max⟩ T).1.result.sol := by
    cases all with
    | false => exact optimal_node_limit_partial d _ int32Max hw hi hT (Int.le_refl _) hterm (Nat.le_refl _) hopt
    | true => exact optimal_all_trees_partial d _ int32Max hw hi hT (Int.le_refl _) hterm (Nat.le_refl _) hopt
  have hlb := bestScore_depth hbest
  have hov := legal_over h4
  have heq : r.value = (fitAccuracy nF nL 1 o ⟨d, 2 ^ d - 1, all, int32Max⟩ T).1.result.sol := by
    have := hlb r.tree hov h5
    omega
  exact ⟨r, h1, h2, heq, hov, h5, fun t ht hd => by rw [heq]; exact hlb t ht hd⟩

/-- C02 and C04 for the returned tree, without the depth-two solver: with an explicit node limit, with or without
`all_trees`, no tree within the depth and node limits misclassifies fewer training instances than the returned tree. -/
theorem returned_node_limit_partial {nF nL : Nat} {o : Options} {T : Data} (d n : Nat) (all : Bool) (hw : World nF o)
    (hi : Input nL T) (hT : T ≠ []) (hterm : o.useTerm = false) (hn : n ≤ 2 ^ d - 1)
    (hopt : (fitAccuracy nF nL 1 o ⟨d, n, all, int32Max⟩ T).2 = true) :
    ∃ r : Fitted, fitTree nF nL 1 o ⟨d, n, all, int32Max⟩ T = some (some r) ∧ r.value = misclassified r.tree T ∧
      r.tree.Over nF nL ∧ r.tree.depth ≤ d ∧
      ∀ t : Tree, t.Over nF nL → t.depth ≤ d → t.nodes ≤ n → r.value ≤ misclassified t T := by
  have hp : 1 ≤ 2 ^ d := Nat.one_le_two_pow
  obtain ⟨r, h1, h2, h3, h4, h5, h6⟩ := returned_general ⟨d, n, all, int32Max⟩ hw hi (Nat.le_refl 1) (List.length_pos_iff.2 hT) hterm
    (fun _ => rfl) (by show n + 1 ≤ 2 ^ d; omega) (Int.le_refl _) hopt
  have hbest : BestScore nF nL d n T (fitAccuracy nF nL 1 o ⟨d, n, all, int32Max⟩ T).1.result.sol := by
    cases all with
    | false => exact optimal_node_limit_partial d _ int32Max hw hi hT (Int.le_refl _) hterm hn hopt
    | true => exact optimal_all_trees_partial d _ int32Max hw hi hT (Int.le_refl _) hterm hn hopt
  exact ⟨r, h1, h2, legal_over h4, h5, fun t ht hd hn => Int.le_trans h3 (hbest.2 t ht hd hn)⟩

theorem over_hold_legal {nF nL mls : Nat} {t : Tree} {D : Data} (h : t.Over nF nL) (hm : LeavesHold mls t D) :
    t.Legal (accuracy nF nL) mls D := by
  induction t generalizing D with
  | leaf k => exact ⟨h, hm⟩
  | node f l r ihl ihr => exact ⟨h.1, rfl, ihl h.2.1 hm.1, ihr h.2.2 hm.2⟩

/-- C03 for the returned tree, without depth-two solver and similarity bound: its leaves hold at least `mls` instances,
and no tree with such leaves within the depth and node limits misclassifies fewer. -/
theorem returned_leaf_size_partial {nF nL mls : Nat} {o : Options} {T : Data} (d n : Nat) (all : Bool) (hw : World nF o)
    (hi : Input nL T) (hmls : 1 ≤ mls) (hT : mls ≤ T.length) (hterm : o.useTerm = false) (hsim : o.simLB = false)
    (hn : n ≤ 2 ^ d - 1) (hopt : (fitAccuracy nF nL mls o ⟨d, n, all, int32Max⟩ T).2 = true) :
    ∃ r : Fitted, fitTree nF nL mls o ⟨d, n, all, int32Max⟩ T = some (some r) ∧ r.value = misclassified r.tree T ∧
      r.tree.Over nF nL ∧ r.tree.depth ≤ d ∧ LeavesHold mls r.tree T ∧
      ∀ t : Tree, t.Over nF nL → t.depth ≤ d → t.nodes ≤ n → LeavesHold mls t T → r.value ≤ misclassified t T := by
  have hp : 1 ≤ 2 ^ d := Nat.one_le_two_pow
  obtain ⟨r, h1, h2, h3, h4, h5, h6⟩ := returned_general ⟨d, n, all, int32Max⟩ hw hi hmls hT hterm
    (fun a => by rw [hsim] at a; cases a) (by show n + 1 ≤ 2 ^ d; omega) (Int.le_refl _) hopt
  exact ⟨r, h1, h2, legal_over h4, h5, legal_leavesHold h4, fun t ht hd hn hl => h6 t (over_hold_legal ht hl) hd hn⟩

/-! ### With the depth-two solver the returned tree can be worse -/

/-- The default options with the default feature order (decreasing Gini score). -/
def giniOptions (nF nL : Nat) : Options := { defaultOptions nF with order := giniOrder nF nL }

theorem giniOptions_world (nF nL : Nat) : World nF (giniOptions nF nL) :=
  ⟨fun D f => gini_order_complete nF nL D f, fun _ _ _ _ => rfl⟩

/-- The user's reading of C01 and C06: the returned tree is optimal when `fit()` reports so. -/
def ReturnedOptimal : Prop := ∀ (nF nL : Nat) (T : Data) (d : Nat) (r : Fitted), Input nL T → T ≠ [] →
  (fitAccuracy nF nL 1 (giniOptions nF nL) ⟨d, 2 ^ d - 1, false, int32Max⟩ T).2 = true →
  fitTree nF nL 1 (giniOptions nF nL) ⟨d, 2 ^ d - 1, false, int32Max⟩ T = some (some r) →
  ∀ t : Tree, t.Over nF nL → t.depth ≤ d → r.value ≤ misclassified t T

/-- Eight instances with five features. -/
def recData : Data := [exInst 0 8 1, exInst 1 3 1, exInst 2 1 0, exInst 3 27 0, exInst 4 25 1, exInst 5 16 1,
  exInst 6 12 0, exInst 7 5 1]

/-- A tree of depth four without errors. -/
def recBest : Tree := .node 0 (.node 2 (.leaf 1) (.leaf 0)) (.node 1 (.node 2 (.node 3 (.leaf 0) (.leaf 1)) (.leaf 1)) (.node 3 (.leaf 1) (.leaf 0)))

theorem recData_input : Input 2 recData :=
  ⟨by decide, by simp [recData, exInst], by simp [recData, exInst, IdSorted], by decide⟩

set_option maxRecDepth 100000 in
theorem recData_tree : fitTree 5 2 1 (giniOptions 5 2) ⟨4, 2 ^ 4 - 1, false, int32Max⟩ recData =
    some (some ⟨.node 3 (.node 0 (.leaf 1) (.node 1 (.node 2 (.leaf 0) (.leaf 1)) (.leaf 1)))
      (.node 0 (.leaf 0) (.node 1 (.leaf 1) (.leaf 0))), 1⟩) := by decide +kernel

set_option maxRecDepth 100000 in
/-- The search itself finds the optimum. -/
theorem recData_search : (fitAccuracy 5 2 1 (giniOptions 5 2) ⟨4, 2 ^ 4 - 1, false, int32Max⟩ recData).1.result.sol = 0 := by
  decide +kernel

/-- With all default options `fit()` can report `is_optimal` and return a tree that is not optimal. The depth-two
solver stops early when it meets a three-node tree without errors; its unfinished two-node result is nevertheless stored as the
optimum for two nodes, and the tree is rebuilt from that entry. -/
theorem returned_not_optimal : ¬ ReturnedOptimal := by
  intro h
  have := h 5 2 recData 4 _ recData_input (by simp [recData]) rfl recData_tree recBest (by simp [recBest, Tree.Over]) (by decide)
  revert this
  decide

/-- The claim of C08 for the returned trees. -/
def OptionsDoNotMatter : Prop := ∀ (nF nL : Nat) (T : Data) (d : Nat) (o o' : Options) (r r' : Fitted), Input nL T → T ≠ [] →
  World nF o → World nF o' →
  (fitAccuracy nF nL 1 o ⟨d, 2 ^ d - 1, false, int32Max⟩ T).2 = true →
  (fitAccuracy nF nL 1 o' ⟨d, 2 ^ d - 1, false, int32Max⟩ T).2 = true →
  fitTree nF nL 1 o ⟨d, 2 ^ d - 1, false, int32Max⟩ T = some (some r) →
  fitTree nF nL 1 o' ⟨d, 2 ^ d - 1, false, int32Max⟩ T = some (some r') → r.value = r'.value

/-- Switching the depth-two solver off changes the value of the returned tree. -/
theorem options_matter : ¬ OptionsDoNotMatter := by
  intro h
  have hw : World 5 { giniOptions 5 2 with useTerm := false } := ⟨(giniOptions_world 5 2).order, fun _ _ _ _ => rfl⟩
  obtain ⟨r, h1, h2, _, _, _, h6⟩ := returned_tree_optimal_partial 4 false hw recData_input (by simp [recData]) rfl rfl
  have h3 := h 5 2 recData 4 (giniOptions 5 2) _ _ r recData_input (by simp [recData]) (giniOptions_world 5 2) hw rfl rfl
    recData_tree h1
  have h4 := h6 recBest (by simp [recBest, Tree.Over]) (by decide)
  have h5 : misclassified recBest recData = 0 := by decide
  rw [← h3, h5] at h4
  revert h4
  decide

/-! ### The hypotheses are met -/

/-- C05, C06: default options at depth 2 on the exclusive or. -/
example : (∀ D f, f ∈ (giniOptions 2 2).order D → f < 2) ∧ Input 2 xorData ∧ 1 ≤ xorData.length ∧
    fitTree 2 2 1 (giniOptions 2 2) ⟨2, 3, false, int32Max⟩ xorData =
      some (some ⟨.node 0 (.node 1 (.leaf 1) (.leaf 0)) (.node 1 (.leaf 0) (.leaf 1)), 0⟩) :=
  ⟨fun D f h => (gini_order_complete 2 2 D f).1 h, xorData_input, by decide, by decide +kernel⟩

/-- C06: the same without the depth-two solver. -/
example : let o : Options := { defaultOptions 2 with useTerm := false }
    World 2 o ∧ (fitAccuracy 2 2 1 o ⟨2, 3, false, int32Max⟩ xorData).2 = true ∧
    fitTree 2 2 1 o ⟨2, 3, false, int32Max⟩ xorData =
      some (some ⟨.node 0 (.node 1 (.leaf 1) (.leaf 0)) (.node 1 (.leaf 0) (.leaf 1)), 0⟩) :=
  ⟨⟨fun _ f => by simp [defaultOptions], fun _ _ _ _ => rfl⟩, rfl, by decide +kernel⟩

/-- C02–C04: a node limit of two, and leaves of two instances. -/
example : let o : Options := { defaultOptions 2 with useTerm := false, simLB := false }
    World 2 o ∧ (fitAccuracy 2 2 1 o ⟨2, 2, false, int32Max⟩ xorData).2 = true ∧
    fitTree 2 2 1 o ⟨2, 2, false, int32Max⟩ xorData = some (some ⟨.node 0 (.leaf 0) (.node 1 (.leaf 0) (.leaf 1)), 1⟩) ∧
    (fitTree 2 2 2 o ⟨2, 3, true, int32Max⟩ xorData).map (·.map (·.value)) = some (some 2) :=
  ⟨⟨fun _ f => by simp [defaultOptions], fun _ _ _ _ => rfl⟩, rfl, by decide +kernel, by decide +kernel⟩

end Streed
