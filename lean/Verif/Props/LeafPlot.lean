import Verif.Model.LeafPlot
import Verif.Props.LabelRange
import Verif.Props.Export

/-!
# C107: the graph of the instance-cost-sensitive classifier shows what it predicts
-/

namespace Streed
open TaskLemmas

/-- Whether a row passes the node at the end of a path; `true` is the branch of rows that have the feature. -/
def Tree.passes : Tree → List Bool → Inst → Bool
  | _, [], _ => true
  | .leaf _, _ :: _, _ => false
  | .node f l r, b :: p, x => x.feat f == b && (if b then r.passes p x else l.passes p x)

/-- The path of a row to its leaf. -/
def Tree.route : Tree → Inst → List Bool
  | .leaf _, _ => []
  | .node f l r, x => if x.feat f then true :: r.route x else false :: l.route x

namespace Plot

theorem mem_titles (K : Nat) (w : Nat → Nat → Nat) (t : Tree) (p : List Bool) (D : Data) (e : Nat × Option PlotTitle) :
    e ∈ plotTitles K w t (nodeId p) D ↔ ∃ s, (t.at s).isSome = true ∧ e = (nodeId (p ++ s), plotTitle K w (D.filter (t.passes s))) := by
  induction t generalizing p D with
  | leaf k =>
    simp only [plotTitles, List.mem_singleton]
    constructor
    · rintro rfl
      exact ⟨[], rfl, by simp [Tree.passes]⟩
    · rintro ⟨s, hs, rfl⟩
      cases s with
      | nil => simp [Tree.passes]
      | cons b s => simp [Tree.at] at hs
  | node f l r ihl ihr =>
    have el : nodeId p * 2 + 1 = nodeId (p ++ [false]) := by rw [nodeId_snoc]; simp; omega
    have er : nodeId p * 2 + 2 = nodeId (p ++ [true]) := by rw [nodeId_snoc]; simp; omega
    have fl : ∀ s, (without f D).filter (l.passes s) = D.filter ((Tree.node f l r).passes (false :: s)) := by
      intro s
      unfold without
      rw [List.filter_filter]
      congr 1; funext x
      simp only [Tree.passes]
      cases x.feat f <;> simp
    have fr : ∀ s, (having f D).filter (r.passes s) = D.filter ((Tree.node f l r).passes (true :: s)) := by
      intro s
      unfold having
      rw [List.filter_filter]
      congr 1; funext x
      simp only [Tree.passes]
      cases x.feat f <;> simp
    simp only [plotTitles, List.mem_cons, List.mem_append]
    rw [el, er, ihl, ihr]
    constructor
    · rintro (rfl | ⟨s, hs, rfl⟩ | ⟨s, hs, rfl⟩)
      · exact ⟨[], rfl, by simp [Tree.passes]⟩
      · exact ⟨false :: s, hs, by rw [fl]; simp⟩
      · exact ⟨true :: s, hs, by rw [fr]; simp⟩
    · rintro ⟨s, hs, rfl⟩
      cases s with
      | nil => left; simp [Tree.passes]
      | cons b s =>
        cases b with
        | false => right; left; exact ⟨s, hs, by rw [fl]; simp⟩
        | true => right; right; exact ⟨s, hs, by rw [fr]; simp⟩

theorem leafNumber_eq (t : Tree) (p : List Bool) (x : Inst) : leafNumber t (nodeId p) x = nodeId (p ++ t.route x) := by
  induction t generalizing p with
  | leaf k => simp [leafNumber, Tree.route]
  | node f l r ihl ihr =>
    have el : nodeId p * 2 + 1 = nodeId (p ++ [false]) := by rw [nodeId_snoc]; simp; omega
    have er : nodeId p * 2 + 2 = nodeId (p ++ [true]) := by rw [nodeId_snoc]; simp; omega
    unfold leafNumber Tree.route
    rw [el, er, ihl, ihr]
    cases x.feat f <;> simp

theorem route_at (t : Tree) (x : Inst) : t.at (t.route x) = some (.leaf (t.predict x)) := by
  induction t with
  | leaf k => rfl
  | node f l r ihl ihr =>
    unfold Tree.route Tree.predict
    cases x.feat f <;> simp [Tree.at, ihl, ihr]

theorem route_rows (t : Tree) (x : Inst) (T : Data) : T.filter (t.passes (t.route x)) = leafRows t T x := by
  unfold leafRows
  congr 1; funext y
  induction t with
  | leaf k => rfl
  | node f l r ihl ihr =>
    unfold Tree.route Tree.together
    cases hx : x.feat f <;> simp [Tree.passes, ihl, ihr]

theorem together_label (t : Tree) (x y : Inst) (k : Nat) : t.together x { y with label := k } = t.together x y := by
  induction t with
  | leaf _ => rfl
  | node f l r ihl ihr =>
    unfold Tree.together
    rw [ihl, ihr]

theorem leafRows_costs (K : Nat) (w : Nat → Nat → Nat) (t : Tree) (T : Data) (x : Inst) (k : Nat) :
    (leafRows t (costInstances K w T) x).map (fun i => w i.id k) = (leafRows t T x).map fun i => w i.id k := by
  unfold leafRows costInstances
  rw [List.filter_map, List.map_map]
  have : (t.together x ∘ fun i => { i with label := npArgmin (w i.id) K }) = t.together x := by
    funext y; exact together_label t x y _
  rw [this]; rfl

theorem leafRows_length (K : Nat) (w : Nat → Nat → Nat) (t : Tree) (T : Data) (x : Inst) :
    (leafRows t (costInstances K w T) x).length = (leafRows t T x).length := by
  have := congrArg List.length (leafRows_costs K w t T x 0)
  simpa using this

end Plot
open Plot

/-- Every node of the graph has exactly one title: that of the training rows that pass it. -/
theorem title_iff (K : Nat) (w : Nat → Nat → Nat) (t : Tree) (T : Data) {p : List Bool} (hp : (t.at p).isSome = true) (q : Option PlotTitle) :
    (nodeId p, q) ∈ plotTitles K w t 0 T ↔ q = plotTitle K w (T.filter (t.passes p)) := by
  have := mem_titles K w t [] T (nodeId p, q)
  rw [show nodeId [] = 0 from rfl] at this
  rw [this]
  constructor
  · rintro ⟨s, _, e⟩
    have e1 := congrArg Prod.fst e
    have e2 := congrArg Prod.snd e
    simp only [List.nil_append] at e1 e2
    rw [nodeId_injective _ _ e1]
    exact e2
  · rintro rfl
    exact ⟨p, hp, rfl⟩

/-- So the title at the leaf of a row is that of the training rows in this leaf. -/
theorem leaf_title_iff (K : Nat) (w : Nat → Nat → Nat) (t : Tree) (T : Data) (x : Inst) (q : Option PlotTitle) :
    (leafNumber t 0 x, q) ∈ plotTitles K w t 0 T ↔ q = plotTitle K w (leafRows t T x) := by
  have e := leafNumber_eq t [] x
  rw [show nodeId [] = 0 from rfl, List.nil_append] at e
  rw [e, title_iff K w t T (by rw [route_at]; rfl), route_rows]

/-- A title counts the rows; its best class is the first of those that cost least on these rows together, and its costs are the average costs
of this class. -/
theorem title_spec {K : Nat} {w : Nat → Nat → Nat} {D : Data} (hK : 0 < K) (hD : D ≠ []) : ∃ q, plotTitle K w D = some q ∧
    q.rows = D.length ∧ q.best < K ∧ q.costs * D.length = ((D.map fun i => w i.id q.best).sum : Nat) ∧
    (∀ k < K, (D.map fun i => w i.id q.best).sum ≤ (D.map fun i => w i.id k).sum) ∧
    ∀ k < q.best, (D.map fun i => w i.id q.best).sum < (D.map fun i => w i.id k).sum := by
  have hl : D.length ≠ 0 := fun h => hD (List.length_eq_zero_iff.1 h)
  refine ⟨_, by unfold plotTitle; rw [if_neg hl], rfl, npArgmin_lt _ hK, ?_, fun k hk => npArgmin_le (fun k => (D.map fun i => w i.id k).sum) hk,
    fun k hk => npArgmin_first (fun k => (D.map fun i => w i.id k).sum) hk⟩
  have : (D.length : Rat) ≠ 0 := by exact_mod_cast hl
  exact div_mul_cancel₀ _ this

/-- What a call from Python or of the command line returns, for every limit, option, feature order and clock: a tree within the depth and the
leaf size, with labels among those considered, whose value is its total cost; and no leaf would cost less with another label considered. -/
theorem cost_vectors_returned {nF K e u mls : Nat} {w : Nat → Nat → Nat} {o : Options} {T : Data} (t : Top) (ho : ∀ D f, f ∈ o.order D → f < nF)
    (hr : CostRows K T) (he : e ≤ K) (hc : (T.map fun i => instWorst K w i).sum < u * largestDouble) (hmls : 1 ≤ mls)
    (hfit : t.maxNodes + 1 ≤ 2 ^ t.maxDepth) (y : Option Fitted) (h : fitCostVectorsTree e nF K u w mls o t T = some y) :
    ∃ r, y = some r ∧ r.tree.depth ≤ t.maxDepth ∧ (∀ x, mls ≤ (leafRows r.tree T x).length) ∧
    r.tree.Over nF (trainLabels e (costInstances K w T)) ∧ r.value = totalCost w r.tree T ∧
    ∀ (x : Inst) (k : Nat), k < trainLabels e (costInstances K w T) →
      ((leafRows r.tree T x).map fun i => w i.id (r.tree.predict x)).sum ≤ ((leafRows r.tree T x).map fun i => w i.id k).sum := by
  have hi := costInstances_input (e := e) (w := w) hr
  have hle := trainLabels_le (e := e) w T hr.labels he
  have hc' : ((costInstances K w T).map fun i => instWorst (trainLabels e (costInstances K w T)) w i).sum < u * largestDouble := by
    rw [costInstances_worst]
    refine lt_of_le_of_lt (List.sum_le_sum fun i _ => instWorst_mono w i hle) hc
  have G0 := instCfg_base (mls := mls) (o := o) hi hc' ho
  have G : Base { instCfg nF (trainLabels e (costInstances K w T)) u w mls o
        (isRedundant (instProblem nF (trainLabels e (costInstances K w T)) w) mls (costInstances K w T)) with
      simInst := some fun i => (instWorst K w i : Nat) } (preprocess (instProblem nF (trainLabels e (costInstances K w T)) w) mls (costInstances K w T)) :=
    { labels := G0.labels, bc := G0.bc, nonneg := G0.nonneg, worst := G0.worst, small := G0.small, custom := G0.custom, md := G0.md,
      sorted := G0.sorted, inRange := G0.inRange, order := G0.order, worstPer := G0.worstPer,
      simInst := fun v hv i _ => by
        simp only [Option.some.injEq] at hv
        rw [← hv]
        exact Int.natCast_nonneg _ }
  unfold fitCostVectorsTree fitCostVectors at h
  dsimp only at h
  obtain ⟨y', h1, rfl⟩ := Option.map_eq_some_iff.1 h
  obtain ⟨tr, rfl, h2, h3, h4⟩ := tol_returned G t hfit (fun _ _ _ => rfl) h1
  have hP := inst_featureFree nF (trainLabels e (costInstances K w T)) w
  obtain ⟨b1, b2⟩ := prep_backward hP hmls _ _ tr _ h3
  have b3 := prep_best hP hmls _ _ tr _ h3 h4
  refine ⟨_, rfl, by rw [unflip_depth]; exact h2, fun x => ?_, legal_over_inst b1, ?_, fun x k hk => ?_⟩
  · rw [← leafRows_length K w]; exact leavesHold_rows (legal_leavesHold b1) x
  · show trainValue _ tr _ 0 = _
    rw [trainValue_eq, Int.zero_add, ← costInstances_cost K w, ← cost_eq_totalCost nF (trainLabels e (costInstances K w T))]
    exact b2.symm
  · have := bestLeaves_rows b3 x hk
    rw [inst_leafCost, inst_leafCost, leafRows_costs, leafRows_costs] at this
    exact_mod_cast this

/-- Whatever labels are considered, the costs shown at a leaf are never above the average costs of what is predicted there. -/
theorem title_never_dearer {nF K e u mls : Nat} {w : Nat → Nat → Nat} {o : Options} {T : Data} (t : Top) (ho : ∀ D f, f ∈ o.order D → f < nF)
    (hr : CostRows K T) (he : e ≤ K) (hc : (T.map fun i => instWorst K w i).sum < u * largestDouble) (hmls : 1 ≤ mls)
    (hfit : t.maxNodes + 1 ≤ 2 ^ t.maxDepth) (y : Option Fitted) (h : fitCostVectorsTree e nF K u w mls o t T = some y) :
    ∃ r, y = some r ∧ ∀ x, ∃ q, (leafNumber r.tree 0 x, some q) ∈ plotTitles K w r.tree 0 T ∧ q.rows = (leafRows r.tree T x).length ∧
      q.costs * q.rows ≤ (((leafRows r.tree T x).map fun i => w i.id (r.tree.predict x)).sum : Nat) := by
  obtain ⟨r, rfl, _, hl, hov, _, hbest⟩ := cost_vectors_returned t ho hr he hc hmls hfit y h
  refine ⟨r, rfl, fun x => ?_⟩
  have hD : leafRows r.tree T x ≠ [] := fun e => by have := hl x; rw [e] at this; simp at this; omega
  obtain ⟨q, hq, h1, _, h3, h4, _⟩ := title_spec (K := K) (w := w) hr.labels hD
  refine ⟨q, (leaf_title_iff ..).2 hq.symm, h1, ?_⟩
  rw [h1, h3]
  have := h4 (r.tree.predict x) (lt_of_lt_of_le (over_predict_lt hov x) (trainLabels_le w T hr.labels he))
  exact_mod_cast this

/-- **C107 where all labels are considered.** The number of rows at a leaf is the number of training rows that reach it, the costs shown are the
average costs of what is predicted there, and the class shown is the predicted one unless both cost the same. All labels are considered from
Python if the last one is strictly cheapest for some row (`pyLabels_all`), and with the command line always (`extraCols_all`). Partial:
false otherwise, `shown_class_not_predicted`. -/
theorem shown_class_partial {nF K e u mls : Nat} {w : Nat → Nat → Nat} {o : Options} {T : Data} (t : Top) (ho : ∀ D f, f ∈ o.order D → f < nF)
    (hr : CostRows K T) (he : e ≤ K) (hall : trainLabels e (costInstances K w T) = K)
    (hc : (T.map fun i => instWorst K w i).sum < u * largestDouble) (hmls : 1 ≤ mls)
    (hfit : t.maxNodes + 1 ≤ 2 ^ t.maxDepth) (y : Option Fitted) (h : fitCostVectorsTree e nF K u w mls o t T = some y) :
    ∃ r, y = some r ∧ ∀ x, ∃ q, (leafNumber r.tree 0 x, some q) ∈ plotTitles K w r.tree 0 T ∧ q.rows = (leafRows r.tree T x).length ∧
      q.costs * q.rows = (((leafRows r.tree T x).map fun i => w i.id (r.tree.predict x)).sum : Nat) ∧
      ((∀ k < K, k ≠ r.tree.predict x → ((leafRows r.tree T x).map fun i => w i.id k).sum ≠
        ((leafRows r.tree T x).map fun i => w i.id (r.tree.predict x)).sum) → q.best = r.tree.predict x) := by
  obtain ⟨r, rfl, _, hl, hov, _, hbest⟩ := cost_vectors_returned t ho hr he hc hmls hfit y h
  rw [hall] at hov hbest
  refine ⟨r, rfl, fun x => ?_⟩
  have hD : leafRows r.tree T x ≠ [] := fun e => by have := hl x; rw [e] at this; simp at this; omega
  obtain ⟨q, hq, h1, h2, h3, h4, _⟩ := title_spec (K := K) (w := w) hr.labels hD
  have eq := le_antisymm (h4 _ (over_predict_lt hov x)) (hbest x q.best h2)
  refine ⟨q, (leaf_title_iff ..).2 hq.symm, h1, ?_, fun hu => ?_⟩
  · rw [h1, h3, eq]
  · by_contra hne
    exact hu q.best h2 hne eq

set_option maxRecDepth 100000 in
/-- C107 fails from Python: the leaf is shown with class 2 and average costs of 1, while every row is predicted class 0, at a cost of 9 in
total. -/
theorem shown_class_not_predicted : ∃ (w : Nat → Nat → Nat) (T : Data) (o : Options) (r : Fitted), CostRows 3 T ∧
    fitCostVectorsTree pyExtraCols 1 3 1 w 1 o ⟨1, 2 ^ 1 - 1, false, (1 * largestDouble : Nat)⟩ T = some (some r) ∧
    (∀ x, r.tree.predict x = 0) ∧ r.value = 9 ∧ ∀ x, leafNumber r.tree 0 x = 0 ∧
      ∀ q, (0, q) ∈ plotTitles 3 w r.tree 0 T ↔ q = some ⟨2, 2, 1⟩ := by
  refine ⟨compromise, alikeRows, { defaultOptions 1 with simLB := false }, ⟨.leaf 0, 9⟩, ⟨by decide, by decide, by unfold IdSorted; decide, by decide⟩,
    by decide +kernel, fun _ => rfl, rfl, fun x => ⟨rfl, fun q => ?_⟩⟩
  have := leaf_title_iff 3 compromise (.leaf 0) alikeRows x q
  rw [show plotTitle 3 compromise (leafRows (.leaf 0) alikeRows x) = some ⟨2, 2, 1⟩ by
    rw [show leafRows (.leaf 0) alikeRows x = alikeRows by simp [leafRows, Tree.together]]; decide +kernel] at this
  exact this

/-! ### The hypotheses are met -/

set_option maxRecDepth 100000 in
/-- A split and both leaves. -/
example : let T := trialData
    (∀ D f, f ∈ (defaultOptions 2).order D → f < 2) ∧ CostRows 2 T ∧ trainLabels pyExtraCols (costInstances 2 parityCosts T) = 2 ∧
    (T.map fun i => instWorst 2 parityCosts i).sum < 1 * largestDouble ∧
    fitCostVectorsTree pyExtraCols 2 2 1 parityCosts 1 (defaultOptions 2) ⟨2, 2 ^ 2 - 1, false, (1 * largestDouble : Nat)⟩ T =
      some (some ⟨.node 0 (.node 1 (.leaf 0) (.leaf 1)) (.node 1 (.leaf 1) (.leaf 0)), 1⟩) ∧
    (6, some ⟨1, 0, 1⟩) ∈ plotTitles 2 parityCosts (.node 0 (.node 1 (.leaf 0) (.leaf 1)) (.node 1 (.leaf 1) (.leaf 0))) 0 T :=
  ⟨fun _ f h => by simpa [defaultOptions] using h, ⟨by decide, by decide, by unfold IdSorted; decide, by decide⟩, by decide +kernel,
    by decide +kernel, by decide +kernel, by decide +kernel⟩

end Streed
