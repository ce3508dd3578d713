import Verif.Model.PenTree
import Verif.Props.Majority
import Verif.Props.Penalised

/-!
# C05, C06, C75 for the complexity-penalised classifier

The tree returned for `cost-complex-accuracy`: its limits, its reported value and the labels of its leaves.
-/

namespace Streed

theorem ccaCfg_base {nF nL e p mls : Nat} {o : Options} {T S : Data} (h : Input nL T) (hmls : 1 ≤ mls)
    (hS : SortedByFeatures nF (preprocess (penalised nF nL e p) mls T) S) (hN : (e + p) * T.length < e * int32Max)
    (ho : ∀ D f, f ∈ o.order D → f < nF) :
    Base (ccaCfg nF nL e p mls o (isRedundant (penalised nF nL e p) mls T) (assignGroups nF S)) ((assignGroups nF S).map (·.inst)) where
  labels := h.labels
  bc := Int.natCast_nonneg p
  nonneg := penalised_nonneg _ _ _ _ _
  worst := Int.mul_nonneg (Int.natCast_nonneg e) (by decide)
  small := fun D hD t ht => by
    have h1 := hD.length_le
    rw [(assignGroups_rows nF S).length, hS.sameRows.length, preprocess_length] at h1
    have := penalised_small hmls hN h1 ht
    simpa [ccaCfg] using this
  custom := fun D hD => by
    have h1 := hD.length_le
    rw [(assignGroups_rows nF S).length, hS.sameRows.length, preprocess_length] at h1
    have h2 := ccaLB_le (e := e) hD (.leaf 0) (show Tree.Over nF nL (.leaf 0) from h.labels)
    have h3 := misclassified_le (.leaf 0) D
    have h4 : e * misclassified (.leaf 0) D ≤ e * T.length := Nat.mul_le_mul_left _ (by omega)
    have h5 : (e + p) * T.length = e * T.length + p * T.length := Nat.add_mul ..
    have h6 : e * misclassified (.leaf 0) D ≤ e * int32Max := by omega
    have h7 : ((e * misclassified (.leaf 0) D : Nat) : Int) ≤ ((e * int32Max : Nat) : Int) := by exact_mod_cast h6
    show ccaLB nL e (assignGroups nF S) D ≤ (e : Int) * (int32Max : Int)
    push_cast at h7
    omega
  md := Int.le_refl 0
  sorted := assignGroups_ids nF S
  inRange := fun i hi => by
    have h1 := ((assignGroups_rows nF S).trans hS.sameRows)
    have h2 : (i.feat, i.label) ∈ (preprocess (penalised nF nL e p) mls T).map fun i => (i.feat, i.label) :=
      List.Perm.mem_iff h1 |>.1 (List.mem_map.2 ⟨i, hi, rfl⟩)
    obtain ⟨j, hj, hji⟩ := List.mem_map.1 h2
    obtain ⟨k, hk, rfl⟩ := List.mem_map.1 hj
    have := h.inRange k hk
    simp only [Prod.mk.injEq] at hji
    rw [← hji.2]
    exact this
  order := ho
  worstPer := fun _ => .inl (Int.natCast_nonneg e)
  simInst := fun _ h => by cases h

theorem penalised_label {nF nL e p : Nat} (i j : Inst) (k : Nat) (hij : i.label = j.label) :
    (penalised nF nL e p).cost i k = (penalised nF nL e p).cost j k := by simp only [penalised, hij]

theorem SameRows.bestLeaves {P : Problem} (hP : ∀ i j k, i.label = j.label → P.cost i k = P.cost j k) (t : Tree) {D E : Data}
    (h : SameRows D E) (hb : BestLeaves P t D) : BestLeaves P t E := by
  induction t generalizing D E with
  | leaf k => intro j hj; rw [← h.leafCost hP, ← h.leafCost hP]; exact hb j hj
  | node f l r ihl ihr => exact ⟨ihl (h.filter fun g => !g f) hb.1, ihr (h.filter fun g => g f) hb.2⟩

theorem penalised_bestLeaves {nF nL e p : Nat} (he : 0 < e) {t : Tree} {D : Data} (h : BestLeaves (penalised nF nL e p) t D) : BestLeaves (accuracy nF nL) t D := by
  induction t generalizing D with
  | leaf k =>
    intro j hj
    have := h j hj
    rw [leafCost_penalised, leafCost_penalised] at this
    have e1 : ∀ m, leafCost (accuracy nF nL) D m = misclassified (.leaf m) D := fun m => cost_eq_misclassified nF nL (.leaf m) D
    rw [e1, e1]
    exact Int.le_of_mul_le_mul_left this (by omega)
  | node f l r ihl ihr => exact ⟨ihl h.1, ihr h.2⟩

/-- Back from the sorted and flipped data. -/
theorem penTree_back {nF nL e p mls : Nat} {T S : Data} (hmls : 1 ≤ mls) (hS : SortedByFeatures nF (preprocess (penalised nF nL e p) mls T) S) (tr : Tree)
    (h : tr.Legal (penalised nF nL e p) mls ((assignGroups nF S).map (·.inst))) :
    (unflip (flipped (penalised nF nL e p) T) tr).Legal (penalised nF nL e p) mls T ∧
    (unflip (flipped (penalised nF nL e p) T) tr).cost (penalised nF nL e p) T = tr.cost (penalised nF nL e p) ((assignGroups nF S).map (·.inst)) ∧
    (BestLeaves (penalised nF nL e p) tr ((assignGroups nF S).map (·.inst)) →
      BestLeaves (penalised nF nL e p) (unflip (flipped (penalised nF nL e p) T) tr) T) := by
  have hrows := (assignGroups_rows nF S).trans hS.sameRows
  obtain ⟨h1, h2⟩ := SameRows.tree (mls := mls) (P := penalised nF nL e p) penalised_label tr hrows
  obtain ⟨b1, b2⟩ := prep_backward (penalised_featureFree nF nL e p) hmls _ _ tr T (h2 h)
  refine ⟨b1, ?_, fun hb => prep_best (penalised_featureFree nF nL e p) hmls _ _ tr T (h2 h) (hrows.bestLeaves penalised_label tr hb)⟩
  rw [b2, h1]; rfl

/-- **C05, C06, C75 for the penalised classifier.** For every dataset, price, limit, option, feature order, initial upper bound and clock:
if `fit()` returns a tree, it keeps the depth and the leaf size, uses known features and labels, the reported value is its
number of errors plus the price of its nodes, and its leaves predict a most frequent class. -/
theorem penalised_returned {nF nL e p mls : Nat} {o : Options} {T S : Data} (t : Top) (ho : ∀ D f, f ∈ o.order D → f < nF) (hi : Input nL T)
    (hmls : 1 ≤ mls) (hS : SortedByFeatures nF (preprocess (penalised nF nL e p) mls T) S) (hN : (e + p) * T.length < e * int32Max)
    (hfit : t.maxNodes + 1 ≤ 2 ^ t.maxDepth) (he : 0 < e) (r : Fitted) (h : fitPenalisedTree nF nL e p mls o t T S = some (some r)) :
    r.tree.depth ≤ t.maxDepth ∧ LeavesHold mls r.tree T ∧ r.tree.Over nF nL ∧ r.value = e * misclassified r.tree T + p * r.tree.nodes ∧
    ∀ (x : Inst) (j : Nat), inLeaf r.tree T x j ≤ inLeaf r.tree T x (r.tree.predict x) := by
  have G := ccaCfg_base (o := o) hi hmls hS hN ho
  obtain ⟨_, hs⟩ := solve_sound G t hfit
  have hb := solve_bestLeaves G t hfit
  unfold fitPenalisedTree fitPenalised at h
  dsimp only at h
  rcases returned_spec G False _ hs (fun _ _ _ => rfl) (fun h => h.elim) with ⟨h1, _⟩ | ⟨tr, h1, h2, h3, _⟩
  · rw [h1] at h; simp at h
  · have h4 := returned_bestLeaves G t hs hb (fun _ _ _ => rfl) tr h1
    rw [h1] at h
    simp only [Option.map_some, Option.some.injEq] at h
    obtain ⟨b1, b2, b3⟩ := penTree_back hmls hS tr h3
    rw [← h]
    refine ⟨by rw [unflip_depth]; exact h2, legal_leavesHold b1, legal_over_pen b1, ?_, fun x j =>
      bestLeaves_counts hi.inRange (penalised_bestLeaves he (b3 h4)) x j⟩
    show trainValue _ tr _ 0 = _
    rw [trainValue_eq, Int.zero_add, ← b2, penalised_cost]

theorem penalised_leaves {nF nL e p mls : Nat} {o : Options} {T S : Data} (t : Top) (ho : ∀ D f, f ∈ o.order D → f < nF) (hi : Input nL T)
    (hmls : 1 ≤ mls) (hS : SortedByFeatures nF (preprocess (penalised nF nL e p) mls T) S) (hN : (e + p) * T.length < e * int32Max)
    (hfit : t.maxNodes + 1 ≤ 2 ^ t.maxDepth) (he : 0 < e) (r : Fitted) (h : fitPenalisedTree nF nL e p mls o t T S = some (some r)) :
    BestLeaves (accuracy nF nL) r.tree T ∧ r.tree.Legal (accuracy nF nL) mls T := by
  have G := ccaCfg_base (o := o) hi hmls hS hN ho
  obtain ⟨_, hs⟩ := solve_sound G t hfit
  have hb := solve_bestLeaves G t hfit
  unfold fitPenalisedTree fitPenalised at h
  dsimp only at h
  rcases returned_spec G False _ hs (fun _ _ _ => rfl) (fun h => h.elim) with ⟨h1, _⟩ | ⟨tr, h1, h2, h3, _⟩
  · rw [h1] at h; simp at h
  · have h4 := returned_bestLeaves G t hs hb (fun _ _ _ => rfl) tr h1
    rw [h1] at h
    simp only [Option.map_some, Option.some.injEq] at h
    obtain ⟨b1, b2, b3⟩ := penTree_back hmls hS tr h3
    rw [← h]
    exact ⟨penalised_bestLeaves he (b3 h4), over_hold_legal (legal_over_pen b1) (legal_leavesHold b1)⟩

/-- **C71** after any fit of the penalised classifier: whatever the price, limits, options and clock, if the labels are
`0, …, n_classes - 1` and `fit()` returned a tree, `predict_proba` raises nothing. Each row of its result has the class frequencies of the
training rows in its leaf, they sum to one, and the predicted label has the largest one. -/
theorem proba_after_penalised_fit {nF e p mls : Nat} {o : Options} {T S : Data} (t : Top) (X : List IntRow)
    (ho : ∀ D f, f ∈ o.order D → f < nF) (hi : Input (numClasses (asRows T)) T)
    (hmls : 1 ≤ mls) (hS : SortedByFeatures nF (preprocess (penalised nF (numClasses (asRows T)) e p) mls T) S)
    (hN : (e + p) * T.length < e * int32Max) (hfit : t.maxNodes + 1 ≤ 2 ^ t.maxDepth) (he : 0 < e) (r : Fitted)
    (h : fitPenalisedTree nF (numClasses (asRows T)) e p mls o t T S = some (some r)) :
    ∃ P, predictProba (numClasses (asRows T)) r.tree X (asRows T) = .ok P ∧ P.length = X.length ∧
      ∀ i, (hi : i < X.length) → (P.getD i []).length = numClasses (asRows T) ∧ (P.getD i []).sum = 1 ∧
        ∀ k, k < numClasses (asRows T) → (P.getD i []).getD k 0 = leafFrequency r.tree (asRows T) X[i] k ∧
          (P.getD i []).getD k 0 ≤ (P.getD i []).getD (leafLabel r.tree X[i]) 0 := by
  obtain ⟨h1, h2⟩ := penalised_leaves t ho hi hmls hS hN hfit he r h
  have hmaj := bestLeaves_majority hi.inRange hmls h1 h2
  obtain ⟨P, p1, p2, p3⟩ := proba_frequencies X (fun p hp => by
    obtain ⟨i, hm, rfl⟩ := List.mem_map.1 hp
    exact hi.inRange i hm) hmaj
  refine ⟨P, p1, p2, fun i hlt => ⟨(p3 i hlt).1, (p3 i hlt).2.1, fun k hk => ⟨(p3 i hlt).2.2 k hk, ?_⟩⟩⟩
  rw [(p3 i hlt).2.2 k hk, (p3 i hlt).2.2 _ (leafLabel_lt _ (legal_over h2) _)]
  exact proba_prefers_prediction _ hmaj k

/-- A tree is returned, whatever the options and the clock, if the data fill one leaf and there is no initial upper bound. -/
theorem penalised_returns {nF nL e p mls : Nat} {o : Options} {T S : Data} (t : Top) (ho : ∀ D f, f ∈ o.order D → f < nF) (hi : Input nL T)
    (hmls : 1 ≤ mls) (hT : mls ≤ T.length) (hS : SortedByFeatures nF (preprocess (penalised nF nL e p) mls T) S) (hN : (e + p) * T.length < e * int32Max)
    (hfit : t.maxNodes + 1 ≤ 2 ^ t.maxDepth) (hub : ((e * int32Max : Nat) : Int) ≤ t.ub) :
    ∃ r, fitPenalisedTree nF nL e p mls o t T S = some (some r) := by
  have G := ccaCfg_base (o := o) hi hmls hS hN ho
  obtain ⟨_, hs⟩ := solve_sound G t hfit
  have hlen : ((assignGroups nF S).map (·.inst)).length = T.length := by
    rw [(assignGroups_rows nF S).length, hS.sameRows.length, preprocess_length]
  have hne := hs.ne (by show (e : Int) * (int32Max : Int) ≤ t.ub; push_cast at hub; exact hub) (by rw [hlen]; exact hT)
  rcases returned_spec G False _ hs (fun _ _ _ => rfl) (fun h => h.elim) with ⟨_, h⟩ | ⟨tr, h1, _⟩
  · omega
  · exact ⟨⟨_, _⟩, by unfold fitPenalisedTree fitPenalised; dsimp only; rw [h1]; rfl⟩

theorem over_hold_legal_pen {nF nL e p mls : Nat} {t : Tree} {D : Data} (h : t.Over nF nL) (hm : LeavesHold mls t D) :
    t.Legal (penalised nF nL e p) mls D := by
  induction t generalizing D with
  | leaf k => exact ⟨h, hm⟩
  | node f l r ihl ihr => exact ⟨h.1, rfl, ihl h.2.1 hm.1, ihr h.2.2 hm.2⟩

/-- **C51 for the returned tree.** Without lower bounds and without the depth-two solver, a finished fit returns a tree with the smallest number of
errors plus price of the nodes among all trees within the limits. -/
theorem penalised_returned_best_partial {nF nL e p mls : Nat} {o : Options} {T S : Data} (t : Top) (hw : World nF o) (hi : Input nL T)
    (hmls : 1 ≤ mls) (hT : mls ≤ T.length) (hS : SortedByFeatures nF (preprocess (penalised nF nL e p) mls T) S) (hN : (e + p) * T.length < e * int32Max)
    (hterm : o.useTerm = false) (hsim : o.simLB = true → mls = 1) (hlb : o.useLB = false) (hub : o.useUB = true)
    (hfit : t.maxNodes + 1 ≤ 2 ^ t.maxDepth) (htub : ((e * int32Max : Nat) : Int) ≤ t.ub) (hopt : (fitPenalised nF nL e p mls o t T S).2 = true) :
    ∃ r, fitPenalisedTree nF nL e p mls o t T S = some (some r) ∧ r.value = e * misclassified r.tree T + p * r.tree.nodes ∧
      ∀ x : Tree, x.Over nF nL → LeavesHold mls x T → x.depth ≤ t.maxDepth → x.nodes ≤ t.maxNodes →
        r.value ≤ e * misclassified x T + p * x.nodes := by
  have G := ccaCfg_base (o := o) hi hmls hS hN (fun D f h => (hw.order D f).1 h)
  have nt : ∀ {p : Prop}, o.useTerm = true → p := fun a => by rw [hterm] at a; cases a
  have good := ccaCfg_good (o := o) hi hmls hS hN hw.order nt hsim hlb hub
  have hlen : ((assignGroups nF S).map (·.inst)).length = T.length := by
    rw [(assignGroups_rows nF S).length, hS.sameRows.length, preprocess_length]
  obtain ⟨_, hs⟩ := solve_sound G t hfit
  have hne := hs.ne (by show (e : Int) * (int32Max : Int) ≤ t.ub; push_cast at htub; exact htub) (by rw [hlen]; exact hT)
  have hbest := fitPenalised_spec hi hmls hT hS hN hw.order hw.clock nt hsim hlb hub hfit htub hopt
  obtain ⟨hall, _⟩ := (solve_spec good t (by rw [hlen]; exact hT) hw.clock hfit nt).2 hopt
  have hst := solve_st good hterm t (by rw [hlen]; exact hT) hfit
  rcases returned_spec G True _ hs (fun _ _ _ => rfl) (fun _ => ⟨⟨good.clock _, hterm⟩, hst.clock hall _⟩) with
    ⟨_, h⟩ | ⟨tr, h1, h2, h3, h4⟩
  · omega
  · obtain ⟨b1, b2, _⟩ := penTree_back hmls hS tr h3
    refine ⟨⟨_, _⟩, by unfold fitPenalisedTree fitPenalised; dsimp only; rw [h1]; rfl, ?_, fun x ho hl hd hn => ?_⟩
    · show trainValue _ tr _ 0 = _
      rw [trainValue_eq, Int.zero_add, ← b2, penalised_cost]
    · show trainValue _ tr _ 0 ≤ _
      rw [trainValue_eq, Int.zero_add]
      refine Int.le_trans (h4 trivial) ?_
      rw [← penalised_cost nF nL]
      exact hbest.2.2 x ⟨hd, hn, over_hold_legal_pen ho hl⟩

/-! ### The hypotheses are met -/

set_option maxRecDepth 100000 in
example : let o : Options := { giniOptions 4 2 with useLB := false, useTerm := false }
    World 4 o ∧ (fitPenalised 4 2 1 1 1 o ⟨3, 2 ^ 3 - 1, false, (1 * int32Max : Nat)⟩ penData penSorted).2 = true ∧
    fitPenalisedTree 4 2 1 1 1 o ⟨3, 2 ^ 3 - 1, false, (1 * int32Max : Nat)⟩ penData penSorted = some (some ⟨penBest, 4⟩) :=
  ⟨⟨(giniOptions_world 4 2).order, fun _ _ _ _ => rfl⟩, rfl, by decide +kernel⟩

set_option maxRecDepth 100000 in
example : ((fitPenalisedTree 4 2 1 1 1 (giniOptions 4 2) ⟨3, 2 ^ 3 - 1, false, (1 * int32Max : Nat)⟩ penData penSorted).map fun r => r.map (·.value)) = some (some 5) := by
  decide +kernel

/-- `proba_after_penalised_fit` applies to the default run. -/
example : numClasses (asRows penData) = 2 ∧ Input 2 penData ∧ SortedByFeatures 4 (preprocess (penalised 4 2 1 1) 1 penData) penSorted ∧
    ∃ r, fitPenalisedTree 4 2 1 1 1 (giniOptions 4 2) ⟨3, 2 ^ 3 - 1, false, (1 * int32Max : Nat)⟩ penData penSorted = some (some r) :=
  ⟨by decide, penData_input, penSorted_ok, penalised_returns _ (fun D f h => ((giniOptions_world 4 2).order D f).1 h) penData_input (by decide)
    (by decide) penSorted_ok (by decide) (by decide) (by decide)⟩

end Streed
