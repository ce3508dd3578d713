import Verif.Model.RealTree
import Verif.Lemmas.TolLeafBest
import Verif.Props.PenTree
import Verif.Props.PolicyFit

/-!
# C76: the tree returned for real-valued costs

The comparisons of doubles may keep the search from the optimum (`real_costs_not_optimal`). What is returned is still a tree within the
limits, the reported value is its cost, and every leaf carries the best prediction for the training rows it receives.
-/

namespace Streed
open TaskLemmas PolicyLemmas

/-- The training rows in the leaf of `x`. -/
def leafRows (t : Tree) (T : Data) (x : Inst) : Data := T.filter (t.together x)

theorem leafRows_right {f : Nat} {l r : Tree} {T : Data} {x : Inst} (h : x.feat f = true) :
    leafRows (.node f l r) T x = leafRows r (having f T) x := by
  unfold leafRows having
  rw [List.filter_filter]
  congr 1
  funext y
  simp only [Tree.together, h, if_true]
  cases y.feat f <;> simp

theorem leafRows_left {f : Nat} {l r : Tree} {T : Data} {x : Inst} (h : x.feat f = false) :
    leafRows (.node f l r) T x = leafRows l (without f T) x := by
  unfold leafRows without
  rw [List.filter_filter]
  congr 1
  funext y
  simp only [Tree.together, h, Bool.false_eq_true, if_false]
  cases y.feat f <;> simp

/-- A fact about all leaves holds for the leaf of every row. -/
theorem bestLeaves_rows {P : Problem} {t : Tree} {T : Data} (h : BestLeaves P t T) (x : Inst) {j : Nat} (hj : j < P.nL) :
    leafCost P (leafRows t T x) (t.predict x) ≤ leafCost P (leafRows t T x) j := by
  induction t generalizing T with
  | leaf k =>
    have e : leafRows (.leaf k) T x = T := by simp [leafRows, Tree.together]
    rw [e]
    exact h j hj
  | node f l r ihl ihr =>
    cases hx : x.feat f with
    | true =>
      rw [leafRows_right hx]
      have e : (Tree.node f l r).predict x = r.predict x := by simp [Tree.predict, hx]
      rw [e]
      exact ihr h.2
    | false =>
      rw [leafRows_left hx]
      have e : (Tree.node f l r).predict x = l.predict x := by simp [Tree.predict, hx]
      rw [e]
      exact ihl h.1

theorem leavesHold_rows {mls : Nat} {t : Tree} {T : Data} (h : LeavesHold mls t T) (x : Inst) : mls ≤ (leafRows t T x).length := by
  induction t generalizing T with
  | leaf k =>
    have e : leafRows (.leaf k) T x = T := by simp [leafRows, Tree.together]
    rw [e]
    exact h
  | node f l r ihl ihr =>
    cases hx : x.feat f with
    | true => rw [leafRows_right hx]; exact ihr h.2
    | false => rw [leafRows_left hx]; exact ihl h.1

/-- What the search hands back. -/
theorem tol_returned {c : Cfg} {D : Data} (G : Base c D) (t : Top) (hfit : t.maxNodes + 1 ≤ 2 ^ t.maxDepth)
    (hmay : c.useTerm = true → ∀ f, f < c.P.nF → c.P.may f = true) {y : Option Tree} (h : Tol.returned c D (Tol.solve c t D).1 = some y) :
    ∃ tr, y = some tr ∧ tr.depth ≤ t.maxDepth ∧ tr.Legal c.P c.mls D ∧ BestLeaves c.P tr D := by
  obtain ⟨_, hs⟩ := Tol.solve_sound G t hfit
  have hb := Tol.solve_bestLeaves G t hfit
  rcases Tol.returned_spec G t hs hmay with ⟨h1, _⟩ | ⟨tr, h1, h2, h3⟩
  · rw [h1] at h; simp at h
  · rw [h1] at h
    exact ⟨tr, (Option.some.inj h).symm, h2, h3, Tol.returned_bestLeaves G t hs hb hmay tr h1⟩

/-- A tree is handed back if there is no initial upper bound. -/
theorem tol_returns {c : Cfg} {D : Data} (G : Base c D) (t : Top) (hfit : t.maxNodes + 1 ≤ 2 ^ t.maxDepth)
    (hmay : c.useTerm = true → ∀ f, f < c.P.nF → c.P.may f = true) (hub : c.worst ≤ t.ub) (hD : c.mls ≤ D.length) :
    ∃ tr, Tol.returned c D (Tol.solve c t D).1 = some (some tr) := by
  obtain ⟨_, hs⟩ := Tol.solve_sound G t hfit
  have hne := hs.ne hub hD
  rcases Tol.returned_spec G t hs hmay with ⟨_, h⟩ | ⟨tr, h1, _⟩
  · omega
  · exact ⟨tr, h1⟩

/-! ### Instance costs -/

theorem instCfg_base {nF nL u mls : Nat} {w : Nat → Nat → Nat} {o : Options} {T : Data} (h : Input nL T)
    (hc : (T.map fun i => instWorst nL w i).sum < u * largestDouble) (ho : ∀ D f, f ∈ o.order D → f < nF) :
    Base (instCfg nF nL u w mls o (isRedundant (instProblem nF nL w) mls T)) (preprocess (instProblem nF nL w) mls T) where
  labels := h.labels
  bc := Int.le_refl _
  nonneg := fun i _ k => Int.natCast_nonneg _
  worst := Int.natCast_nonneg _
  small := fun D hD t ht => by
    show t.cost (instProblem nF nL w) D < ((u * largestDouble : Nat) : Int)
    rw [cost_eq_totalCost]
    have h1 := totalCost_le (w := w) (legal_over_inst ht) D
    have h2 := sublist_sum_le (g := fun i => instWorst nL w i) hD
    rw [preprocess_worst] at h2
    omega
  custom := fun D _ => Int.natCast_nonneg _
  md := Int.le_refl 0
  sorted := preprocess_sorted h.sorted
  inRange := fun i hi => by
    obtain ⟨j, hj, rfl⟩ := List.mem_map.1 hi
    exact h.inRange j hj
  order := ho
  worstPer := fun _ => .inl (Int.le_refl 0)
  simInst := fun v hv i _ => by
    simp only [instCfg, Option.some.injEq] at hv
    rw [← hv]
    exact Int.natCast_nonneg _

theorem inst_leafCost (nF nL : Nat) (w : Nat → Nat → Nat) (D : Data) (k : Nat) :
    leafCost (instProblem nF nL w) D k = ((D.map fun i => w i.id k).sum : Nat) := by
  have := cost_eq_totalCost nF nL w (.leaf k) D
  exact this

/-- **C76 for instance costs.** For every dataset, costs, limit, option, feature order, initial upper bound and clock: what is returned is a
tree within the depth and the leaf size, the reported value is the total cost of its predictions on the training data, and no leaf
would cost less with another label. -/
theorem costs_returned {nF nL u mls : Nat} {w : Nat → Nat → Nat} {o : Options} {T : Data} (t : Top) (ho : ∀ D f, f ∈ o.order D → f < nF)
    (hi : Input nL T) (hc : (T.map fun i => instWorst nL w i).sum < u * largestDouble) (hmls : 1 ≤ mls)
    (hfit : t.maxNodes + 1 ≤ 2 ^ t.maxDepth) (y : Option Fitted) (h : fitCostsTree nF nL u w mls o t T = some y) :
    ∃ r, y = some r ∧ r.tree.depth ≤ t.maxDepth ∧ LeavesHold mls r.tree T ∧ r.tree.Over nF nL ∧ r.value = totalCost w r.tree T ∧
    ∀ (x : Inst) (k : Nat), k < nL →
      ((leafRows r.tree T x).map fun i => w i.id (r.tree.predict x)).sum ≤ ((leafRows r.tree T x).map fun i => w i.id k).sum := by
  have G := instCfg_base (mls := mls) (o := o) hi hc ho
  unfold fitCostsTree fitCosts at h
  dsimp only at h
  obtain ⟨y', h1, rfl⟩ := Option.map_eq_some_iff.1 h
  obtain ⟨tr, rfl, h2, h3, h4⟩ := tol_returned G t hfit (fun _ _ _ => rfl) h1
  have hP := inst_featureFree nF nL w
  obtain ⟨b1, b2⟩ := prep_backward hP hmls _ _ tr T h3
  have b3 := prep_best hP hmls _ _ tr T h3 h4
  refine ⟨_, rfl, by rw [unflip_depth]; exact h2, legal_leavesHold b1, legal_over_inst b1, ?_, fun x k hk => ?_⟩
  · show trainValue _ tr _ 0 = _
    rw [trainValue_eq, Int.zero_add, ← cost_eq_totalCost nF nL]
    exact b2.symm
  · have := bestLeaves_rows b3 x hk
    rw [inst_leafCost, inst_leafCost] at this
    exact_mod_cast this

/-- A tree is returned, whatever the options and the clock. -/
theorem costs_returns {nF nL u mls : Nat} {w : Nat → Nat → Nat} {o : Options} {T : Data} (t : Top) (ho : ∀ D f, f ∈ o.order D → f < nF)
    (hi : Input nL T) (hc : (T.map fun i => instWorst nL w i).sum < u * largestDouble) (hT : mls ≤ T.length)
    (hfit : t.maxNodes + 1 ≤ 2 ^ t.maxDepth) (hub : ((u * largestDouble : Nat) : Int) ≤ t.ub) :
    ∃ r, fitCostsTree nF nL u w mls o t T = some (some r) := by
  have G := instCfg_base (mls := mls) (o := o) hi hc ho
  obtain ⟨tr, h1⟩ := tol_returns G t hfit (fun _ _ _ => rfl) hub (by rw [preprocess_length]; exact hT)
  exact ⟨⟨_, _⟩, by unfold fitCostsTree fitCosts; dsimp only; rw [h1]; rfl⟩

/-! ### Policies -/

theorem policyCfg_base {nF nL u mls : Nat} {ext : Inst → Treatment} {m : Teacher} {o : Options} {T : Data} (h : Input nL T)
    (hc : (T.map fun i => instWorst nL (policyUnits u (costRows ext m nL T)) i).sum < u * int32Max)
    (ho : ∀ D f, f ∈ o.order D → f < nF) :
    Base (policyCfg nF nL u ext m mls o (isRedundant (instProblem nF nL (policyUnits u (costRows ext m nL T))) mls T) T)
      (preprocess (instProblem nF nL (policyUnits u (costRows ext m nL T))) mls T) where
  labels := h.labels
  bc := Int.le_refl _
  nonneg := fun i _ k => Int.natCast_nonneg _
  worst := Int.natCast_nonneg _
  small := fun D hD t ht => by
    show t.cost (instProblem nF nL (policyUnits u (costRows ext m nL T))) D < ((u * int32Max : Nat) : Int)
    rw [cost_eq_totalCost]
    have h1 := totalCost_le (w := policyUnits u (costRows ext m nL T)) (legal_over_inst ht) D
    have h2 := sublist_sum_le (g := fun i => instWorst nL (policyUnits u (costRows ext m nL T)) i) hD
    rw [preprocess_worst] at h2
    omega
  custom := fun D _ => Int.natCast_nonneg _
  md := Int.le_refl 0
  sorted := preprocess_sorted h.sorted
  inRange := fun i hi => by
    obtain ⟨j, hj, rfl⟩ := List.mem_map.1 hi
    exact h.inRange j hj
  order := ho
  worstPer := fun k => by
    by_cases hk : ∃ i ∈ T, i.label = k
    · obtain ⟨j, hj, rfl⟩ := hk
      left
      show (0 : Int) ≤ ((u : Rat) * (informWorst ext m nL T []).getD j.label 0).floor
      rw [Rat.le_floor_iff]
      have h1 := policy_worst m ext nL T [] h.inRange h.nodup j hj j.label (h.inRange j hj)
      unfold policyD2 at h1
      rw [costRow_eq h.inRange h.nodup hj] at h1
      have h0 := minScore_le (ext := ext) (m := m) hj (h.inRange j hj) (h.inRange j hj)
      have h2 : 0 ≤ (informWorst ext m nL T []).getD j.label 0 := by
        refine le_trans (sub_nonneg.2 h0) ?_
        simpa using h1
      exact_mod_cast mul_nonneg (Nat.cast_nonneg u) h2
    · right
      intro i hi e
      obtain ⟨j, hj, rfl⟩ := List.mem_map.1 hi
      exact hk ⟨j, hj, e⟩
  simInst := fun v hv => by simp [policyCfg] at hv

theorem score_eq_estimate {m : Teacher} {ext : Inst → Treatment} {D : Data} (h : Usable m ext D) {i : Inst}
    (hi : i ∈ D) (k : Nat) : (ext i).score m k = -estimate m (ext i) k := by
  cases m with
  | dm => rfl
  | ipw =>
    have : ¬ |(ext i).mu| ≤ 1 / 1000000 := not_le.2 ((h.resolve_left (by simp)) i hi)
    simp only [Treatment.score, estimate, decide_eq_true_eq, if_neg this]
  | dr =>
    have : ¬ |(ext i).mu| ≤ 1 / 1000000 := not_le.2 ((h.resolve_left (by simp)) i hi)
    simp only [Treatment.score, estimate, decide_eq_true_eq, if_neg this]
    by_cases e : k = (ext i).k <;> simp [e]

theorem policy_leafCost {nF u nL : Nat} {ext : Inst → Treatment} {m : Teacher} {T : Data} (hi : Input nL T)
    (hU : PolicyUnits u nL ext m T) (hus : Usable m ext T) {k : Nat} (hk : k < nL) {D : Data} (hD : ∀ i ∈ D, i ∈ T) :
    (leafCost (instProblem nF nL (policyUnits u (costRows ext m nL T))) D k : Rat) =
      u * (-(D.map fun i => estimate m (ext i) k).sum - D.length * minScore ext m nL T) := by
  rw [inst_leafCost, Int.cast_natCast]
  induction D with
  | nil => simp
  | cons i D ih =>
    have h1 := hD i (List.mem_cons_self ..)
    rw [List.map_cons, List.sum_cons, Nat.cast_add, ih fun j hj => hD j (List.mem_cons_of_mem _ hj), policyUnits_eq hi hU h1 hk,
      score_eq_estimate hus h1, List.map_cons, List.sum_cons, List.length_cons]
    push_cast
    ring

/-- **C76 for policies.** What is returned is a policy within the depth and the leaf size, the reported value is the negated estimated value
of the policy, shifted by the least score of everyone, and in no leaf another treatment has a larger estimated outcome. -/
theorem policy_returned {nF nL u mls : Nat} {ext : Inst → Treatment} {m : Teacher} {o : Options} {T : Data} (t : Top)
    (ho : ∀ D f, f ∈ o.order D → f < nF) (hi : Input nL T) (hU : PolicyUnits u nL ext m T) (hus : Usable m ext T)
    (hc : (T.map fun i => instWorst nL (policyUnits u (costRows ext m nL T)) i).sum < u * int32Max) (hmls : 1 ≤ mls)
    (hfit : t.maxNodes + 1 ≤ 2 ^ t.maxDepth) (y : Option Fitted) (h : fitPolicyTree nF nL u ext m mls o t T = some y) :
    ∃ r, y = some r ∧ r.tree.depth ≤ t.maxDepth ∧ LeavesHold mls r.tree T ∧ r.tree.Over nF nL ∧
    (r.value : Rat) / u = -policyValue m ext r.tree T - T.length * minScore ext m nL T ∧
    ∀ (x : Inst) (k : Nat), k < nL → ((leafRows r.tree T x).map fun i => estimate m (ext i) k).sum ≤
      ((leafRows r.tree T x).map fun i => estimate m (ext i) (r.tree.predict x)).sum := by
  have G := policyCfg_base (mls := mls) (o := o) hi hc ho
  unfold fitPolicyTree fitPolicy at h
  dsimp only at h
  obtain ⟨y', h1, rfl⟩ := Option.map_eq_some_iff.1 h
  obtain ⟨tr, rfl, h2, h3, h4⟩ := tol_returned G t hfit (fun _ _ _ => rfl) h1
  have hP := inst_featureFree nF nL (policyUnits u (costRows ext m nL T))
  obtain ⟨b1, b2⟩ := prep_backward hP hmls _ _ tr T h3
  have b3 := prep_best hP hmls _ _ tr T h3 h4
  have hu : (0 : Rat) < u := by exact_mod_cast hU.pos
  refine ⟨_, rfl, by rw [unflip_depth]; exact h2, legal_leavesHold b1, legal_over_inst b1, ?_, fun x k hk => ?_⟩
  · show ((trainValue _ tr _ 0 : Int) : Rat) / u = _
    rw [trainValue_eq, Int.zero_add, div_eq_iff hu.ne']
    have e := policyCost_eq hi hU (legal_over_inst b1)
    unfold policyCost at e
    rw [policy_eval hi.inRange hi.nodup hus] at e
    rw [mul_comm, ← e, ← Int.cast_natCast, ← cost_eq_totalCost nF nL]
    exact congrArg _ b2.symm
  · have h5 := bestLeaves_rows b3 x hk
    have h6 : ∀ i ∈ leafRows (unflip (flipped (instProblem nF nL (policyUnits u (costRows ext m nL T))) T) tr) T x, i ∈ T :=
      fun i hi => List.mem_of_mem_filter hi
    have h7 := policy_leafCost (nF := nF) hi hU hus (over_predict_lt (legal_over_inst b1) x) h6
    have h8 := policy_leafCost (nF := nF) hi hU hus hk h6
    have h9 : (leafCost (instProblem nF nL (policyUnits u (costRows ext m nL T)))
        (leafRows (unflip (flipped (instProblem nF nL (policyUnits u (costRows ext m nL T))) T) tr) T x)
        ((unflip (flipped (instProblem nF nL (policyUnits u (costRows ext m nL T))) T) tr).predict x) : Rat) ≤
        (leafCost (instProblem nF nL (policyUnits u (costRows ext m nL T)))
        (leafRows (unflip (flipped (instProblem nF nL (policyUnits u (costRows ext m nL T))) T) tr) T x) k : Rat) := by exact_mod_cast h5
    rw [h7, h8] at h9
    have := le_of_mul_le_mul_left h9 hu
    linarith

theorem policy_returns {nF nL u mls : Nat} {ext : Inst → Treatment} {m : Teacher} {o : Options} {T : Data} (t : Top)
    (ho : ∀ D f, f ∈ o.order D → f < nF) (hi : Input nL T)
    (hc : (T.map fun i => instWorst nL (policyUnits u (costRows ext m nL T)) i).sum < u * int32Max) (hT : mls ≤ T.length)
    (hfit : t.maxNodes + 1 ≤ 2 ^ t.maxDepth) (hub : ((u * int32Max : Nat) : Int) ≤ t.ub) :
    ∃ r, fitPolicyTree nF nL u ext m mls o t T = some (some r) := by
  have G := policyCfg_base (mls := mls) (o := o) hi hc ho
  obtain ⟨tr, h1⟩ := tol_returns G t hfit (fun _ _ _ => rfl) hub (by rw [preprocess_length]; exact hT)
  exact ⟨⟨_, _⟩, by unfold fitPolicyTree fitPolicy; dsimp only; rw [h1]; rfl⟩

/-! ### A price per node -/

/-- **C76 for penalised errors**, with the comparisons of doubles; `penalised_returned` is the same with exact ones. -/
theorem penalised_returned_tol {nF nL e p mls : Nat} {o : Options} {T S : Data} (t : Top) (ho : ∀ D f, f ∈ o.order D → f < nF) (hi : Input nL T)
    (hmls : 1 ≤ mls) (hS : SortedByFeatures nF (preprocess (penalised nF nL e p) mls T) S) (hN : (e + p) * T.length < e * int32Max)
    (hfit : t.maxNodes + 1 ≤ 2 ^ t.maxDepth) (he : 0 < e) (y : Option Fitted) (h : fitPenalisedTreeTol nF nL e p mls o t T S = some y) :
    ∃ r, y = some r ∧ r.tree.depth ≤ t.maxDepth ∧ LeavesHold mls r.tree T ∧ r.tree.Over nF nL ∧
    r.value = e * misclassified r.tree T + p * r.tree.nodes ∧
    ∀ (x : Inst) (j : Nat), inLeaf r.tree T x j ≤ inLeaf r.tree T x (r.tree.predict x) := by
  have G := ccaCfg_base (o := o) hi hmls hS hN ho
  unfold fitPenalisedTreeTol fitPenalisedTol at h
  dsimp only at h
  obtain ⟨y', h1, rfl⟩ := Option.map_eq_some_iff.1 h
  obtain ⟨tr, rfl, h2, h3, h4⟩ := tol_returned G t hfit (fun _ _ _ => rfl) h1
  obtain ⟨b1, b2, b3⟩ := penTree_back hmls hS tr h3
  refine ⟨_, rfl, by rw [unflip_depth]; exact h2, legal_leavesHold b1, legal_over_pen b1, ?_, fun x j =>
    bestLeaves_counts hi.inRange (penalised_bestLeaves he (b3 h4)) x j⟩
  show trainValue _ tr _ 0 = _
  rw [trainValue_eq, Int.zero_add, ← b2, penalised_cost]

theorem penalised_returns_tol {nF nL e p mls : Nat} {o : Options} {T S : Data} (t : Top) (ho : ∀ D f, f ∈ o.order D → f < nF) (hi : Input nL T)
    (hmls : 1 ≤ mls) (hT : mls ≤ T.length) (hS : SortedByFeatures nF (preprocess (penalised nF nL e p) mls T) S) (hN : (e + p) * T.length < e * int32Max)
    (hfit : t.maxNodes + 1 ≤ 2 ^ t.maxDepth) (hub : ((e * int32Max : Nat) : Int) ≤ t.ub) :
    ∃ r, fitPenalisedTreeTol nF nL e p mls o t T S = some (some r) := by
  have G := ccaCfg_base (o := o) hi hmls hS hN ho
  have hlen : ((assignGroups nF S).map (·.inst)).length = T.length := by
    rw [(assignGroups_rows nF S).length, hS.sameRows.length, preprocess_length]
  obtain ⟨tr, h1⟩ := tol_returns G t hfit (fun _ _ _ => rfl)
    (by show (e : Int) * (int32Max : Int) ≤ t.ub; push_cast at hub; exact hub) (by rw [hlen]; exact hT)
  exact ⟨⟨_, _⟩, by unfold fitPenalisedTreeTol fitPenalisedTol; dsimp only; rw [h1]; rfl⟩

/-! ### Regression -/

theorem regLB_worst {nF q : Nat} {R : List (List EInst)} (hR : Runs nF R) {tg : Nat → Rat} {bc : Rat} (hbc : 0 ≤ bc) (cl : Option Nat)
    {D : Data} (hD : ∀ i ∈ D, i ∈ R.map mergedInst) (v : Rat) : (regLB q tg R bc cl D : Rat) ≤ q * totalError tg (expand R D) (.leaf v) := by
  cases cl with
  | none => exact regLB_le hR tg bc hD (t := .leaf v) trivial
  | some n =>
    unfold regLB
    dsimp only
    refine le_trans (by exact_mod_cast Rat.floor_le _) ?_
    refine mul_le_mul_of_nonneg_left ?_ (Nat.cast_nonneg q)
    by_cases he : D = []
    · subst he
      have : (KM.regressionLB true bc [] (viewInsts tg R []) n).1 = 0 := by
        simp [KM.regressionLB, viewInsts, KM.groups, KM.dynamicStop, KM.stopLoop, KM.firstRow]
      rw [this]
      exact totalError_nonneg _ _ _
    · have hv : viewInsts tg R D ≠ [] := by simpa [viewInsts] using he
      have hw := viewInsts_weight hR tg hD
      have hF := (KM.entries_step hbc hv hw (boundsAfter_entries true hbc hv hw []) n).1.below
      have e : KM.errAll (viewInsts tg R D) (fun _ => v) = totalError tg (expand R D) (.leaf v) := by
        unfold KM.errAll viewInsts totalError expand
        rw [List.map_map, List.map_flatMap, List.flatMap_def, List.sum_flatten, List.map_map]
        congr 1
        refine List.map_congr_left fun i hi => ?_
        simp only [Function.comp_apply]
        rw [err_targets (runInst_stands tg _), List.map_map, List.map_map]
        rfl
      refine hF _ ⟨fun _ => v, 0, Nat.zero_le _, ?_, by rw [e]; simp⟩
      rw [Nat.zero_add, ← Finset.card_singleton v]
      refine Finset.card_le_card fun x hx => ?_
      rw [List.mem_toFinset, List.mem_map] at hx
      obtain ⟨_, _, rfl⟩ := hx
      exact Finset.mem_singleton_self _

theorem fitCfg_base {nF q : Nat} {ccp B : Rat} {tg : Nat → Rat} {T S : Data} (hU : Units q ccp tg T) (hp : 0 ≤ regPrice ccp tg T)
    (hS : SortedByFeatures nF (preprocess (userProblem nF q ccp tg T) 1 T) S) (hF : Fits ccp tg T B) (hT : T ≠ []) (cl : Option Nat)
    {o : Options} (ho : ∀ D f, f ∈ o.order D → f < nF) : Base (fitCfg nF q ccp tg cl o T S) (mergedData nF S) where
  labels := values_pos hT
  bc := by
    have h1 := user_bc (nF := nF) hU
    have h2 : (0 : Rat) ≤ q * regPrice ccp tg T := mul_nonneg (Nat.cast_nonneg _) hp
    rw [← h1] at h2
    show 0 ≤ (userProblem nF q ccp tg T).bc
    exact_mod_cast h2
  nonneg := fun i hi k => by
    refine List.sum_nonneg fun z hz => ?_
    obtain ⟨e, _, rfl⟩ := List.mem_map.1 hz
    exact user_nonneg nF q ccp tg T e.inst k
  worst := Int.natCast_nonneg _
  small := fun D hD t ht => merged_small hU hp hS hF hD ht
  custom := fun D hD => by
    have h1 := regLB_worst (q := q) (tg := tg) (runs_groups nF S) hp cl (D := D) (fun i hi => hD.subset hi) ((leafValues tg T).getD 0 0)
    have hq : (0 : Rat) ≤ q := Nat.cast_nonneg _
    have h2 : (q : Rat) * totalError tg (expand (runsOf (assignGroups nF S)) D) (.leaf ((leafValues tg T).getD 0 0)) ≤ ((q * largestDouble : Nat) : Int) := by
      by_cases he : D = []
      · subst he
        simp only [expand, totalError, List.flatMap_nil, List.map_nil, List.sum_nil, mul_zero]
        exact_mod_cast Nat.zero_le _
      · have h3 : (Tree.leaf 0).Legal (mergedProblem (userProblem nF q ccp tg T) (runsOf (assignGroups nF S))) 1 D :=
          ⟨values_pos hT, List.length_pos_iff.2 he⟩
        have h4 := merged_small hU hp hS hF hD h3
        have h5 := (tree_expand (runs_groups nF S) (P := userProblem nF q ccp tg T) (.leaf 0) (D := D) (fun i hi => hD.subset hi) (values_pos hT)).1
        have h6 := user_treeCost (nF := nF) hU (.leaf 0) (view_labels hS hD).1 (values_pos hT)
        rw [← h5] at h6
        simp only [valueTree, Tree.nodes, Nat.cast_zero, zero_mul, add_zero] at h6
        rw [← h6]
        exact_mod_cast h4.le
    have h7 := le_trans h1 h2
    exact_mod_cast h7
  md := Int.le_refl 0
  sorted := merged_sorted (runs_groups nF S)
  inRange := fun i hi => by
    obtain ⟨r, hr, rfl⟩ := List.mem_map.1 hi
    obtain ⟨e, _, e1⟩ := merged_head (runs_groups nF S) hr
    rw [e1]
    exact values_pos hT
  order := ho
  worstPer := fun _ => .inl (Int.le_refl 0)
  simInst := fun v hv i _ => by
    simp only [fitCfg, regCfg, Option.some.injEq] at hv
    rw [← hv]
    show (0 : Int) ≤ Rat.ceil _
    have h0 : (0 : Rat) ≤ q * ccrRemoved (targetRange tg T) (runInst tg (rowsWith (runsOf (assignGroups nF S)) i.id)) := by
      refine mul_nonneg (Nat.cast_nonneg _) (mul_nonneg (Nat.cast_nonneg _) ?_)
      unfold ccrWorst
      split <;> exact mul_self_nonneg _
    have h1 := le_trans h0 (Rat.le_ceil (x := _))
    exact_mod_cast h1

theorem bestLeaves_expand {nF : Nat} {R : List (List EInst)} (hR : Runs nF R) {P : Problem} (t : Tree) {D : Data}
    (hD : ∀ i ∈ D, i ∈ R.map mergedInst) (ht : t.Over nF P.nL) (h : BestLeaves (mergedProblem P R) t D) : BestLeaves P t (expand R D) := by
  induction t generalizing D with
  | leaf k => intro j hj; rw [← leafCost_expand, ← leafCost_expand]; exact h j hj
  | node f l r ihl ihr =>
    have h0 : without f (expand R D) = expand R (without f D) := expand_filter hR hD ht.1 fun b => !b
    have h1 : having f (expand R D) = expand R (having f D) := expand_filter hR hD ht.1 fun b => b
    refine ⟨?_, ?_⟩
    · rw [h0]; exact ihl (fun i hi => hD i (List.mem_of_mem_filter hi)) ht.2.1 h.1
    · rw [h1]; exact ihr (fun i hi => hD i (List.mem_of_mem_filter hi)) ht.2.2 h.2

/-- Back from the merged, sorted and flipped data. -/
theorem regTree_back {nF q : Nat} {ccp : Rat} {tg : Nat → Rat} {T S : Data}
    (hS : SortedByFeatures nF (preprocess (userProblem nF q ccp tg T) 1 T) S) (tr : Tree)
    (h : tr.Legal (mergedProblem (userProblem nF q ccp tg T) (runsOf (assignGroups nF S))) 1 (mergedData nF S)) :
    (unflip (flipped (userProblem nF q ccp tg T) T) tr).Legal (userProblem nF q ccp tg T) 1 T ∧
    (unflip (flipped (userProblem nF q ccp tg T) T) tr).cost (userProblem nF q ccp tg T) T =
      tr.cost (mergedProblem (userProblem nF q ccp tg T) (runsOf (assignGroups nF S))) (mergedData nF S) ∧
    (BestLeaves (mergedProblem (userProblem nF q ccp tg T) (runsOf (assignGroups nF S))) tr (mergedData nF S) →
      BestLeaves (userProblem nF q ccp tg T) (unflip (flipped (userProblem nF q ccp tg T) T) tr) T) := by
  have ho : tr.Over nF (leafValues tg T).length := legal_over_of (P := mergedProblem (userProblem nF q ccp tg T) _) h
  have hR := runs_groups nF S
  obtain ⟨e1, e2⟩ := tree_expand hR (P := userProblem nF q ccp tg T) tr (D := mergedData nF S) (fun i hi => hi) ho
  have e3 := bestLeaves_expand hR (P := userProblem nF q ccp tg T) tr (D := mergedData nF S) (fun i hi => hi) ho
  have eall : expand (runsOf (assignGroups nF S)) (mergedData nF S) = (assignGroups nF S).map (·.inst) := by
    unfold mergedData
    rw [expand_all hR, merged_flatten]
  rw [eall] at e1 e2 e3
  have hl : ∀ i j : Inst, ∀ k, i.label = j.label → (userProblem nF q ccp tg T).cost i k = (userProblem nF q ccp tg T).cost j k := by
    intro i j k hij
    simp only [userProblem, regProblem, hij]
  have hrows := (assignGroups_rows nF S).trans hS.sameRows
  obtain ⟨h1, h2⟩ := SameRows.tree (mls := 1) (P := userProblem nF q ccp tg T) hl tr hrows
  obtain ⟨b1, b2⟩ := prep_backward (user_featureFree nF q ccp tg T) (Nat.le_refl 1) _ _ tr T (h2 (e2.1 h))
  refine ⟨b1, ?_, fun hb => prep_best (user_featureFree nF q ccp tg T) (Nat.le_refl 1) _ _ tr T (h2 (e2.1 h)) (hrows.bestLeaves hl tr (e3 hb))⟩
  rw [b2, e1, h1]; rfl

theorem valueTree_predict (vals : List Rat) (t : Tree) (x : Inst) : (valueTree vals t).predict x.feat = vals.getD (t.predict x) 0 := by
  induction t with
  | leaf k => rfl
  | node f l r ihl ihr =>
    simp only [valueTree, RegTree.predict, Tree.predict, ihl, ihr]
    split <;> rfl

/-- **C76 for regression.** For every dataset with at least one row, every price, depth, option, feature order, initial upper bound and clock,
and whatever bound the task is asked for: what is returned is a tree within the depth, each of whose leaves receives training
data, the reported value is its squared error plus the price of its nodes, and every leaf predicts the mean of the targets that it
receives. -/
theorem regression_returned {nF q : Nat} {ccp w B : Rat} {tg : Nat → Rat} {o : Options} {T S : Data} (t : Top) (cl : Option Nat)
    (ho : ∀ D f, f ∈ o.order D → f < nF) (hT : T ≠ []) (hccp : 0 ≤ ccp) (hbest : BestLeaf tg T w) (hU : Units q ccp tg T)
    (hF : Fits ccp tg T B) (hS : SortedByFeatures nF (preprocess (userProblem nF q ccp tg T) 1 T) S)
    (hfit : t.maxNodes + 1 ≤ 2 ^ t.maxDepth) (y : Option Fitted) (h : fitRegressionTree nF q ccp tg cl o t T S = some y) :
    ∃ r, y = some r ∧ ∃ rt, rt = valueTree (leafValues tg T) r.tree ∧ rt.depth ≤ t.maxDepth ∧ rt.Over nF ∧
    (r.value : Rat) / q = totalError tg T rt + rt.nodes * (ccp * w) ∧
    ∀ x : Inst, 1 ≤ (leafRows r.tree T x).length ∧ rt.predict x.feat = meanOf ((leafRows r.tree T x).map fun i => tg i.label) := by
  have hp : 0 ≤ regPrice ccp tg T := by
    rw [price_eq hT hbest]
    exact mul_nonneg hccp (bestLeaf_nonneg hbest)
  have G := fitCfg_base hU hp hS hF hT cl ho
  unfold fitRegressionTree fitRegressionTol at h
  dsimp only at h
  obtain ⟨y', h1, rfl⟩ := Option.map_eq_some_iff.1 h
  obtain ⟨tr, rfl, h2, h3, h4⟩ := tol_returned G t hfit (fun _ _ _ => rfl) h1
  obtain ⟨b1, b2, b3⟩ := regTree_back hS tr h3
  have hq : (0 : Rat) < q := by exact_mod_cast hU.pos
  have hover : (unflip (flipped (userProblem nF q ccp tg T) T) tr).Over nF (leafValues tg T).length := legal_over_of b1
  obtain ⟨v1, v2, v3⟩ := valueTree_shape (leafValues tg T) _ hover
  refine ⟨_, rfl, _, rfl, ?_, v1, ?_, fun x => ?_⟩
  · rw [v2, unflip_depth]; exact h2
  · show ((trainValue _ tr _ 0 : Int) : Rat) / q = _
    rw [trainValue_eq, Int.zero_add, ← b2, user_treeCost hU _ (fun i hi => ⟨i, hi, rfl⟩) hover, v3, price_eq hT hbest]
    field_simp
  · have hlen := leavesHold_rows (legal_leavesHold b1) x
    refine ⟨hlen, ?_⟩
    have hsub : (leafRows (unflip (flipped (userProblem nF q ccp tg T) T) tr) T x).Sublist T := List.filter_sublist
    generalize hD : leafRows (unflip (flipped (userProblem nF q ccp tg T) T) tr) T x = D at hlen hsub
    have hne : (D.map fun i => tg i.label) ≠ [] := by
      rintro e
      rw [List.map_eq_nil_iff.1 e] at hlen
      simp at hlen
    obtain ⟨k, hk, e⟩ := List.getElem_of_mem (mean_mem (T := T) hne (hsub.map _).subperm)
    have h5 := bestLeaves_rows (b3 h4) x (j := k) hk
    rw [hD] at h5
    have hin : LabelsIn T D := fun i hi => ⟨i, hsub.subset hi, rfl⟩
    have h6 : ((leafCost (userProblem nF q ccp tg T) D ((unflip (flipped (userProblem nF q ccp tg T) T) tr).predict x) : Int) : Rat) ≤
      (leafCost (userProblem nF q ccp tg T) D k : Int) := by exact_mod_cast h5
    rw [user_leafCost hU hin (over_predict_lt hover x), user_leafCost hU hin hk, List.getD_eq_getElem _ _ hk, e] at h6
    have h7 := le_of_mul_le_mul_left h6 hq
    rw [valueTree_predict]
    generalize (leafValues tg T).getD ((unflip (flipped (userProblem nF q ccp tg T) T) tr).predict x) 0 = c at h7 ⊢
    have h8 := sq_split hne c
    rw [List.map_map, List.map_map] at h8
    have h9 : totalError tg D (.leaf c) = totalError tg D (.leaf (meanOf (D.map fun i => tg i.label))) +
      (D.map fun i => tg i.label).length * (meanOf (D.map fun i => tg i.label) - c) ^ 2 := h8
    have hl : (0 : Rat) < (D.map fun i => tg i.label).length := by exact_mod_cast List.length_pos_of_ne_nil hne
    have h10 : ((D.map fun i => tg i.label).length : Rat) * (meanOf (D.map fun i => tg i.label) - c) ^ 2 ≤ 0 := by linarith
    have h11 : (meanOf (D.map fun i => tg i.label) - c) ^ 2 ≤ 0 := by
      by_contra hc
      have := mul_pos hl (not_le.1 hc)
      linarith
    have h12 := pow_eq_zero_iff (two_ne_zero) |>.1 (le_antisymm h11 (sq_nonneg _))
    linarith

theorem regression_returns {nF q : Nat} {ccp w B : Rat} {tg : Nat → Rat} {o : Options} {T S : Data} (t : Top) (cl : Option Nat)
    (ho : ∀ D f, f ∈ o.order D → f < nF) (hT : T ≠ []) (hccp : 0 ≤ ccp) (hbest : BestLeaf tg T w) (hU : Units q ccp tg T)
    (hF : Fits ccp tg T B) (hS : SortedByFeatures nF (preprocess (userProblem nF q ccp tg T) 1 T) S)
    (hfit : t.maxNodes + 1 ≤ 2 ^ t.maxDepth) (hub : ((q * largestDouble : Nat) : Int) ≤ t.ub) :
    ∃ r, fitRegressionTree nF q ccp tg cl o t T S = some (some r) := by
  have hp : 0 ≤ regPrice ccp tg T := by
    rw [price_eq hT hbest]
    exact mul_nonneg hccp (bestLeaf_nonneg hbest)
  have G := fitCfg_base hU hp hS hF hT cl ho
  obtain ⟨tr, h1⟩ := tol_returns G t hfit (fun _ _ _ => rfl) hub (merged_nonempty hT hS)
  exact ⟨⟨_, _⟩, by unfold fitRegressionTree fitRegressionTol; dsimp only; rw [h1]; rfl⟩

/-! ### The hypotheses are met -/

/-- A wrong parity costs three, a right one costs one for the last row. -/
def parityCosts : Nat → Nat → Nat := fun i k => if (i % 2 + i / 2) % 2 = k then (if i = 3 then 1 else 0) else 3

set_option maxRecDepth 100000 in
/-- Instance costs, with the default options and with a time limit that is hit at the tenth look at the clock. -/
example : let o := defaultOptions 2
    let late : Options := { o with clock := fun n => decide (n < 10) }
    (∀ D f, f ∈ o.order D → f < 2) ∧ Input 2 trialData ∧ (trialData.map fun i => instWorst 2 parityCosts i).sum < 1 * largestDouble ∧
    fitCostsTree 2 2 1 parityCosts 1 o ⟨2, 2 ^ 2 - 1, false, (1 * largestDouble : Nat)⟩ trialData =
      some (some ⟨.node 0 (.node 1 (.leaf 0) (.leaf 1)) (.node 1 (.leaf 1) (.leaf 0)), 1⟩) ∧
    (fitCosts 2 2 1 parityCosts 1 { late with useTerm := false } ⟨2, 2 ^ 2 - 1, false, (1 * largestDouble : Nat)⟩ trialData).2 = false ∧
    fitCostsTree 2 2 1 parityCosts 1 { late with useTerm := false } ⟨2, 2 ^ 2 - 1, false, (1 * largestDouble : Nat)⟩ trialData =
      some (some ⟨.leaf 1, 6⟩) :=
  ⟨fun _ f h => by simpa [defaultOptions] using h, trialData_input, by decide +kernel, by decide +kernel, by decide +kernel, by decide +kernel⟩

set_option maxRecDepth 100000 in
/-- A policy; the hypotheses on the scores are shown in `Props/PolicyFit.lean`. -/
example : (trialData.map fun i => instWorst 2 (policyUnits 2 (costRows trial .dr 2 trialData)) i).sum < 2 * int32Max ∧
    fitPolicyTree 2 2 2 trial .dr 1 (defaultOptions 2) ⟨2, 2 ^ 2 - 1, false, (2 * int32Max : Nat)⟩ trialData =
      some (some ⟨.node 0 (.node 1 (.leaf 0) (.leaf 1)) (.node 1 (.leaf 1) (.leaf 0)), 4⟩) :=
  ⟨by decide +kernel, by decide +kernel⟩

set_option maxRecDepth 100000 in
example : let o : Options := { giniOptions 4 2 with useLB := false, useTerm := false }
    fitPenalisedTreeTol 4 2 1 1 1 o ⟨3, 2 ^ 3 - 1, false, (1 * int32Max : Nat)⟩ penData penSorted = some (some ⟨penBest, 4⟩) := by
  decide +kernel

set_option maxRecDepth 100000 in
/-- Regression with the default options and the k-means bound. -/
example : BestLeaf regTargets2 regData2 (totalError regTargets2 regData2 (.leaf (meanOf (regData2.map fun i => regTargets2 i.label)))) ∧
    fitRegressionTree 2 90000 (1 / 100) regTargets2 (some 3) (defaultOptions 2) ⟨3, 2 ^ 3 - 1, false, (90000 * largestDouble : Nat)⟩
      regData2 (regSorted 2 90000 (1 / 100) regTargets2 regData2) =
      some (some ⟨.node 1 (.node 0 (.leaf 2) (.leaf 3)) (.leaf 23), 2708640⟩) :=
  ⟨bestLeaf_mean _ (by decide), by decide +kernel⟩

set_option maxRecDepth 100000 in
/-- Its leaves predict 1, 10 and 32. -/
example : (leafValues regTargets2 regData2).getD 2 0 = 1 ∧ (leafValues regTargets2 regData2).getD 3 0 = 10 ∧
    (leafValues regTargets2 regData2).getD 23 0 = 32 :=
  ⟨by decide +kernel, by decide +kernel, by decide +kernel⟩

end Streed
