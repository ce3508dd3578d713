import Verif.Model.InstCosts
import Verif.Lemmas.Tol
import Verif.Props.Optimal
import Verif.Props.Penalised

/-!
# C65: optimality with real-valued costs

Solution values that are doubles are compared with a relative tolerance of `1e-4` (optimization_utils.h). `fitCosts` is the
search of the instance cost-sensitive task with these comparisons.
-/

namespace Streed

/-- The cost of the labels a tree gives to the data: `w i k` is the cost of giving label `k` to instance `i`. -/
def totalCost (w : Nat → Nat → Nat) (t : Tree) (T : Data) : Nat := (T.map fun i => w i.id (t.predict i)).sum

/-- `v` is the least total cost of any tree over the features and labels with depth at most `d` and at most `n`
branching nodes. -/
def LeastCost (nF nL : Nat) (w : Nat → Nat → Nat) (d n : Nat) (T : Data) (v : Int) : Prop :=
  (∃ t : Tree, t.Over nF nL ∧ t.depth ≤ d ∧ t.nodes ≤ n ∧ (totalCost w t T : Int) = v) ∧
  ∀ t : Tree, t.Over nF nL → t.depth ≤ d → t.nodes ≤ n → v ≤ totalCost w t T

theorem cost_eq_totalCost (nF nL : Nat) (w : Nat → Nat → Nat) (t : Tree) (D : Data) :
    t.cost (instProblem nF nL w) D = totalCost w t D := by
  rw [Tree.cost_eq_sum _ rfl]
  unfold totalCost
  induction D with
  | nil => rfl
  | cons i D ih =>
    rw [List.map_cons, List.map_cons, List.sum_cons, List.sum_cons, ih]
    push_cast
    rfl

theorem over_legal_inst {nF nL : Nat} {w : Nat → Nat → Nat} {t : Tree} (h : t.Over nF nL) (D : Data) :
    t.Legal (instProblem nF nL w) 0 D := by
  induction t generalizing D with
  | leaf k => exact ⟨h, Nat.zero_le _⟩
  | node f l r ihl ihr => exact ⟨h.1, rfl, ihl h.2.1 _, ihr h.2.2 _⟩

theorem legal_over_inst {nF nL mls : Nat} {w : Nat → Nat → Nat} {t : Tree} {D : Data}
    (h : t.Legal (instProblem nF nL w) mls D) : t.Over nF nL := by
  induction t generalizing D with
  | leaf k => exact h.1
  | node f l r ihl ihr => exact ⟨h.1, ihl h.2.2.1, ihr h.2.2.2⟩

theorem leastCost_of_isOpt {nF nL : Nat} {w : Nat → Nat → Nat} {d n : Nat} {T : Data} {v : Int} (hT : T ≠ [])
    (h : IsOpt (instProblem nF nL w) 1 d n T v) : LeastCost nF nL w d n T v := by
  obtain ⟨⟨t, ⟨h1, h2, h3⟩, h4⟩, h5⟩ := h
  refine ⟨⟨t, legal_over_inst h3, h1, h2, by rw [← cost_eq_totalCost nF nL]; exact h4⟩, fun x hx hd hn => ?_⟩
  have := h5 (prune x T) ⟨Nat.le_trans (prune_depth x T) hd, Nat.le_trans (prune_nodes x T) hn,
    prune_legal (over_legal_inst hx T) hT⟩
  rw [prune_cost rfl, cost_eq_totalCost] at this
  exact this

theorem le_instWorst {nL : Nat} (w : Nat → Nat → Nat) (i : Inst) {k : Nat} (hk : k < nL) : w i.id k ≤ instWorst nL w i := by
  unfold instWorst
  have key : ∀ (l : List Nat) (a : Nat), a ≤ l.foldl max a ∧ ∀ x ∈ l, x ≤ l.foldl max a := by
    intro l
    induction l with
    | nil => intro a; exact ⟨Nat.le_refl _, fun x hx => by cases hx⟩
    | cons y l ih =>
      intro a
      obtain ⟨h1, h2⟩ := ih (max a y)
      refine ⟨Nat.le_trans (Nat.le_max_left ..) h1, fun x hx => ?_⟩
      rcases List.mem_cons.1 hx with rfl | hx
      · exact Nat.le_trans (Nat.le_max_right ..) h1
      · exact h2 x hx
  exact (key _ 0).2 _ (List.mem_map_of_mem (List.mem_range.2 hk))

theorem totalCost_le {nF nL : Nat} {w : Nat → Nat → Nat} {t : Tree} (h : t.Over nF nL) (T : Data) :
    totalCost w t T ≤ (T.map fun i => instWorst nL w i).sum := by
  unfold totalCost
  induction T with
  | nil => exact Nat.le_refl _
  | cons i T ih =>
    simp only [List.map_cons, List.sum_cons]
    have := le_instWorst w i (over_predict_lt h i)
    omega

theorem sublist_sum_le {g : Inst → Nat} {D T : Data} (h : List.Sublist D T) : (D.map g).sum ≤ (T.map g).sum := by
  induction h with
  | slnil => exact Nat.le_refl _
  | cons a _ ih => simp only [List.map_cons, List.sum_cons]; omega
  | cons_cons a _ ih => simp only [List.map_cons, List.sum_cons]; omega

theorem preprocess_worst (P : Problem) (nL mls : Nat) (w : Nat → Nat → Nat) (T : Data) :
    ((preprocess P mls T).map fun i => instWorst nL w i).sum = (T.map fun i => instWorst nL w i).sum := by
  unfold preprocess
  rw [List.map_map]
  rfl

theorem largestDouble_large : 20000 ≤ largestDouble := by decide +kernel

/-- What is asked of the costs: in units of `1 / u`, the largest costs of the instances add up to less than `10^4` units. -/
def FineCosts (nL : Nat) (w : Nat → Nat → Nat) (T : Data) : Prop := (T.map fun i => instWorst nL w i).sum < 10000

theorem instCfg_fine {nF nL u mls : Nat} {w : Nat → Nat → Nat} {o : Options} {T : Data} (h : Input nL T) (hu : 0 < u)
    (hc : FineCosts nL w T) (hmls : 1 ≤ mls) (hw : World nF o) (hterm : o.useTerm = true → mls = 1 ∧ o.useUB = true)
    (hsim : o.simLB = true → mls = 1) (hcopy : o.useBr = false ∨ o.simLB = false) :
    Fine (instCfg nF nL u w mls o (isRedundant (instProblem nF nL w) mls T)) (preprocess (instProblem nF nL w) mls T) := by
  have hcost : ∀ D, ViewOf (preprocess (instProblem nF nL w) mls T) D → ∀ t : Tree, t.Legal (instProblem nF nL w) mls D →
      t.cost (instProblem nF nL w) D < 10000 := by
    intro D hD t ht
    rw [cost_eq_totalCost]
    have h1 := totalCost_le (w := w) (legal_over_inst ht) D
    have h2 := sublist_sum_le (g := fun i => instWorst nL w i) hD
    rw [preprocess_worst] at h2
    unfold FineCosts at hc
    omega
  have hbig : (20000 : Int) ≤ ((u * largestDouble : Nat) : Int) := by
    have h1 := largestDouble_large
    have h2 : 1 * largestDouble ≤ u * largestDouble := Nat.mul_le_mul_right _ hu
    omega
  exact {
    good := {
      labels := h.labels
      bc := Int.le_refl _
      bcLB := fun _ => rfl
      nonneg := fun i _ k => Int.natCast_nonneg _
      small := fun D hD t ht => by
        have := hcost D hD t ht
        show t.cost (instProblem nF nL w) D < ((u * largestDouble : Nat) : Int)
        omega
      mls := hmls
      term := hterm
      sim := hsim
      sparse := fun h => by simp [instCfg] at h
      custom := fun D _ t _ => Tree.cost_nonneg _ t D (fun i _ k => Int.natCast_nonneg _) (Int.le_refl 0)
      md := ⟨by show (0 : Int) ≤ 0; decide, by show (0 : Int) ≤ 1; decide⟩
      sorted := preprocess_sorted h.sorted
      inRange := fun i hi => by
        obtain ⟨j, hj, rfl⟩ := List.mem_map.1 hi
        exact h.inRange j hj
      order := hw.order
      redundant := fun f hf => .inr (preprocess_redundant hf)
      worstPer := fun _ h => by cases h
      simInst := fun _ v hv i _ k hk => by
        simp only [instCfg, Option.some.injEq] at hv
        rw [← hv]
        exact Int.ofNat_le.2 (le_instWorst w i hk) }
    clock := hw.clock
    cost := hcost
    worst := hbig
    copy := hcopy }

theorem inst_featureFree (nF nL : Nat) (w : Nat → Nat → Nat) : FeatureFree (instProblem nF nL w) := fun _ _ _ => rfl

/-- The outcome of a finished run. -/
theorem fitCosts_spec {nF nL u mls : Nat} {w : Nat → Nat → Nat} {o : Options} {T : Data} {t : Top} (h : Input nL T) (hu : 0 < u)
    (hc : FineCosts nL w T) (hmls : 1 ≤ mls) (hT : mls ≤ T.length) (hw : World nF o)
    (hterm : o.useTerm = true → mls = 1 ∧ o.useUB = true ∧ t.maxNodes + 1 = 2 ^ t.maxDepth ∧ (t.allTrees = true → t.maxNodes ≤ 1))
    (hsim : o.simLB = true → mls = 1) (hcopy : o.useBr = false ∨ o.simLB = false) (hfit : t.maxNodes + 1 ≤ 2 ^ t.maxDepth)
    (hub : (u * largestDouble : Nat) ≤ t.ub) (hopt : (fitCosts nF nL u w mls o t T).2 = true) :
    (fitCosts nF nL u w mls o t T).1.result.isEmpty = false ∧
    IsOpt (instProblem nF nL w) mls t.maxDepth t.maxNodes T (fitCosts nF nL u w mls o t T).1.result.sol := by
  have F := instCfg_fine (w := w) h hu hc hmls hw (fun a => ⟨(hterm a).1, (hterm a).2.1⟩) hsim hcopy
  have hT' : mls ≤ (preprocess (instProblem nF nL w) mls T).length := by rw [preprocess_length]; exact hT
  have heq := tol_solve F t hT' hfit (fun a => ⟨(hterm a).2.2.1, (hterm a).2.2.2⟩)
  obtain ⟨h1, h2⟩ := solve_spec F.good t hT' hw.clock hfit (fun a => ⟨(hterm a).2.2.1, (hterm a).2.2.2⟩)
  unfold fitCosts at hopt ⊢
  rw [heq] at hopt ⊢
  obtain ⟨_, h4⟩ := h2 hopt
  generalize solve (instCfg nF nL u w mls o (isRedundant (instProblem nF nL w) mls T)) t (preprocess (instProblem nF nL w) mls T) = r at *
  have hbig := F.worst
  have hset : ∀ x, Allowed (instProblem nF nL w) mls t.maxDepth t.maxNodes (preprocess (instProblem nF nL w) mls T) x →
      r.1.result.isEmpty = false ∧ r.1.result.sol ≤ x.cost (instProblem nF nL w) (preprocess (instProblem nF nL w) mls T) := by
    intro x hx
    refine h4 x hx ?_
    have : x.cost (instProblem nF nL w) (preprocess (instProblem nF nL w) mls T) < 10000 :=
      F.cost _ (List.Sublist.refl _) x hx.2.2
    change (20000 : Int) ≤ ((u * largestDouble : Nat) : Int) at hbig
    show x.cost (instProblem nF nL w) (preprocess (instProblem nF nL w) mls T) ≤ t.ub
    omega
  have hne := (hset (.leaf 0) ⟨Nat.zero_le _, Nat.zero_le _, h.labels, hT'⟩).1
  obtain ⟨h5, h6⟩ := h1.real hne
  exact ⟨hne, (preprocess_optimum (inst_featureFree nF nL w) (fun _ _ => rfl) hmls T _ _ _).1
    ⟨h5.attained h6, fun x hx => (hset x hx).2⟩⟩

/-- C65 for the default node budget: a run that reports `is_optimal` found the least total cost of any tree of that depth, for every
dataset, feature order, clock and option (except the depth-two solver without upper bounding, and the branch cache together with
the similarity bound), if the costs are multiples of a unit and add up to less than `10^4` units. Missing: finer costs, for which the
claim is false (`real_costs_not_optimal`). -/
theorem real_costs_optimal_partial {nF nL u : Nat} {w : Nat → Nat → Nat} {o : Options} {T : Data} (d : Nat) (ub : Int)
    (hw : World nF o) (hi : Input nL T) (hT : T ≠ []) (hu : 0 < u) (hc : FineCosts nL w T) (hub : (u * largestDouble : Nat) ≤ ub)
    (hterm : o.useTerm = true → o.useUB = true) (hcopy : o.useBr = false ∨ o.simLB = false)
    (hopt : (fitCosts nF nL u w 1 o ⟨d, 2 ^ d - 1, false, ub⟩ T).2 = true) :
    LeastCost nF nL w d (2 ^ d - 1) T (fitCosts nF nL u w 1 o ⟨d, 2 ^ d - 1, false, ub⟩ T).1.result.sol := by
  have hp : 1 ≤ 2 ^ d := Nat.one_le_two_pow
  exact leastCost_of_isOpt hT (fitCosts_spec (t := ⟨d, 2 ^ d - 1, false, ub⟩) hi hu hc (Nat.le_refl _) (List.length_pos_iff.2 hT) hw
    (fun h => ⟨rfl, hterm h, by show 2 ^ d - 1 + 1 = 2 ^ d; omega, fun h => by simp at h⟩) (fun _ => rfl) hcopy
    (by show 2 ^ d - 1 + 1 ≤ 2 ^ d; omega) hub hopt).2

/-- The same with an explicit node limit, with or without `all_trees`, for runs without the depth-two solver. -/
theorem real_costs_node_limit_partial {nF nL u : Nat} {w : Nat → Nat → Nat} {o : Options} {T : Data} (d n : Nat) (all : Bool)
    (ub : Int) (hw : World nF o) (hi : Input nL T) (hT : T ≠ []) (hu : 0 < u) (hc : FineCosts nL w T)
    (hub : (u * largestDouble : Nat) ≤ ub) (hterm : o.useTerm = false) (hn : n ≤ 2 ^ d - 1) (hcopy : o.useBr = false ∨ o.simLB = false)
    (hopt : (fitCosts nF nL u w 1 o ⟨d, n, all, ub⟩ T).2 = true) :
    LeastCost nF nL w d n T (fitCosts nF nL u w 1 o ⟨d, n, all, ub⟩ T).1.result.sol := by
  have hp : 1 ≤ 2 ^ d := Nat.one_le_two_pow
  exact leastCost_of_isOpt hT (fitCosts_spec (t := ⟨d, n, all, ub⟩) hi hu hc (Nat.le_refl _) (List.length_pos_iff.2 hT) hw
    (fun h => by rw [hterm] at h; simp at h) (fun _ => rfl) hcopy (by show n + 1 ≤ 2 ^ d; omega) hub hopt).2

/-- C51 with the comparisons of doubles, without lower bounds: if errors and nodes together cost less than `10^4` units (for one
unit per error and a price of one per node: fewer than 5000 instances), they change nothing. -/
theorem penalised_tolerance_partial {nF nL e p : Nat} {o : Options} {T S : Data} (d : Nat) (ub : Int) (hw : World nF o)
    (hi : Input nL T) (hT : T ≠ []) (hS : SortedByFeatures nF (preprocess (penalised nF nL e p) 1 T) S) (he : 0 < e)
    (hN : (e + p) * T.length < 10000) (hlb : o.useLB = false) (huub : o.useUB = true) (hcopy : o.useBr = false ∨ o.simLB = false) :
    fitPenalisedTol nF nL e p 1 o ⟨d, 2 ^ d - 1, false, ub⟩ T S = fitPenalised nF nL e p 1 o ⟨d, 2 ^ d - 1, false, ub⟩ T S := by
  have hp : 1 ≤ 2 ^ d := Nat.one_le_two_pow
  have hbig : 20000 ≤ e * int32Max := Nat.le_trans (by decide) (Nat.mul_le_mul_right int32Max he)
  have G := ccaCfg_good (mls := 1) hi (Nat.le_refl 1) hS (by omega) hw.order (fun _ => rfl) (fun _ => rfl) hlb huub
  refine tol_solve ⟨G, hw.clock, fun D hD t ht => ?_, ?_, hcopy⟩ _ ?_ ?_ ?_
  · have h1 := hD.length_le
    rw [(assignGroups_rows nF S).length, hS.sameRows.length, preprocess_length] at h1
    have h2 := legal_nodes (Nat.le_refl 1) ht
    have h3 := misclassified_le t D
    have h4 : e * misclassified t D ≤ e * T.length := Nat.mul_le_mul_left _ (by omega)
    have h5 : p * t.nodes ≤ p * T.length := Nat.mul_le_mul_left _ (by omega)
    rw [Nat.add_mul] at hN
    show t.cost (penalised nF nL e p) D < 10000
    rw [penalised_cost]
    exact_mod_cast (by omega : e * misclassified t D + p * t.nodes < 10000)
  · show (20000 : Int) ≤ ((e * int32Max : Nat) : Int); omega
  · rw [(assignGroups_rows nF S).length, hS.sameRows.length, preprocess_length]; exact List.length_pos_iff.2 hT
  · show 2 ^ d - 1 + 1 ≤ 2 ^ d; omega
  · intro _; exact ⟨by show 2 ^ d - 1 + 1 = 2 ^ d; omega, fun h => by simp at h⟩

/-! ### Larger costs -/

/-- The user's reading of C65 for the default options. -/
def RealCostsOptimal : Prop := ∀ (nF nL u : Nat) (w : Nat → Nat → Nat) (T : Data) (d : Nat), Input nL T → T ≠ [] → 0 < u →
  (fitCosts nF nL u w 1 (defaultOptions nF) ⟨d, 2 ^ d - 1, false, (u * largestDouble : Nat)⟩ T).2 = true →
  LeastCost nF nL w d (2 ^ d - 1) T (fitCosts nF nL u w 1 (defaultOptions nF) ⟨d, 2 ^ d - 1, false, (u * largestDouble : Nat)⟩ T).1.result.sol

/-- The eight combinations of three features, labelled with their parity, and one further instance. -/
def costData : Data := ((List.range 8).map fun i => exInst i i ((i % 2 + i / 2 % 2 + i / 4 % 2) % 2)) ++ [exInst 8 0 0]

/-- A wrong parity costs one, the further instance costs 40000 whatever its label. -/
def largeCosts : Nat → Nat → Nat := fun i k =>
  if i = 8 then 40000 else if (i % 2 + i / 2 % 2 + i / 4 % 2) % 2 = k then 0 else 1

/-- The same without the further cost. -/
def smallCosts : Nat → Nat → Nat := fun i k =>
  if i = 8 then 0 else if (i % 2 + i / 2 % 2 + i / 4 % 2) % 2 = k then 0 else 1

/-- The parity of three features. -/
def parityTree : Tree := .node 0 (.node 1 (.node 2 (.leaf 0) (.leaf 1)) (.node 2 (.leaf 1) (.leaf 0)))
  (.node 1 (.node 2 (.leaf 1) (.leaf 0)) (.node 2 (.leaf 0) (.leaf 1)))

theorem costData_input : Input 2 costData := by
  refine ⟨by decide, by decide, ?_, by decide⟩
  unfold IdSorted; decide

set_option maxRecDepth 100000 in
theorem largeCosts_search : (fitCosts 3 2 1 largeCosts 1 (defaultOptions 3) ⟨3, 2 ^ 3 - 1, false, (1 * largestDouble : Nat)⟩ costData).1.result.sol = 40004 := by
  decide +kernel

/-- With costs that add up to more than `10^4` units the search can report `is_optimal` for a value that is not the optimum: a
solution that is better by less than a ten-thousandth is not looked for. -/
theorem real_costs_not_optimal : ¬ RealCostsOptimal := by
  intro h
  have := (h 3 2 1 largeCosts costData 3 costData_input (by simp [costData]) (by decide) rfl).2 parityTree
    (by simp [parityTree, Tree.Over]) (by decide) (by decide)
  rw [largeCosts_search] at this
  revert this
  decide

/-! ### The hypotheses are met -/

/-- The penalised data without lower bounds. -/
example : let o : Options := { giniOptions 4 2 with useLB := false }
    World 4 o ∧ Input 2 penData ∧ SortedByFeatures 4 (preprocess (penalised 4 2 1 1) 1 penData) penSorted ∧
    (1 + 1) * penData.length < 10000 ∧ o.useUB = true ∧ o.useBr = false :=
  ⟨⟨(giniOptions_world 4 2).order, fun _ _ _ _ => rfl⟩, penData_input, penSorted_ok, by decide, rfl, rfl⟩

set_option maxRecDepth 100000 in
/-- Without the large cost the search finds the parity. -/
example : World 3 (defaultOptions 3) ∧ Input 2 costData ∧ FineCosts 2 smallCosts costData ∧ (defaultOptions 3).useBr = false ∧
    (fitCosts 3 2 1 smallCosts 1 (defaultOptions 3) ⟨3, 2 ^ 3 - 1, false, (1 * largestDouble : Nat)⟩ costData).2 = true ∧
    (fitCosts 3 2 1 smallCosts 1 (defaultOptions 3) ⟨3, 2 ^ 3 - 1, false, (1 * largestDouble : Nat)⟩ costData).1.result.sol = 0 :=
  ⟨⟨fun _ f => by simp [defaultOptions], fun _ _ _ _ => rfl⟩, costData_input, by unfold FineCosts; decide, rfl, rfl, by decide +kernel⟩

set_option maxRecDepth 100000 in
/-- With at most three nodes and costs of a hundred units the best tree costs 300. -/
example : let o : Options := { defaultOptions 3 with useTerm := false }
    let w := fun i k => 100 * smallCosts i k
    World 3 o ∧ FineCosts 2 w costData ∧
    (fitCosts 3 2 100 w 1 o ⟨3, 3, false, (100 * largestDouble : Nat)⟩ costData).2 = true ∧
    (fitCosts 3 2 100 w 1 o ⟨3, 3, false, (100 * largestDouble : Nat)⟩ costData).1.result.sol = 300 :=
  ⟨⟨fun _ f => by simp [defaultOptions], fun _ _ _ _ => rfl⟩, by unfold FineCosts; decide, rfl, by decide +kernel⟩

end Streed
