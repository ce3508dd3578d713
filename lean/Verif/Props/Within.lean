import Verif.Lemmas.ApxRank
import Verif.Props.Tol
import Verif.Props.RegFit

/-!
# C69: results with real-valued costs are close to the best

Comparisons of doubles leave a relative tolerance of `1e-4`, so that a run may report `is_optimal` for a value above the least
one (`real_costs_not_optimal`). How far above is bounded by the number of times that the tolerance can be lost on a path.
-/

namespace Streed

/-- `v` exceeds the least value `best` at most by the tolerance `1e-4`, lost `k` times over. -/
def CloseTo (k : Nat) (best v : Rat) : Prop := best ≤ v ∧ v ≤ (1 + 1 / 10000) ^ k * best

/-- How often the tolerance can be lost: once per level of the tree, or per feature if results are shared between paths
(dataset caching); with lower bounds once more for each pair of limits that a bound may have been stored under. -/
def lossCount (nF d n : Nat) (o : Options) : Nat :=
  let r := if o.useDs then nF else d
  if o.useLB then (r + 1) * (d + n + 1) + 1 else r + 1

theorem tol_eq : Apx.tol = 1 + 1 / 10000 := by unfold Apx.tol; norm_num

theorem lt_of_scaled {k a b : Rat} (hk : 1 ≤ k) (ha : 0 ≤ a) (h : k * a < b) : a < b :=
  lt_of_le_of_lt (le_mul_of_one_le_left ha hk) h

/-- Some allowed tree costs least. -/
theorem exists_isOpt {P : Problem} {mls d n : Nat} {T : Data} (hpos : ∀ t : Tree, 0 ≤ t.cost P T)
    (h : ∃ t, Allowed P mls d n T t) : ∃ v, IsOpt P mls d n T v := by
  obtain ⟨t, ht⟩ := h
  have hex : ∃ m : Nat, ∃ t, Allowed P mls d n T t ∧ t.cost P T = m := ⟨(t.cost P T).toNat, t, ht, by have := hpos t; omega⟩
  classical
  obtain ⟨x, hx, e⟩ := Nat.find_spec hex
  refine ⟨Nat.find hex, ⟨x, hx, e⟩, fun y hy => ?_⟩
  have h1 := Nat.find_min' hex ⟨y, hy, (Int.toNat_of_nonneg (hpos y)).symm⟩
  have := hpos y
  omega

/-- The value that a run reports, against the optimum of the problem searched. -/
theorem search_within {c : Cfg} {T : Data} (G : Good c T) (hsim : c.simLB = false) (hmd : c.md = 0) (t : Top) (hm : c.mls ≤ T.length)
    (hclk : Monotone c.clock) (hfit : t.maxNodes + 1 ≤ 2 ^ t.maxDepth)
    (hterm : c.useTerm = true → t.maxNodes + 1 = 2 ^ t.maxDepth ∧ (t.allTrees = true → t.maxNodes ≤ 1))
    (hbig : ∀ D, ViewOf T D → ∀ x : Tree, x.Legal c.P c.mls D → Apx.tol ^ Apx.losses c t * (x.cost c.P D : Rat) < (c.worst : Rat))
    (hub : c.worst ≤ t.ub) (hopt : (Tol.solve c t T).2 = true) :
    Attained c.P c.mls t.maxDepth t.maxNodes T (Tol.solve c t T).1.result.sol ∧
    ∃ v, IsOpt c.P c.mls t.maxDepth t.maxNodes T v ∧ CloseTo (Apx.losses c t) v (Tol.solve c t T).1.result.sol := by
  obtain ⟨h1, h2⟩ := Apx.solve_within G hsim hmd t hm hclk hfit hterm hbig
  have h2 := h2 hopt
  have hset : ∀ x, Allowed c.P c.mls t.maxDepth t.maxNodes T x → (Tol.solve c t T).1.result.isEmpty = false ∧
      ((Tol.solve c t T).1.result.sol : Rat) ≤ Apx.tol ^ Apx.losses c t * (x.cost c.P T : Rat) := by
    intro x hx
    refine h2 x hx (le_trans (le_of_lt (hbig T (List.Sublist.refl T) x hx.2.2)) ?_)
    exact_mod_cast hub
  have hl : Allowed c.P c.mls t.maxDepth t.maxNodes T (.leaf 0) := ⟨Nat.zero_le _, Nat.zero_le _, G.labels, hm⟩
  obtain ⟨h5, h6⟩ := h1.real (hset _ hl).1
  have hatt := h5.attained h6
  obtain ⟨v, ⟨x, hx, e⟩, hlow⟩ := exists_isOpt (fun x => G.cost_nonneg (List.Sublist.refl T) x) ⟨_, hl⟩
  refine ⟨hatt, v, ⟨⟨x, hx, e⟩, hlow⟩, ?_, ?_⟩
  · obtain ⟨y, hy, ey⟩ := hatt
    have := hlow y hy
    rw [ey] at this
    exact_mod_cast this
  · have := (hset x hx).2
    rw [e, tol_eq] at this
    exact this

/-! ### Instance costs -/

theorem instCfg_good {nF nL u mls : Nat} {w : Nat → Nat → Nat} {o : Options} {T : Data} (h : Input nL T)
    (hc : (T.map fun i => instWorst nL w i).sum < u * largestDouble) (hmls : 1 ≤ mls) (hw : World nF o)
    (hterm : o.useTerm = true → mls = 1 ∧ o.useUB = true) (hsim : o.simLB = true → mls = 1) :
    Good (instCfg nF nL u w mls o (isRedundant (instProblem nF nL w) mls T)) (preprocess (instProblem nF nL w) mls T) where
  labels := h.labels
  bc := Int.le_refl _
  bcLB := fun _ => rfl
  nonneg := fun i _ k => Int.natCast_nonneg _
  small := fun D hD t ht => by
    show t.cost (instProblem nF nL w) D < ((u * largestDouble : Nat) : Int)
    rw [cost_eq_totalCost]
    have h1 := totalCost_le (w := w) (legal_over_inst ht) D
    have h2 := sublist_sum_le (g := fun i => instWorst nL w i) hD
    rw [preprocess_worst] at h2
    omega
  mls := hmls
  term := hterm
  sim := hsim
  sparse := fun h => by simp [instCfg] at h
  custom := fun D _ t _ => Tree.cost_nonneg _ t D (fun i _ k => Int.natCast_nonneg _) (Int.le_refl 0)
  md := ⟨by show (0 : Int) ≤ 0; decide, by show (0 : Int) ≤ 1; decide⟩
  sorted := preprocess_sorted h.sorted
  inRange := fun i hi => by
    obtain ⟨j, hj, rfl⟩ := List.mem_map.1 hi
    exact h.inRange j hj
  order := hw.order
  redundant := fun f hf => .inr (preprocess_redundant hf)
  worstPer := fun _ h => by cases h
  simInst := fun _ v hv i _ k hk => by
    simp only [instCfg, Option.some.injEq] at hv
    rw [← hv]
    exact Int.ofNat_le.2 (le_instWorst w i hk)

/-- What is asked of the costs: with the tolerance they stay below the largest double. -/
def FitCosts (k nL u : Nat) (w : Nat → Nat → Nat) (T : Data) : Prop :=
  (1 + 1 / 10000 : Rat) ^ k * ((T.map fun i => instWorst nL w i).sum : Nat) < (u * largestDouble : Nat)

/-- The outcome of a finished run. -/
theorem fitCosts_within {nF nL u mls : Nat} {w : Nat → Nat → Nat} {o : Options} {T : Data} {t : Top} (h : Input nL T)
    (hmls : 1 ≤ mls) (hT : mls ≤ T.length) (hw : World nF o) (hc : FitCosts (lossCount nF t.maxDepth t.maxNodes o) nL u w T)
    (hterm : o.useTerm = true → mls = 1 ∧ o.useUB = true ∧ t.maxNodes + 1 = 2 ^ t.maxDepth ∧ (t.allTrees = true → t.maxNodes ≤ 1))
    (hsim : o.simLB = false) (hfit : t.maxNodes + 1 ≤ 2 ^ t.maxDepth)
    (hub : (u * largestDouble : Nat) ≤ t.ub) (hopt : (fitCosts nF nL u w mls o t T).2 = true) :
    Attained (instProblem nF nL w) mls t.maxDepth t.maxNodes T (fitCosts nF nL u w mls o t T).1.result.sol ∧
    ∃ v, IsOpt (instProblem nF nL w) mls t.maxDepth t.maxNodes T v ∧
      CloseTo (lossCount nF t.maxDepth t.maxNodes o) v (fitCosts nF nL u w mls o t T).1.result.sol := by
  have hone : (1 : Rat) ≤ (1 + 1 / 10000) ^ lossCount nF t.maxDepth t.maxNodes o := one_le_pow₀ (by norm_num)
  have hsum : (0 : Rat) ≤ ((T.map fun i => instWorst nL w i).sum : Nat) := Nat.cast_nonneg _
  have hc' : (T.map fun i => instWorst nL w i).sum < u * largestDouble := Nat.cast_lt.1 (lt_of_scaled hone hsum hc)
  have G := instCfg_good (mls := mls) h hc' hmls hw (fun a => ⟨(hterm a).1, (hterm a).2.1⟩) (fun a => by rw [hsim] at a; simp at a)
  have hT' : mls ≤ (preprocess (instProblem nF nL w) mls T).length := by rw [preprocess_length]; exact hT
  obtain ⟨h1, v, h2, h3⟩ := search_within G hsim rfl t hT' hw.clock hfit (fun a => ⟨(hterm a).2.2.1, (hterm a).2.2.2⟩) (by
    intro D hD x hx
    refine lt_of_le_of_lt ?_ hc
    rw [tol_eq]
    refine mul_le_mul_of_nonneg_left ?_ (le_trans zero_le_one hone)
    show ((x.cost (instProblem nF nL w) D : Int) : Rat) ≤ _
    rw [cost_eq_totalCost]
    have h1 := totalCost_le (w := w) (legal_over_inst hx) D
    have h2 := sublist_sum_le (g := fun i => instWorst nL w i) hD
    rw [preprocess_worst] at h2
    rw [Int.cast_natCast]
    exact Nat.cast_le.2 (Nat.le_trans h1 h2)) hub hopt
  have hP := inst_featureFree nF nL w
  exact ⟨(preprocess_attained hP (fun _ _ => rfl) hmls T _ _ _).1 h1, v, (preprocess_optimum hP (fun _ _ => rfl) hmls T _ _ _).1 h2, h3⟩

/-- **C69** for instance costs and the default node budget: whatever the costs (as long as they stay below the largest double), a run
that reports `is_optimal` found a tree whose total cost is within the tolerance, lost `lossCount` times, of the least one. Every
dataset, feature order, clock and option except the similarity bound and the depth-two solver without upper bounding. -/
theorem real_costs_within_partial {nF nL u : Nat} {w : Nat → Nat → Nat} {o : Options} {T : Data} (d : Nat) (ub : Int)
    (hw : World nF o) (hi : Input nL T) (hT : T ≠ []) (hc : FitCosts (lossCount nF d (2 ^ d - 1) o) nL u w T)
    (hub : (u * largestDouble : Nat) ≤ ub) (hterm : o.useTerm = true → o.useUB = true) (hsim : o.simLB = false)
    (hopt : (fitCosts nF nL u w 1 o ⟨d, 2 ^ d - 1, false, ub⟩ T).2 = true) :
    (∃ t : Tree, t.Over nF nL ∧ t.depth ≤ d ∧
      (totalCost w t T : Int) = (fitCosts nF nL u w 1 o ⟨d, 2 ^ d - 1, false, ub⟩ T).1.result.sol) ∧
    ∃ v, LeastCost nF nL w d (2 ^ d - 1) T v ∧
      CloseTo (lossCount nF d (2 ^ d - 1) o) v (fitCosts nF nL u w 1 o ⟨d, 2 ^ d - 1, false, ub⟩ T).1.result.sol := by
  have hp : 1 ≤ 2 ^ d := Nat.one_le_two_pow
  obtain ⟨⟨t, ⟨h1, _, h3⟩, h4⟩, v, h5, h6⟩ := fitCosts_within (t := ⟨d, 2 ^ d - 1, false, ub⟩) hi (Nat.le_refl 1) (List.length_pos_iff.2 hT) hw hc
    (fun h => ⟨rfl, hterm h, by show 2 ^ d - 1 + 1 = 2 ^ d; omega, fun h => by simp at h⟩) hsim
    (by show 2 ^ d - 1 + 1 ≤ 2 ^ d; omega) hub hopt
  exact ⟨⟨t, legal_over_inst h3, h1, by rw [← cost_eq_totalCost nF nL]; exact h4⟩, v, leastCost_of_isOpt hT h5, h6⟩

/-- The same with an explicit node limit, with or without `all_trees`, for runs without the depth-two solver. -/
theorem real_costs_within_limit_partial {nF nL u : Nat} {w : Nat → Nat → Nat} {o : Options} {T : Data} (d n : Nat) (all : Bool)
    (ub : Int) (hw : World nF o) (hi : Input nL T) (hT : T ≠ []) (hc : FitCosts (lossCount nF d n o) nL u w T)
    (hub : (u * largestDouble : Nat) ≤ ub) (hterm : o.useTerm = false) (hn : n ≤ 2 ^ d - 1) (hsim : o.simLB = false)
    (hopt : (fitCosts nF nL u w 1 o ⟨d, n, all, ub⟩ T).2 = true) :
    ∃ v, LeastCost nF nL w d n T v ∧
      CloseTo (lossCount nF d n o) v (fitCosts nF nL u w 1 o ⟨d, n, all, ub⟩ T).1.result.sol := by
  have hp : 1 ≤ 2 ^ d := Nat.one_le_two_pow
  obtain ⟨_, v, h5, h6⟩ := fitCosts_within (t := ⟨d, n, all, ub⟩) hi (Nat.le_refl 1) (List.length_pos_iff.2 hT) hw hc
    (fun h => by rw [hterm] at h; simp at h) hsim (by show n + 1 ≤ 2 ^ d; omega) hub hopt
  exact ⟨v, leastCost_of_isOpt hT h5, h6⟩

/-! ### A price per node -/

/-- **C69** for penalised errors without lower bounds. -/
theorem penalised_within_partial {nF nL e p : Nat} {o : Options} {T S : Data} (d : Nat) (ub : Int) (hw : World nF o)
    (hi : Input nL T) (hT : T ≠ []) (hS : SortedByFeatures nF (preprocess (penalised nF nL e p) 1 T) S)
    (hN : (1 + 1 / 10000 : Rat) ^ lossCount nF d (2 ^ d - 1) o * ((e + p) * T.length : Nat) < (e * int32Max : Nat))
    (hlb : o.useLB = false) (huub : o.useUB = true) (hsim : o.simLB = false)
    (hub : ((e * int32Max : Nat) : Int) ≤ ub) (hopt : (fitPenalisedTol nF nL e p 1 o ⟨d, 2 ^ d - 1, false, ub⟩ T S).2 = true) :
    ∃ v, PenalisedBest nF nL e p d T v ∧
      CloseTo (lossCount nF d (2 ^ d - 1) o) v (fitPenalisedTol nF nL e p 1 o ⟨d, 2 ^ d - 1, false, ub⟩ T S).1.result.sol := by
  have hp : 1 ≤ 2 ^ d := Nat.one_le_two_pow
  have hone : (1 : Rat) ≤ (1 + 1 / 10000) ^ lossCount nF d (2 ^ d - 1) o := one_le_pow₀ (by norm_num)
  have hsum : (0 : Rat) ≤ ((e + p) * T.length : Nat) := Nat.cast_nonneg _
  have hN' : (e + p) * T.length < e * int32Max := Nat.cast_lt.1 (lt_of_scaled hone hsum hN)
  have hlen : ((assignGroups nF S).map (·.inst)).length = T.length := by
    rw [(assignGroups_rows nF S).length, hS.sameRows.length, preprocess_length]
  have G := ccaCfg_good (mls := 1) hi (Nat.le_refl 1) hS hN' hw.order (fun _ => rfl) (fun _ => rfl) hlb huub
  obtain ⟨_, v, h2, h3⟩ := search_within G hsim rfl ⟨d, 2 ^ d - 1, false, ub⟩ (by rw [hlen]; exact List.length_pos_iff.2 hT) hw.clock
    (by show 2 ^ d - 1 + 1 ≤ 2 ^ d; omega) (fun _ => ⟨by show 2 ^ d - 1 + 1 = 2 ^ d; omega, fun h => by simp at h⟩) (by
    intro D hD x hx
    refine lt_of_le_of_lt ?_ hN
    rw [tol_eq]
    refine mul_le_mul_of_nonneg_left ?_ (le_trans zero_le_one hone)
    show ((x.cost (penalised nF nL e p) D : Int) : Rat) ≤ _
    rw [penalised_cost]
    have h1 := hD.length_le
    rw [hlen] at h1
    have h2 := legal_nodes (Nat.le_refl 1) hx
    have h3 := misclassified_le x D
    have h4 : e * misclassified x D ≤ e * T.length := Nat.mul_le_mul_left _ (by omega)
    have h5 : p * x.nodes ≤ p * T.length := Nat.mul_le_mul_left _ (by omega)
    have h6 : e * misclassified x D + p * x.nodes ≤ (e + p) * T.length := by rw [Nat.add_mul]; omega
    exact_mod_cast h6) hub hopt
  refine ⟨v, penalisedBest_of_isOpt hT ?_, h3⟩
  refine (preprocess_optimum (penalised_featureFree nF nL e p) (fun _ _ => rfl) (Nat.le_refl 1) T _ _ _).1 ?_
  have hP : ∀ i j : Inst, ∀ k, i.label = j.label → (penalised nF nL e p).cost i k = (penalised nF nL e p).cost j k := by
    intro i j k hij
    simp only [penalised, hij]
  exact ((assignGroups_rows nF S).trans hS.sameRows).isOpt hP h2

/-! ### Regression -/

/-- **C69** for cost-complexity regression without lower bounds. -/
theorem regression_within_partial {nF q : Nat} {ccp w B : Rat} {tg : Nat → Rat} {o : Options} {T S : Data} (d : Nat) (ub : Int)
    (hw : World nF o) (hT : T ≠ []) (hccp : 0 ≤ ccp) (hbest : BestLeaf tg T w) (hU : Units q ccp tg T)
    (hS : SortedByFeatures nF (preprocess (userProblem nF q ccp tg T) 1 T) S)
    (hB : ∀ i ∈ T, ∀ j ∈ T, (tg i.label - tg j.label) ^ 2 ≤ B)
    (hF : (1 + 1 / 10000 : Rat) ^ lossCount nF d (2 ^ d - 1) o * (T.length * (B + ccp * w)) < largestDouble)
    (hlb : o.useLB = false) (hsim : o.simLB = false) (huub : o.useUB = true) (hub : ((q * largestDouble : Nat) : Int) ≤ ub)
    (hopt : (fitRegressionTol nF q ccp tg none o ⟨d, 2 ^ d - 1, false, ub⟩ T S).2 = true) :
    ∃ v, RegBest nF d (ccp * w) tg T v ∧ CloseTo (lossCount nF d (2 ^ d - 1) o) v
      ((fitRegressionTol nF q ccp tg none o ⟨d, 2 ^ d - 1, false, ub⟩ T S).1.result.sol / q) := by
  have hq : (0 : Rat) < q := by exact_mod_cast hU.pos
  have hp : 0 ≤ regPrice ccp tg T := by
    rw [price_eq hT hbest]
    exact mul_nonneg hccp (bestLeaf_nonneg hbest)
  rw [← price_eq (ccp := ccp) hT hbest] at hF ⊢
  have h2 : 1 ≤ 2 ^ d := Nat.one_le_two_pow
  have hone : (1 : Rat) ≤ (1 + 1 / 10000) ^ lossCount nF d (2 ^ d - 1) o := one_le_pow₀ (by norm_num)
  have hB0 : 0 ≤ B := by
    obtain ⟨i, hi⟩ := List.exists_mem_of_ne_nil T hT
    exact le_trans (sq_nonneg _) (hB i hi i hi)
  have hsum : (0 : Rat) ≤ T.length * (B + regPrice ccp tg T) := mul_nonneg (Nat.cast_nonneg _) (by linarith)
  have hF' : Fits ccp tg T B := ⟨hB, lt_of_scaled hone hsum hF⟩
  have G := regCfg_good hU hp hS hF' hT hw.order hlb huub hsim
  obtain ⟨_, v, h3, h4⟩ := search_within G hsim rfl ⟨d, 2 ^ d - 1, false, ub⟩ (merged_nonempty hT hS) hw.clock
    (by show 2 ^ d - 1 + 1 ≤ 2 ^ d; omega) (fun _ => ⟨by show 2 ^ d - 1 + 1 = 2 ^ d; omega, fun h => by simp at h⟩) (by
    intro D hD x hx
    have h5 := merged_le hU hp hS hB hD hx
    rw [tol_eq]
    show _ < (((q * largestDouble : Nat) : Int) : Rat)
    have h6 := mul_le_mul_of_nonneg_left h5 (le_trans zero_le_one hone)
    refine lt_of_le_of_lt h6 ?_
    have h7 := mul_lt_mul_of_pos_left hF hq
    push_cast
    calc _ = _ := by ring
      _ < _ := h7) hub hopt
  refine ⟨v / q, regBest_of_isOpt hU hp hT (regression_isOpt hS h3), ?_, ?_⟩
  · exact div_le_div_of_nonneg_right h4.1 hq.le
  · have := div_le_div_of_nonneg_right h4.2 hq.le
    rw [mul_div_assoc] at this
    exact this

/-! ### The similarity bound -/

/-- The user's reading of C69 for instance costs with any options: a bound on the number of times that the tolerance is lost
which does not depend on the data or the costs. -/
def RealCostsClose : Prop := ∀ (nF nL d : Nat) (o : Options), World nF o → ∃ k, ∀ (u : Nat) (w : Nat → Nat → Nat) (T : Data),
  Input nL T → T ≠ [] → 0 < u → FitCosts 0 nL u w T →
  (fitCosts nF nL u w 1 o ⟨d, 2 ^ d - 1, false, (u * largestDouble : Nat)⟩ T).2 = true →
  ∃ v, LeastCost nF nL w d (2 ^ d - 1) T v ∧
    CloseTo k v (fitCosts nF nL u w 1 o ⟨d, 2 ^ d - 1, false, (u * largestDouble : Nat)⟩ T).1.result.sol

/-- Six instances over five features. -/
def similarData : Data := (List.range 6).map fun i => ⟨i, fun f => (([[false, false, false, false, true],
  [false, false, true, true, false], [false, false, true, false, false], [false, true, true, true, false],
  [true, true, false, false, false], [true, true, false, false, true]].getD i []).getD f false), 0⟩

/-- Each of them costs nothing with the right label. With the wrong one four cost a lot, one less and one little. -/
def similarCosts : Nat → Nat → Nat := fun i k => ([[0, 10000000], [10000000, 0], [0, 90], [0, 1000000], [0, 10000000],
  [10000000, 0]].getD i []).getD k 0

/-- The similarity bound without the depth-two solver, everything else by default. -/
def similarOptions : Options := { defaultOptions 5 with useTerm := false }

/-- A tree of depth two without any cost. -/
def similarTree : Tree := .node 1 (.node 3 (.leaf 0) (.leaf 1)) (.node 4 (.leaf 0) (.leaf 1))

theorem similarData_input : Input 2 similarData := by
  refine ⟨by decide, by decide, ?_, by decide⟩
  unfold IdSorted; decide

set_option maxRecDepth 100000 in
theorem similar_search : (fitCosts 5 2 1 similarCosts 1 similarOptions ⟨2, 2 ^ 2 - 1, false, (1 * largestDouble : Nat)⟩ similarData).1.result.sol = 90 ∧
    (fitCosts 5 2 1 similarCosts 1 similarOptions ⟨2, 2 ^ 2 - 1, false, (1 * largestDouble : Nat)⟩ similarData).2 = true := by
  decide +kernel

set_option maxRecDepth 100000 in
/-- Without the similarity bound the same search finds the tree. -/
theorem dissimilar_search : (fitCosts 5 2 1 similarCosts 1 { similarOptions with simLB := false }
    ⟨2, 2 ^ 2 - 1, false, (1 * largestDouble : Nat)⟩ similarData).1.result.sol = 0 := by
  decide +kernel

/-- With the similarity bound no number of losses is enough: a run can report `is_optimal` for a value of 90 where a tree without
any cost exists. The value that is kept of a similar subproblem may exceed its least value by the tolerance, and what is subtracted
for the instances that differ is as large as that value, so that the difference is a bound on nothing. -/
theorem similarity_not_close : ¬ RealCostsClose := by
  intro h
  obtain ⟨k, hk⟩ := h 5 2 2 similarOptions ⟨fun _ f => by simp [similarOptions, defaultOptions], fun _ _ _ _ => rfl⟩
  obtain ⟨v, h1, h2⟩ := hk 1 similarCosts similarData similarData_input (by simp [similarData]) Nat.one_pos
    (by unfold FitCosts; rw [pow_zero, one_mul]; exact_mod_cast (by decide +kernel)) similar_search.2
  have h3 := h1.2 similarTree (by simp [similarTree, Tree.Over]) (by decide) (by decide)
  rw [show (totalCost similarCosts similarTree similarData : Int) = 0 by decide] at h3
  have h4 := h2.2
  rw [similar_search.1] at h4
  have h5 : (1 + 1 / 10000 : Rat) ^ k * (v : Rat) ≤ 0 :=
    mul_nonpos_of_nonneg_of_nonpos (pow_nonneg (by norm_num) _) (by exact_mod_cast h3)
  have h6 : ((90 : Int) : Rat) ≤ 0 := le_trans h4 h5
  norm_num at h6

/-! ### The hypotheses are met -/

set_option maxRecDepth 100000 in
/-- The data on which the reported value is not the least one, with lower bounds and dataset caching. -/
example : let o : Options := { defaultOptions 3 with simLB := false }
    World 3 o ∧ Input 2 costData ∧ FitCosts (lossCount 3 3 (2 ^ 3 - 1) o) 2 1 largeCosts costData ∧ o.useUB = true ∧
    lossCount 3 3 (2 ^ 3 - 1) o = 45 ∧
    (fitCosts 3 2 1 largeCosts 1 o ⟨3, 2 ^ 3 - 1, false, (1 * largestDouble : Nat)⟩ costData).2 = true ∧
    (fitCosts 3 2 1 largeCosts 1 o ⟨3, 2 ^ 3 - 1, false, (1 * largestDouble : Nat)⟩ costData).1.result.sol = 40004 ∧
    totalCost largeCosts parityTree costData = 40000 :=
  ⟨⟨fun _ f => by simp [defaultOptions], fun _ _ _ _ => rfl⟩, costData_input, by unfold FitCosts; decide +kernel, rfl, rfl, rfl,
    by decide +kernel, by decide⟩

set_option maxRecDepth 100000 in
/-- The same without bounds, where four losses are counted. -/
example : let o : Options := { defaultOptions 3 with simLB := false, useLB := false }
    FitCosts (lossCount 3 3 (2 ^ 3 - 1) o) 2 1 largeCosts costData ∧ lossCount 3 3 (2 ^ 3 - 1) o = 4 ∧
    (fitCosts 3 2 1 largeCosts 1 o ⟨3, 2 ^ 3 - 1, false, (1 * largestDouble : Nat)⟩ costData).2 = true ∧
    (fitCosts 3 2 1 largeCosts 1 o ⟨3, 2 ^ 3 - 1, false, (1 * largestDouble : Nat)⟩ costData).1.result.sol = 40004 :=
  ⟨by unfold FitCosts; decide +kernel, rfl, rfl, by decide +kernel⟩

set_option maxRecDepth 100000 in
/-- A node limit. -/
example : let o : Options := { defaultOptions 3 with simLB := false, useTerm := false }
    FitCosts (lossCount 3 3 3 o) 2 1 largeCosts costData ∧
    (fitCosts 3 2 1 largeCosts 1 o ⟨3, 3, false, (1 * largestDouble : Nat)⟩ costData).2 = true ∧
    (fitCosts 3 2 1 largeCosts 1 o ⟨3, 3, false, (1 * largestDouble : Nat)⟩ costData).1.result.sol = 40004 :=
  ⟨by unfold FitCosts; decide +kernel, rfl, by decide +kernel⟩

set_option maxRecDepth 100000 in
/-- Penalised errors. -/
example : let o : Options := { giniOptions 4 2 with useLB := false, simLB := false }
    World 4 o ∧ o.useUB = true ∧
    (1 + 1 / 10000 : Rat) ^ lossCount 4 3 (2 ^ 3 - 1) o * ((1 + 1) * penData.length : Nat) < (1 * int32Max : Nat) ∧
    (fitPenalisedTol 4 2 1 1 1 o ⟨3, 2 ^ 3 - 1, false, (1 * int32Max : Nat)⟩ penData penSorted).2 = true ∧
    (fitPenalisedTol 4 2 1 1 1 o ⟨3, 2 ^ 3 - 1, false, (1 * int32Max : Nat)⟩ penData penSorted).1.result.sol = 4 :=
  ⟨⟨(giniOptions_world 4 2).order, fun _ _ _ _ => rfl⟩, rfl, by decide +kernel, rfl, by decide +kernel⟩

set_option maxRecDepth 100000 in
/-- Regression: the total of 2708640 units is far above ten thousand. -/
example : let o : Options := { defaultOptions 2 with useLB := false, simLB := false }
    World 2 o ∧ o.useUB = true ∧
    (∀ i ∈ regData2, ∀ j ∈ regData2, (regTargets2 i.label - regTargets2 j.label) ^ 2 ≤ 1156) ∧
    (1 + 1 / 10000 : Rat) ^ lossCount 2 3 (2 ^ 3 - 1) o * (regData2.length * (1156 + regPrice (1 / 100) regTargets2 regData2)) < largestDouble ∧
    (fitRegressionTol 2 90000 (1 / 100) regTargets2 none o ⟨3, 2 ^ 3 - 1, false, (90000 * largestDouble : Nat)⟩
      regData2 (regSorted 2 90000 (1 / 100) regTargets2 regData2)).2 = true ∧
    (fitRegressionTol 2 90000 (1 / 100) regTargets2 none o ⟨3, 2 ^ 3 - 1, false, (90000 * largestDouble : Nat)⟩
      regData2 (regSorted 2 90000 (1 / 100) regTargets2 regData2)).1.result.sol = 2708640 :=
  ⟨⟨(defaultOptions_world 2).order, fun _ _ _ _ => rfl⟩, rfl, regData2_ok.2.1, by decide +kernel, by decide +kernel, by decide +kernel⟩

end Streed
