import Verif.Model.PolicyFit
import Verif.Props.Within
import Verif.Props.Policy

/-!
# C70: the policy found is the best one
-/

namespace Streed
open TaskLemmas PolicyLemmas

/-- The cost of a policy as the task computes it at the leaves. -/
def policyCost (m : Teacher) (ext : Inst → Treatment) (nL : Nat) (T : Data) (t : Tree) : Rat :=
  evalTree (· + ·) (policyLeaf (costRows ext m nL T) nL) t T

/-- `t` is a policy over the given features and treatments with depth at most `d`. -/
def PolicyTree (nF nL d : Nat) (t : Tree) : Prop := t.Over nF nL ∧ t.depth ≤ d

/-- All scores are multiples of `1 / u`. -/
structure PolicyUnits (u nL : Nat) (ext : Inst → Treatment) (m : Teacher) (T : Data) : Prop where
  pos : 0 < u
  scores : ∀ i ∈ T, ∀ k < nL, ((u : Rat) * (ext i).score m k).den = 1

/-- The spread of the scores: no person's costs exceed `B`. -/
def PolicySpread (B : Rat) (nL : Nat) (ext : Inst → Treatment) (m : Teacher) (T : Data) : Prop :=
  ∀ i ∈ T, ∀ k < nL, (ext i).score m k - minScore ext m nL T ≤ B

/-- Some unit always fits. -/
theorem policy_units_exist (nL : Nat) (ext : Inst → Treatment) (m : Teacher) (T : Data) : ∃ u, PolicyUnits u nL ext m T := by
  classical
  have key : ∀ l : List Rat, ∃ u : Nat, 0 < u ∧ ∀ x ∈ l, ((u : Rat) * x).den = 1 := by
    intro l
    induction l with
    | nil => exact ⟨1, by decide, fun x hx => by cases hx⟩
    | cons a l ih =>
      obtain ⟨u, h1, h2⟩ := ih
      have mul_int : ∀ (n : Nat) (x : Rat), x.den = 1 → ((n : Rat) * x).den = 1 := by
        intro n x hx
        rw [← Rat.den_eq_one_iff _ |>.1 hx]
        have : ((n : Rat) * (x.num : Rat)) = (((n : Int) * x.num : Int) : Rat) := by push_cast; rfl
        rw [this]
        exact Rat.den_intCast _
      refine ⟨u * a.den, Nat.mul_pos h1 a.den_pos, fun x hx => ?_⟩
      push_cast
      rcases List.mem_cons.1 hx with rfl | hx
      · rw [mul_assoc]
        refine mul_int u _ ?_
        rw [Rat.den_mul_eq_num]
        exact Rat.den_intCast _
      · rw [mul_comm (u : Rat), mul_assoc]
        exact mul_int _ _ (h2 x hx)
  obtain ⟨u, h1, h2⟩ := key (T.flatMap fun i => (List.range nL).map fun k => (ext i).score m k)
  refine ⟨u, h1, fun i hi k hk => h2 _ ?_⟩
  exact List.mem_flatMap.2 ⟨i, hi, List.mem_map.2 ⟨k, List.mem_range.2 hk, rfl⟩⟩

private theorem den_sub {x y : Rat} (hx : x.den = 1) (hy : y.den = 1) : (x - y).den = 1 := by
  rw [← (Rat.den_eq_one_iff _).1 hx, ← (Rat.den_eq_one_iff _).1 hy, ← Int.cast_sub]
  exact Rat.den_intCast _

theorem minScore_units {u nL : Nat} {ext : Inst → Treatment} {m : Teacher} {T : Data} (hU : PolicyUnits u nL ext m T) :
    ((u : Rat) * minScore ext m nL T).den = 1 := by
  have inner : ∀ i ∈ T, ∀ (l : List Nat) (v : Rat), (∀ k ∈ l, k < nL) → ((u : Rat) * v).den = 1 →
      ((u : Rat) * l.foldl (fun v k => min ((ext i).score m k) v) v).den = 1 := by
    intro i hi l
    induction l with
    | nil => intro v _ h; exact h
    | cons k l ih =>
      intro v hl h
      refine ih _ (fun j hj => hl j (List.mem_cons_of_mem _ hj)) ?_
      show ((u : Rat) * min ((ext i).score m k) v).den = 1
      rcases min_choice ((ext i).score m k) v with e | e <;> rw [e]
      · exact hU.scores i hi k (hl k (List.mem_cons_self ..))
      · exact h
  have outer : ∀ (l : Data) (v : Rat), (∀ i ∈ l, i ∈ T) → ((u : Rat) * v).den = 1 →
      ((u : Rat) * l.foldl (fun v i => (List.range nL).foldl (fun v k => min ((ext i).score m k) v) v) v).den = 1 := by
    intro l
    induction l with
    | nil => intro v _ h; exact h
    | cons i l ih =>
      intro v hl h
      exact ih _ (fun j hj => hl j (List.mem_cons_of_mem _ hj))
        (inner i (hl i (List.mem_cons_self ..)) _ v (fun k hk => List.mem_range.1 hk) h)
  refine outer _ 1 (fun i hi => ?_) (by rw [mul_one]; exact Rat.den_natCast _)
  unfold byLabels at hi
  obtain ⟨k, _, h⟩ := List.mem_flatMap.1 hi
  exact (List.mem_filter.1 h).1

theorem Input.nodup {nL : Nat} {T : Data} (h : Input nL T) : (T.map Inst.id).Nodup := by
  have := h.sorted
  unfold IdSorted at this
  unfold List.Nodup
  rw [List.pairwise_map]
  exact this.imp fun h => Nat.ne_of_lt h

/-- The costs in units are the costs. -/
theorem policyUnits_eq {u nL : Nat} {ext : Inst → Treatment} {m : Teacher} {T : Data} (hi : Input nL T)
    (hU : PolicyUnits u nL ext m T) {i : Inst} (h : i ∈ T) {k : Nat} (hk : k < nL) :
    (policyUnits u (costRows ext m nL T) i.id k : Rat) = u * ((ext i).score m k - minScore ext m nL T) := by
  unfold policyUnits
  rw [costRow_eq hi.inRange hi.nodup h]
  have h0 : 0 ≤ (ext i).score m k - minScore ext m nL T :=
    sub_nonneg.2 (minScore_le h (hi.inRange i h) hk)
  have h1 : 0 ≤ (u : Rat) * ((ext i).score m k - minScore ext m nL T) := mul_nonneg (Nat.cast_nonneg _) h0
  have hd : ((u : Rat) * ((ext i).score m k - minScore ext m nL T)).den = 1 := by
    rw [mul_sub]
    exact den_sub (hU.scores i h k hk) (minScore_units hU)
  generalize (u : Rat) * ((ext i).score m k - minScore ext m nL T) = x at *
  have h2 : 0 ≤ x.num := Rat.num_nonneg.2 h1
  have h3 : ((x.num.toNat : Int) : Rat) = (x.num : Rat) := by rw [Int.toNat_of_nonneg h2]
  rw [Int.cast_natCast] at h3
  rw [h3]
  exact (Rat.den_eq_one_iff _).1 hd

theorem policyCost_eq {nF u nL : Nat} {ext : Inst → Treatment} {m : Teacher} {T : Data} (hi : Input nL T)
    (hU : PolicyUnits u nL ext m T) {t : Tree} (ht : t.Over nF nL) :
    (totalCost (policyUnits u (costRows ext m nL T)) t T : Rat) = u * policyCost m ext nL T t := by
  unfold policyCost
  rw [evalTree_sum (fun i k => costRow (costRows ext m nL T) i.id k) _ (fun i => i ∈ T) _ t T (fun i hi => hi)]
  · have : ∀ D : Data, (∀ i ∈ D, i ∈ T) → (totalCost (policyUnits u (costRows ext m nL T)) t D : Rat) =
        u * (D.map fun i => costRow (costRows ext m nL T) i.id (t.predict i)).sum := by
      intro D
      induction D with
      | nil => simp [totalCost]
      | cons i D ih =>
        intro h
        have h1 := h i (List.mem_cons_self ..)
        have h2 := ih fun j hj => h j (List.mem_cons_of_mem _ hj)
        unfold totalCost at h2 ⊢
        rw [List.map_cons, List.sum_cons, List.map_cons, List.sum_cons, Nat.cast_add, h2, mul_add,
          policyUnits_eq hi hU h1 (over_predict_lt ht i), costRow_eq hi.inRange hi.nodup h1]
    exact this T fun _ h => h
  · intro D k hD
    exact foldl_byLabels _ fun i h => hi.inRange i (hD i h)

theorem instWorst_le {nL : Nat} {w : Nat → Nat → Nat} {i : Inst} {b : Rat} (hb : 0 ≤ b) (h : ∀ k < nL, (w i.id k : Rat) ≤ b) :
    (instWorst nL w i : Rat) ≤ b := by
  unfold instWorst
  have : ∀ (l : List Nat) (v : Nat), (∀ x ∈ l, (x : Rat) ≤ b) → (v : Rat) ≤ b → ((l.foldl max v : Nat) : Rat) ≤ b := by
    intro l
    induction l with
    | nil => intro v _ h; exact h
    | cons x l ih =>
      intro v hl hv
      refine ih _ (fun y hy => hl y (List.mem_cons_of_mem _ hy)) ?_
      rw [Nat.cast_max]
      exact max_le hv (hl x (List.mem_cons_self ..))
  refine this _ _ (fun x hx => ?_) (by simpa using hb)
  obtain ⟨k, hk, rfl⟩ := List.mem_map.1 hx
  exact h k (List.mem_range.1 hk)

theorem policy_sum_le {u nL : Nat} {ext : Inst → Treatment} {m : Teacher} {T : Data} {B : Rat} (hi : Input nL T) (hT : T ≠ [])
    (hU : PolicyUnits u nL ext m T) (hB : PolicySpread B nL ext m T) :
    (((T.map fun i => instWorst nL (policyUnits u (costRows ext m nL T)) i).sum : Nat) : Rat) ≤ u * (B * T.length) := by
  have hu : (0 : Rat) ≤ u := Nat.cast_nonneg _
  have hB0 : 0 ≤ B := by
    obtain ⟨i, h⟩ := List.exists_mem_of_ne_nil T hT
    exact le_trans (sub_nonneg.2 (minScore_le h (hi.inRange i h) hi.labels)) (hB i h 0 hi.labels)
  have : ∀ D : Data, (∀ i ∈ D, i ∈ T) →
      (((D.map fun i => instWorst nL (policyUnits u (costRows ext m nL T)) i).sum : Nat) : Rat) ≤ u * (B * D.length) := by
    intro D
    induction D with
    | nil => simp
    | cons i D ih =>
      intro h
      have h1 := h i (List.mem_cons_self ..)
      have h2 := ih fun j hj => h j (List.mem_cons_of_mem _ hj)
      have h3 : (instWorst nL (policyUnits u (costRows ext m nL T)) i : Rat) ≤ u * B := by
        refine instWorst_le (mul_nonneg hu hB0) fun k hk => ?_
        rw [policyUnits_eq hi hU h1 hk]
        exact mul_le_mul_of_nonneg_left (hB i h1 k hk) hu
      rw [List.map_cons, List.sum_cons, List.length_cons, Nat.cast_add]
      push_cast at h2 ⊢
      nlinarith
  exact this T fun _ h => h

theorem policyCfg_good {nF nL u : Nat} {ext : Inst → Treatment} {m : Teacher} {o : Options} {T : Data} (h : Input nL T)
    (hU : PolicyUnits u nL ext m T)
    (hc : (T.map fun i => instWorst nL (policyUnits u (costRows ext m nL T)) i).sum < u * int32Max) (hw : World nF o)
    (hterm : o.useTerm = true → o.useUB = true) :
    Good (policyCfg nF nL u ext m 1 o (isRedundant (instProblem nF nL (policyUnits u (costRows ext m nL T))) 1 T) T)
      (preprocess (instProblem nF nL (policyUnits u (costRows ext m nL T))) 1 T) where
  labels := h.labels
  bc := Int.le_refl _
  bcLB := fun _ => rfl
  nonneg := fun i _ k => Int.natCast_nonneg _
  small := fun D hD t ht => by
    show t.cost (instProblem nF nL (policyUnits u (costRows ext m nL T))) D < ((u * int32Max : Nat) : Int)
    rw [cost_eq_totalCost]
    have h1 := totalCost_le (w := policyUnits u (costRows ext m nL T)) (legal_over_inst ht) D
    have h2 := sublist_sum_le (g := fun i => instWorst nL (policyUnits u (costRows ext m nL T)) i) hD
    rw [preprocess_worst] at h2
    omega
  mls := Nat.le_refl 1
  term := fun a => ⟨rfl, hterm a⟩
  sim := fun _ => rfl
  sparse := fun h => by simp [policyCfg] at h
  custom := fun D _ t _ => Tree.cost_nonneg _ t D (fun i _ k => Int.natCast_nonneg _) (Int.le_refl 0)
  md := ⟨by show (0 : Int) ≤ 0; decide, by show (0 : Int) ≤ 1; decide⟩
  sorted := preprocess_sorted h.sorted
  inRange := fun i hi => by
    obtain ⟨j, hj, rfl⟩ := List.mem_map.1 hi
    exact h.inRange j hj
  order := hw.order
  redundant := fun f hf => .inr (preprocess_redundant hf)
  worstPer := fun _ _ i hi k hk => by
    obtain ⟨j, hj, rfl⟩ := List.mem_map.1 hi
    show ((policyUnits u (costRows ext m nL T) j.id k : Nat) : Int) ≤ ((u : Rat) * (informWorst ext m nL T []).getD j.label 0).floor
    rw [Rat.le_floor_iff]
    have h1 := policy_worst m ext nL T [] h.inRange h.nodup j hj k hk
    unfold policyD2 at h1
    rw [costRow_eq h.inRange h.nodup hj] at h1
    rw [Int.cast_natCast, policyUnits_eq h hU hj hk]
    refine mul_le_mul_of_nonneg_left ?_ (Nat.cast_nonneg _)
    simpa using h1
  simInst := fun _ v hv => by simp [policyCfg] at hv

/-- The outcome of a run whose values are so few that the tolerance is exact. -/
theorem search_exact {c : Cfg} {T : Data} (F : Fine c T) (t : Top) (hm : c.mls ≤ T.length)
    (hfit : t.maxNodes + 1 ≤ 2 ^ t.maxDepth)
    (hterm : c.useTerm = true → t.maxNodes + 1 = 2 ^ t.maxDepth ∧ (t.allTrees = true → t.maxNodes ≤ 1))
    (hub : c.worst ≤ t.ub) (hopt : (Tol.solve c t T).2 = true) :
    IsOpt c.P c.mls t.maxDepth t.maxNodes T (Tol.solve c t T).1.result.sol := by
  have heq := tol_solve F t hm hfit hterm
  obtain ⟨h1, h2⟩ := solve_spec F.good t hm F.clock hfit hterm
  rw [heq] at hopt ⊢
  obtain ⟨_, h4⟩ := h2 hopt
  have hset : ∀ x, Allowed c.P c.mls t.maxDepth t.maxNodes T x →
      (solve c t T).1.result.isEmpty = false ∧ (solve c t T).1.result.sol ≤ x.cost c.P T :=
    fun x hx => h4 x hx (Int.le_trans (Int.le_of_lt (F.good.small T (List.Sublist.refl T) x hx.2.2)) hub)
  have hne := (hset (.leaf 0) ⟨Nat.zero_le _, Nat.zero_le _, F.good.labels, hm⟩).1
  obtain ⟨h5, h6⟩ := h1.real hne
  exact ⟨h5.attained h6, fun x hx => (hset x hx).2⟩

/-- `t` is a policy of the largest estimated value. -/
def BestPolicy (nF nL d : Nat) (m : Teacher) (ext : Inst → Treatment) (T : Data) (t : Tree) : Prop :=
  PolicyTree nF nL d t ∧ ∀ x, PolicyTree nF nL d x → policyValue m ext x T ≤ policyValue m ext t T

theorem policy_of_cost {nF u nL d : Nat} {ext : Inst → Treatment} {m : Teacher} {T : Data} {v : Int} (hi : Input nL T)
    (hT : T ≠ []) (hU : PolicyUnits u nL ext m T) (hus : Usable m ext T)
    (h : IsOpt (instProblem nF nL (policyUnits u (costRows ext m nL T))) 1 d (2 ^ d - 1) T v) :
    ∃ t, BestPolicy nF nL d m ext T t ∧ policyCost m ext nL T t = v / u := by
  have hu : (0 : Rat) < u := by exact_mod_cast hU.pos
  obtain ⟨⟨t, h1, h2, h3, h4⟩, h5⟩ := leastCost_of_isOpt hT h
  have e : ((v : Int) : Rat) = u * policyCost m ext nL T t := by
    rw [← policyCost_eq hi hU h1, ← h4, Int.cast_natCast]
  refine ⟨t, ⟨⟨h1, h2⟩, fun x hx => ?_⟩, by rw [e]; field_simp⟩
  have h6 := h5 x hx.1 hx.2 (by
    have h7 := x.nodes_lt_pow
    have h8 := Nat.pow_le_pow_right (n := 2) (by decide) hx.2
    omega)
  rw [← h4] at h6
  have h7 : (totalCost (policyUnits u (costRows ext m nL T)) t T : Rat) ≤ totalCost (policyUnits u (costRows ext m nL T)) x T := by
    exact_mod_cast h6
  rw [policyCost_eq hi hU h1, policyCost_eq hi hU hx.1] at h7
  exact (policy_order m ext nL T hi.inRange hi.nodup hus t x).1 (le_of_mul_le_mul_left h7 hu)

/-- **C70** for scores that differ by few units: a run that reports `is_optimal` found the cost of a policy whose estimated value is
the largest of all policies of that depth, for every teacher method, feature order, clock and option except the depth-two solver
without upper bounding, and the branch cache together with the similarity bound. -/
theorem policy_search_partial {nF nL u : Nat} {ext : Inst → Treatment} {m : Teacher} {o : Options} {T : Data} {B : Rat} (d : Nat)
    (ub : Int) (hw : World nF o) (hi : Input nL T) (hT : T ≠ []) (hU : PolicyUnits u nL ext m T) (hus : Usable m ext T)
    (hB : PolicySpread B nL ext m T) (hfine : u * (B * T.length) < 10000) (hub : (u * int32Max : Nat) ≤ ub)
    (hterm : o.useTerm = true → o.useUB = true) (hcopy : o.useBr = false ∨ o.simLB = false)
    (hopt : (fitPolicy nF nL u ext m 1 o ⟨d, 2 ^ d - 1, false, ub⟩ T).2 = true) :
    ∃ t, BestPolicy nF nL d m ext T t ∧
      policyCost m ext nL T t = (fitPolicy nF nL u ext m 1 o ⟨d, 2 ^ d - 1, false, ub⟩ T).1.result.sol / u := by
  have hp : 1 ≤ 2 ^ d := Nat.one_le_two_pow
  have hlt : (T.map fun i => instWorst nL (policyUnits u (costRows ext m nL T)) i).sum < 10000 := by
    exact_mod_cast lt_of_le_of_lt (policy_sum_le hi hT hU hB) hfine
  have hmax : 20000 ≤ u * int32Max := Nat.le_trans (by decide) (Nat.mul_le_mul_right int32Max hU.pos)
  have G := policyCfg_good hi hU (Nat.lt_of_lt_of_le hlt (by omega)) hw hterm
  have F : Fine _ _ := ⟨G, hw.clock, fun D hD t ht => by
      show t.cost (instProblem nF nL (policyUnits u (costRows ext m nL T))) D < 10000
      rw [cost_eq_totalCost]
      have h1 := totalCost_le (w := policyUnits u (costRows ext m nL T)) (legal_over_inst ht) D
      have h2 := sublist_sum_le (g := fun i => instWorst nL (policyUnits u (costRows ext m nL T)) i) hD
      rw [preprocess_worst] at h2
      omega, by show (20000 : Int) ≤ ((u * int32Max : Nat) : Int); omega, hcopy⟩
  have h := search_exact F ⟨d, 2 ^ d - 1, false, ub⟩ (by rw [preprocess_length]; exact List.length_pos_iff.2 hT)
    (by show 2 ^ d - 1 + 1 ≤ 2 ^ d; omega) (fun _ => ⟨by show 2 ^ d - 1 + 1 = 2 ^ d; omega, fun h => by simp at h⟩) hub hopt
  exact policy_of_cost hi hT hU hus ((preprocess_optimum (inst_featureFree _ _ _) (fun _ _ => rfl) (Nat.le_refl 1) T _ _ _).1 h)

/-- **C70** for all scores whose total spread stays below `INT32_MAX`, without the similarity bound: the cost found is that of a policy,
and within the tolerance of the cost of the best one. -/
theorem policy_within_partial {nF nL u : Nat} {ext : Inst → Treatment} {m : Teacher} {o : Options} {T : Data} {B : Rat} (d : Nat)
    (ub : Int) (hw : World nF o) (hi : Input nL T) (hT : T ≠ []) (hU : PolicyUnits u nL ext m T) (hus : Usable m ext T)
    (hB : PolicySpread B nL ext m T)
    (hfit : (1 + 1 / 10000) ^ lossCount nF d (2 ^ d - 1) o * (B * T.length) < int32Max) (hub : (u * int32Max : Nat) ≤ ub)
    (hterm : o.useTerm = true → o.useUB = true) (hsim : o.simLB = false)
    (hopt : (fitPolicy nF nL u ext m 1 o ⟨d, 2 ^ d - 1, false, ub⟩ T).2 = true) :
    (∃ t, PolicyTree nF nL d t ∧
      policyCost m ext nL T t = (fitPolicy nF nL u ext m 1 o ⟨d, 2 ^ d - 1, false, ub⟩ T).1.result.sol / u) ∧
    ∃ t, BestPolicy nF nL d m ext T t ∧ CloseTo (lossCount nF d (2 ^ d - 1) o) (policyCost m ext nL T t)
      ((fitPolicy nF nL u ext m 1 o ⟨d, 2 ^ d - 1, false, ub⟩ T).1.result.sol / u) := by
  have hp : 1 ≤ 2 ^ d := Nat.one_le_two_pow
  have hu : (0 : Rat) < u := by exact_mod_cast hU.pos
  have hone : (1 : Rat) ≤ (1 + 1 / 10000) ^ lossCount nF d (2 ^ d - 1) o := one_le_pow₀ (by norm_num)
  have hsum := policy_sum_le hi hT hU hB
  have hfit' : (1 + 1 / 10000 : Rat) ^ lossCount nF d (2 ^ d - 1) o *
      ((T.map fun i => instWorst nL (policyUnits u (costRows ext m nL T)) i).sum : Nat) < (u * int32Max : Nat) := by
    have h1 := mul_le_mul_of_nonneg_left hsum (le_trans zero_le_one hone)
    have h2 := mul_lt_mul_of_pos_left hfit hu
    refine lt_of_le_of_lt h1 ?_
    rw [Nat.cast_mul]
    calc _ = _ := by ring
      _ < _ := h2
  have hlt := Nat.cast_lt.1 (lt_of_scaled hone (Nat.cast_nonneg _) hfit')
  have G := policyCfg_good hi hU hlt hw hterm
  obtain ⟨h1, v, h2, h3⟩ := search_within G hsim rfl ⟨d, 2 ^ d - 1, false, ub⟩ (by rw [preprocess_length]; exact List.length_pos_iff.2 hT)
    hw.clock (by show 2 ^ d - 1 + 1 ≤ 2 ^ d; omega) (fun _ => ⟨by show 2 ^ d - 1 + 1 = 2 ^ d; omega, fun h => by simp at h⟩) (by
    intro D hD x hx
    refine lt_of_le_of_lt ?_ hfit'
    rw [tol_eq]
    refine mul_le_mul_of_nonneg_left ?_ (le_trans zero_le_one hone)
    show ((x.cost (instProblem nF nL (policyUnits u (costRows ext m nL T))) D : Int) : Rat) ≤ _
    rw [cost_eq_totalCost]
    have h1 := totalCost_le (w := policyUnits u (costRows ext m nL T)) (legal_over_inst hx) D
    have h2 := sublist_sum_le (g := fun i => instWorst nL (policyUnits u (costRows ext m nL T)) i) hD
    rw [preprocess_worst] at h2
    rw [Int.cast_natCast]
    exact Nat.cast_le.2 (Nat.le_trans h1 h2)) hub hopt
  have hP := inst_featureFree nF nL (policyUnits u (costRows ext m nL T))
  obtain ⟨t, ⟨a1, _, a3⟩, a4⟩ := (preprocess_attained hP (fun _ _ => rfl) (Nat.le_refl 1) T _ _ _).1 h1
  obtain ⟨t', b1, b2⟩ := policy_of_cost hi hT hU hus ((preprocess_optimum hP (fun _ _ => rfl) (Nat.le_refl 1) T _ _ _).1 h2)
  refine ⟨⟨t, ⟨legal_over_inst a3, a1⟩, ?_⟩, t', b1, ?_, ?_⟩
  · rw [eq_div_iff hu.ne', mul_comm, ← policyCost_eq hi hU (legal_over_inst a3)]
    rw [cost_eq_totalCost] at a4
    rw [← Int.cast_natCast, a4]
    rfl
  · rw [b2]
    exact div_le_div_of_nonneg_right h3.1 hu.le
  · rw [b2, ← mul_div_assoc]
    exact div_le_div_of_nonneg_right h3.2 hu.le

/-! ### The worst value -/

/-- Two people with the same features; one gains three thousand million from the second treatment, the other from the first. -/
def opposed : Inst → Treatment := fun i => ⟨0, 1, 1, fun k => if k = i.id then 0 else 3000000000⟩

/-- With costs above `INT32_MAX`, which the task takes for infinity, the search ends without any tree and reports `is_optimal`. -/
theorem policy_search_empty : ∃ (ext : Inst → Treatment) (T : Data), Input 2 T ∧ T ≠ [] ∧ Usable .dm ext T ∧ PolicyUnits 1 2 ext .dm T ∧
    (fitPolicy 1 2 1 ext .dm 1 (defaultOptions 1) ⟨1, 2 ^ 1 - 1, false, largestDouble⟩ T).2 = true ∧
    (fitPolicy 1 2 1 ext .dm 1 (defaultOptions 1) ⟨1, 2 ^ 1 - 1, false, largestDouble⟩ T).1.result.isEmpty = true := by
  refine ⟨opposed, [exInst 0 0 0, exInst 1 0 1], ⟨by decide, by decide, by unfold IdSorted; decide, by decide⟩, by simp, .inl rfl,
    ⟨by decide, by decide +kernel⟩, by decide +kernel, by decide +kernel⟩

/-! ### The hypotheses are met -/

/-- Predicted outcomes of two treatments for the combinations of two features: the second treatment helps when exactly one feature
holds. Half of the people got each treatment. -/
def trial : Inst → Treatment := fun i =>
  ⟨i.label, if i.label = (i.id % 2 + i.id / 2) % 2 then 3 else 1, 1 / 2, fun k => if k = (i.id % 2 + i.id / 2) % 2 then 5 / 2 else 1⟩

def trialData : Data := [exInst 0 0 0, exInst 1 1 0, exInst 2 2 1, exInst 3 3 1]

theorem trialData_input : Input 2 trialData :=
  ⟨by decide, by decide, by unfold IdSorted; decide, by decide⟩

set_option maxRecDepth 100000 in
/-- The doubly robust estimate with the default options. -/
example : World 2 (defaultOptions 2) ∧ trialData ≠ [] ∧ PolicyUnits 2 2 trial .dr trialData ∧ Usable .dr trial trialData ∧
    PolicySpread (9 / 2) 2 trial .dr trialData ∧ (2 : Rat) * (9 / 2 * trialData.length) < 10000 ∧
    (fitPolicy 2 2 2 trial .dr 1 (defaultOptions 2) ⟨2, 2 ^ 2 - 1, false, (2 * int32Max : Nat)⟩ trialData).2 = true ∧
    (fitPolicy 2 2 2 trial .dr 1 (defaultOptions 2) ⟨2, 2 ^ 2 - 1, false, (2 * int32Max : Nat)⟩ trialData).1.result.sol = 4 ∧
    minScore trial .dr 2 trialData = -7 / 2 ∧
    policyValue .dr trial (.node 0 (.node 1 (.leaf 0) (.leaf 1)) (.node 1 (.leaf 1) (.leaf 0))) trialData = 12 :=
  ⟨defaultOptions_world 2, by decide, ⟨by decide, by decide +kernel⟩, .inr (by decide +kernel), by unfold PolicySpread; decide +kernel,
    by decide +kernel, by decide +kernel, by decide +kernel, by decide +kernel, by decide +kernel⟩

set_option maxRecDepth 100000 in
/-- The same without the similarity bound, at depth one. -/
example : let o : Options := { defaultOptions 2 with simLB := false }
    World 2 o ∧ (1 + 1 / 10000 : Rat) ^ lossCount 2 1 (2 ^ 1 - 1) o * (9 / 2 * trialData.length) < int32Max ∧
    (fitPolicy 2 2 2 trial .dr 1 o ⟨1, 2 ^ 1 - 1, false, (2 * int32Max : Nat)⟩ trialData).2 = true ∧
    (fitPolicy 2 2 2 trial .dr 1 o ⟨1, 2 ^ 1 - 1, false, (2 * int32Max : Nat)⟩ trialData).1.result.sol = 10 :=
  ⟨⟨(defaultOptions_world 2).order, fun _ _ _ _ => rfl⟩, by decide +kernel, by decide +kernel, by decide +kernel⟩

end Streed
