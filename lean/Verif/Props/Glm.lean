import Verif.Lemmas.Glm

/-!
# C58: the leaf of piecewise linear regression
-/

namespace Streed

open GlmLemmas

/-- The squared error of a linear model plus the lasso and ridge penalties. Lasso is usually written as half the mean
squared error plus a penalty; multiplied by twice the number of instances that is the expression here. -/
def glmError (D : List GlmInst) (n : Nat) (lasso ridge : Rat) (b : Nat → Rat) (b0 : Rat) : Rat :=
  (D.map fun i => (i.y - (b0 + ∑ j ∈ Finset.range n, b j * i.x j)) * (i.y - (b0 + ∑ j ∈ Finset.range n, b j * i.x j))).sum
    + 2 * (D.length * lasso) * ∑ j ∈ Finset.range n, |b j| + D.length * ridge * ∑ j ∈ Finset.range n, b j * b j

theorem lambdaMax_zero (D : List GlmInst) (n : Nat) (h : ∀ j, j < n → glmXY D j = 0) : lambdaMax D n = 0 := by
  have key : ∀ js : List Nat, (∀ j ∈ js, glmXY D j = 0) → js.foldl (fun m j => max m |glmXY D j|) 0 = 0 := by
    intro js
    induction js with
    | nil => intro _; rfl
    | cons j js ih =>
      intro hjs
      rw [List.foldl_cons, hjs j List.mem_cons_self]
      simpa using ih fun k hk => hjs k (List.mem_cons_of_mem _ hk)
  exact key _ fun j hj => h j (List.mem_range.1 hj)

/-- **C58** fails: when the targets of a leaf are all equal there is no leaf model at all, although the constant model has
cost zero. The search takes this for "no solution", so it cannot use the leaf. -/
theorem glm_refuses_constant (D : List GlmInst) (hD : D ≠ []) (n : Nat) (lasso ridge : Rat) (hl : 0 ≤ lasso) (c : Rat)
    (hc : ∀ i ∈ D, i.y = c) :
    solveGlm D n lasso ridge = none ∧ glmError D n lasso ridge (fun _ => 0) c = 0 := by
  have hn : (0 : Rat) ≤ D.length := Nat.cast_nonneg _
  have hlen : (D.length : Rat) ≠ 0 := by exact_mod_cast (List.length_pos_iff.2 hD).ne'
  constructor
  · have hm : glmMean (·.y) D = c := by
      rw [glmMean, List.map_congr_left hc]; simp; field_simp
    have h0 : lambdaMax D n = 0 := lambdaMax_zero D n fun j _ => by
      rw [glmXY_eq, sumD_congr (g := fun _ => 0) fun i hi => by rw [yc, hc i hi, hm]; ring, sumD_const]; simp
    rw [solveGlm, h0]
    exact if_pos (mul_nonneg hn hl)
  · rw [glmError, List.map_congr_left (g := fun _ => 0) fun i hi => by rw [hc i hi]; simp]
    simp

/-- The same for a leaf on which every continuous feature is constant. -/
theorem glm_refuses_flat (D : List GlmInst) (n : Nat) (lasso ridge : Rat) (hl : 0 ≤ lasso)
    (hflat : ∀ j, j < n → ∃ c, ∀ i ∈ D, i.x j = c) : solveGlm D n lasso ridge = none := by
  have hn : (0 : Rat) ≤ D.length := Nat.cast_nonneg _
  have h0 : lambdaMax D n = 0 := lambdaMax_zero D n fun j hj => by
    have hr : glmRedundant D j = true := by
      obtain ⟨c, hc⟩ := hflat j hj
      cases D with
      | nil => rfl
      | cons i D =>
        rw [glmRedundant, deltaSum_const _ _ _ fun k hk => by rw [hc k hk, hc i List.mem_cons_self]]
        simp
    rw [glmXY, if_pos hr]
  rw [solveGlm, h0]
  exact if_pos (mul_nonneg hn hl)

example : solveGlm [⟨fun _ => 0, 5⟩, ⟨fun _ => 1, 5⟩] 1 0 0 = none :=
  (glm_refuses_constant _ (by simp) 1 0 0 (by norm_num) 5 (by simp)).1

/-! ### Never worse than a constant -/

theorem foldl_sub (f : Nat → Rat) (l : List Nat) (s : Rat) : l.foldl (fun y j => y - f j) s = s - (l.map f).sum := by
  induction l generalizing s with
  | nil => simp
  | cons a l ih => rw [List.foldl_cons, ih]; simp; ring

theorem range_sum (n : Nat) (f : Nat → Rat) : ((List.range n).map f).sum = ∑ j ∈ Finset.range n, f j := by
  induction n with
  | zero => rfl
  | succ n ih => rw [List.range_succ, List.map_append, List.sum_append, ih, Finset.sum_range_succ]; simp

/-- With the intercept of the code, the cost is the cost of the centred data. -/
theorem glmError_centred (D : List GlmInst) (n : Nat) (lasso ridge : Rat) (b : Nat → Rat)
    (hred : ∀ j, glmRedundant D j = true → b j = 0) :
    glmError D n lasso ridge b ((List.range n).foldl (fun b0 j => b0 - glmMean (·.x j) D * b j) (glmMean (·.y) D)) =
      cJ D n (D.length * lasso) (D.length * ridge) b := by
  rw [glmError, cJ, foldl_sub, range_sum]
  congr 2
  apply sumD_congr
  intro i _
  have : i.y - (glmMean (·.y) D - ∑ j ∈ Finset.range n, glmMean (·.x j) D * b j + ∑ j ∈ Finset.range n, b j * i.x j) =
      yc D i - ∑ k ∈ Finset.range n, b k * xc D k i := by
    have h : ∑ k ∈ Finset.range n, b k * xc D k i =
        ∑ j ∈ Finset.range n, b j * i.x j - ∑ j ∈ Finset.range n, glmMean (·.x j) D * b j := by
      rw [← Finset.sum_sub_distrib]
      apply Finset.sum_congr rfl
      intro k _
      by_cases hk : glmRedundant D k
      · rw [hred k hk]; simp
      · simp only [xc, hk]; simp; ring
    rw [h, yc]; ring
  rw [this]

theorem glm_start_ok (D : List GlmInst) (n : Nat) : GlmOK D n ⟨fun _ => 0, [], cov0 D, true⟩ :=
  ⟨fun _ _ => rfl, by simp, by simp, cov0_ok D, by simp⟩

/-- Every covariance of two continuous features on the instances is zero or at least 1e-4 in absolute value. -/
def CovariancesBig (D : List GlmInst) : Prop := CovBig D

/-- **C58**, the part that holds in general: the leaf model is at least as good as every constant model. Missing: the best
model, and covariances below 1e-4 (which the code adds again each time they are read). -/
theorem glm_not_worse_than_constant_partial (D : List GlmInst) (hD : D ≠ []) (n : Nat) (lasso ridge : Rat) (hl : 0 ≤ lasso)
    (hr : 0 ≤ ridge) (hbig : CovariancesBig D) (l : GlmLeaf) (h : solveGlm D n lasso ridge = some l) (c : Rat) :
    glmError D n lasso ridge l.b l.b0 ≤ glmError D n lasso ridge (fun _ => 0) c := by
  have hn : (0 : Rat) ≤ D.length := Nat.cast_nonneg _
  rw [solveGlm] at h
  dsimp only at h
  split at h
  · simp at h
  · have h := Option.some.inj h
    subst h
    obtain ⟨hok, hle⟩ := glmLoop_ok hbig (mul_nonneg hn hl) (mul_nonneg hn hr) 10000 none _ (glm_start_ok D n)
    dsimp only
    rw [glmError_centred D n lasso ridge _ fun j hj => hok.supp j fun hin => by
      rw [hok.red j hin] at hj; simp at hj]
    refine hle.trans ?_
    rw [cJ, glmError]
    simp only [zero_mul, Finset.sum_const_zero, sub_zero, add_zero, abs_zero, mul_zero]
    have e : (D.map fun i => (i.y - c) * (i.y - c)).sum = sumD D (fun i => yc D i * yc D i) +
        D.length * ((glmMean (·.y) D - c) * (glmMean (·.y) D - c)) := by
      have : ∀ i ∈ D, (i.y - c) * (i.y - c) = yc D i * yc D i + (2 * (glmMean (·.y) D - c) * yc D i +
          (glmMean (·.y) D - c) * (glmMean (·.y) D - c)) := by intro i _; rw [yc]; ring
      change sumD D (fun i => (i.y - c) * (i.y - c)) = _
      rw [sumD_congr this, sumD_add, sumD_add, sumD_mul, sumD_const, yc_sum D hD]; ring
    rw [e]
    have := mul_nonneg hn (mul_self_nonneg (glmMean (·.y) D - c))
    linarith

/-- **C58**, reported cost: the cost of the leaf is the squared error of its model plus the penalties. Missing:
coefficients and covariances that are not zero but below 1e-4. -/
theorem glm_cost_exact_partial (D : List GlmInst) (hD : D ≠ []) (n : Nat) (lasso ridge : Rat) (hl : 0 ≤ lasso)
    (hr : 0 ≤ ridge) (hbig : CovariancesBig D) (l : GlmLeaf) (h : solveGlm D n lasso ridge = some l)
    (hb : ∀ k, k < n → l.b k = 0 ∨ 1 / 10000 ≤ |l.b k|) : l.cost = glmError D n lasso ridge l.b l.b0 := by
  have hn : (0 : Rat) ≤ D.length := Nat.cast_nonneg _
  rw [solveGlm] at h
  dsimp only at h
  split at h
  · simp at h
  have h := Option.some.inj h
  obtain ⟨hok, -⟩ := glmLoop_ok hbig (mul_nonneg hn hl) (mul_nonneg hn hr) 10000 none _ (glm_start_ok D n)
  generalize glmLoop D n (D.length * lasso) (D.length * ridge) 10000 none ⟨fun _ => 0, [], cov0 D, true⟩ = s at h hok
  subst h
  dsimp only at hb ⊢
  have hb : ∀ k, s.b k = 0 ∨ 1 / 10000 ≤ |s.b k| := fun k => by
    by_cases hk : k < n
    · exact hb k hk
    · exact Or.inl (hok.supp k fun hm => hk (hok.lt k hm))
  generalize (List.range n).foldl (fun b0 j => b0 - glmMean (·.x j) D * s.b j) (glmMean (·.y) D) = b0
  rw [glmCost]
  rw [glmCostLoop_ok hD hbig n s.nz s.b b0 hb hok.supp hok.red _ _ _ hok.cov]
  have hys : glmYsum n D = 0 := by
    rw [glmYsum, glmY_eq]
    have : (D.map (yc D)).sum = 0 := yc_sum D hD
    rw [this]; simp
  have hx : ∀ k, (glmX D k).sum = 0 := fun k => by rw [glmX_eq]; exact xc_sum D hD k
  rw [foldl_sub]
  simp only [hys, hx, zero_mul, mul_zero, add_zero]
  have hxy : (s.nz.map fun k => 2 * s.b k * (glmXY D k + D.length * glmMean (·.x k) D * glmMean (·.y) D)).sum =
      ∑ k ∈ Finset.range n, 2 * s.b k * sumD D (fun i => i.x k * i.y) := by
    rw [← list_sum_finset n s.nz hok.nodup hok.lt _ fun k hk => by rw [hok.supp k hk]; ring]
    congr 1
    apply List.map_congr_left
    intro k hk
    congr 1
    rw [glmXY_eq, sumD_congr (g := fun i => i.x k * i.y - (glmMean (·.x k) D * i.y + (glmMean (·.y) D * i.x k -
      glmMean (·.x k) D * glmMean (·.y) D))) fun i _ => by simp only [xc, yc, hok.red k hk]; simp; ring]
    rw [sumD_sub, sumD_add, sumD_sub, sumD_mul, sumD_mul, sumD_const, mean_sum D hD (·.x k), mean_sum D hD (·.y)]
    ring
  have habs : (s.nz.map fun k => |s.b k|).sum = ∑ k ∈ Finset.range n, |s.b k| :=
    list_sum_finset n s.nz hok.nodup hok.lt _ fun k hk => by rw [hok.supp k hk]; simp
  have hsq : (s.nz.map fun k => s.b k * s.b k).sum = ∑ k ∈ Finset.range n, s.b k * s.b k :=
    list_sum_finset n s.nz hok.nodup hok.lt _ fun k hk => by rw [hok.supp k hk]; simp
  rw [hxy, habs, hsq, range_sum, glmError]
  have hquad : sumD D (fun i => (∑ k ∈ Finset.range n, s.b k * i.x k) * (∑ k ∈ Finset.range n, s.b k * i.x k)) =
      ∑ j ∈ Finset.range n, (s.b j * s.b j * sumD D (fun i => i.x j * i.x j) +
        (((List.range n).filter (j < ·)).map fun k => 2 * s.b j * s.b k * sumD D (fun i => i.x j * i.x k)).sum) := by
    rw [sumD_congr fun i _ => sq_sum_range n fun k => s.b k * i.x k, sumD_finset]
    apply Finset.sum_congr rfl
    intro j _
    rw [sumD_add]
    congr 1
    · rw [← sumD_mul]; exact sumD_congr fun i _ => by ring
    · have : ∀ ks : List Nat, sumD D (fun i => (ks.map fun k => 2 * (s.b j * i.x j) * (s.b k * i.x k)).sum) =
          (ks.map fun k => 2 * s.b j * s.b k * sumD D (fun i => i.x j * i.x k)).sum := by
        intro ks
        induction ks with
        | nil => simp [sumD]
        | cons k ks ih =>
          simp only [List.map_cons, List.sum_cons]
          rw [sumD_add, ih, ← sumD_mul]
          congr 1
          exact sumD_congr fun i _ => by ring
      exact this _
  have hlin : ∀ (f : GlmInst → Rat), sumD D (fun i => f i * ∑ k ∈ Finset.range n, s.b k * i.x k) =
      ∑ k ∈ Finset.range n, s.b k * sumD D (fun i => i.x k * f i) := by
    intro f
    rw [sumD_congr (g := fun i => ∑ k ∈ Finset.range n, s.b k * (i.x k * f i)) fun i _ => by
      rw [Finset.mul_sum]; exact Finset.sum_congr rfl fun k _ => by ring]
    rw [sumD_finset]
    exact Finset.sum_congr rfl fun k _ => sumD_mul _ _ _
  have hmain : sumD D (fun i => (i.y - (b0 + ∑ j ∈ Finset.range n, s.b j * i.x j)) *
      (i.y - (b0 + ∑ j ∈ Finset.range n, s.b j * i.x j))) =
      sumD D (fun i => i.y * i.y) - 2 * b0 * sumD D (·.y) + b0 * b0 * D.length -
        ∑ k ∈ Finset.range n, 2 * s.b k * sumD D (fun i => i.x k * i.y) +
        (∑ k ∈ Finset.range n, 2 * b0 * s.b k * sumD D (·.x k) +
        sumD D (fun i => (∑ k ∈ Finset.range n, s.b k * i.x k) * (∑ k ∈ Finset.range n, s.b k * i.x k))) := by
    have e1 : ∑ k ∈ Finset.range n, 2 * s.b k * sumD D (fun i => i.x k * i.y) =
        sumD D (fun i => 2 * (i.y * ∑ k ∈ Finset.range n, s.b k * i.x k)) := by
      rw [sumD_mul, hlin, Finset.mul_sum]; exact Finset.sum_congr rfl fun k _ => by ring
    have e2 : ∑ k ∈ Finset.range n, 2 * b0 * s.b k * sumD D (·.x k) =
        sumD D (fun i => 2 * b0 * (1 * ∑ k ∈ Finset.range n, s.b k * i.x k)) := by
      rw [sumD_mul, hlin fun _ => 1, Finset.mul_sum]
      exact Finset.sum_congr rfl fun k _ => by simp only [mul_one]; ring
    rw [e1, e2, ← sumD_mul, show b0 * b0 * (D.length : Rat) = sumD D (fun _ => b0 * b0) from by
      rw [sumD_const]; ring, ← sumD_sub, ← sumD_add, ← sumD_sub, ← sumD_add, ← sumD_add]
    exact sumD_congr fun i _ => by ring
  change _ = sumD D _ + _ + _
  rw [hmain, hquad, Finset.sum_add_distrib]
  simp only [sumD]
  ring

/-! ### One continuous feature -/

/-- The coefficient of a single feature. -/
def oneCoef (D : List GlmInst) (lam gam : Rat) : Rat :=
  if glmXY D 0 < 0 then (glmXY D 0 + lam) / (cv D 0 0 + gam) else (glmXY D 0 - lam) / (cv D 0 0 + gam)

/-- The loop on one feature: once a round has been made, the coefficient is right. -/
theorem one_loop (D : List GlmInst) (lam gam : Rat) (hred : glmRedundant D 0 = false) (hbig : lam < |glmXY D 0|)
    (fuel : Nat) (prev : Option Rat) (s : GlmSt) (hnz : s.nz = [] ∨ s.nz = [0]) (hcov : s.cov = cov0 D)
    (hb : ∀ k, k ≠ 0 → s.b k = 0)
    (hs : s.b 0 = oneCoef D lam gam ∧ s.nz = [0] ∨ s.sig = true ∧ 0 < fuel) :
    let r := glmLoop D 1 lam gam fuel prev s
    r.nz = [0] ∧ r.b 0 = oneCoef D lam gam ∧ r.cov = cov0 D ∧ ∀ k, k ≠ 0 → r.b k = 0 := by
  induction fuel generalizing prev s with
  | zero =>
    rcases hs with ⟨h1, h2⟩ | ⟨_, h2⟩
    · exact ⟨h2, h1, hcov, hb⟩
    · omega
  | succ fuel ih =>
    rw [glmLoop]
    by_cases hsig : s.sig
    · rw [if_pos hsig]
      have hin : glmInner D 0 s.b s.nz (glmXY D 0, cov0 D) = (glmXY D 0, cov0 D) := by
        rcases hnz with h | h <;> rw [h] <;> rfl
      have hround : glmRound D 1 lam gam s = ⟨fun k => if k = 0 then oneCoef D lam gam else s.b k, [0], cov0 D,
          (glmRound D 1 lam gam s).sig⟩ := by
        simp only [glmRound, List.range_one, List.foldl_cons, List.foldl_nil, glmStep, hred, Bool.false_eq_true, if_false,
          hcov, (cov0_ok D).2 0]
        rw [hin]
        simp only [if_neg (not_lt.2 hbig.le)]
        refine GlmSt.mk.injEq .. |>.mpr ⟨rfl, ?_, rfl, rfl⟩
        rcases hnz with h | h <;> rw [h] <;> rfl
      have hsse : (glmSse D 1 lam gam (glmRound D 1 lam gam s)).2 = cov0 D := by
        rw [hround]; rfl
      dsimp only
      have hfin : ∀ e, (⟨(glmRound D 1 lam gam s).b, (glmRound D 1 lam gam s).nz, cov0 D, e⟩ : GlmSt) =
          ⟨fun k => if k = 0 then oneCoef D lam gam else s.b k, [0], cov0 D, e⟩ := by
        intro e; rw [hround]
      rw [hsse, hfin]
      have hb' : ∀ k, k ≠ 0 → (if k = 0 then oneCoef D lam gam else s.b k) = 0 := by
        intro k hk; rw [if_neg hk]; exact hb k hk
      split
      · exact ⟨rfl, by simp, rfl, hb'⟩
      · exact ih _ _ (Or.inr rfl) rfl hb' (Or.inl ⟨by simp, rfl⟩)
    · rw [if_neg hsig]
      rcases hs with ⟨h1, h2⟩ | ⟨h1, _⟩
      · exact ⟨h2, h1, hcov, hb⟩
      · exact absurd h1 hsig

/-- **C58** for one continuous feature that varies on the leaf: the model is the best one, over all coefficients and
intercepts. -/
theorem glm_one_feature_optimal_partial (D : List GlmInst) (lasso ridge : Rat) (hl : 0 ≤ lasso) (hr : 0 ≤ ridge)
    (hred : glmRedundant D 0 = false) (l : GlmLeaf) (h : solveGlm D 1 lasso ridge = some l) (b : Nat → Rat) (b0 : Rat) :
    glmError D 1 lasso ridge l.b l.b0 ≤ glmError D 1 lasso ridge b b0 := by
  have hD : D ≠ [] := by rintro rfl; simp [glmRedundant] at hred
  have hn : (0 : Rat) ≤ D.length := Nat.cast_nonneg _
  rw [solveGlm] at h
  dsimp only at h
  split at h
  · simp at h
  next hlt =>
  have h := Option.some.inj h
  have hbig : D.length * lasso < |glmXY D 0| := by
    have : lambdaMax D 1 = |glmXY D 0| := by
      simp [lambdaMax]
    rw [← this]; exact not_le.1 hlt
  obtain ⟨hnz, hb0, hcov, hrest⟩ := one_loop D (D.length * lasso) (D.length * ridge) hred hbig 10000 none
    ⟨fun _ => 0, [], cov0 D, true⟩ (Or.inl rfl) rfl (fun _ _ => rfl) (Or.inr ⟨rfl, by norm_num⟩)
  generalize glmLoop D 1 (D.length * lasso) (D.length * ridge) 10000 none ⟨fun _ => 0, [], cov0 D, true⟩ = s at h hnz hb0 hcov hrest
  subst h
  dsimp only
  rw [glmError_centred D 1 lasso ridge s.b fun j hj => hrest j (by rintro rfl; rw [hred] at hj; simp at hj)]
  have hcv := cv_pos D 0 hred
  have hlam := mul_nonneg hn hl
  have hgam := mul_nonneg hn hr
  have hsoft := soft_best (cv D 0 0 + D.length * ridge) (glmXY D 0) (D.length * lasso) (by linarith) hlam hbig.le (b 0)
  dsimp only at hsoft
  change (cv D 0 0 + D.length * ridge) * oneCoef D (D.length * lasso) (D.length * ridge) *
    oneCoef D (D.length * lasso) (D.length * ridge) - 2 * glmXY D 0 *
    oneCoef D (D.length * lasso) (D.length * ridge) + 2 * (D.length * lasso) *
    |oneCoef D (D.length * lasso) (D.length * ridge)| ≤ _ at hsoft
  rw [← hb0] at hsoft
  have hcJ : ∀ b : Nat → Rat, cJ D 1 (D.length * lasso) (D.length * ridge) b = sumD D (fun i => yc D i * yc D i) +
      ((cv D 0 0 + D.length * ridge) * b 0 * b 0 - 2 * glmXY D 0 * b 0 + 2 * (D.length * lasso) * |b 0|) := by
    intro b
    rw [cJ, glmXY_eq, cv]
    simp only [Finset.sum_range_one]
    rw [sumD_congr (g := fun i => yc D i * yc D i + (b 0 * b 0 * (xc D 0 i * xc D 0 i) - 2 * b 0 * (xc D 0 i * yc D i)))
      fun i _ => by ring, sumD_add, sumD_sub, sumD_mul, sumD_mul]
    ring
  have hle : cJ D 1 (D.length * lasso) (D.length * ridge) b ≤ glmError D 1 lasso ridge b b0 := by
    rw [cJ, glmError]
    simp only [Finset.sum_range_one]
    have e : (D.map fun i => (i.y - (b0 + b 0 * i.x 0)) * (i.y - (b0 + b 0 * i.x 0))).sum =
        sumD D (fun i => (yc D i - b 0 * xc D 0 i) * (yc D i - b 0 * xc D 0 i)) +
        D.length * ((glmMean (·.y) D - b0 - b 0 * glmMean (·.x 0) D) * (glmMean (·.y) D - b0 - b 0 * glmMean (·.x 0) D)) := by
      change sumD D (fun i => (i.y - (b0 + b 0 * i.x 0)) * (i.y - (b0 + b 0 * i.x 0))) = _
      rw [sumD_congr (g := fun i => (yc D i - b 0 * xc D 0 i) * (yc D i - b 0 * xc D 0 i) +
        (2 * (glmMean (·.y) D - b0 - b 0 * glmMean (·.x 0) D) * yc D i -
          2 * (glmMean (·.y) D - b0 - b 0 * glmMean (·.x 0) D) * b 0 * xc D 0 i +
          (glmMean (·.y) D - b0 - b 0 * glmMean (·.x 0) D) * (glmMean (·.y) D - b0 - b 0 * glmMean (·.x 0) D)))
        fun i _ => by simp only [xc, yc, hred]; simp; ring]
      rw [sumD_add, sumD_add, sumD_sub, sumD_mul, sumD_mul, sumD_const, yc_sum D hD, xc_sum D hD]
      ring
    rw [e]
    have := mul_nonneg hn (mul_self_nonneg (glmMean (·.y) D - b0 - b 0 * glmMean (·.x 0) D))
    linarith
  rw [hcJ] at hle ⊢
  linarith

/-- Three instances with one continuous feature: they meet the hypotheses. -/
def glmEx : List GlmInst := [⟨fun j => if j = 0 then 0 else 0, 1⟩, ⟨fun j => if j = 0 then 1 else 0, 2⟩,
  ⟨fun j => if j = 0 then 2 else 0, 4⟩]

example : glmRedundant glmEx 0 = false ∧
    (solveGlm glmEx 1 (1 / 2) 0).map (fun l => (l.b 0, l.b0, l.cost)) = some (3 / 4, 19 / 12, 85 / 24) := by
  decide +kernel

example : CovariancesBig glmEx := by
  intro j k
  by_cases hj : j = 0
  · by_cases hk : k = 0
    · subst hj hk; right; decide +kernel
    · left
      have : ∀ i ∈ glmEx, xc glmEx k i = 0 := by
        have hr : glmRedundant glmEx k = true := by simp [glmRedundant, glmEx, deltaSum, hk]
        intro i _; rw [xc, if_pos hr]
      rw [cv, sumD_congr (g := fun _ => 0) fun i hi => by rw [this i hi, mul_zero], sumD_const, mul_zero]
  · left
    have : ∀ i ∈ glmEx, xc glmEx j i = 0 := by
      have hr : glmRedundant glmEx j = true := by simp [glmRedundant, glmEx, deltaSum, hj]
      intro i _; rw [xc, if_pos hr]
    rw [cv, sumD_congr (g := fun _ => 0) fun i hi => by rw [this i hi, zero_mul], sumD_const, mul_zero]

/-! ### Two features -/

/-- Three instances with two continuous features. -/
def staleD : List GlmInst :=
  [⟨fun j => if j = 0 then 2 else 2, 2⟩, ⟨fun j => if j = 0 then 2 else 0, 0⟩, ⟨fun j => if j = 0 then 3 else 3, 4⟩]

/-- **C58** fails for two features: a coefficient that should go back to zero is left as it is. The result has cost 5;
dropping its first coefficient gives 31/8. -/
theorem glm_not_optimal : ∃ l, solveGlm staleD 2 (1 / 2) 0 = some l ∧ l.b 0 = 3 / 4 ∧ l.b 1 = 3 / 4 ∧ l.cost = 5 ∧
    glmError staleD 2 (1 / 2) 0 (fun j => if j = 1 then 3 / 4 else 0) (3 / 4) = 31 / 8 := by
  have h : (solveGlm staleD 2 (1 / 2) 0).map (fun l => (l.b 0, l.b 1, l.cost)) = some (3 / 4, 3 / 4, 5) := by
    decide +kernel
  cases hs : solveGlm staleD 2 (1 / 2) 0 with
  | none => rw [hs] at h; simp at h
  | some l =>
    rw [hs] at h
    simp only [Option.map_some, Option.some.injEq, Prod.mk.injEq] at h
    refine ⟨l, rfl, h.1, h.2.1, h.2.2, ?_⟩
    norm_num [glmError, staleD, Finset.sum_range_succ]

end Streed
