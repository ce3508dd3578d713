import Verif.Props.Glm

/-!
# C58: which features a linear leaf leaves out, and the error that ends its descent
-/

namespace Streed

open Finset GlmLemmas

theorem deltaSum_nonneg (f : GlmInst → Rat) (D : List GlmInst) (p : Rat) : 0 ≤ deltaSum f p D := by
  induction D generalizing p with
  | nil => exact le_rfl
  | cons i D ih => rw [deltaSum]; exact add_nonneg (abs_nonneg _) (ih _)

theorem deltaSum_start (f : GlmInst → Rat) (D : List GlmInst) (p : Rat) (a : GlmInst) (ha : a ∈ D) : |f a - p| ≤ deltaSum f p D := by
  induction D generalizing p with
  | nil => cases ha
  | cons i D ih =>
    rw [deltaSum]
    rcases List.mem_cons.1 ha with rfl | ha
    · linarith [deltaSum_nonneg f D (f a)]
    · have h1 := ih (f i) ha
      have h2 := abs_add_le (f a - f i) (f i - p)
      rw [sub_add_sub_cancel] at h2
      linarith

theorem deltaSum_spread (f : GlmInst → Rat) (D : List GlmInst) (p : Rat) (a c : GlmInst) (ha : a ∈ D) (hc : c ∈ D) :
    |f a - f c| ≤ deltaSum f p D := by
  induction D generalizing p with
  | nil => cases ha
  | cons i D ih =>
    rw [deltaSum]
    have h0 := abs_nonneg (f i - p)
    rcases List.mem_cons.1 ha with ha | ha <;> rcases List.mem_cons.1 hc with hc | hc
    · rw [ha, hc, sub_self, abs_zero]; linarith [deltaSum_nonneg f D (f i)]
    · rw [ha, abs_sub_comm]; linarith [deltaSum_start f D (f i) c hc]
    · rw [hc]; linarith [deltaSum_start f D (f i) a ha]
    · linarith [ih (f i) ha hc]

/-- **C58**, features left out: a continuous feature that a leaf leaves out differs by less than 1e-4 between any two instances of
the leaf, and one that is constant on the leaf is left out. -/
theorem glm_left_out (D : List GlmInst) (j : Nat) :
    (glmRedundant D j = true → ∀ a ∈ D, ∀ c ∈ D, |a.x j - c.x j| < 1 / 10000) ∧
      ((∃ v, ∀ i ∈ D, i.x j = v) → glmRedundant D j = true) := by
  constructor
  · intro h a ha c hc
    cases D with
    | nil => cases ha
    | cons i D =>
      rw [glmRedundant, decide_eq_true_eq, abs_of_nonneg (deltaSum_nonneg _ _ _)] at h
      exact (deltaSum_spread (fun k => k.x j) _ _ a c ha hc).trans_lt h
  · rintro ⟨v, hv⟩
    cases D with
    | nil => rfl
    | cons i D =>
      rw [glmRedundant, deltaSum_const _ _ _ fun k hk => by rw [hv k hk, hv i List.mem_cons_self]]
      norm_num

/-- Values that go up and come back to the first are not left out. -/
example : glmRedundant [⟨fun _ => 1, 0⟩, ⟨fun _ => 2, 0⟩, ⟨fun _ => 1, 0⟩] 0 = false := by decide +kernel

theorem sseRow_ok {D : List GlmInst} (hbig : CovBig D) (s : GlmSt) (hs : ∀ k, k ∉ s.nz → s.b k = 0) (j : Nat) (ks : List Nat) (e : Rat)
    (cov : Nat → Nat → Rat) (h : CovOK D cov) :
    (sseRow D s j ks (e, cov)).1 = e + (ks.map fun k => 2 * s.b j * s.b k * cv D j k).sum := by
  induction ks generalizing e cov with
  | nil => simp [sseRow]
  | cons k ks ih =>
    rw [sseRow, List.map_cons, List.sum_cons]
    split
    · rw [ih _ _ (getCov_ok hbig h j k).2, (getCov_ok hbig h j k).1, add_assoc]
    · next hk => rw [ih _ _ h, hs k hk]; simp

theorem sseLoop_ok {D : List GlmInst} (hbig : CovBig D) (n : Nat) (s : GlmSt) (hs : ∀ k, k ∉ s.nz → s.b k = 0) (js : List Nat) (e : Rat)
    (cov : Nat → Nat → Rat) (h : CovOK D cov) :
    (sseLoop D n s js (e, cov)).1 = e + (js.map fun j => s.b j * s.b j * cv D j j +
      (((List.range n).filter (j < ·)).map fun k => 2 * s.b j * s.b k * cv D j k).sum).sum := by
  induction js generalizing e cov with
  | nil => simp [sseLoop]
  | cons j js ih =>
    rw [sseLoop, List.map_cons, List.sum_cons]
    split
    · have h1 := sseRow_ok hbig s hs j ((List.range n).filter (j < ·)) (e + s.b j * s.b j * cov j j) cov h
      have h2 := sseRow_cov hbig s j ((List.range n).filter (j < ·)) (e + s.b j * s.b j * cov j j) cov h
      have h3 := ih (sseRow D s j ((List.range n).filter (j < ·)) (e + s.b j * s.b j * cov j j, cov)).1 _ h2
      rw [Prod.mk.eta] at h3
      rw [h3, h1, h.2 j]; ring
    · next hj => rw [ih _ _ h, hs j hj]; simp

/-- The number of features that are not left out. -/
def usedCount (D : List GlmInst) (n : Nat) : Nat := ((List.range n).filter fun j => !glmRedundant D j).length

theorem glmSse_eq {D : List GlmInst} (hbig : CovBig D) (n : Nat) (lam gam : Rat) (s : GlmSt) (h : GlmOK D n s) :
    (glmSse D n lam gam s).1 = cJ D n lam gam s.b + ((usedCount D n : Rat) - 1) * sumD D (fun i => yc D i * yc D i) := by
  have hy : glmYsq n D = (usedCount D n : Rat) * sumD D (fun i => yc D i * yc D i) := by
    rw [glmYsq, glmY_eq, dot_map, usedCount]; simp
  have hxy : (s.nz.map fun k => 2 * s.b k * glmXY D k).sum = sumD D (fun i => 2 * (yc D i * ∑ k ∈ range n, s.b k * xc D k i)) := by
    rw [list_sum_finset n s.nz h.nodup h.lt _ fun k hk => by rw [h.supp k hk]; ring]
    rw [sumD_congr (g := fun i => ∑ k ∈ range n, 2 * s.b k * (xc D k i * yc D i)) fun i _ => by
      rw [mul_sum, mul_sum]; exact sum_congr rfl fun k _ => by ring]
    rw [sumD_finset]
    exact sum_congr rfl fun k _ => by rw [sumD_mul, glmXY_eq]
  have habs : (s.nz.map fun k => |s.b k|).sum = ∑ k ∈ range n, |s.b k| :=
    list_sum_finset n s.nz h.nodup h.lt _ fun k hk => by rw [h.supp k hk]; simp
  have hsq : (s.nz.map fun k => s.b k * s.b k).sum = ∑ k ∈ range n, s.b k * s.b k :=
    list_sum_finset n s.nz h.nodup h.lt _ fun k hk => by rw [h.supp k hk]; simp
  have hquad : sumD D (fun i => (∑ k ∈ range n, s.b k * xc D k i) * (∑ k ∈ range n, s.b k * xc D k i)) =
      ∑ j ∈ range n, (s.b j * s.b j * cv D j j +
        (((List.range n).filter (j < ·)).map fun k => 2 * s.b j * s.b k * cv D j k).sum) := by
    rw [sumD_congr fun i _ => sq_sum_range n fun k => s.b k * xc D k i, sumD_finset]
    apply sum_congr rfl
    intro j _
    rw [sumD_add]
    congr 1
    · rw [cv, ← sumD_mul]; exact sumD_congr fun i _ => by ring
    · have : ∀ ks : List Nat, sumD D (fun i => (ks.map fun k => 2 * (s.b j * xc D j i) * (s.b k * xc D k i)).sum) =
          (ks.map fun k => 2 * s.b j * s.b k * cv D j k).sum := by
        intro ks
        induction ks with
        | nil => simp [sumD]
        | cons k ks ih =>
          simp only [List.map_cons, List.sum_cons]
          rw [sumD_add, ih, cv, ← sumD_mul]
          congr 1
          exact sumD_congr fun i _ => by ring
      exact this _
  rw [glmSse]
  dsimp only
  rw [sseLoop_ok hbig n s h.supp _ _ _ h.cov, foldl_sub, hy, hxy, habs, hsq, range_sum, ← hquad, cJ]
  have e : sumD D (fun i => (yc D i - ∑ k ∈ range n, s.b k * xc D k i) * (yc D i - ∑ k ∈ range n, s.b k * xc D k i)) =
      sumD D (fun i => yc D i * yc D i) - sumD D (fun i => 2 * (yc D i * ∑ k ∈ range n, s.b k * xc D k i)) +
        sumD D (fun i => (∑ k ∈ range n, s.b k * xc D k i) * (∑ k ∈ range n, s.b k * xc D k i)) := by
    rw [← sumD_sub, ← sumD_add]; exact sumD_congr fun i _ => by ring
  rw [e]; ring

/-- The state of the descent after `m` rounds, if it has not stopped. -/
def glmAfter (D : List GlmInst) (n : Nat) (lam gam : Rat) : Nat → GlmSt
  | 0 => ⟨fun _ => 0, [], cov0 D, true⟩
  | m + 1 =>
    let s := glmRound D n lam gam (glmAfter D n lam gam m)
    { s with cov := (glmSse D n lam gam s).2 }

theorem glmAfter_ok {D : List GlmInst} (hbig : CovBig D) (n : Nat) {lam gam : Rat} (hl : 0 ≤ lam) (hg : 0 ≤ gam) (m : Nat) :
    GlmOK D n (glmAfter D n lam gam m) := by
  induction m with
  | zero => exact glm_start_ok D n
  | succ m ih =>
    have h1 := (glmRound_ok hbig hl hg ih).1
    exact ⟨h1.supp, h1.nodup, h1.lt, sseLoop_cov hbig n _ _ _ _ h1.cov, h1.red⟩

/-- **C58**, the end of the descent: the error that is compared from round to round is not the error of the model. It is too
large by the squared deviation of the targets, times the number of features used minus one. With one feature it is exact. Missing:
covariances that are not zero but below 1e-4. -/
theorem glm_stop_error_partial (D : List GlmInst) (n : Nat) (lasso ridge : Rat) (hl : 0 ≤ lasso) (hr : 0 ≤ ridge)
    (hbig : CovariancesBig D) (m : Nat) :
    let s := glmRound D n (D.length * lasso) (D.length * ridge) (glmAfter D n (D.length * lasso) (D.length * ridge) m)
    let b0 := (List.range n).foldl (fun b0 j => b0 - glmMean (·.x j) D * s.b j) (glmMean (·.y) D)
    (glmSse D n (D.length * lasso) (D.length * ridge) s).1 = glmError D n lasso ridge s.b b0 +
      ((usedCount D n : Rat) - 1) * (D.map fun i => (i.y - glmMean (·.y) D) * (i.y - glmMean (·.y) D)).sum := by
  intro s b0
  have hn : (0 : Rat) ≤ D.length := Nat.cast_nonneg _
  have hok : GlmOK D n s := (glmRound_ok hbig (mul_nonneg hn hl) (mul_nonneg hn hr)
    (glmAfter_ok hbig n (mul_nonneg hn hl) (mul_nonneg hn hr) m)).1
  rw [glmSse_eq hbig n _ _ s hok, ← glmError_centred D n lasso ridge s.b fun j hj => hok.supp j fun hin => by
    rw [hok.red j hin] at hj; cases hj]
  rfl

/-- **C58**: the error of the model never grows from round to round. -/
theorem glm_rounds_descend_partial (D : List GlmInst) (n : Nat) (lasso ridge : Rat) (hl : 0 ≤ lasso) (hr : 0 ≤ ridge)
    (hbig : CovariancesBig D) (m : Nat) :
    let e := fun s : GlmSt => glmError D n lasso ridge s.b
      ((List.range n).foldl (fun b0 j => b0 - glmMean (·.x j) D * s.b j) (glmMean (·.y) D))
    e (glmAfter D n (D.length * lasso) (D.length * ridge) (m + 1)) ≤ e (glmAfter D n (D.length * lasso) (D.length * ridge) m) := by
  intro e
  have hn : (0 : Rat) ≤ D.length := Nat.cast_nonneg _
  have h := glmAfter_ok hbig n (mul_nonneg hn hl) (mul_nonneg hn hr)
  have key : ∀ k, e (glmAfter D n (D.length * lasso) (D.length * ridge) k) =
      cJ D n (D.length * lasso) (D.length * ridge) (glmAfter D n (D.length * lasso) (D.length * ridge) k).b := fun k =>
    glmError_centred D n lasso ridge _ fun j hj => (h k).supp j fun hin => by rw [(h k).red j hin] at hj; cases hj
  rw [key, key]
  exact (glmRound_ok hbig (mul_nonneg hn hl) (mul_nonneg hn hr) (h m)).2

/-- Two features that both vary: the error used is larger than that of the model. -/
example : usedCount [⟨fun j => if j = 0 then 1 else 0, 1⟩, ⟨fun j => if j = 0 then 0 else 1, 0⟩] 2 = 2 := by decide +kernel

end Streed
