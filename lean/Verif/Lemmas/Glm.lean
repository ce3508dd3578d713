import Verif.Model.Glm
import Mathlib.Tactic.Linarith
import Mathlib.Tactic.Ring
import Mathlib.Tactic.FieldSimp
import Mathlib.Tactic.Positivity
import Mathlib.Tactic.NormNum
import Mathlib.Algebra.Order.Field.Basic
import Mathlib.Algebra.BigOperators.Group.List.Basic
import Mathlib.Algebra.BigOperators.Ring.List
import Mathlib.Algebra.BigOperators.Group.Finset.Basic
import Mathlib.Algebra.Order.BigOperators.Group.Finset
import Mathlib.Algebra.BigOperators.Ring.Finset

/-! Facts about the coordinate descent. -/

namespace Streed.GlmLemmas

/-- A sum over the instances. -/
def sumD (D : List GlmInst) (f : GlmInst → Rat) : Rat := (D.map f).sum

theorem sumD_add (D : List GlmInst) (f g : GlmInst → Rat) : sumD D (fun i => f i + g i) = sumD D f + sumD D g := by
  induction D with
  | nil => simp [sumD]
  | cons i D ih => simp only [sumD, List.map_cons, List.sum_cons] at *; rw [ih]; ring

theorem sumD_mul (D : List GlmInst) (c : Rat) (f : GlmInst → Rat) : sumD D (fun i => c * f i) = c * sumD D f := by
  induction D with
  | nil => simp [sumD]
  | cons i D ih => simp only [sumD, List.map_cons, List.sum_cons] at *; rw [ih]; ring

theorem sumD_sub (D : List GlmInst) (f g : GlmInst → Rat) : sumD D (fun i => f i - g i) = sumD D f - sumD D g := by
  induction D with
  | nil => simp [sumD]
  | cons i D ih => simp only [sumD, List.map_cons, List.sum_cons] at *; rw [ih]; ring

theorem sumD_const (D : List GlmInst) (c : Rat) : sumD D (fun _ => c) = D.length * c := by
  simp [sumD]

theorem sumD_nonneg (D : List GlmInst) (f : GlmInst → Rat) (h : ∀ i ∈ D, 0 ≤ f i) : 0 ≤ sumD D f := by
  apply List.sum_nonneg
  intro x hx
  obtain ⟨i, hi, rfl⟩ := List.mem_map.1 hx
  exact h i hi

theorem sumD_congr {D : List GlmInst} {f g : GlmInst → Rat} (h : ∀ i ∈ D, f i = g i) : sumD D f = sumD D g := by
  rw [sumD, sumD, List.map_congr_left h]

theorem sumD_finset (D : List GlmInst) (n : Nat) (f : GlmInst → Nat → Rat) :
    sumD D (fun i => ∑ j ∈ Finset.range n, f i j) = ∑ j ∈ Finset.range n, sumD D (fun i => f i j) := by
  induction D with
  | nil => simp [sumD]
  | cons i D ih =>
    simp only [sumD, List.map_cons, List.sum_cons] at *
    rw [ih, Finset.sum_add_distrib]

theorem dot_map (D : List GlmInst) (f g : GlmInst → Rat) : dot (D.map f) (D.map g) = sumD D (fun i => f i * g i) := by
  rw [dot, sumD]
  congr 1
  induction D with
  | nil => rfl
  | cons i D ih => simp [ih]

/-- The centred value of feature `j`, zero if the feature is redundant. -/
def xc (D : List GlmInst) (j : Nat) (i : GlmInst) : Rat :=
  if glmRedundant D j then 0 else i.x j - glmMean (·.x j) D

/-- The centred target. -/
def yc (D : List GlmInst) (i : GlmInst) : Rat := i.y - glmMean (·.y) D

theorem glmX_eq (D : List GlmInst) (j : Nat) : glmX D j = D.map (xc D j) := by
  unfold glmX xc
  split <;> rfl

theorem glmY_eq (D : List GlmInst) : glmY D = D.map (yc D) := rfl

theorem glmXY_eq (D : List GlmInst) (j : Nat) : glmXY D j = sumD D (fun i => xc D j i * yc D i) := by
  rw [glmXY, glmX_eq, glmY_eq, dot_map]
  split
  · next h => simp only [xc, h, if_true, zero_mul]; rw [sumD_const]; simp
  · rfl

/-- The exact covariance. -/
def cv (D : List GlmInst) (j k : Nat) : Rat := sumD D (fun i => xc D j i * xc D k i)

theorem cv_comm (D : List GlmInst) (j k : Nat) : cv D j k = cv D k j := sumD_congr fun _ _ => mul_comm _ _

theorem dot_glmX (D : List GlmInst) (j k : Nat) : dot (glmX D j) (glmX D k) = cv D j k := by
  rw [glmX_eq, glmX_eq, dot_map]; rfl

theorem mean_sum (D : List GlmInst) (hD : D ≠ []) (v : GlmInst → Rat) : sumD D v = D.length * glmMean v D := by
  have : (D.length : Rat) ≠ 0 := by exact_mod_cast (List.length_pos_iff.2 hD).ne'
  rw [glmMean, sumD]; field_simp

theorem xc_sum (D : List GlmInst) (hD : D ≠ []) (j : Nat) : sumD D (xc D j) = 0 := by
  by_cases h : glmRedundant D j
  · rw [sumD_congr (g := fun _ => 0) fun i _ => by simp [xc, h], sumD_const]; simp
  · rw [sumD_congr (g := fun i => i.x j - glmMean (·.x j) D) fun i _ => by simp [xc, h], sumD_sub, sumD_const,
      mean_sum D hD]; ring

theorem yc_sum (D : List GlmInst) (hD : D ≠ []) : sumD D (yc D) = 0 := by
  unfold yc
  rw [sumD_sub, sumD_const, mean_sum D hD]; ring

/-! ### A feature that is not redundant varies -/

theorem deltaSum_const (f : GlmInst → Rat) (c : Rat) (D : List GlmInst) (h : ∀ i ∈ D, f i = c) : deltaSum f c D = 0 := by
  induction D with
  | nil => rfl
  | cons i D ih =>
    rw [deltaSum, h i List.mem_cons_self, ih fun k hk => h k (List.mem_cons_of_mem _ hk)]; simp

theorem sq_sum_zero (D : List GlmInst) (f : GlmInst → Rat) (h : sumD D (fun i => f i * f i) = 0) : ∀ i ∈ D, f i = 0 := by
  induction D with
  | nil => simp
  | cons i D ih =>
    have h0 := sumD_nonneg D (fun i => f i * f i) fun i _ => mul_self_nonneg _
    have h1 := mul_self_nonneg (f i)
    simp only [sumD, List.map_cons, List.sum_cons] at h h0
    intro k hk
    rcases List.mem_cons.1 hk with rfl | hk
    · exact mul_self_eq_zero.1 (by linarith)
    · exact ih (by rw [sumD]; linarith) k hk

theorem cv_pos (D : List GlmInst) (j : Nat) (h : glmRedundant D j = false) : 0 < cv D j j := by
  have h0 : 0 ≤ cv D j j := sumD_nonneg D _ fun i _ => mul_self_nonneg _
  rcases h0.lt_or_eq with h1 | h1
  · exact h1
  exfalso
  have hz := sq_sum_zero D (xc D j) h1.symm
  have hc : ∀ i ∈ D, i.x j = glmMean (·.x j) D := by
    intro i hi
    have := hz i hi
    rw [xc, h] at this
    simp at this; linarith
  cases D with
  | nil => simp [glmRedundant] at h
  | cons i D =>
    have hd := deltaSum_const (fun k => k.x j) (i.x j) (i :: D) fun k hk => by
      rw [hc k hk, hc i List.mem_cons_self]
    rw [glmRedundant] at h
    simp [hd] at h

/-! ### One coordinate -/

/-- The part of the cost that depends on one coefficient is least at the updated value. -/
theorem soft_best (d r lam : Rat) (hd : 0 < d) (hl : 0 ≤ lam) (hr : lam ≤ |r|) (t : Rat) :
    let new := if r < 0 then (r + lam) / d else (r - lam) / d
    d * new * new - 2 * r * new + 2 * lam * |new| ≤ d * t * t - 2 * r * t + 2 * lam * |t| := by
  intro new
  by_cases h : r < 0
  · have hn : new = (r + lam) / d := if_pos h
    have hle : r + lam ≤ 0 := by rw [abs_of_neg h] at hr; linarith
    have hneg : new ≤ 0 := by rw [hn]; exact div_nonpos_of_nonpos_of_nonneg hle hd.le
    have hdn : d * new = r + lam := by rw [hn]; field_simp
    rw [abs_of_nonpos hneg]
    have h1 : 0 ≤ d * ((t - new) * (t - new)) := mul_nonneg hd.le (mul_self_nonneg _)
    have h2 : -t ≤ |t| := neg_le_abs t
    have h3 : lam * -t ≤ lam * |t| := mul_le_mul_of_nonneg_left h2 hl
    have h4 : d * ((t - new) * (t - new)) = d * t * t - 2 * (d * new) * t + d * new * new := by ring
    have h5 : d * new * new = (r + lam) * new := by rw [hdn]
    rw [h4, hdn] at h1
    nlinarith
  · have hn : new = (r - lam) / d := if_neg h
    have h0 : 0 ≤ r := not_lt.1 h
    have hle : 0 ≤ r - lam := by rw [abs_of_nonneg h0] at hr; linarith
    have hpos : 0 ≤ new := by rw [hn]; exact div_nonneg hle hd.le
    have hdn : d * new = r - lam := by rw [hn]; field_simp
    rw [abs_of_nonneg hpos]
    have h1 : 0 ≤ d * ((t - new) * (t - new)) := mul_nonneg hd.le (mul_self_nonneg _)
    have h3 : lam * t ≤ lam * |t| := mul_le_mul_of_nonneg_left (le_abs_self t) hl
    have h4 : d * ((t - new) * (t - new)) = d * t * t - 2 * (d * new) * t + d * new * new := by ring
    have h5 : d * new * new = (r - lam) * new := by rw [hdn]
    rw [h4, hdn] at h1
    nlinarith

/-! ### The cost in centred form -/

/-- The cost of centred data: squared error and penalties. -/
def cJ (D : List GlmInst) (n : Nat) (lam gam : Rat) (b : Nat → Rat) : Rat :=
  sumD D (fun i => (yc D i - ∑ k ∈ Finset.range n, b k * xc D k i) * (yc D i - ∑ k ∈ Finset.range n, b k * xc D k i))
    + 2 * lam * ∑ k ∈ Finset.range n, |b k| + gam * ∑ k ∈ Finset.range n, b k * b k

/-- The scalar product of a feature with what the other features leave. -/
def resid (D : List GlmInst) (n : Nat) (b : Nat → Rat) (j : Nat) : Rat :=
  sumD D (fun i => xc D j i * (yc D i - ∑ k ∈ (Finset.range n).erase j, b k * xc D k i))

/-- The cost as a function of one coefficient. -/
theorem cJ_coord (D : List GlmInst) (n : Nat) (lam gam : Rat) (b : Nat → Rat) (j : Nat) (hj : j < n) : ∃ rest, ∀ t,
    cJ D n lam gam (fun k => if k = j then t else b k) =
      (cv D j j + gam) * t * t - 2 * resid D n b j * t + 2 * lam * |t| + rest := by
  refine ⟨sumD D (fun i => (yc D i - ∑ k ∈ (Finset.range n).erase j, b k * xc D k i) *
      (yc D i - ∑ k ∈ (Finset.range n).erase j, b k * xc D k i)) + 2 * lam * ∑ k ∈ (Finset.range n).erase j, |b k| +
      gam * ∑ k ∈ (Finset.range n).erase j, b k * b k, fun t => ?_⟩
  have hmem : j ∈ Finset.range n := Finset.mem_range.2 hj
  have hsplit : ∀ (g : Nat → Rat → Rat), (∑ k ∈ Finset.range n, g k (if k = j then t else b k)) =
      g j t + ∑ k ∈ (Finset.range n).erase j, g k (b k) := by
    intro g
    rw [← Finset.add_sum_erase _ _ hmem, if_pos rfl]
    congr 1
    apply Finset.sum_congr rfl
    intro k hk
    rw [if_neg (Finset.ne_of_mem_erase hk)]
  rw [cJ]
  rw [hsplit fun _ v => |v|, hsplit fun _ v => v * v]
  have h1 : sumD D (fun i => (yc D i - ∑ k ∈ Finset.range n, (if k = j then t else b k) * xc D k i) *
      (yc D i - ∑ k ∈ Finset.range n, (if k = j then t else b k) * xc D k i)) =
      sumD D (fun i => (yc D i - ∑ k ∈ (Finset.range n).erase j, b k * xc D k i) *
        (yc D i - ∑ k ∈ (Finset.range n).erase j, b k * xc D k i)) - 2 * t * resid D n b j + t * t * cv D j j := by
    rw [resid, cv, ← sumD_mul, ← sumD_mul, ← sumD_sub, ← sumD_add]
    apply sumD_congr
    intro i _
    rw [hsplit fun k v => v * xc D k i]
    ring
  rw [h1]; ring

/-! ### Covariances -/

/-- Every covariance is zero or at least 1e-4 in absolute value. -/
def CovBig (D : List GlmInst) : Prop := ∀ j k, cv D j k = 0 ∨ 1 / 10000 ≤ |cv D j k|

/-- The stored covariances are exact or still zero; those on the diagonal are exact. -/
def CovOK (D : List GlmInst) (cov : Nat → Nat → Rat) : Prop :=
  (∀ j k, cov j k = 0 ∨ cov j k = cv D j k) ∧ ∀ j, cov j j = cv D j j

theorem cov0_ok (D : List GlmInst) : CovOK D (cov0 D) := by
  have hd : ∀ j, cov0 D j j = cv D j j := by
    intro j
    rw [cov0]
    by_cases h : glmRedundant D j
    · rw [if_neg (by simp [h])]
      rw [cv, sumD_congr (g := fun _ => 0) fun i _ => by simp [xc, h], sumD_const]; simp
    · rw [if_pos ⟨rfl, by simpa using h⟩, dot_glmX]
  refine ⟨fun j k => ?_, hd⟩
  by_cases h : j = k
  · subst h; right; exact hd j
  · left; rw [cov0, if_neg (fun h' => h h'.1)]

theorem getCov_ok {D : List GlmInst} (hbig : CovBig D) {cov : Nat → Nat → Rat} (h : CovOK D cov) (j k : Nat) :
    (getCov D cov j k).1 = cv D j k ∧ CovOK D (getCov D cov j k).2 := by
  rw [getCov]
  split
  · next hlt =>
    have h0 : cov j k = 0 ∨ (cov j k = cv D j k ∧ cv D j k = 0) := by
      rcases h.1 j k with h1 | h1
      · exact Or.inl h1
      · rcases hbig j k with h2 | h2
        · exact Or.inr ⟨h1, h2⟩
        · rw [h1] at hlt; exact absurd hlt (not_lt.2 h2)
    have hz : cov j k = 0 := by rcases h0 with h0 | h0; exact h0; exact h0.1.trans h0.2
    simp only [hz, zero_add, dot_glmX]
    refine ⟨trivial, fun a b => ?_, fun a => ?_⟩
    · dsimp only
      split
      · next hab =>
        right
        rcases hab with ⟨rfl, rfl⟩ | ⟨rfl, rfl⟩
        · rfl
        · exact cv_comm D _ _
      · exact h.1 a b
    · dsimp only
      split
      · next hab =>
        rcases hab with ⟨rfl, rfl⟩ | ⟨rfl, rfl⟩ <;> rfl
      · exact h.2 a
  · next hge =>
    refine ⟨?_, h⟩
    rcases h.1 j k with h1 | h1
    · rw [h1] at hge; norm_num at hge
    · exact h1

theorem glmInner_ok {D : List GlmInst} (hbig : CovBig D) (j : Nat) (b : Nat → Rat) (ks : List Nat)
    (bj : Rat) (cov : Nat → Nat → Rat) (h : CovOK D cov) :
    (glmInner D j b ks (bj, cov)).1 = bj - ((ks.filter (· ≠ j)).map fun k => b k * cv D j k).sum ∧
      CovOK D (glmInner D j b ks (bj, cov)).2 := by
  induction ks generalizing bj cov with
  | nil => simp [glmInner, h]
  | cons k ks ih =>
    rw [glmInner]
    by_cases hk : k = j
    · rw [if_pos hk]
      have := ih bj cov h
      rw [List.filter_cons_of_neg (by simp [hk])]
      exact this
    · rw [if_neg hk]
      obtain ⟨h1, h2⟩ := getCov_ok hbig h j k
      obtain ⟨h3, h4⟩ := ih (bj - b k * (getCov D cov j k).1) (getCov D cov j k).2 h2
      refine ⟨?_, h4⟩
      rw [h3, h1, List.filter_cons_of_pos (by simp [hk])]
      simp; ring

/-! ### The state -/

/-- What the descent keeps: coefficients outside the list are zero, the list has no repetitions, and the covariances are
right. -/
structure GlmOK (D : List GlmInst) (n : Nat) (s : GlmSt) : Prop where
  supp : ∀ k, k ∉ s.nz → s.b k = 0
  nodup : s.nz.Nodup
  lt : ∀ k ∈ s.nz, k < n
  cov : CovOK D s.cov
  red : ∀ k ∈ s.nz, glmRedundant D k = false

theorem list_sum_finset (n : Nat) (l : List Nat) (hl : l.Nodup) (hlt : ∀ k ∈ l, k < n) (f : Nat → Rat)
    (h0 : ∀ k, k ∉ l → f k = 0) : (l.map f).sum = ∑ k ∈ Finset.range n, f k := by
  rw [← List.sum_toFinset f hl]
  apply Finset.sum_subset
  · intro k hk; exact Finset.mem_range.2 (hlt k (List.mem_toFinset.1 hk))
  · intro k _ hk; exact h0 k (fun h => hk (List.mem_toFinset.2 h))

/-- The value that the loop over the other coefficients computes. -/
theorem inner_resid {D : List GlmInst} (hbig : CovBig D) {n : Nat} {s : GlmSt} (h : GlmOK D n s) (j : Nat) :
    (glmInner D j s.b s.nz (glmXY D j, s.cov)).1 = resid D n s.b j := by
  rw [(glmInner_ok hbig j s.b s.nz _ _ h.cov).1]
  have h1 : ((s.nz.filter (· ≠ j)).map fun k => s.b k * cv D j k).sum =
      ∑ k ∈ (Finset.range n).erase j, s.b k * cv D j k := by
    rw [← List.sum_toFinset _ (h.nodup.filter _)]
    apply Finset.sum_subset
    · intro k hk
      have hk := List.mem_toFinset.1 hk
      rw [List.mem_filter] at hk
      exact Finset.mem_erase.2 ⟨by simpa using hk.2, Finset.mem_range.2 (h.lt k hk.1)⟩
    · intro k hk hnot
      have hne := Finset.ne_of_mem_erase hk
      have : k ∉ s.nz := fun hin => hnot (List.mem_toFinset.2 (List.mem_filter.2 ⟨hin, by simpa using hne⟩))
      rw [h.supp k this, zero_mul]
  rw [h1, glmXY_eq, resid]
  have h2 : ∑ k ∈ (Finset.range n).erase j, s.b k * cv D j k =
      sumD D (fun i => xc D j i * ∑ k ∈ (Finset.range n).erase j, s.b k * xc D k i) := by
    have : ∀ (S : Finset Nat), ∑ k ∈ S, s.b k * cv D j k =
        sumD D (fun i => xc D j i * ∑ k ∈ S, s.b k * xc D k i) := by
      intro S
      induction S using Finset.induction_on with
      | empty => simp [sumD]
      | insert a S ha ih =>
        rw [Finset.sum_insert ha, ih, cv, ← sumD_mul, ← sumD_add]
        apply sumD_congr
        intro i _
        rw [Finset.sum_insert ha]; ring
    exact this _
  rw [h2, ← sumD_sub]
  apply sumD_congr
  intro i _; ring

/-- One coordinate keeps the state right and does not raise the cost. -/
theorem glmStep_ok {D : List GlmInst} (hbig : CovBig D) {n : Nat} {lam gam : Rat} (hl : 0 ≤ lam) (hg : 0 ≤ gam)
    {s : GlmSt} (h : GlmOK D n s) {j : Nat} (hj : j < n) :
    GlmOK D n (glmStep D lam gam s j) ∧ cJ D n lam gam (glmStep D lam gam s j).b ≤ cJ D n lam gam s.b := by
  rw [glmStep]
  split
  · exact ⟨h, le_rfl⟩
  next hred =>
  have hred : glmRedundant D j = false := by simpa using hred
  have hcov := (glmInner_ok hbig j s.b s.nz (glmXY D j) s.cov h.cov).2
  have hres := inner_resid hbig h j
  dsimp only
  rw [hres]
  split
  · exact ⟨⟨h.supp, h.nodup, h.lt, hcov, h.red⟩, le_rfl⟩
  next hbigr =>
  have hr : lam ≤ |resid D n s.b j| := not_lt.1 hbigr
  refine ⟨⟨?_, ?_, ?_, hcov, ?_⟩, ?_⟩
  · intro k hk
    dsimp only at hk ⊢
    have hkj : k ≠ j := by
      rintro rfl; apply hk
      split
      · assumption
      · simp
    rw [if_neg hkj]
    apply h.supp
    intro hin; apply hk
    split
    · exact hin
    · simp [hin]
  · dsimp only
    split
    · exact h.nodup
    · next hn => exact List.nodup_append.2 ⟨h.nodup, by simp, by
        intro a ha b hb; simp at hb; subst hb; rintro rfl; exact hn ha⟩
  · intro k hk
    dsimp only at hk
    split at hk
    · exact h.lt k hk
    · rcases List.mem_append.1 hk with hk | hk
      · exact h.lt k hk
      · simp at hk; omega
  · intro k hk
    dsimp only at hk
    split at hk
    · exact h.red k hk
    · rcases List.mem_append.1 hk with hk | hk
      · exact h.red k hk
      · simp at hk; subst hk; exact hred
  · dsimp only
    obtain ⟨rest, hrest⟩ := cJ_coord D n lam gam s.b j hj
    have hself : s.b = fun k => if k = j then s.b j else s.b k := by
      funext k; by_cases hk : k = j
      · subst hk; simp
      · simp [hk]
    have e1 := hrest (s.b j)
    rw [← hself] at e1
    rw [e1, hrest, h.cov.2 j]
    have := soft_best (cv D j j + gam) (resid D n s.b j) lam (by linarith [cv_pos D j hred]) hl hr (s.b j)
    dsimp only at this
    linarith

theorem glmRound_ok {D : List GlmInst} (hbig : CovBig D) {n : Nat} {lam gam : Rat} (hl : 0 ≤ lam) (hg : 0 ≤ gam)
    {s : GlmSt} (h : GlmOK D n s) :
    GlmOK D n (glmRound D n lam gam s) ∧ cJ D n lam gam (glmRound D n lam gam s).b ≤ cJ D n lam gam s.b := by
  have key : ∀ (js : List Nat), (∀ j ∈ js, j < n) → ∀ s, GlmOK D n s →
      GlmOK D n (js.foldl (glmStep D lam gam) s) ∧ cJ D n lam gam (js.foldl (glmStep D lam gam) s).b ≤ cJ D n lam gam s.b := by
    intro js
    induction js with
    | nil => intro _ s h; exact ⟨h, le_rfl⟩
    | cons j js ih =>
      intro hjs s h
      obtain ⟨h1, h2⟩ := glmStep_ok hbig hl hg h (hjs j List.mem_cons_self)
      obtain ⟨h3, h4⟩ := ih (fun k hk => hjs k (List.mem_cons_of_mem _ hk)) _ h1
      exact ⟨h3, h4.trans h2⟩
  exact key _ (fun j hj => List.mem_range.1 hj) { s with sig := false } ⟨h.supp, h.nodup, h.lt, h.cov, h.red⟩

theorem sseRow_cov {D : List GlmInst} (hbig : CovBig D) (s : GlmSt) (j : Nat) (ks : List Nat) (e : Rat)
    (cov : Nat → Nat → Rat) (h : CovOK D cov) : CovOK D (sseRow D s j ks (e, cov)).2 := by
  induction ks generalizing e cov with
  | nil => exact h
  | cons k ks ih =>
    rw [sseRow]
    split
    · exact ih _ _ (getCov_ok hbig h j k).2
    · exact ih _ _ h

theorem sseLoop_cov {D : List GlmInst} (hbig : CovBig D) (n : Nat) (s : GlmSt) (js : List Nat) (e : Rat)
    (cov : Nat → Nat → Rat) (h : CovOK D cov) : CovOK D (sseLoop D n s js (e, cov)).2 := by
  induction js generalizing e cov with
  | nil => exact h
  | cons j js ih =>
    rw [sseLoop]
    split
    · exact ih _ _ (sseRow_cov hbig s j _ _ _ h)
    · exact ih _ _ h

theorem glmLoop_ok {D : List GlmInst} (hbig : CovBig D) {n : Nat} {lam gam : Rat} (hl : 0 ≤ lam) (hg : 0 ≤ gam)
    (fuel : Nat) (prev : Option Rat) (s : GlmSt) (h : GlmOK D n s) :
    GlmOK D n (glmLoop D n lam gam fuel prev s) ∧ cJ D n lam gam (glmLoop D n lam gam fuel prev s).b ≤ cJ D n lam gam s.b := by
  induction fuel generalizing prev s with
  | zero => exact ⟨h, le_rfl⟩
  | succ fuel ih =>
    rw [glmLoop]
    split
    · obtain ⟨h1, h2⟩ := glmRound_ok hbig hl hg h
      have h3 : GlmOK D n { glmRound D n lam gam s with cov := (glmSse D n lam gam (glmRound D n lam gam s)).2 } :=
        ⟨h1.supp, h1.nodup, h1.lt, sseLoop_cov hbig n _ _ _ _ h1.cov, h1.red⟩
      dsimp only
      split
      · exact ⟨h3, h2⟩
      · obtain ⟨h4, h5⟩ := ih (some _) _ h3
        exact ⟨h4, h5.trans h2⟩
    · exact ⟨h, le_rfl⟩

/-! ### The cost of the result -/

theorem sq_sum_range (n : Nat) (u : Nat → Rat) : (∑ k ∈ Finset.range n, u k) * (∑ k ∈ Finset.range n, u k) =
    ∑ j ∈ Finset.range n, (u j * u j + (((List.range n).filter (j < ·)).map fun k => 2 * u j * u k).sum) := by
  have key : ∀ m, (∑ k ∈ Finset.range m, u k) * (∑ k ∈ Finset.range m, u k) =
      ∑ j ∈ Finset.range m, (u j * u j + ∑ k ∈ (Finset.range m).filter (j < ·), 2 * u j * u k) := by
    intro m
    induction m with
    | zero => simp
    | succ m ih =>
      rw [Finset.sum_range_succ, Finset.sum_range_succ]
      have h1 : (Finset.range (m + 1)).filter (m < ·) = ∅ := by
        apply Finset.filter_eq_empty_iff.2
        intro k hk; have := Finset.mem_range.1 hk; omega
      have h2 : ∑ j ∈ Finset.range m, (u j * u j + ∑ k ∈ (Finset.range (m + 1)).filter (j < ·), 2 * u j * u k) =
          ∑ j ∈ Finset.range m, ((u j * u j + ∑ k ∈ (Finset.range m).filter (j < ·), 2 * u j * u k) + 2 * u j * u m) := by
        apply Finset.sum_congr rfl
        intro j hj
        have hj := Finset.mem_range.1 hj
        rw [Finset.range_add_one, Finset.filter_insert, if_pos hj, Finset.sum_insert (by simp)]; ring
      rw [h1, h2, Finset.sum_add_distrib, ← ih, ← Finset.sum_mul, ← Finset.mul_sum]
      simp; ring
  rw [key]
  apply Finset.sum_congr rfl
  intro j _
  congr 1

theorem glmCostRow_ok {D : List GlmInst} (hD : D ≠ []) (hbig : CovBig D) (b : Nat → Rat)
    (hb : ∀ k, b k = 0 ∨ 1 / 10000 ≤ |b k|) (hred : ∀ k, glmRedundant D k = true → b k = 0) (j : Nat)
    (hj : glmRedundant D j = false) (ks : List Nat) (e : Rat) (cov : Nat → Nat → Rat) (h : CovOK D cov) :
    (glmCostRow D b j ks (e, cov)).1 = e + (ks.map fun k => 2 * b j * b k * sumD D (fun i => i.x j * i.x k)).sum ∧
      CovOK D (glmCostRow D b j ks (e, cov)).2 := by
  induction ks generalizing e cov with
  | nil => simp [glmCostRow, h]
  | cons k ks ih =>
    rw [glmCostRow]
    split
    · next hlt =>
      have hz : b k = 0 := by
        rcases hb k with h1 | h1
        · exact h1
        · exact absurd hlt (not_lt.2 h1)
      obtain ⟨h1, h2⟩ := ih e cov h
      refine ⟨?_, h2⟩
      rw [h1]; simp [hz]
    · next hge =>
      have hk : glmRedundant D k = false := by
        by_contra hk
        have := hred k (by simpa using hk)
        rw [this] at hge; norm_num at hge
      obtain ⟨h1, h2⟩ := getCov_ok hbig h j k
      obtain ⟨h3, h4⟩ := ih (e + 2 * b j * b k * ((getCov D cov j k).1 + (glmX D j).sum * glmMean (·.x k) D +
        (glmX D k).sum * glmMean (·.x j) D + D.length * glmMean (·.x j) D * glmMean (·.x k) D)) _ h2
      refine ⟨?_, h4⟩
      dsimp only at h3 ⊢
      rw [h3, h1]
      have hx : ∀ l, (glmX D l).sum = 0 := fun l => by rw [glmX_eq]; exact xc_sum D hD l
      have hcv : cv D j k + D.length * glmMean (·.x j) D * glmMean (·.x k) D = sumD D (fun i => i.x j * i.x k) := by
        have h5 : cv D j k = sumD D (fun i => i.x j * i.x k) - D.length * glmMean (·.x j) D * glmMean (·.x k) D := by
          rw [cv, sumD_congr (g := fun i => i.x j * i.x k - (glmMean (·.x k) D * i.x j + (glmMean (·.x j) D * i.x k -
            glmMean (·.x j) D * glmMean (·.x k) D))) fun i _ => by simp only [xc, hj, hk]; simp; ring]
          rw [sumD_sub, sumD_add, sumD_sub, sumD_mul, sumD_mul, sumD_const, mean_sum D hD (·.x j), mean_sum D hD (·.x k)]
          ring
        rw [h5]; ring
      rw [hx, hx, zero_mul, zero_mul, add_zero, add_zero, hcv]
      simp [add_assoc]

theorem glmCostLoop_ok {D : List GlmInst} (hD : D ≠ []) (hbig : CovBig D) (n : Nat) (nz : List Nat) (b : Nat → Rat) (b0 : Rat)
    (hb : ∀ k, b k = 0 ∨ 1 / 10000 ≤ |b k|) (hsupp : ∀ k, k ∉ nz → b k = 0)
    (hnz : ∀ k ∈ nz, glmRedundant D k = false) (js : List Nat) (e : Rat) (cov : Nat → Nat → Rat) (h : CovOK D cov) :
    (glmCostLoop D n nz b b0 js (e, cov)).1 = e + (js.map fun j => 2 * b0 * b j * sumD D (·.x j) +
      (b j * b j * sumD D (fun i => i.x j * i.x j) +
        (((List.range n).filter (j < ·)).map fun k => 2 * b j * b k * sumD D (fun i => i.x j * i.x k)).sum)).sum := by
  have hred : ∀ k, glmRedundant D k = true → b k = 0 := fun k hk => hsupp k fun hin => by
    rw [hnz k hin] at hk; simp at hk
  induction js generalizing e cov with
  | nil => simp [glmCostLoop]
  | cons j js ih =>
    rw [glmCostLoop]
    split
    · next hj =>
      obtain ⟨h1, h2⟩ := glmCostRow_ok hD hbig b hb hred j (hnz j hj) ((List.range n).filter (j < ·))
        (e + 2 * b0 * b j * (D.map (·.x j)).sum + b j * b j * (D.map fun i => i.x j * i.x j).sum) cov h
      rw [ih _ _ h2, h1]
      simp [sumD, add_assoc]
    · next hj => rw [ih _ _ h]; simp [hsupp j hj]

end Streed.GlmLemmas
