import Mathlib.Algebra.Order.BigOperators.Ring.Finset
import Mathlib.Algebra.BigOperators.Intervals
import Mathlib.Algebra.Order.Field.Rat
import Mathlib.Tactic.FieldSimp
import Mathlib.Tactic.Ring
import Mathlib.Tactic.Linarith
import Mathlib.Tactic.Positivity
import Mathlib.Tactic.GCongr

/-!
# The cost of a run of sorted, weighted points, and the best cut into runs

`seg X W a n` is the weighted sum of squares of the points `a, …, n - 1` around their mean. For sorted points it
satisfies the quadrangle inequality. `opt` is the least cost of cutting the first points into runs.
-/

namespace Streed.KM

open Finset

/-- The weighted sum of squared distances of the points `a, …, n - 1` to their mean. -/
def seg (X W : Nat → Rat) (a n : Nat) : Rat :=
  if n ≤ a then 0 else
    (∑ i ∈ Ico a n, W i * X i * X i) - (∑ i ∈ Ico a n, W i * X i) * (∑ i ∈ Ico a n, W i * X i) / ∑ i ∈ Ico a n, W i

/-- What the rest of the proof needs to know about the cost of runs. -/
structure Seg (c : Nat → Nat → Rat) : Prop where
  empty : ∀ {a n}, n ≤ a → c a n = 0
  single : ∀ a, c a (a + 1) = 0
  mono : ∀ {a b n m}, a ≤ b → n ≤ m → c b n ≤ c a m
  monge : ∀ {a b n m}, a ≤ b → n ≤ m → c a n + c b m ≤ c a m + c b n
  strict : ∀ {a b n m}, a < b → b < n → n < m → c a n + c b m = c a m + c b n → c a m = 0
  flat : ∀ {a u v}, a < u → u < v → c a u = c a v → c a v = 0
  glue : ∀ {a u v n}, a ≤ u → u < v → v ≤ n → c a v = 0 → c u n = 0 → c a n = 0

theorem Seg.nonneg {c : Nat → Nat → Rat} (h : Seg c) (a n : Nat) : 0 ≤ c a n := by
  rw [← h.empty (a := max a n) (n := n) (le_max_right ..)]
  exact h.mono (le_max_left ..) le_rfl

theorem Seg.split {c : Nat → Nat → Rat} (h : Seg c) {a b n : Nat} (h1 : a ≤ b) (h2 : b ≤ n) :
    c a b + c b n ≤ c a n := by
  have := h.monge h1 h2
  rw [h.empty (le_refl b), add_zero] at this
  exact this

section Points

variable {X W : Nat → Rat}

/-- The weighted distance of the points `a, …, n - 1` to point `n`. -/
private def tot (X W : Nat → Rat) (a n : Nat) : Rat := ∑ i ∈ Ico a n, W i * (X n - X i)

private def wt (W : Nat → Rat) (a n : Nat) : Rat := ∑ i ∈ Ico a n, W i

private theorem wt_pos (hW : ∀ i, 0 < W i) {a n : Nat} (h : a < n) : 0 < wt W a n :=
  sum_pos (fun i _ => hW i) (by simpa using h)

private theorem tot_nonneg (hX : Monotone X) (hW : ∀ i, 0 < W i) (a n : Nat) : 0 ≤ tot X W a n := by
  refine sum_nonneg fun i hi => mul_nonneg (hW i).le ?_
  rw [sub_nonneg]
  exact hX (mem_Ico.1 hi).2.le

/-- The cost of adding point `n` to the run `a, …, n - 1`. -/
private theorem seg_succ (hW : ∀ i, 0 < W i) {a n : Nat} (h : a < n) :
    seg X W a (n + 1) - seg X W a n =
      W n * (tot X W a n * tot X W a n) / (wt W a n * (wt W a n + W n)) := by
  have hp := wt_pos hW h
  have hn := hW n
  rw [seg, seg, if_neg (by omega), if_neg (by omega), sum_Ico_succ_top h.le, sum_Ico_succ_top h.le,
    sum_Ico_succ_top h.le]
  have ht : tot X W a n = wt W a n * X n - ∑ i ∈ Ico a n, W i * X i := by
    rw [tot, wt, sum_mul, ← sum_sub_distrib]
    exact sum_congr rfl fun i _ => by ring
  rw [ht]
  change _ - _ / (wt W a n + _) - (_ - _ / wt W a n) = _
  generalize (∑ i ∈ Ico a n, W i * X i) = sx
  generalize (∑ i ∈ Ico a n, W i * X i * X i) = sxx
  generalize wt W a n = w at *
  have : w + W n ≠ 0 := by linarith
  field_simp
  ring

private theorem seg_self_succ (hW : ∀ i, 0 < W i) (a : Nat) : seg X W a (a + 1) = 0 := by
  have := hW a
  rw [seg, if_neg (by omega), sum_Ico_succ_top le_rfl, sum_Ico_succ_top le_rfl, sum_Ico_succ_top le_rfl]
  simp only [Ico_self, sum_empty, zero_add]
  field_simp
  ring

private theorem tot_zero (hX : Monotone X) (hW : ∀ i, 0 < W i) {a n : Nat} (h : tot X W a n = 0) {i : Nat}
    (h1 : a ≤ i) (h2 : i < n) : X i = X n := by
  rw [tot, sum_eq_zero_iff_of_nonneg] at h
  · have := h i (mem_Ico.2 ⟨h1, h2⟩)
    rcases mul_eq_zero.1 this with h | h
    · exact absurd h (hW i).ne'
    · linarith
  · intro i hi
    exact mul_nonneg (hW i).le (sub_nonneg.2 (hX (mem_Ico.1 hi).2.le))

/-- The cost of adding point `n` to the run that starts at `a`. -/
private def inc (X W : Nat → Rat) (a n : Nat) : Rat := seg X W a (n + 1) - seg X W a n

private theorem inc_out {a n : Nat} (hW : ∀ i, 0 < W i) (h : n ≤ a) : inc X W a n = 0 := by
  rcases h.lt_or_eq with h | h
  · rw [inc, seg, seg, if_pos (by omega), if_pos (by omega), sub_zero]
  · subst h
    rw [inc, seg_self_succ hW, seg, if_pos le_rfl, sub_zero]

private theorem inc_nonneg (hW : ∀ i, 0 < W i) (a n : Nat) : 0 ≤ inc X W a n := by
  by_cases h : a < n
  · rw [inc, seg_succ hW h]
    exact div_nonneg (mul_nonneg (hW n).le (mul_self_nonneg _)) (mul_nonneg (wt_pos hW h).le
      (add_nonneg (wt_pos hW h).le (hW n).le))
  · rw [inc_out hW (by omega)]

private theorem inc_zero (hX : Monotone X) (hW : ∀ i, 0 < W i) {a n : Nat} (h : inc X W a n = 0) {i : Nat}
    (h1 : a ≤ i) (h2 : i < n) : X i = X n := by
  rw [inc, seg_succ hW (by omega), div_eq_zero_iff] at h
  have hp := wt_pos hW (show a < n by omega)
  have hn := hW n
  rcases h with h | h
  · rcases mul_eq_zero.1 h with h | h
    · exact absurd h hn.ne'
    · exact tot_zero hX hW (mul_self_eq_zero.1 h) h1 h2
  · rcases mul_eq_zero.1 h with h | h <;> linarith

/-- A longer run pays at least as much for a point; if it pays the same, the points of the shorter run are equal. -/
private theorem inc_step (hX : Monotone X) (hW : ∀ i, 0 < W i) {a n : Nat} (h : a + 1 < n) :
    inc X W (a + 1) n ≤ inc X W a n ∧ (inc X W (a + 1) n = inc X W a n → inc X W a n = 0) := by
  rw [inc, inc, seg_succ hW h, seg_succ hW (by omega)]
  have hp := wt_pos hW h
  have hn := hW n
  have ha := hW a
  have e1 : wt W a n = W a + wt W (a + 1) n := sum_eq_sum_Ico_succ_bot (by omega) _
  have e2 : tot X W a n = W a * (X n - X a) + tot X W (a + 1) n := sum_eq_sum_Ico_succ_bot (by omega) _
  have hT := tot_nonneg hX hW (a + 1) n
  have hle : tot X W (a + 1) n ≤ wt W (a + 1) n * (X n - X a) := by
    rw [tot, wt, sum_mul]
    refine sum_le_sum fun i hi => mul_le_mul_of_nonneg_left ?_ (hW i).le
    have : X a ≤ X i := hX (by have := (mem_Ico.1 hi).1; omega)
    linarith
  rw [e1, e2]
  generalize tot X W (a + 1) n = T at *
  generalize wt W (a + 1) n = w at *
  generalize X n - X a = d at *
  generalize W a = u at *
  generalize W n = z at *
  have hd : 0 ≤ d := by
    by_contra hc
    have := mul_neg_of_pos_of_neg hp (not_le.1 hc)
    linarith
  -- `T' ≥ T * (w + u) / w`
  have h1 : T * (w + u) ≤ (u * d + T) * w := by nlinarith
  have h0 : 0 ≤ T * (w + u) := by positivity
  have h2 : (T * (w + u)) * (T * (w + u)) ≤ ((u * d + T) * w) * ((u * d + T) * w) :=
    mul_self_le_mul_self h0 h1
  have hA : 0 < w * (w + z) := by positivity
  have hB : 0 < (u + w) * (u + w + z) := by positivity
  have key : T * T / (w * (w + z)) + T * T * (u * z) / (w * w * (w + z) * (u + w + z)) ≤
      (u * d + T) * (u * d + T) / ((u + w) * (u + w + z)) := by
    have hC : 0 < w * w * (w + z) * (u + w + z) := by positivity
    rw [div_add_div _ _ hA.ne' hC.ne', div_le_div_iff₀ (by positivity) hB]
    have e : (T * T * (w * w * (w + z) * (u + w + z)) + w * (w + z) * (T * T * (u * z))) * ((u + w) * (u + w + z)) =
        (T * (w + u)) * (T * (w + u)) * (w * (w + z) * (w + z) * (u + w + z)) := by ring
    have e' : (u * d + T) * (u * d + T) * (w * (w + z) * (w * w * (w + z) * (u + w + z))) =
        ((u * d + T) * w) * ((u * d + T) * w) * (w * (w + z) * (w + z) * (u + w + z)) := by ring
    rw [e, e']
    exact mul_le_mul_of_nonneg_right h2 (by positivity)
  have hX0 : 0 ≤ T * T * (u * z) / (w * w * (w + z) * (u + w + z)) := by positivity
  have key' := mul_le_mul_of_nonneg_left key hn.le
  rw [mul_add, ← mul_div_assoc, ← mul_div_assoc z ((u * d + T) * _)] at key'
  have hz0 : 0 ≤ z * (T * T * (u * z) / (w * w * (w + z) * (u + w + z))) := by positivity
  refine ⟨by linarith, fun he => ?_⟩
  have hzero : z * (T * T * (u * z) / (w * w * (w + z) * (u + w + z))) = 0 := by linarith
  have hT0 : T = 0 := by
    rcases mul_eq_zero.1 hzero with h | h
    · exact absurd h hn.ne'
    · rw [div_eq_zero_iff] at h
      rcases h with h | h
      · rcases mul_eq_zero.1 h with h | h
        · exact mul_self_eq_zero.1 h
        · exact absurd h (by positivity)
      · exact absurd h (by positivity)
  rw [← he, hT0]
  simp

private theorem inc_le (hX : Monotone X) (hW : ∀ i, 0 < W i) {a b n : Nat} (h : a ≤ b) : inc X W b n ≤ inc X W a n := by
  induction b, h using Nat.le_induction with
  | base => exact le_rfl
  | succ b hb ih =>
    refine le_trans ?_ ih
    by_cases h : b + 1 < n
    · exact (inc_step hX hW h).1
    · rw [inc_out hW (a := b + 1) (by omega)]
      exact inc_nonneg hW _ _

private theorem inc_eq (hX : Monotone X) (hW : ∀ i, 0 < W i) {a b n : Nat} (h : a < b) (hb : b < n)
    (he : inc X W b n = inc X W a n) : inc X W a n = 0 := by
  have h1 : inc X W (a + 1) n = inc X W a n :=
    le_antisymm (inc_le hX hW (by omega)) (he ▸ inc_le hX hW (show a + 1 ≤ b by omega))
  exact (inc_step hX hW (by omega)).2 h1

/-- Equal points cost nothing. -/
private theorem seg_const (hW : ∀ i, 0 < W i) {a n : Nat} (h : ∀ i, a ≤ i → i < n → X i = X a) :
    seg X W a n = 0 := by
  rcases Nat.lt_or_ge a n with hn | hn
  · induction n, hn using Nat.le_induction with
    | base => exact seg_self_succ hW a
    | succ n hn ih =>
      have hn : a < n := hn
      have h0 := ih fun i h1 h2 => h i h1 (by omega)
      have ht : tot X W a n = 0 := sum_eq_zero fun i hi => by
        rw [mem_Ico] at hi
        rw [h n hn.le (by omega), h i hi.1 (by omega)]
        ring
      have := seg_succ (X := X) hW hn
      rw [ht, h0] at this
      simpa using this
  · rw [seg, if_pos hn]

private theorem seg_mono_right (hW : ∀ i, 0 < W i) (a : Nat) {n m : Nat} (h : n ≤ m) : seg X W a n ≤ seg X W a m := by
  induction m, h using Nat.le_induction with
  | base => exact le_rfl
  | succ m _ ih =>
    have := inc_nonneg (X := X) hW a m
    rw [inc] at this
    linarith

private theorem inc_zero_of (hW : ∀ i, 0 < W i) {a n m : Nat} (he : seg X W a n = seg X W a m) {i : Nat}
    (h1 : n ≤ i) (h2 : i < m) : inc X W a i = 0 := by
  have a1 := seg_mono_right (X := X) hW a h1
  have a2 := seg_mono_right (X := X) hW a (show i ≤ i + 1 by omega)
  have a3 := seg_mono_right (X := X) hW a (show i + 1 ≤ m by omega)
  rw [inc]
  linarith

/-- A run that costs nothing has equal points. -/
theorem seg_zero (hX : Monotone X) (hW : ∀ i, 0 < W i) {a n : Nat} (h : seg X W a n = 0) {i : Nat} (h1 : a ≤ i)
    (h2 : i < n) : X i = X a := by
  rcases h1.eq_or_lt with e | h1
  · rw [e]
  · have h0 : inc X W a i = 0 := by
      refine inc_zero_of hW (n := a) (m := n) ?_ h1.le h2
      rw [h, seg, if_pos le_rfl]
    exact (inc_zero hX hW h0 le_rfl h1).symm

private theorem monge_inc (hX : Monotone X) (hW : ∀ i, 0 < W i) {a b n m : Nat} (h1 : a ≤ b) (h2 : n ≤ m) :
    seg X W b m - seg X W b n ≤ seg X W a m - seg X W a n := by
  induction m, h2 using Nat.le_induction with
  | base => simp
  | succ m _ ih =>
    have := inc_le hX hW (n := m) h1
    rw [inc, inc] at this
    linarith

private theorem monge_eq (hX : Monotone X) (hW : ∀ i, 0 < W i) {a b n m : Nat} (h1 : a ≤ b)
    (he : seg X W b m - seg X W b n = seg X W a m - seg X W a n) {i : Nat} (hi : n ≤ i) (hi' : i < m) :
    inc X W b i = inc X W a i := by
  have a1 := monge_inc hX hW h1 hi
  have a2 := monge_inc hX hW h1 (show i + 1 ≤ m by omega)
  have a3 := inc_le hX hW (n := i) h1
  rw [inc, inc] at *
  linarith

theorem seg_spec (hX : Monotone X) (hW : ∀ i, 0 < W i) : Seg (seg X W) where
  empty h := by rw [seg, if_pos h]
  single := seg_self_succ hW
  mono {a b n m} h1 h2 := by
    refine le_trans (seg_mono_right hW b h2) ?_
    rcases Nat.le_total m a with h | h
    · rw [seg, seg, if_pos (by omega), if_pos h]
    · have := monge_inc hX hW h1 h
      rw [show seg X W b a = 0 by rw [seg, if_pos h1], show seg X W a a = 0 by rw [seg, if_pos le_rfl]] at this
      linarith
  monge h1 h2 := by
    have := monge_inc hX hW h1 h2
    linarith
  strict {a b n m} h1 h2 h3 he := by
    have h0 : ∀ i, n ≤ i → i < m → inc X W a i = 0 := fun i hi hi' =>
      inc_eq hX hW h1 (by omega) (monge_eq hX hW h1.le (by linarith) hi hi')
    refine seg_const hW fun i hi hi' => ?_
    have e1 := inc_zero hX hW (h0 (m - 1) (by omega) (by omega)) (le_refl a) (by omega)
    rcases Nat.lt_or_ge i (m - 1) with h | h
    · rw [inc_zero hX hW (h0 (m - 1) (by omega) (by omega)) hi h, e1]
    · rw [show i = m - 1 by omega, e1]
  flat {a u v} h1 h2 he := by
    have h0 := inc_zero_of hW he (show u ≤ v - 1 by omega) (by omega)
    refine seg_const hW fun i hi hi' => ?_
    have e1 := inc_zero hX hW h0 (le_refl a) (by omega)
    rcases Nat.lt_or_ge i (v - 1) with h | h
    · rw [inc_zero hX hW h0 hi h, e1]
    · rw [show i = v - 1 by omega, e1]
  glue {a u v n} h1 h2 h3 e1 e2 := by
    refine seg_const hW fun i hi hi' => ?_
    rcases Nat.lt_or_ge i v with h | h
    · exact seg_zero hX hW e1 hi h
    · rw [seg_zero hX hW e2 (by omega) hi', seg_zero hX hW e1 h1 h2]

end Points

/-! ### The best cut into runs -/

/-- The least cost of cutting the first `n` points into at most `k + 1` runs. -/
def opt (c : Nat → Nat → Rat) : Nat → Nat → Rat
  | 0, n => c 0 n
  | k + 1, n => (range (n + 1)).inf' ⟨0, by simp⟩ fun m => opt c k m + c m n

variable {c : Nat → Nat → Rat}

theorem opt_le (c : Nat → Nat → Rat) (k : Nat) {m n : Nat} (h : m ≤ n) : opt c (k + 1) n ≤ opt c k m + c m n :=
  inf'_le (f := fun m => opt c k m + c m n) (mem_range.2 (by omega))

theorem opt_ex (c : Nat → Nat → Rat) (k n : Nat) : ∃ m ≤ n, opt c (k + 1) n = opt c k m + c m n := by
  obtain ⟨m, hm, h⟩ := exists_mem_eq_inf' (s := range (n + 1)) ⟨0, by simp⟩ fun m => opt c k m + c m n
  exact ⟨m, by simpa [Nat.lt_succ_iff] using hm, h⟩

theorem opt_nonneg (h : Seg c) (k n : Nat) : 0 ≤ opt c k n := by
  induction k generalizing n with
  | zero => exact h.nonneg _ _
  | succ k ih =>
    obtain ⟨m, _, e⟩ := opt_ex c k n
    rw [e]
    exact add_nonneg (ih m) (h.nonneg _ _)

theorem opt_more (h : Seg c) (k n : Nat) : opt c (k + 1) n ≤ opt c k n := by
  have := opt_le c k (le_refl n)
  rwa [h.empty le_rfl, add_zero] at this

theorem opt_mono (h : Seg c) (k : Nat) {n m : Nat} (hn : n ≤ m) : opt c k n ≤ opt c k m := by
  induction k generalizing n m with
  | zero => exact h.mono le_rfl hn
  | succ k ih =>
    obtain ⟨a, ha, e⟩ := opt_ex c k m
    rw [e]
    rcases Nat.le_total a n with h1 | h1
    · exact le_trans (opt_le c k h1) (add_le_add le_rfl (h.mono le_rfl hn))
    · refine le_trans (opt_more h k n) (le_trans (ih h1) ?_)
      have := h.nonneg a m
      linarith

/-- Few enough points cost nothing. -/
theorem opt_few (h : Seg c) (k : Nat) {n : Nat} (hn : n ≤ k + 1) : opt c k n = 0 := by
  refine le_antisymm ?_ (opt_nonneg h k n)
  induction k generalizing n with
  | zero =>
    refine le_trans (h.mono le_rfl hn) ?_
    rw [zero_add, h.single]
  | succ k ih =>
    rcases hn.lt_or_eq with h1 | h1
    · exact le_trans (opt_more h k n) (ih (by omega))
    · subst h1
      refine le_trans (opt_le c k (show k + 1 ≤ k + 1 + 1 by omega)) ?_
      rw [h.single, add_zero]
      exact ih le_rfl

/-- A longer prefix gains at least as much from one more run. -/
theorem opt_gain (h : Seg c) (k : Nat) {n m : Nat} (hn : n ≤ m) :
    opt c k n + opt c (k + 1) m ≤ opt c k m + opt c (k + 1) n := by
  induction k generalizing n m with
  | zero =>
    obtain ⟨b, hb, e⟩ := opt_ex c 0 n
    rw [e]
    have h1 := opt_le c 0 (show b ≤ m by omega)
    simp only [opt] at *
    have := h.monge (Nat.zero_le b) hn
    linarith
  | succ k ih =>
    obtain ⟨a, ha, ea⟩ := opt_ex c k m
    obtain ⟨b, hb, eb⟩ := opt_ex c (k + 1) n
    rw [ea, eb]
    rcases Nat.le_total a b with hab | hab
    · have h1 := opt_le c k (show a ≤ n by omega)
      have h2 := opt_le c (k + 1) (show b ≤ m by omega)
      have := h.monge hab hn
      linarith
    · have h1 := opt_le c k (show b ≤ n by omega)
      have h2 := opt_le c (k + 1) (show a ≤ m by omega)
      have := ih hab
      linarith

/-- Each further run gains at most as much as the one before. -/
theorem opt_convex (h : Seg c) (k n : Nat) : 2 * opt c (k + 1) n ≤ opt c k n + opt c (k + 2) n := by
  obtain ⟨b, hb, e⟩ := opt_ex c (k + 1) n
  have h1 := opt_le c k hb
  have := opt_gain h k hb
  rw [e]
  linarith

/-- If a prefix can be extended by one equal point for nothing, it can be extended by all equal points for nothing. -/
theorem opt_flat (h : Seg c) (k : Nat) {u l i : Nat} (h0 : 0 < u) (h1 : u < l) (h2 : l ≤ i) (hz : c u i = 0)
    (he : opt c k l ≤ opt c k u) : opt c k i ≤ opt c k u := by
  cases k with
  | zero =>
    have e : c 0 u = c 0 l := le_antisymm (h.mono le_rfl h1.le) he
    have hl := h.flat h0 h1 e
    have : c 0 i = 0 := h.glue (Nat.zero_le u) h1 h2 hl hz
    show c 0 i ≤ c 0 u
    rw [this]
    exact h.nonneg _ _
  | succ k =>
    obtain ⟨m, hm, e⟩ := opt_ex c k l
    rw [e] at he
    rcases Nat.lt_or_ge m u with hu | hu
    · have h3 := opt_le c k hu.le
      have h4 : c m u ≤ c m l := h.mono le_rfl h1.le
      have e2 : c m u = c m l := by linarith
      have hl := h.flat hu h1 e2
      have hi : c m i = 0 := h.glue hu.le h1 h2 hl hz
      have := opt_le c k (show m ≤ i by omega)
      rw [hi] at this
      rw [hl] at he
      linarith
    · have hi : c m i ≤ 0 := hz ▸ h.mono hu le_rfl
      have := opt_le c k (show m ≤ i by omega)
      have := h.nonneg m l
      linarith

/-- More points than runs: the last run may be taken not empty, with enough points before it. -/
theorem opt_cut (h : Seg c) (q : Nat) {i : Nat} (hi : q + 1 ≤ i) :
    ∃ j, q + 1 ≤ j ∧ j ≤ i ∧ opt c (q + 1) (i + 1) = opt c q j + c j (i + 1) := by
  suffices ∃ j, q + 1 ≤ j ∧ j ≤ i ∧ opt c q j + c j (i + 1) ≤ opt c (q + 1) (i + 1) by
    obtain ⟨j, h1, h2, h3⟩ := this
    exact ⟨j, h1, h2, le_antisymm (opt_le c q (by omega)) h3⟩
  obtain ⟨m, hm, e⟩ := opt_ex c q (i + 1)
  rw [e]
  rcases Nat.lt_or_ge m (q + 1) with h1 | h1
  · refine ⟨q + 1, le_rfl, hi, ?_⟩
    rw [opt_few h q h1.le, opt_few h q le_rfl]
    exact add_le_add le_rfl (h.mono h1.le le_rfl)
  · rcases hm.lt_or_eq with h2 | h2
    · exact ⟨m, h1, by omega, le_rfl⟩
    · subst h2
      rw [h.empty le_rfl, add_zero]
      refine ⟨i, hi, le_rfl, ?_⟩
      rw [h.single, add_zero]
      exact opt_mono h q (by omega)

end Streed.KM
