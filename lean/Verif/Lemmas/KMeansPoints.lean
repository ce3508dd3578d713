import Verif.Lemmas.KMeansAgree
import Mathlib.Tactic.FieldSimp
import Mathlib.Data.List.GetD

/-!
# From runs of points to arbitrary clusters

`dynamicStop_spec`: for sorted points the table gives the least cost of runs. `opt_assign`: no way of giving every point
one of `k + 1` values costs less than the best `k + 1` runs. `opt_reach`: some way costs as much.
-/

open Finset

namespace Streed.KM

variable {X W : Nat → Rat}

/-! ### The cost of a run around any centre -/

theorem seg_centre (hW : ∀ i, 0 < W i) (a n : Nat) (m : Rat) :
    seg X W a n ≤ ∑ i ∈ Ico a n, W i * (X i - m) ^ 2 := by
  rw [seg]
  split
  · exact sum_nonneg fun i _ => mul_nonneg (hW i).le (sq_nonneg _)
  · rename_i hn
    have hpos : 0 < ∑ i ∈ Ico a n, W i := sum_pos (fun i _ => hW i) (by simpa using hn)
    have e : ∑ i ∈ Ico a n, W i * (X i - m) ^ 2 = (∑ i ∈ Ico a n, W i * X i * X i) -
        2 * m * (∑ i ∈ Ico a n, W i * X i) + m ^ 2 * ∑ i ∈ Ico a n, W i := by
      rw [mul_sum, mul_sum, ← sum_sub_distrib, ← sum_add_distrib]
      exact sum_congr rfl fun i _ => by ring
    rw [e]
    generalize (∑ i ∈ Ico a n, W i * X i * X i) = A
    generalize (∑ i ∈ Ico a n, W i * X i) = B
    generalize (∑ i ∈ Ico a n, W i) = C at hpos
    have : A - 2 * m * B + m ^ 2 * C - (A - B * B / C) = (B - m * C) ^ 2 / C := by
      field_simp
      ring
    have h2 : 0 ≤ (B - m * C) ^ 2 / C := div_nonneg (sq_nonneg _) hpos.le
    linarith

theorem seg_mean (hW : ∀ i, 0 < W i) (a n : Nat) : ∃ m, seg X W a n = ∑ i ∈ Ico a n, W i * (X i - m) ^ 2 := by
  rw [seg]
  by_cases hn : n ≤ a
  · exact ⟨0, by rw [if_pos hn, Ico_eq_empty (by omega), sum_empty]⟩
  · rw [if_neg hn]
    have hpos : 0 < ∑ i ∈ Ico a n, W i := sum_pos (fun i _ => hW i) (by simpa using hn)
    refine ⟨(∑ i ∈ Ico a n, W i * X i) / ∑ i ∈ Ico a n, W i, ?_⟩
    have e : ∀ m, ∑ i ∈ Ico a n, W i * (X i - m) ^ 2 = (∑ i ∈ Ico a n, W i * X i * X i) -
        2 * m * (∑ i ∈ Ico a n, W i * X i) + m ^ 2 * ∑ i ∈ Ico a n, W i := fun m => by
      rw [mul_sum, mul_sum, ← sum_sub_distrib, ← sum_add_distrib]
      exact sum_congr rfl fun i _ => by ring
    rw [e]
    generalize (∑ i ∈ Ico a n, W i * X i * X i) = A
    generalize (∑ i ∈ Ico a n, W i * X i) = B
    generalize (∑ i ∈ Ico a n, W i) = C at hpos
    field_simp
    ring

theorem seg_shift (hW : ∀ i, 0 < W i) (a n : Nat) (s : Rat) : seg (fun i => X i - s) W a n = seg X W a n := by
  refine le_antisymm ?_ ?_
  · obtain ⟨m, e⟩ := seg_mean (X := X) hW a n
    rw [e]
    refine le_trans (seg_centre hW a n (m - s)) (le_of_eq (sum_congr rfl fun i _ => by ring))
  · obtain ⟨m, e⟩ := seg_mean (X := fun i => X i - s) hW a n
    rw [e]
    refine le_trans (seg_centre hW a n (m + s)) (le_of_eq (sum_congr rfl fun i _ => by ring))

/-! ### Arbitrary clusters -/

/-- Giving every point one of `k + 1` values costs at least as much as the best `k + 1` runs. -/
theorem opt_assign (hX : Monotone X) (hW : ∀ i, 0 < W i) (k : Nat) : ∀ (N : Nat) (A : Finset Rat) (v : Nat → Rat),
    A.card ≤ k + 1 → (∀ i < N, v i ∈ A) → opt (seg X W) k N ≤ ∑ i ∈ range N, W i * (X i - v i) ^ 2 := by
  have hs := seg_spec hX hW
  induction k with
  | zero =>
    intro N A v hA hv
    have hone : ∃ a, ∀ i < N, v i = a := by
      rcases Nat.eq_zero_or_pos N with h0 | h0
      · exact ⟨0, fun i hi => absurd hi (by omega)⟩
      · exact ⟨v 0, fun i hi => card_le_one.1 hA _ (hv i hi) _ (hv 0 h0)⟩
    obtain ⟨a, ha⟩ := hone
    rw [opt]
    refine le_trans (seg_centre hW 0 N a) (le_of_eq ?_)
    rw [range_eq_Ico]
    exact sum_congr rfl fun i hi => by rw [ha i (mem_Ico.1 hi).2]
  | succ k ih =>
    intro N A v hA hv
    classical
    rcases A.eq_empty_or_nonempty with he | hne
    · have hN : N = 0 := by
        by_contra hN
        have := hv 0 (by omega)
        rw [he] at this
        exact absurd this (by simp)
      rw [hN, opt_few hs _ (by omega)]
      simp
    let a := A.max' hne
    have hex : ∃ m, ∀ i, m ≤ i → i < N → ∀ b ∈ A, (X i - a) ^ 2 ≤ (X i - b) ^ 2 :=
      ⟨N, fun i h1 h2 => absurd h1 (by omega)⟩
    let m := Nat.find hex
    have hmN : m ≤ N := Nat.find_min' hex fun i h1 h2 => absurd h1 (by omega)
    have hm : ∀ i, m ≤ i → i < N → ∀ b ∈ A, (X i - a) ^ 2 ≤ (X i - b) ^ 2 := Nat.find_spec hex
    have hright : seg X W m N ≤ ∑ i ∈ Ico m N, W i * (X i - v i) ^ 2 := by
      refine le_trans (seg_centre hW m N a) (sum_le_sum fun i hi => ?_)
      rw [mem_Ico] at hi
      exact mul_le_mul_of_nonneg_left (hm i hi.1 hi.2 _ (hv i hi.2)) (hW i).le
    have hleft : opt (seg X W) k m ≤ ∑ i ∈ range m, W i * (X i - v i) ^ 2 := by
      rcases Nat.eq_zero_or_pos m with h0 | h0
      · rw [h0, opt_few hs k (Nat.zero_le _)]
        simp
      · have hnot : ¬ ∀ i, m - 1 ≤ i → i < N → ∀ b ∈ A, (X i - a) ^ 2 ≤ (X i - b) ^ 2 :=
          Nat.find_min hex (show m - 1 < m by omega)
        push Not at hnot
        obtain ⟨i0, h1, h2, b, hb, hlt⟩ := hnot
        have hi0 : i0 < m := by
          by_contra hc
          have := hm i0 (by omega) h2 b hb
          linarith
        have hba : b ≤ a := A.le_max' b hb
        have hne' : b ≠ a := fun h => by
          rw [h] at hlt
          exact lt_irrefl _ hlt
        have hba' : b < a := lt_of_le_of_ne hba hne'
        have hX0 : 2 * X i0 < a + b := by nlinarith
        have hle : ∀ i, i < m → (X i - b) ^ 2 ≤ (X i - a) ^ 2 := fun i hi => by
          have : X i ≤ X i0 := hX (by omega)
          nlinarith
        refine le_trans (ih m (A.erase a) (fun i => if v i = a then b else v i) ?_ fun i hi => ?_)
          (sum_le_sum fun i hi => ?_)
        · rw [card_erase_of_mem (A.max'_mem hne)]
          omega
        · split
          · exact mem_erase.2 ⟨hne', hb⟩
          · rename_i h
            exact mem_erase.2 ⟨h, hv i (by omega)⟩
        · rw [mem_range] at hi
          refine mul_le_mul_of_nonneg_left ?_ (hW i).le
          split
          · rename_i h
            rw [h]
            exact hle i hi
          · exact le_rfl
    refine le_trans (opt_le _ k hmN) (le_trans (add_le_add hleft hright) (le_of_eq ?_))
    rw [range_eq_Ico, range_eq_Ico]
    exact sum_Ico_consecutive _ (Nat.zero_le _) hmN

/-- The best runs are reached by giving every point one of `k + 1` values. -/
theorem opt_reach (hW : ∀ i, 0 < W i) (k N : Nat) : ∃ v : Nat → Rat, ((range N).image v).card ≤ k + 1 ∧
    opt (seg X W) k N = ∑ i ∈ range N, W i * (X i - v i) ^ 2 := by
  classical
  induction k generalizing N with
  | zero =>
    obtain ⟨m, e⟩ := seg_mean (X := X) hW 0 N
    refine ⟨fun _ => m, ?_, by rw [opt, e, range_eq_Ico]⟩
    exact le_trans (card_le_card (t := {m}) (by intro x; simp +contextual)) (by simp)
  | succ k ih =>
    obtain ⟨a, ha, e⟩ := opt_ex (seg X W) k N
    obtain ⟨v, hv, e1⟩ := ih a
    obtain ⟨m, e2⟩ := seg_mean (X := X) hW a N
    refine ⟨fun i => if i < a then v i else m, ?_, ?_⟩
    · refine le_trans (card_le_card (t := insert m ((range a).image v)) fun x hx => ?_)
        (le_trans (card_insert_le _ _) (by omega))
      rw [mem_image] at hx
      obtain ⟨i, hi, rfl⟩ := hx
      split
      · rename_i h
        exact mem_insert_of_mem (mem_image_of_mem _ (mem_range.2 h))
      · exact mem_insert_self _ _
    · rw [e, e1, e2, range_eq_Ico, range_eq_Ico, ← sum_Ico_consecutive _ (Nat.zero_le a) ha]
      congr 1
      · exact sum_congr rfl fun i hi => by dsimp only; rw [if_pos (mem_Ico.1 hi).2]
      · exact sum_congr rfl fun i hi => by dsimp only; rw [if_neg (by have := (mem_Ico.1 hi).1; omega)]

/-! ### The running sums -/

theorem pre_sum (g : KPt → Rat) (d : List KPt) : ∀ n ≤ d.length,
    ((d.take n).map g).sum = ∑ t ∈ range n, g (d.getD t default) := by
  intro n
  induction n with
  | zero => exact fun _ => by simp
  | succ n ih =>
    intro hn
    rw [sum_range_succ, ← ih (by omega), List.take_succ_eq_append_getElem (by omega), List.map_append, List.sum_append]
    congr 1
    rw [List.getD_eq_getElem _ _ (by omega)]
    simp

/-- Value and weight of the sorted points, with the last one repeated for ever. -/
def ptX (d : List KPt) (t : Nat) : Rat := (d.getD (min t (d.length - 1)) default).x

def ptW (d : List KPt) (t : Nat) : Rat := (d.getD (min t (d.length - 1)) default).w

theorem ptX_mono {d : List KPt} (h : d.Pairwise fun p r => p.x ≤ r.x) : Monotone (ptX d) := by
  intro a b hab
  rw [ptX, ptX]
  rcases Nat.eq_zero_or_pos d.length with h0 | h0
  · rw [show min a (d.length - 1) = min b (d.length - 1) by omega]
  · rcases Nat.lt_or_ge (min a (d.length - 1)) (min b (d.length - 1)) with hlt | hge
    · rw [List.getD_eq_getElem _ _ (by omega), List.getD_eq_getElem _ _ (by omega)]
      exact List.pairwise_iff_getElem.1 h _ _ (by omega) (by omega) hlt
    · rw [show min a (d.length - 1) = min b (d.length - 1) by omega]

theorem ptW_pos {d : List KPt} (hd : d ≠ []) (h : ∀ p ∈ d, 0 < p.w) (t : Nat) : 0 < ptW d t := by
  have h0 := List.length_pos_of_ne_nil hd
  rw [ptW, List.getD_eq_getElem _ _ (by omega)]
  exact_mod_cast h _ (List.getElem_mem _)

theorem pre_diff (g : KPt → Rat) {d : List KPt} {j i : Nat} (hj : 0 < j) (hji : j ≤ i) (hi : i < d.length) :
    pre g d i - pre g d (j - 1) = ∑ t ∈ Ico j (i + 1), g (d.getD t default) := by
  rw [pre, pre, pre_sum _ _ _ (by omega), pre_sum _ _ _ (by omega), show j - 1 + 1 = j by omega,
    ← sum_range_add_sum_Ico _ (show j ≤ i + 1 by omega)]
  ring

/-- The cost the code computes for points `j` to `i` is their weighted sum of squares around the mean. -/
theorem ssq_seg {d : List KPt} (h : ∀ p ∈ d, 0 < p.w) {j i : Nat} (hj : j < d.length) (hi : i < d.length) :
    ssq d j i = closed (seg (ptX d) (ptW d)) j i := by
  have hd : d ≠ [] := fun h => by simp [h] at hj
  have hW := ptW_pos hd h
  rw [closed]
  have hnn : ∀ a n, 0 ≤ seg (ptX d) (ptW d) a n := fun a n => by
    obtain ⟨m, e⟩ := seg_mean (X := ptX d) hW a n
    rw [e]
    exact sum_nonneg fun i _ => mul_nonneg (hW i).le (sq_nonneg _)
  have hsumW : ∀ t, t < d.length → sumW d t = ∑ u ∈ range (t + 1), ptW d u := fun t ht => by
    rw [sumW, pre, pre_sum _ _ _ (by omega)]
    refine sum_congr rfl fun u hu => ?_
    rw [ptW, show min u (d.length - 1) = u by have := mem_range.1 hu; omega]
  rcases Nat.lt_or_ge j i with hlt | hge
  · have hw : ¬ sumW d j ≥ sumW d i := by
      rw [hsumW j hj, hsumW i hi, ← sum_range_add_sum_Ico _ (show j + 1 ≤ i + 1 by omega)]
      have : 0 < ∑ u ∈ Ico (j + 1) (i + 1), ptW d u := sum_pos (fun u _ => hW u) (by simpa using hlt)
      linarith
    have key : seg (ptX d) (ptW d) j (i + 1) =
        (∑ t ∈ Ico j (i + 1), (fun p : KPt => p.w * (p.x - shift d) * (p.x - shift d)) (d.getD t default)) -
        (∑ t ∈ Ico j (i + 1), (fun p : KPt => p.w * (p.x - shift d)) (d.getD t default)) *
        (∑ t ∈ Ico j (i + 1), (fun p : KPt => p.w * (p.x - shift d)) (d.getD t default)) /
        ∑ t ∈ Ico j (i + 1), (fun p : KPt => (p.w : Rat)) (d.getD t default) := by
      rw [← seg_shift hW j (i + 1) (shift d), seg, if_neg (by omega)]
      have e : ∀ t ∈ Ico j (i + 1), min t (d.length - 1) = t := fun t ht => by
        have := (mem_Ico.1 ht).2
        omega
      congr 1
      · exact sum_congr rfl fun t ht => by rw [ptX, ptW, e t ht]
      · congr 1
        · congr 1 <;> exact sum_congr rfl fun t ht => by rw [ptX, ptW, e t ht]
        · exact sum_congr rfl fun t ht => by rw [ptW, e t ht]
    have hb : ∀ s, s = seg (ptX d) (ptW d) j (i + 1) → (if s < 0 then (0 : Rat) else s) = seg (ptX d) (ptW d) j (i + 1) :=
      fun s e => by rw [e, if_neg (not_lt.2 (hnn _ _))]
    rw [ssq]
    refine hb _ ?_
    rw [if_neg hw]
    rcases Nat.eq_zero_or_pos j with h0 | h0
    · subst h0
      rw [if_neg (by omega), key, sumX, sumXX, sumW, pre, pre, pre, pre_sum _ _ _ (by omega), pre_sum _ _ _ (by omega),
        pre_sum _ _ _ (by omega), range_eq_Ico]
    · rw [if_pos h0, key, sumX, sumXX, sumW, pre_diff _ h0 hlt.le hi, pre_diff _ h0 hlt.le hi, pre_diff _ h0 hlt.le hi]
      have hpos : 0 < ∑ t ∈ Ico j (i + 1), (fun p : KPt => (p.w : Rat)) (d.getD t default) := by
        refine sum_pos (fun t ht => ?_) (by simp; omega)
        have := (mem_Ico.1 ht).2
        rw [List.getD_eq_getElem _ _ (by omega)]
        dsimp only
        exact_mod_cast h _ (List.getElem_mem _)
      generalize (∑ t ∈ Ico j (i + 1), (fun p : KPt => (p.w : Rat)) (d.getD t default)) = C at hpos
      dsimp only
      field_simp
  · have hs : seg (ptX d) (ptW d) j (i + 1) = 0 := by
      refine le_antisymm ?_ (hnn _ _)
      refine le_trans (seg_centre hW j (i + 1) (ptX d i)) (sum_nonpos fun t ht => ?_)
      have := mem_Ico.1 ht
      rw [show t = i by omega]
      simp
    have hw : sumW d j ≥ sumW d i := by
      rw [hsumW j hj, hsumW i hi, ← sum_range_add_sum_Ico _ (show i + 1 ≤ j + 1 by omega)]
      have : 0 ≤ ∑ u ∈ Ico (i + 1) (j + 1), ptW d u := sum_nonneg fun u _ => (hW u).le
      linarith
    rw [hs, ssq]
    dsimp only
    rw [if_pos hw]
    simp

/-- For sorted points the table gives the least cost of at most `K` runs, a price `reg` paid for all runs but one. -/
theorem dynamicStop_spec {d : List KPt} (hs : d.Pairwise fun p r => p.x ≤ r.x) (h : ∀ p ∈ d, 0 < p.w) {K : Nat}
    (hK : 1 ≤ K) (hKd : K ≤ d.length) {reg : Rat} (hreg : 0 ≤ reg) :
    ∃ q < K, dynamicStop d K reg = (opt (seg (ptX d) (ptW d)) q d.length + q * reg, q) ∧
      ∀ m < K, opt (seg (ptX d) (ptW d)) q d.length + q * reg ≤ opt (seg (ptX d) (ptW d)) m d.length + m * reg := by
  have hd : d ≠ [] := fun h => by simp [h] at hKd; omega
  have hS := seg_spec (ptX_mono hs) (ptW_pos hd h)
  have hag : Agree d.length (ssq d) (closed (seg (ptX d) (ptW d))) := fun j i hj hi => ssq_seg h hj hi
  have hg : Good (seg (ptX d) (ptW d)) d.length K 0 (firstRow (ssq d)) :=
    good_first hS (by omega) (fun i hi => hag 0 i (by omega) hi) fun i => by
      rw [ssq]
      dsimp only
      generalize (if sumW d 0 ≥ sumW d i then (0 : Rat) else _) = s
      split
      · exact le_rfl
      · rename_i h
        exact not_lt.1 h
  rw [dynamicStop, stopLoop_agree hag hKd _ _ _ le_rfl]
  exact stopLoop_spec hS hreg hKd K 0 _ (by omega) hK hg fun j hj => absurd hj (by omega)

end Streed.KM
