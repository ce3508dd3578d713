import Verif.Model.SimpleLinear
import Mathlib.Tactic.Linarith
import Mathlib.Tactic.Ring
import Mathlib.Tactic.FieldSimp
import Mathlib.Tactic.Positivity
import Mathlib.Tactic.NormNum
import Mathlib.Algebra.Order.Field.Basic
import Mathlib.Algebra.BigOperators.Group.List.Basic
import Mathlib.Algebra.BigOperators.Ring.List

/-!
# C57: the leaf of piecewise simple linear regression
-/

namespace Streed

/-! ### Specification -/

/-- The squared error of the line `a * x f + b` on the rows, plus the ridge penalty: `r` times the squared slope times
the variance `v` of the feature. -/
def lineError (rows : List LinRow) (r : Rat) (v : Nat → Rat) (f : Nat) (a b : Rat) : Rat :=
  (rows.map fun i => (i.y - (a * i.x f + b)) * (i.y - (a * i.x f + b))).sum + r * a * a * v f

/-- The instances in memory after rows with equal features have been merged: one for each group of rows. -/
def merged (groups : List (List LinRow)) : List LinStat := groups.map fun g => linTotal (g.map LinStat.ofRow)

/-- The number of rows times the sum of squares, minus the squared sum, plus the penalty. -/
def spread (rows : List LinRow) (r : Rat) (v : Nat → Rat) (f : Nat) : Rat :=
  rows.length * (rows.map fun i => i.x f * i.x f).sum - (rows.map fun i => i.x f).sum * (rows.map fun i => i.x f).sum
    + rows.length * v f * r

/-! ### Sums -/

theorem LinStat.ext' {a b : LinStat} (h1 : a.w = b.w) (h2 : a.y = b.y) (h3 : a.ysq = b.ysq)
    (h4 : ∀ f, a.x f = b.x f) (h5 : ∀ f, a.xsq f = b.xsq f) (h6 : ∀ f, a.yx f = b.yx f) : a = b := by
  cases a; cases b
  simp only [LinStat.mk.injEq]
  exact ⟨h1, h2, h3, funext h4, funext h5, funext h6⟩

theorem LinStat.zero_add (a : LinStat) : LinStat.zero.add a = a :=
  LinStat.ext' (by simp [add, zero]) (by simp [add, zero]) (by simp [add, zero]) (by simp [add, zero])
    (by simp [add, zero]) (by simp [add, zero])

theorem LinStat.add_zero (a : LinStat) : a.add LinStat.zero = a :=
  LinStat.ext' (by simp [add, zero]) (by simp [add, zero]) (by simp [add, zero]) (by simp [add, zero])
    (by simp [add, zero]) (by simp [add, zero])

theorem LinStat.add_assoc (a b c : LinStat) : (a.add b).add c = a.add (b.add c) :=
  LinStat.ext' (by simp [add, _root_.add_assoc]) (by simp [add, _root_.add_assoc]) (by simp [add, _root_.add_assoc])
    (by simp [add, _root_.add_assoc]) (by simp [add, _root_.add_assoc]) (by simp [add, _root_.add_assoc])

theorem linTotal_foldl (D : List LinStat) (s : LinStat) : D.foldl LinStat.add s = s.add (linTotal D) := by
  induction D generalizing s with
  | nil => simp [linTotal, LinStat.add_zero]
  | cons d D ih => rw [linTotal, List.foldl_cons, List.foldl_cons, ih, ih, LinStat.zero_add, LinStat.add_assoc]

theorem linTotal_cons (d : LinStat) (D : List LinStat) : linTotal (d :: D) = d.add (linTotal D) := by
  rw [linTotal, List.foldl_cons, linTotal_foldl, LinStat.zero_add]

theorem linTotal_append (D E : List LinStat) : linTotal (D ++ E) = (linTotal D).add (linTotal E) := by
  induction D with
  | nil => simp [linTotal, LinStat.zero_add]
  | cons d D ih => rw [List.cons_append, linTotal_cons, ih, linTotal_cons, LinStat.add_assoc]

/-- Merging does not change the sums. -/
theorem linTotal_merged (groups : List (List LinRow)) :
    linTotal (merged groups) = linTotal (groups.flatten.map LinStat.ofRow) := by
  induction groups with
  | nil => rfl
  | cons g gs ih =>
    rw [merged, List.map_cons, linTotal_cons, List.flatten_cons, List.map_append, linTotal_append, ← ih]; rfl

theorem linTotal_rows (rows : List LinRow) : linTotal (rows.map LinStat.ofRow) =
    ⟨rows.length, (rows.map (·.y)).sum, (rows.map fun i => i.y * i.y).sum, fun f => (rows.map fun i => i.x f).sum,
      fun f => (rows.map fun i => i.x f * i.x f).sum, fun f => (rows.map fun i => i.y * i.x f).sum⟩ := by
  induction rows with
  | nil => rfl
  | cons i rows ih =>
    rw [List.map_cons, linTotal_cons, ih]
    refine LinStat.ext' ?_ rfl rfl (fun f => rfl) (fun f => rfl) (fun f => rfl)
    simp [LinStat.add, LinStat.ofRow, add_comm]

/-- The cost written with sums. -/
def statError (s : LinStat) (r : Rat) (v : Nat → Rat) (f : Nat) (a b : Rat) : Rat :=
  s.ysq - 2 * a * s.yx f - 2 * b * s.y + a * a * s.xsq f + 2 * a * b * s.x f + s.w * b * b + r * a * a * v f

theorem lineError_eq (rows : List LinRow) (r : Rat) (v : Nat → Rat) (f : Nat) (a b : Rat) :
    lineError rows r v f a b = statError (linTotal (rows.map LinStat.ofRow)) r v f a b := by
  rw [linTotal_rows, lineError, statError]
  dsimp only
  congr 1
  induction rows with
  | nil => simp
  | cons i rows ih =>
    simp only [List.map_cons, List.sum_cons, List.length_cons, ih]
    push_cast; ring

theorem lineError_nonneg (rows : List LinRow) (r : Rat) (v : Nat → Rat) (hr : 0 ≤ r) (f : Nat) (hv : 0 ≤ v f) (a b : Rat) :
    0 ≤ lineError rows r v f a b := by
  rw [lineError]
  have h1 : 0 ≤ (rows.map fun i => (i.y - (a * i.x f + b)) * (i.y - (a * i.x f + b))).sum := by
    apply List.sum_nonneg
    intro x hx
    obtain ⟨i, _, rfl⟩ := List.mem_map.1 hx
    exact mul_self_nonneg _
  have h2 : 0 ≤ r * (a * a) * v f := by
    have := mul_self_nonneg a
    positivity
  nlinarith

/-! ### One feature -/

theorem simpleModel_eq (s : LinStat) (r : Rat) (v : Nat → Rat) (f : Nat) :
    simpleModel s f (r * v f) = lineFit s r (v f) f := by
  have h : s.w * s.xsq f - s.x f * s.x f + s.w * (r * v f) = s.w * s.xsq f - s.x f * s.x f + s.w * v f * r := by ring
  simp only [simpleModel, lineFit, h]
  split
  · rfl
  · congr 2; ring

/-- The cost that is returned is the cost of the line that is returned. -/
theorem lineFit_cost (s : LinStat) (hw : s.w ≠ 0) (r : Rat) (v : Nat → Rat) (f : Nat) :
    (lineFit s r (v f) f).2.2 = statError s r v f (lineFit s r (v f) f).1 (lineFit s r (v f) f).2.1 := by
  rw [lineFit]
  split
  · simp only [statError]; field_simp; ring
  · rfl

/-- The line is the best one for its feature. -/
theorem lineFit_best (s : LinStat) (hw : 0 < s.w) (r : Rat) (v : Nat → Rat) (f : Nat)
    (hpos : s.w * s.xsq f - s.x f * s.x f + s.w * v f * r = 0 ∧ s.w * s.yx f - s.x f * s.y = 0 ∨
      1 / 1000 ≤ s.w * s.xsq f - s.x f * s.x f + s.w * v f * r) (a b : Rat) :
    (lineFit s r (v f) f).2.2 ≤ statError s r v f a b := by
  have hkey : s.w * statError s r v f a b = (s.w * b + a * s.x f - s.y) * (s.w * b + a * s.x f - s.y) +
      ((s.w * s.xsq f - s.x f * s.x f + s.w * v f * r) * a * a - 2 * a * (s.w * s.yx f - s.x f * s.y) +
        (s.w * s.ysq - s.y * s.y)) := by rw [statError]; ring
  have hsq := mul_self_nonneg (s.w * b + a * s.x f - s.y)
  refine le_of_mul_le_mul_left ?_ hw
  rw [hkey]
  rcases hpos with ⟨h0, hc⟩ | hpos
  · rw [lineFit, h0]
    simp only [abs_zero, one_div, inv_pos, Nat.ofNat_pos, if_true]
    rw [hc]
    have : s.w * (s.ysq - s.y * s.y / s.w) = s.w * s.ysq - s.y * s.y := by field_simp
    rw [this]; nlinarith
  · have hd : 0 < s.w * s.xsq f - s.x f * s.x f + s.w * v f * r := lt_of_lt_of_le (by norm_num) hpos
    rw [lineFit_cost s hw.ne' r v f]
    have hkey2 : ∀ a' b', s.w * statError s r v f a' b' =
        (s.w * b' + a' * s.x f - s.y) * (s.w * b' + a' * s.x f - s.y) +
        ((s.w * s.xsq f - s.x f * s.x f + s.w * v f * r) * a' * a' - 2 * a' * (s.w * s.yx f - s.x f * s.y) +
        (s.w * s.ysq - s.y * s.y)) := by intro a' b'; rw [statError]; ring
    rw [hkey2]
    have hnot : ¬ |s.w * s.xsq f - s.x f * s.x f + s.w * v f * r| < 1 / 1000 := by
      rw [not_lt]; exact hpos.trans (le_abs_self _)
    rw [lineFit, if_neg hnot]
    dsimp only
    generalize s.w * s.xsq f - s.x f * s.x f + s.w * v f * r = d at *
    generalize s.w * s.yx f - s.x f * s.y = c at *
    have h1 : s.w * ((s.y - c / d * s.x f) / s.w) + c / d * s.x f - s.y = 0 := by field_simp; ring
    rw [h1]
    have h2 : d * (c / d) * (c / d) - 2 * (c / d) * c = - (c * c / d) := by field_simp; ring
    have h3 : d * a * a - 2 * a * c + c * c / d = d * ((a - c / d) * (a - c / d)) := by field_simp; ring
    have h4 : 0 ≤ d * ((a - c / d) * (a - c / d)) := mul_nonneg hd.le (mul_self_nonneg _)
    nlinarith

/-! ### The loop over the features -/

/-- What the loop keeps: the leaf is the fit of one of the features seen, and no feature seen is cheaper. -/
def LineBest (s : LinStat) (r : Rat) (v : Nat → Rat) (seen : List Nat) : Option LineLeaf → Prop
  | none => seen = []
  | some l => l.f ∈ seen ∧ (l.a, l.b, l.cost) = lineFit s r (v l.f) l.f ∧
      ∀ f ∈ seen, l.cost ≤ (lineFit s r (v f) f).2.2

theorem lineLoop_best (s : LinStat) (r : Rat) (v : Nat → Rat) (fs seen : List Nat)
    (hpos : ∀ f ∈ fs, 0 ≤ (lineFit s r (v f) f).2.2) (best : Option LineLeaf) (h : LineBest s r v seen best) :
    LineBest s r v (seen ++ fs) (lineLoop s r v fs best) := by
  induction fs generalizing seen best with
  | nil => simpa [lineLoop] using h
  | cons f fs ih =>
    rw [List.append_cons, lineLoop]
    apply ih _ fun g hg => hpos g (List.mem_cons_of_mem _ hg)
    have hf := hpos f List.mem_cons_self
    cases best with
    | none =>
      have h : seen = [] := h
      subst h
      simp only [Option.all_none, if_true]
      refine ⟨by simp, ?_, ?_⟩
      · dsimp only; rw [max_eq_right hf]
      · intro g hg
        simp at hg; subst hg
        dsimp only; rw [max_eq_right hf]
    | some l =>
      obtain ⟨h1, h2, h3⟩ := h
      by_cases hlt : (lineFit s r (v f) f).2.2 < l.cost
      · simp only [Option.all_some, hlt, decide_true, if_true]
        refine ⟨by simp, ?_, ?_⟩
        · dsimp only; rw [max_eq_right hf]
        · intro g hg
          dsimp only
          rw [max_eq_right hf]
          rcases List.mem_append.1 hg with hg | hg
          · exact hlt.le.trans (h3 g hg)
          · simp at hg; subst hg; exact le_rfl
      · simp only [Option.all_some, hlt, decide_false, Bool.false_eq_true, if_false]
        refine ⟨by simp [h1], h2, ?_⟩
        intro g hg
        rcases List.mem_append.1 hg with hg | hg
        · exact h3 g hg
        · simp at hg; subst hg; exact not_lt.1 hlt

theorem lineLabelLoop_eq (s : LinStat) (r : Rat) (v : Nat → Rat) (fs : List Nat)
    (hpos : ∀ f ∈ fs, 0 ≤ (lineFit s r (v f) f).2.2) (best : Option LineLeaf) :
    lineLabelLoop s r v fs best = lineLoop s r v fs best := by
  induction fs generalizing best with
  | nil => rfl
  | cons f fs ih =>
    rw [lineLabelLoop, lineLoop]
    simp only [simpleModel_eq, max_eq_right (hpos f List.mem_cons_self)]
    exact ih (fun g hg => hpos g (List.mem_cons_of_mem _ hg)) _

/-- What the loop of the depth-two costs keeps. -/
def D2Best (s : LinStat) (r : Rat) (v : Nat → Rat) (n k : Nat) : Option Rat → Prop
  | none => k = n
  | some c => (∃ f, k ≤ f ∧ f < n ∧ c = (lineFit s r (v f) f).2.2) ∧ ∀ f, k ≤ f → f < n → c ≤ (lineFit s r (v f) f).2.2

theorem lineD2Loop_best (s : LinStat) (r : Rat) (v : Nat → Rat) (n k : Nat) (hk : k ≤ n)
    (hpos : ∀ f, f < n → 0 ≤ (lineFit s r (v f) f).2.2) (best : Option Rat) (h : D2Best s r v n k best) :
    D2Best s r v n 0 (lineD2Loop s r v k best) := by
  induction k generalizing best with
  | zero => exact h
  | succ k ih =>
    rw [lineD2Loop]
    apply ih (by omega)
    have hf := hpos k (by omega)
    simp only [simpleModel_eq]
    cases best with
    | none =>
      have h : k + 1 = n := h
      simp only [Option.all_none, if_true]
      rw [max_eq_right hf]
      refine ⟨⟨k, le_rfl, by omega, rfl⟩, ?_⟩
      intro f h1 h2
      obtain rfl : f = k := by omega
      exact le_rfl
    | some c =>
      obtain ⟨⟨g, hg1, hg2, hg3⟩, hall⟩ := h
      by_cases hlt : (lineFit s r (v k) k).2.2 < c
      · simp only [Option.all_some, hlt, decide_true, if_true]
        rw [max_eq_right hf]
        refine ⟨⟨k, le_rfl, by omega, rfl⟩, ?_⟩
        intro f h1 h2
        rcases Nat.eq_or_lt_of_le h1 with rfl | h1
        · exact le_rfl
        · exact hlt.le.trans (hall f h1 h2)
      · simp only [Option.all_some, hlt, decide_false, Bool.false_eq_true, if_false]
        refine ⟨⟨g, by omega, hg2, hg3⟩, ?_⟩
        intro f h1 h2
        rcases Nat.eq_or_lt_of_le h1 with rfl | h1
        · exact not_lt.1 hlt
        · exact hall f h1 h2

/-! ### The leaf -/

theorem merged_w (groups : List (List LinRow)) : (linTotal (merged groups)).w = groups.flatten.length := by
  rw [linTotal_merged, linTotal_rows]

theorem fit_nonneg (groups : List (List LinRow)) (h : groups.flatten ≠ []) (r : Rat) (v : Nat → Rat) (hr : 0 ≤ r) (f : Nat)
    (hv : 0 ≤ v f) : 0 ≤ (lineFit (linTotal (merged groups)) r (v f) f).2.2 := by
  have hw : (linTotal (merged groups)).w ≠ 0 := by
    rw [merged_w]; exact_mod_cast (List.length_pos_iff.2 h).ne'
  rw [lineFit_cost _ hw, linTotal_merged, ← lineError_eq]
  exact lineError_nonneg _ _ _ hr _ hv _ _

/-- There is a leaf exactly when there are enough rows and there is a continuous feature. -/
theorem line_leaf_exists (groups : List (List LinRow)) (n minLeaf : Nat) (hmin : 1 ≤ minLeaf) (r : Rat) (v : Nat → Rat)
    (hr : 0 ≤ r) (hv : ∀ f, f < n → 0 ≤ v f) :
    (lineLeaf n minLeaf r v (merged groups)).isSome ↔ minLeaf ≤ groups.flatten.length ∧ 0 < n := by
  simp only [lineLeaf, merged_w, Nat.cast_lt]
  by_cases hlt : groups.flatten.length < minLeaf
  · rw [if_pos hlt]
    simp only [Option.isSome_none, Bool.false_eq_true, false_iff, not_and]
    intro h; omega
  · rw [if_neg hlt]
    have hne : groups.flatten ≠ [] := by
      intro h; rw [h] at hlt; simp at hlt; omega
    have hb := lineLoop_best (linTotal (merged groups)) r v (List.range n) []
      (fun f hf => fit_nonneg groups hne r v hr f (hv f (List.mem_range.1 hf))) none rfl
    cases h : lineLoop (linTotal (merged groups)) r v (List.range n) none with
    | none =>
      rw [h] at hb
      have hb : List.range n = [] := hb
      rw [List.range_eq_nil] at hb
      simp [hb]
    | some l =>
      rw [h] at hb
      have := List.mem_range.1 (by simpa using hb.1)
      simp only [Option.isSome_some, true_iff]
      exact ⟨not_lt.1 hlt, by omega⟩

/-- **C57**, the part that holds: the leaf is the best line over all continuous features, slopes and intercepts, and its
cost is the squared error of that line plus the penalty. Missing: a feature whose spread on the rows of the leaf is
positive but below one thousandth. -/
theorem line_leaf_optimal_partial (groups : List (List LinRow)) (n minLeaf : Nat) (hmin : 1 ≤ minLeaf) (r : Rat)
    (v : Nat → Rat) (hr : 0 ≤ r) (hv : ∀ f, f < n → 0 ≤ v f)
    (hspread : ∀ f, f < n → (∃ c, ∀ i ∈ groups.flatten, i.x f = c) ∧ v f * r = 0 ∨
      1 / 1000 ≤ spread groups.flatten r v f)
    (l : LineLeaf) (hl : lineLeaf n minLeaf r v (merged groups) = some l) :
    l.f < n ∧ l.cost = lineError groups.flatten r v l.f l.a l.b ∧
      ∀ f, f < n → ∀ a b, l.cost ≤ lineError groups.flatten r v f a b := by
  simp only [lineLeaf, merged_w, Nat.cast_lt] at hl
  by_cases hlt : groups.flatten.length < minLeaf
  · rw [if_pos hlt] at hl; simp at hl
  rw [if_neg hlt] at hl
  have hne : groups.flatten ≠ [] := by
    intro h; rw [h] at hlt; simp at hlt; omega
  have hlen : (0 : Rat) < groups.flatten.length := by exact_mod_cast List.length_pos_iff.2 hne
  have hw : 0 < (linTotal (merged groups)).w := by rw [merged_w]; exact hlen
  have hb := lineLoop_best (linTotal (merged groups)) r v (List.range n) []
    (fun f hf => fit_nonneg groups hne r v hr f (hv f (List.mem_range.1 hf))) none rfl
  rw [hl, List.nil_append] at hb
  obtain ⟨h1, h2, h3⟩ := hb
  refine ⟨List.mem_range.1 h1, ?_, ?_⟩
  · rw [lineError_eq, ← linTotal_merged]
    have := lineFit_cost (linTotal (merged groups)) hw.ne' r v l.f
    rw [← h2] at this
    exact this
  · intro f hf a b
    rw [lineError_eq, ← linTotal_merged]
    refine (h3 f (List.mem_range.2 hf)).trans (lineFit_best _ hw r v f ?_ a b)
    rw [linTotal_merged, linTotal_rows]
    rcases hspread f hf with ⟨⟨c, hc⟩, hvr⟩ | hs
    · left
      generalize groups.flatten = rows at hc ⊢
      have e1 : (rows.map fun i => i.x f).sum = rows.length * c := by
        rw [List.map_congr_left hc]; simp
      have e2 : (rows.map fun i => i.x f * i.x f).sum = rows.length * (c * c) := by
        rw [List.map_congr_left (g := fun _ => c * c) fun i hi => by rw [hc i hi]]; simp
      have e3 : (rows.map fun i => i.y * i.x f).sum = (rows.map (·.y)).sum * c := by
        rw [List.map_congr_left (g := fun i => i.y * c) fun i hi => by rw [hc i hi], List.sum_map_mul_right]
      dsimp only
      rw [e1, e2, e3]
      refine ⟨?_, by ring⟩
      rw [mul_assoc (rows.length : Rat) (v f), hvr]; ring
    · right; exact hs

theorem coefs_get (l : LineLeaf) (n f : Nat) : (l.coefs n).getD f 0 = if f = l.f ∧ f < n then l.a else 0 := by
  rw [LineLeaf.coefs, List.getD_eq_getElem?_getD, List.getElem?_set]
  by_cases h : l.f = f
  · subst h; by_cases hn : l.f < n <;> simp [hn]
  · simp only [h, if_false, List.getElem?_replicate]
    rw [if_neg (fun h' : f = l.f ∧ f < n => h h'.1.symm)]
    split <;> simp

theorem usedLoop_coefs (l : LineLeaf) (n : Nat) (fs : List Nat) (s : Nat × Rat)
    (hs : (l.a ≠ 0 → s = (l.f, |l.a|)) ∨ (s = (0, 0) ∧ (l.a ≠ 0 → l.f ∈ fs))) (hn : l.f < n) :
    l.a ≠ 0 → (usedLoop (l.coefs n) fs s).1 = l.f := by
  intro ha
  induction fs generalizing s with
  | nil =>
    rcases hs with h | ⟨_, h⟩
    · rw [usedLoop, h ha]
    · exact absurd (h ha) (by simp)
  | cons f fs ih =>
    obtain ⟨cf, m⟩ := s
    rw [usedLoop]
    apply ih
    rcases hs with h | ⟨h, hmem⟩
    · left; intro _
      have h := h ha
      rw [coefs_get]
      by_cases hf : f = l.f ∧ f < n
      · rw [if_pos hf]
        simp only [Prod.mk.injEq] at h
        rw [if_neg (by rw [h.2]; exact lt_irrefl _)]
        exact Prod.ext h.1 h.2
      · rw [if_neg hf]
        simp only [Prod.mk.injEq] at h
        rw [if_neg (by rw [h.2, abs_zero]; exact not_lt.2 (abs_nonneg _))]
        exact Prod.ext h.1 h.2
    · simp only [Prod.mk.injEq] at h
      obtain ⟨rfl, rfl⟩ := h
      by_cases hf : f = l.f
      · left; intro _
        subst hf
        have hc : (l.coefs n).getD l.f 0 = l.a := by rw [coefs_get, if_pos ⟨rfl, hn⟩]
        rw [hc, if_pos (abs_pos.2 ha)]
      · right
        have hc : (l.coefs n).getD f 0 = 0 := by rw [coefs_get, if_neg (fun h => hf h.1)]
        rw [hc, if_neg (by rw [abs_zero]; exact lt_irrefl _)]
        refine ⟨rfl, fun h => ?_⟩
        rcases List.mem_cons.1 (hmem h) with h' | h'
        · exact absurd h'.symm hf
        · exact h'

theorem leafCosts_fold (D : List LinStat) (r : Rat) (v : Nat → Rat) (f : Nat) (a b : Rat) :
    D.foldl (fun e i => e + (i.ysq - 2 * a * i.yx f - 2 * b * i.y + a * a * i.xsq f + 2 * a * b * i.x f + i.w * b * b)) 0
      + r * a * a * v f = statError (linTotal D) r v f a b := by
  have key : ∀ (D : List LinStat) (e : Rat), D.foldl (fun e i => e + (i.ysq - 2 * a * i.yx f - 2 * b * i.y +
      a * a * i.xsq f + 2 * a * b * i.x f + i.w * b * b)) e + r * a * a * v f = e + statError (linTotal D) r v f a b := by
    intro D
    induction D with
    | nil => intro e; simp [linTotal, LinStat.zero, statError]
    | cons d D ih =>
      intro e
      rw [List.foldl_cons, ih, linTotal_cons]
      simp only [statError, LinStat.add]; ring
  rw [key]; ring

/-- The feature in use of a line with a slope is the one it was fitted on. -/
theorem usedFeature_coefs (l : LineLeaf) (n : Nat) (hn : l.f < n) (ha : l.a ≠ 0) : usedFeature (l.coefs n) n = l.f := by
  rw [usedFeature]
  by_cases h0 : l.f = 0
  · have key : ∀ (fs : List Nat), (∀ f ∈ fs, f ≠ 0) → ∀ s : Nat × Rat, 0 ≤ s.2 →
        (usedLoop (l.coefs n) fs s).1 = s.1 := by
      intro fs
      induction fs with
      | nil => intro _ s _; rfl
      | cons f fs ih =>
        rintro hfs ⟨cf, m⟩ hs
        have hf : f ≠ 0 := hfs f List.mem_cons_self
        have hc : (l.coefs n).getD f 0 = 0 := by rw [coefs_get, if_neg (fun h => hf (h.1.trans h0))]
        rw [usedLoop, hc, if_neg (by rw [abs_zero]; exact not_lt.2 hs)]
        exact ih (fun g hg => hfs g (List.mem_cons_of_mem _ hg)) _ hs
    rw [key _ _ (0, 0) le_rfl, h0]
    intro f hf
    have := List.mem_drop_iff_getElem.1 hf
    obtain ⟨k, hk, rfl⟩ := this
    simp
  · apply usedLoop_coefs l n _ _ (Or.inr ⟨rfl, fun _ => ?_⟩) hn ha
    rw [List.mem_drop_iff_getElem]
    exact ⟨l.f - 1, by simp; omega, by simp; omega⟩

/-- **C57**, reported cost: evaluating the leaf model on the rows of the leaf gives the cost of the leaf. The code finds the
feature of the line from the coefficients. -/
theorem line_leaf_reported (groups : List (List LinRow)) (n minLeaf : Nat) (hmin : 1 ≤ minLeaf) (r : Rat)
    (v : Nat → Rat) (hr : 0 ≤ r) (hv : ∀ f, f < n → 0 ≤ v f) (l : LineLeaf)
    (hl : lineLeaf n minLeaf r v (merged groups) = some l) :
    lineLeafCosts n r v (merged groups) (l.coefs n) l.b = l.cost ∧
      l.cost = lineError groups.flatten r v l.f l.a l.b := by
  simp only [lineLeaf, merged_w, Nat.cast_lt] at hl
  by_cases hlt : groups.flatten.length < minLeaf
  · rw [if_pos hlt] at hl; simp at hl
  rw [if_neg hlt] at hl
  have hne : groups.flatten ≠ [] := by
    intro h; rw [h] at hlt; simp at hlt; omega
  have hw : (linTotal (merged groups)).w ≠ 0 := by
    rw [merged_w]; exact_mod_cast (List.length_pos_iff.2 hne).ne'
  have hb := lineLoop_best (linTotal (merged groups)) r v (List.range n) []
    (fun f hf => fit_nonneg groups hne r v hr f (hv f (List.mem_range.1 hf))) none rfl
  rw [hl, List.nil_append] at hb
  obtain ⟨h1, h2, -⟩ := hb
  have hn := List.mem_range.1 h1
  have hc := lineFit_cost (linTotal (merged groups)) hw r v l.f
  rw [← h2] at hc
  dsimp only at hc
  refine ⟨?_, by rw [hc, lineError_eq, ← linTotal_merged]⟩
  simp only [lineLeafCosts]
  rw [leafCosts_fold, hc, coefs_get]
  by_cases ha : l.a = 0
  · rw [ha]; simp [statError]
  · have := usedFeature_coefs l n hn ha
    rw [this, if_pos ⟨rfl, hn⟩]

/-- **C57**, depth-two search: from the sums of the instances it computes the cost and the line that the leaf would get. -/
theorem line_terminal_agrees (groups : List (List LinRow)) (n minLeaf : Nat) (hmin : 1 ≤ minLeaf) (r : Rat)
    (v : Nat → Rat) (hr : 0 ≤ r) (hv : ∀ f, f < n → 0 ≤ v f) :
    lineD2Costs n minLeaf r v (linTotal (merged groups)) = (lineLeaf n minLeaf r v (merged groups)).map (·.cost) ∧
      lineLabel n minLeaf r v (linTotal (merged groups)) = lineLeaf n minLeaf r v (merged groups) := by
  simp only [lineLeaf, lineD2Costs, lineLabel]
  by_cases hlt : (linTotal (merged groups)).w < minLeaf
  · simp only [if_pos hlt]; exact ⟨rfl, trivial⟩
  simp only [if_neg hlt]
  have hne : groups.flatten ≠ [] := by
    intro h; rw [merged_w, h] at hlt; simp at hlt; omega
  have hpos : ∀ f, f < n → 0 ≤ (lineFit (linTotal (merged groups)) r (v f) f).2.2 :=
    fun f hf => fit_nonneg groups hne r v hr f (hv f hf)
  refine ⟨?_, lineLabelLoop_eq _ r v _ (fun f hf => hpos f (List.mem_range.1 hf)) none⟩
  have hb := lineLoop_best (linTotal (merged groups)) r v (List.range n) []
    (fun f hf => hpos f (List.mem_range.1 hf)) none rfl
  have hd := lineD2Loop_best (linTotal (merged groups)) r v n n le_rfl hpos none rfl
  rw [List.nil_append] at hb
  cases h : lineLoop (linTotal (merged groups)) r v (List.range n) none with
  | none =>
    rw [h] at hb
    have hb : List.range n = [] := hb
    rw [List.range_eq_nil] at hb
    subst hb; rfl
  | some l =>
    rw [h] at hb
    obtain ⟨h1, h2, h3⟩ := hb
    cases h' : lineD2Loop (linTotal (merged groups)) r v n none with
    | none =>
      rw [h'] at hd
      have hd : 0 = n := hd
      have := List.mem_range.1 h1; omega
    | some c =>
      rw [h'] at hd
      obtain ⟨⟨g, _, hg2, hg3⟩, hall⟩ := hd
      simp only [Option.map_some, Option.some.injEq]
      apply le_antisymm
      · have := hall l.f (by omega) (List.mem_range.1 h1)
        rw [← h2] at this; exact this
      · rw [hg3]; exact h3 g (List.mem_range.2 hg2)

theorem linTotal_split (p : List LinRow → Bool) (groups : List (List LinRow)) : linTotal (merged groups) =
    (linTotal (merged (groups.filter p))).add (linTotal (merged (groups.filter fun g => !p g))) := by
  induction groups with
  | nil => rw [List.filter_nil, List.filter_nil]; exact (LinStat.add_zero _).symm
  | cons g gs ih =>
    have e : ∀ g gs, linTotal (merged (g :: gs)) = (linTotal (g.map LinStat.ofRow)).add (linTotal (merged gs)) :=
      fun g gs => linTotal_cons _ _
    have c : ∀ a b : LinStat, a.add b = b.add a := fun a b =>
      LinStat.ext' (_root_.add_comm _ _) (_root_.add_comm _ _) (_root_.add_comm _ _) (fun _ => _root_.add_comm _ _)
        (fun _ => _root_.add_comm _ _) (fun _ => _root_.add_comm _ _)
    rw [e, ih]
    cases h : p g
    · rw [List.filter_cons_of_neg (by simp [h]), List.filter_cons_of_pos (by simp [h]), e, ← LinStat.add_assoc,
        c (linTotal (g.map LinStat.ofRow)), LinStat.add_assoc]
    · rw [List.filter_cons_of_pos h, List.filter_cons_of_neg (by simp [h]), e, LinStat.add_assoc]

/-- **C57**, depth-two search by differences: the sums for the instances on one side of a test are found by subtracting
the sums of the other side from the sums of all; from them the cost and the line of the leaf on that side are found. -/
theorem line_terminal_difference (groups : List (List LinRow)) (side : List LinRow → Bool) (n minLeaf : Nat)
    (hmin : 1 ≤ minLeaf) (r : Rat) (v : Nat → Rat) (hr : 0 ≤ r) (hv : ∀ f, f < n → 0 ≤ v f) :
    let s := (linTotal (merged groups)).sub (linTotal (merged (groups.filter side)))
    let rest := merged (groups.filter fun g => !side g)
    s = linTotal rest ∧ lineD2Costs n minLeaf r v s = (lineLeaf n minLeaf r v rest).map (·.cost) ∧
      lineLabel n minLeaf r v s = lineLeaf n minLeaf r v rest := by
  intro s rest
  have h : s = linTotal rest := by
    show (linTotal (merged groups)).sub _ = _
    rw [linTotal_split side groups]
    exact LinStat.ext' (add_sub_cancel_left _ _) (add_sub_cancel_left _ _) (add_sub_cancel_left _ _)
      (fun _ => add_sub_cancel_left _ _) (fun _ => add_sub_cancel_left _ _) (fun _ => add_sub_cancel_left _ _)
  rw [h]
  exact ⟨rfl, line_terminal_agrees _ n minLeaf hmin r v hr hv⟩

/-- Of two instances one is on the other side; the sums found by subtraction are its own. -/
example : ((linTotal (merged [[⟨fun _ => 2, 3⟩], [⟨fun _ => 7, 5⟩]])).sub (linTotal (merged [[⟨fun _ => 2, 3⟩]]))).ysq = 25 := by
  decide +kernel

/-- The variance of a feature on a training set is not negative. -/
theorem line_variance_nonneg (groups : List (List LinRow)) (f : Nat) : 0 ≤ lineVariance (merged groups) f := by
  simp only [lineVariance]
  rw [linTotal_merged, linTotal_rows]
  dsimp only
  by_cases h : groups.flatten = []
  · rw [h]; simp
  have hw : (0 : Rat) < groups.flatten.length := by exact_mod_cast List.length_pos_iff.2 h
  apply div_nonneg _ hw.le
  have key : ∀ (xs : List Rat) (c : Rat), 0 ≤ (xs.map fun x => x * x).sum - 2 * c * xs.sum + xs.length * c * c := by
    intro xs c
    induction xs with
    | nil => simp
    | cons x xs ih =>
      simp only [List.map_cons, List.sum_cons, List.length_cons]
      push_cast
      nlinarith [mul_self_nonneg (x - c)]
  have := key (groups.flatten.map fun i => i.x f)
    ((groups.flatten.map fun i => i.x f).sum / groups.flatten.length)
  rw [List.map_map, List.length_map] at this
  have e : ((fun x => x * x) ∘ fun i : LinRow => i.x f) = fun i => i.x f * i.x f := rfl
  rw [e] at this
  generalize (groups.flatten.map fun i => i.x f * i.x f).sum = q at *
  generalize (groups.flatten.map fun i => i.x f).sum = t at *
  have e2 : q - t * t / groups.flatten.length =
    q - 2 * (t / groups.flatten.length) * t + groups.flatten.length * (t / groups.flatten.length) * (t / groups.flatten.length) := by
    field_simp; ring
  rw [e2]; exact this

/-- Two rows: the feature is 0 and 1/100, the target 0 and 1. -/
def tinyRows : List (List LinRow) := [[⟨fun _ => 0, 0⟩], [⟨fun _ => 1 / 100, 1⟩]]

/-- **C57** fails for features on a small scale: a line fits both rows exactly, but the leaf is a constant with cost 1/2. -/
theorem line_leaf_not_optimal : ∃ l, lineLeaf 1 1 0 (lineVariance (merged tinyRows)) (merged tinyRows) = some l ∧
    l.cost = 1 / 2 ∧ lineError tinyRows.flatten 0 (lineVariance (merged tinyRows)) 0 100 0 = 0 := by
  refine ⟨⟨0, 0, 1 / 2, 1 / 2⟩, by decide +kernel, rfl, by decide +kernel⟩

/-- Three rows, two with equal features, one continuous feature. -/
def exRows : List (List LinRow) := [[⟨fun _ => 0, 0⟩, ⟨fun _ => 1, 1⟩], [⟨fun _ => 2, 3⟩]]

example : lineLeaf 1 1 0 (lineVariance (merged exRows)) (merged exRows) = some ⟨0, 3 / 2, -1 / 6, 1 / 6⟩ := by
  decide +kernel

example : ∀ f, f < 1 → (∃ c, ∀ i ∈ exRows.flatten, i.x f = c) ∧ lineVariance (merged exRows) f * 0 = 0 ∨
    1 / 1000 ≤ spread exRows.flatten 0 (lineVariance (merged exRows)) f := by
  intro f hf
  obtain rfl : f = 0 := by omega
  right; decide +kernel

end Streed
