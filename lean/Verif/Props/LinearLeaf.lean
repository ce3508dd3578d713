import Verif.Model.LinearLeaf
import Mathlib.Tactic.Linarith
import Mathlib.Tactic.Ring
import Mathlib.Tactic.FieldSimp
import Mathlib.Tactic.Positivity
import Mathlib.Tactic.NormNum
import Mathlib.Algebra.BigOperators.Group.List.Basic

/-!
# C52: leaf models of piecewise linear regression in original units
-/

namespace Streed

/-! ### Sums of squares -/

theorem sq_dev_sum (xs : List ℝ) (c : ℝ) : (xs.map fun x => (x - c) * (x - c)).sum =
    (xs.map fun x => x * x).sum - 2 * c * xs.sum + xs.length * c * c := by
  induction xs with
  | nil => simp
  | cons y ys ih =>
    simp only [List.map_cons, List.sum_cons, List.length_cons, ih]
    push_cast; ring

theorem sq_dev_zero (xs : List ℝ) (c : ℝ) :
    (xs.map fun x => (x - c) * (x - c)).sum = 0 ↔ ∀ x ∈ xs, x = c := by
  induction xs with
  | nil => simp
  | cons y ys ih =>
    have h0 : 0 ≤ (ys.map fun x => (x - c) * (x - c)).sum := by
      apply List.sum_nonneg
      intro x hx
      obtain ⟨z, _, rfl⟩ := List.mem_map.1 hx
      exact mul_self_nonneg _
    have h1 := mul_self_nonneg (y - c)
    simp only [List.map_cons, List.sum_cons, List.mem_cons, forall_eq_or_imp, ← ih]
    constructor
    · intro h
      have h2 : (y - c) * (y - c) = 0 := by linarith
      exact ⟨by linarith [mul_self_eq_zero.1 h2], by linarith⟩
    · rintro ⟨rfl, h⟩; rw [h]; ring

/-- The value under the root is the mean squared distance to the mean. -/
theorem contVar_eq (D : List Conts) (hD : D ≠ []) (j : Nat) :
    contSq D j / D.length - contSum D j * contSum D j / (D.length * D.length) =
      ((D.map fun i => cont i j).map fun x => (x - contMu D j) * (x - contMu D j)).sum / D.length := by
  have hn : (D.length : ℝ) ≠ 0 := by exact_mod_cast (List.length_pos_iff.2 hD).ne'
  rw [sq_dev_sum, List.length_map, contMu, List.map_map]
  have : (D.map ((fun x => x * x) ∘ fun i => cont i j)).sum = contSq D j := rfl
  rw [this]
  change _ = (contSq D j - 2 * (contSum D j / D.length) * contSum D j + _) / _
  field_simp; ring

/-- The standard deviation is zero exactly for a feature with one value on the training data. -/
theorem contStd_zero (D : List Conts) (hD : D ≠ []) (j : Nat) :
    contStd D j = 0 ↔ ∃ v, ∀ i ∈ D, cont i j = v := by
  have hn : (0 : ℝ) < D.length := by exact_mod_cast List.length_pos_iff.2 hD
  have hs : 0 ≤ ((D.map fun i => cont i j).map fun x => (x - contMu D j) * (x - contMu D j)).sum := by
    apply List.sum_nonneg
    intro x hx
    obtain ⟨z, _, rfl⟩ := List.mem_map.1 hx
    exact mul_self_nonneg _
  rw [contStd, contVar_eq D hD, Real.sqrt_eq_zero (by positivity), div_eq_zero_iff, or_iff_left hn.ne', sq_dev_zero]
  constructor
  · intro h
    exact ⟨_, fun i hi => h _ (List.mem_map_of_mem (f := fun i => cont i j) hi)⟩
  · rintro ⟨v, hv⟩ x hx
    obtain ⟨i, hi, rfl⟩ := List.mem_map.1 hx
    have hsum : contSum D j = D.length * v := by
      rw [contSum, List.map_congr_left hv]; simp
    rw [hv i hi, contMu, hsum]; field_simp

/-! ### Finiteness -/

theorem mapM_some_iff {α β : Type} (f : α → Option β) (l : List α) :
    (l.mapM f).isSome ↔ ∀ a ∈ l, (f a).isSome := by
  induction l with
  | nil => simp
  | cons a l ih =>
    rw [List.mapM_cons]
    cases h : f a with
    | none => simp [h]
    | some b =>
      cases h2 : l.mapM f with
      | none => simp [h2] at ih; simp [h]; simpa using ih
      | some c => simp [h2] at ih; simp [h]; simpa using ih

/-- **C52**, where it holds and where it does not: the model of a leaf, in original units, is finite exactly when no
continuous feature has the same value in the whole training set. -/
theorem linear_leaf_finite_iff (D : List Conts) (hD : D ≠ []) (n : Nat) (m : LinModel) :
    (postLeaf D n m).isSome ↔ ∀ j, j < n → ¬ ∃ v, ∀ i ∈ D, cont i j = v := by
  rw [postLeaf, Option.isSome_map, rescale, mapM_some_iff]
  simp only [List.mem_range, fdiv]
  constructor
  · intro h j hj hv
    have := h j hj
    rw [if_pos ((contStd_zero D hD j).2 hv)] at this
    simp at this
  · intro h j hj
    rw [if_neg fun h0 => h j hj ((contStd_zero D hD j).1 h0)]
    rfl

/-- The part of **C52** that holds. Missing: training sets with a constant continuous feature. -/
theorem linear_leaf_finite_partial (D : List Conts) (hD : D ≠ []) (n : Nat) (m : LinModel)
    (hvary : ∀ j, j < n → ∃ i ∈ D, ∃ i' ∈ D, cont i j ≠ cont i' j) : (postLeaf D n m).isSome := by
  rw [linear_leaf_finite_iff D hD]
  rintro j hj ⟨v, hv⟩
  obtain ⟨i, hi, i', hi', hne⟩ := hvary j hj
  exact hne ((hv i hi).trans (hv i' hi').symm)

/-- **C52** fails: whatever model the search puts in the leaf, it is not finite after the rewriting when a continuous
feature is constant. Such a feature was even left alone by the normalisation, so the model itself was finite. -/
theorem linear_leaf_not_finite (D : List Conts) (hD : D ≠ []) (n j : Nat) (hj : j < n) (v : ℝ)
    (hv : ∀ i ∈ D, cont i j = v) (m : LinModel) : postLeaf D n m = none := by
  have := mt (linear_leaf_finite_iff D hD n m).1 (by push Not; exact ⟨j, hj, v, hv⟩)
  simpa using this

/-- One continuous feature with value 3 in both instances. -/
example (m : LinModel) : postLeaf [[3], [3]] 1 m = none :=
  linear_leaf_not_finite _ (by simp) 1 0 (by simp) 3 (by simp [cont]) m

example (m : LinModel) : (postLeaf [[3, 1], [4, 2]] 2 m).isSome :=
  linear_leaf_finite_partial _ (by simp) 2 m (by
    intro j hj
    refine ⟨[3, 1], by simp, [4, 2], by simp, ?_⟩
    match j, hj with
    | 0, _ => norm_num [cont]
    | 1, _ => norm_num [cont])

/-! ### The rewritten model predicts the same -/

theorem mapM_getD {α β : Type} (f : α → Option β) (d : β) (l : List α) (b : List β) (h : l.mapM f = some b) :
    b.length = l.length ∧ ∀ j (hj : j < l.length), f l[j] = some (b.getD j d) := by
  induction l generalizing b with
  | nil => simp at h; subst h; simp
  | cons a l ih =>
    rw [List.mapM_cons] at h
    cases ha : f a with
    | none => simp [ha] at h
    | some x =>
      cases hl : l.mapM f with
      | none => simp [ha, hl] at h
      | some c =>
        simp [ha, hl] at h
        subst h
        obtain ⟨hlen, hget⟩ := ih c hl
        refine ⟨by simp [hlen], ?_⟩
        intro j hj
        cases j with
        | zero => simpa using ha
        | succ j => simpa using hget j (by simpa using hj)

theorem foldl_add_sum (f : Nat → ℝ) (l : List Nat) (s : ℝ) :
    l.foldl (fun y j => y + f j) s = s + (l.map f).sum := by
  induction l generalizing s with
  | nil => simp
  | cons a l ih => rw [List.foldl_cons, ih]; simp [add_assoc]

theorem foldl_sub_sum (f : Nat → ℝ) (l : List Nat) (s : ℝ) :
    l.foldl (fun y j => y - f j) s = s - (l.map f).sum := by
  induction l generalizing s with
  | nil => simp
  | cons a l ih => rw [List.foldl_cons, ih]; simp; ring

theorem predict_eq (m : LinModel) (i : Conts) :
    m.predict i = m.b0 + ((List.range m.b.length).map fun j => m.b.getD j 0 * cont i j).sum := by
  rw [LinModel.predict, foldl_add_sum]

theorem cont_normalise (D : List Conts) (n : Nat) (i : Conts) (j : Nat) (hj : j < n) :
    cont (normalise D n i) j =
      if |contStd D j| < 1 / 1000000 then cont i j else (cont i j - contMu D j) / contStd D j := by
  conv_lhs => rw [cont, normalise]
  simp [List.getD_eq_getElem?_getD, hj]

theorem sum_congr_range {n : Nat} {f g : Nat → ℝ} (h : ∀ j, j < n → f j = g j) :
    ((List.range n).map f).sum = ((List.range n).map g).sum := by
  rw [List.map_congr_left fun j hj => h j (List.mem_range.1 hj)]

theorem sum_sub_range (n : Nat) (f g : Nat → ℝ) :
    ((List.range n).map f).sum - ((List.range n).map g).sum = ((List.range n).map fun j => f j - g j).sum := by
  induction n with
  | zero => simp
  | succ n ih => simp only [List.range_succ, List.map_append, List.sum_append, ← ih]; simp; ring

/-- The rewritten model gives, on an instance in original units, what the model of the search gives on the normalised
instance. Missing for the full claim: features whose standard deviation is below one millionth. -/
theorem rewritten_predicts_partial (D : List Conts) (n : Nat) (m : LinModel) (hm : m.b.length = n)
    (hstd : ∀ j, j < n → 1 / 1000000 ≤ contStd D j) (i : Conts) :
    ∃ m', postLeaf D n m = some m' ∧ m'.predict i = m.predict (normalise D n i) := by
  cases hb : rescale D m n with
  | none =>
    exfalso
    have hs : (rescale D m n).isSome := by
      rw [rescale, mapM_some_iff]
      intro j hj
      have := hstd j (List.mem_range.1 hj)
      rw [fdiv, if_neg (by intro h; rw [h] at this; norm_num at this)]; rfl
    rw [hb] at hs; simp at hs
  | some b =>
    refine ⟨⟨b, (List.range n).foldl (fun b0 j => b0 - contMu D j * b.getD j 0) m.b0⟩, by rw [postLeaf, hb]; rfl, ?_⟩
    obtain ⟨hlen, hget⟩ := mapM_getD (fun j => fdiv (m.b.getD j 0) (contStd D j)) 0 (List.range n) b hb
    rw [List.length_range] at hlen
    rw [predict_eq, predict_eq]
    dsimp only
    rw [foldl_sub_sum, hlen, hm, sub_add_eq_add_sub, add_sub_assoc, sum_sub_range]
    congr 1
    apply sum_congr_range
    intro j hj
    rw [cont_normalise D n i j hj]
    have h1 := hstd j hj
    have h0 : contStd D j ≠ 0 := by intro h; rw [h] at h1; norm_num at h1
    have habs : ¬ |contStd D j| < 1 / 1000000 := by
      rw [not_lt]; exact h1.trans (le_abs_self _)
    rw [if_neg habs]
    have h2 := hget j (by simpa using hj)
    rw [List.getElem_range, fdiv, if_neg h0] at h2
    have h3 : b.getD j 0 = m.b.getD j 0 / contStd D j := (Option.some.inj h2).symm
    rw [h3]; field_simp

/-- A feature with values 0 and 2/10000000. -/
noncomputable def tinyConts : List Conts := [[0], [2 / 10000000]]

theorem tinyConts_std : contStd tinyConts 0 = 1 / 10000000 := by
  rw [contStd, show contSq tinyConts 0 / tinyConts.length -
    contSum tinyConts 0 * contSum tinyConts 0 / (tinyConts.length * tinyConts.length) =
      (1 / 10000000) ^ 2 from by norm_num [contSq, contSum, tinyConts, cont]]
  exact Real.sqrt_sq (by norm_num)

/-- The hypothesis of `rewritten_predicts_partial` is needed: a feature with a positive standard deviation below one
millionth is not normalised, but the rewriting divides by it. The model of the search says 0 for the first training
instance; the returned model says -1. -/
theorem tiny_feature_wrong : ∃ m', postLeaf tinyConts 1 ⟨[1], 0⟩ = some m' ∧
    (⟨[1], 0⟩ : LinModel).predict (normalise tinyConts 1 [0]) = 0 ∧ m'.predict [0] = -1 := by
  refine ⟨⟨[10000000], -1⟩, ?_, ?_, ?_⟩
  · have hmu : contMu tinyConts 0 = 1 / 10000000 := by norm_num [contMu, contSum, tinyConts, cont]
    norm_num [postLeaf, rescale, fdiv, tinyConts_std, hmu]
  · norm_num [predict_eq, normalise, tinyConts_std, cont]
  · norm_num [predict_eq, cont]

example : ∀ j, j < 1 → 1 / 1000000 ≤ contStd [[0], [2]] j := by
  intro j hj
  obtain rfl : j = 0 := by omega
  rw [contStd, show contSq [[0], [2]] 0 / (([[0], [2]] : List Conts).length : ℝ) -
    contSum [[0], [2]] 0 * contSum [[0], [2]] 0 / ((([[0], [2]] : List Conts).length : ℝ) *
      (([[0], [2]] : List Conts).length : ℝ)) = 1 ^ 2 from by norm_num [contSq, contSum, cont]]
  rw [Real.sqrt_sq (by norm_num)]; norm_num

end Streed
