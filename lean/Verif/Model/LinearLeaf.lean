import Mathlib.Analysis.Real.Sqrt

/-!
# Model of the normalisation in piecewise linear regression

Continuous features are normalised before the search, and the leaf models are rewritten in original units after it.
Doubles are real numbers, so rounding and overflow are not modelled. A division by zero gives an infinity or
not-a-number in the code; here it is `none`.
-/

namespace Streed

/-- Division of doubles. `none`: the result is an infinity or not-a-number. -/
noncomputable def fdiv (a b : ℝ) : Option ℝ := if b = 0 then none else some (a / b)

/-- The continuous features of one instance (`PieceWiseLinearRegExtraData::x`). -/
abbrev Conts := List ℝ

/-- `GetCF` (piecewise_linear_regression.cpp:17-19). Every instance has the same number of features. -/
def cont (i : Conts) (j : Nat) : ℝ := i.getD j 0

/-- `cf_y[j]` (piecewise_linear_regression.cpp:101-107). -/
def contSum (D : List Conts) (j : Nat) : ℝ := (D.map fun i => cont i j).sum

/-- `cf_ysq[j]` (piecewise_linear_regression.cpp:101-107). -/
def contSq (D : List Conts) (j : Nat) : ℝ := (D.map fun i => cont i j * cont i j).sum

/-- `g_cf_mu[j]` (piecewise_linear_regression.cpp:111). The training set is not empty. -/
noncomputable def contMu (D : List Conts) (j : Nat) : ℝ := contSum D j / D.length

/-- `g_cf_std[j]`, by `GetStd` (piecewise_linear_regression.cpp:35-37, 112). -/
noncomputable def contStd (D : List Conts) (j : Nat) : ℝ :=
  Real.sqrt (contSq D j / D.length - contSum D j * contSum D j / (D.length * D.length))

/-- The normalised features of one instance (piecewise_linear_regression.cpp:122-125). -/
noncomputable def normalise (D : List Conts) (n : Nat) (i : Conts) : Conts :=
  (List.range n).map fun j =>
    if |contStd D j| < 1 / 1000000 then cont i j else (cont i j - contMu D j) / contStd D j

/-- `LinearModel` (piecewise_linear_regression.h:25-37). -/
structure LinModel where
  b : List ℝ
  b0 : ℝ

/-- `LinearModel::Predict` (piecewise_linear_regression.cpp:50-56). -/
noncomputable def LinModel.predict (m : LinModel) (i : Conts) : ℝ :=
  (List.range m.b.length).foldl (fun y j => y + m.b.getD j 0 * cont i j) m.b0

/-- The loop that divides the coefficients (piecewise_linear_regression.cpp:137-139). The model in the leaf has `n`
coefficients. -/
noncomputable def rescale (D : List Conts) (m : LinModel) (n : Nat) : Option (List ℝ) :=
  (List.range n).mapM fun j => fdiv (m.b.getD j 0) (contStd D j)

/-- `PieceWiseLinearRegression::PostProcessTree` on a leaf (piecewise_linear_regression.cpp:131-149). `y_mu` is zero
and `y_std` one (lines 92-93), so the lines that use them change nothing. `none`: a coefficient is not finite. -/
noncomputable def postLeaf (D : List Conts) (n : Nat) (m : LinModel) : Option LinModel :=
  (rescale D m n).map fun b =>
    ⟨b, (List.range n).foldl (fun b0 j => b0 - contMu D j * b.getD j 0) m.b0⟩

end Streed
