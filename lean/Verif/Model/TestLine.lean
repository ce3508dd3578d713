import Verif.Model.TestCost
import Verif.Model.SimpleLinear
import Verif.Model.LinearLeaf
import Verif.Model.Survival

/-!
# Model of scoring new data with lines, linear models and survival times

`score` (regression.py:263-266, survival_analysis.py:123-143, base.py:318-338) for regression with a line or a linear model in every
leaf and for survival analysis. As in `Model/TestCost.lean`, `none` is an access beyond the end of a vector or a division by zero, all
rows are in the first label group, and what comes with a row is looked up by its number. Branching costs of new data are zero
(piecewise_simple_linear_regression.h:81, piecewise_linear_regression.h:87).
-/

namespace Streed

/-- `SimpleLinearRegression::GetTestLeafCosts` (piecewise_simple_linear_regression.cpp:381-383), which is `GetLeafCosts`: the
penalty of the slope is added. New rows are not merged (`PreprocessData`, lines 129-139). `n` continuous features, ridge penalty `p`,
variances `fv` of the training data, the line of each leaf in `m`. -/
def lnLeafV (row : Nat → LinRow) (n : Nat) (p : Rat) (fv : Nat → Rat) (m : Nat → LineLeaf) (v : View) (label : Nat) : Option Rat :=
  (v.groups[0]?).map fun g =>
    lineLeafCosts n p fv (g.map fun i => LinStat.ofRow (row i.id)) ((m label).coefs n) (m label).b

/-- `score` of a tree with lines: `ComputeTestTestScore` (piecewise_simple_linear_regression.h:104). -/
def lnTest (fl : List Nat) (row : Nat → LinRow) (n : Nat) (p : Rat) (fv : Nat → Rat) (m : Nat → LineLeaf) (t : Obj) (D : Data) :
    Option Rat := rgTest fl (lnLeafV row n p fv m) t D

/-- `PieceWiseLinearRegression::GetTestLeafCosts` (piecewise_linear_regression.cpp:473-481). `y_mu` is zero and `y_std` one
(lines 93-94). `x` gives the continuous features of a row, `tg` its target, `m` the models in original units (`postLeaf`). New rows
are not normalised (piecewise_linear_regression.h:100). -/
noncomputable def pwLeafV (x : Nat → Conts) (tg : Nat → ℝ) (m : Nat → LinModel) (v : View) (label : Nat) : Option ℝ :=
  (v.groups[0]?).map fun g => g.foldl (fun e i =>
    e + ((tg i.id + 0) * 1 - ((m label).predict (x i.id) + 0) * 1) ^ 2) 0

/-- `score` over the reals: the value divided by the number of rows (piecewise_linear_regression.h:106, survival_analysis.h:136). -/
noncomputable def realTest (fl : List Nat) (leaf : View → Nat → Option ℝ) (t : Obj) (D : Data) : Option ℝ := do
  let v := preprocessTest fl (loadNumbers D)
  let r ← t.testWalk fl (· + ·) leaf v (0, 0)
  if v.size = 0 then none else some (r.1 / v.size)

/-- A row with the hazard that the training data `T` give its time (`ApplyHazardFunction`, survival_analysis.cpp:13-27). -/
noncomputable def hazardRow (T : List Obs) (o : Obs) : Option SurvInst :=
  (hazardFn T o.time).map fun h => ⟨decide (o.ev ≠ 0), (h : ℝ)⟩

/-- `SurvivalAnalysis::GetTestLeafCosts` (survival_analysis.h:112, survival_analysis.cpp:142-165) on rows with hazards from the training
data (`PreprocessTestData`, survival_analysis.cpp:36-38). -/
noncomputable def svLeafV (T : List Obs) (obs : Nat → Obs) (theta : Nat → ℝ) (v : View) (label : Nat) : Option ℝ := do
  let g ← v.groups[0]?
  let rows ← g.mapM fun i => hazardRow T (obs i.id)
  pure (survLeafCosts rows (theta label))

end Streed
