import Mathlib.Algebra.Order.Field.Rat

/-!
# Model of piecewise simple linear regression

Every leaf predicts with a line in one continuous feature, fitted by least squares with a ridge penalty. Doubles are
rationals, so rounding is not modelled.
-/

namespace Streed

/-- One row of the data: the continuous features and the target. -/
structure LinRow where
  x : Nat → Rat
  y : Rat

/-- The data of one instance in memory, or sums of these over instances: `GetWeight`, `GetLabel` and
`SimpleLinRegExtraData` (piecewise_simple_linear_regression.h:11-20), and `D2SimpleLinRegSol` (lines 22-34). -/
structure LinStat where
  w : Rat
  y : Rat
  ysq : Rat
  x : Nat → Rat
  xsq : Nat → Rat
  yx : Nat → Rat

/-- `SimpleLinearRegression::PreprocessData` (piecewise_simple_linear_regression.cpp:129-139). The weight is one. -/
def LinStat.ofRow (i : LinRow) : LinStat := ⟨1, i.y, i.y * i.y, i.x, fun f => i.x f * i.x f, fun f => i.y * i.x f⟩

def LinStat.zero : LinStat := ⟨0, 0, 0, fun _ => 0, fun _ => 0, fun _ => 0⟩

/-- `D2SimpleLinRegSol::operator+=` (piecewise_simple_linear_regression.cpp:38-62) on vectors of equal size, and the
additions in the loop of `SolveLeafNode` (lines 306-320). -/
def LinStat.add (a b : LinStat) : LinStat :=
  ⟨a.w + b.w, a.y + b.y, a.ysq + b.ysq, fun f => a.x f + b.x f, fun f => a.xsq f + b.xsq f, fun f => a.yx f + b.yx f⟩

/-- `D2SimpleLinRegSol::operator-=` (piecewise_simple_linear_regression.cpp:64-88). -/
def LinStat.sub (a b : LinStat) : LinStat :=
  ⟨a.w - b.w, a.y - b.y, a.ysq - b.ysq, fun f => a.x f - b.x f, fun f => a.xsq f - b.xsq f, fun f => a.yx f - b.yx f⟩

/-- Sums over a list of instances. The merging of rows with equal features (piecewise_simple_linear_regression.cpp:179-252)
also makes such sums. -/
def linTotal (D : List LinStat) : LinStat := D.foldl LinStat.add .zero

/-- The line fitted on feature `f` and its cost (piecewise_simple_linear_regression.cpp:337-348). `r` is the ridge
penalty and `v` the variance of the feature on the training set. -/
def lineFit (s : LinStat) (r v : Rat) (f : Nat) : Rat × Rat × Rat :=
  let divisor := s.w * s.xsq f - s.x f * s.x f + s.w * v * r
  if |divisor| < 1 / 1000 then (0, s.y / s.w, s.ysq - s.y * s.y / s.w)
  else
    let a := (s.w * s.yx f - s.x f * s.y) / divisor
    let b := (s.y - a * s.x f) / s.w
    (a, b, s.ysq - 2 * a * s.yx f - 2 * b * s.y + a * a * s.xsq f + 2 * a * b * s.x f + s.w * b * b + r * a * a * v)

/-- A leaf: the feature, the slope, the intercept and the cost. -/
structure LineLeaf where
  f : Nat
  a : Rat
  b : Rat
  cost : Rat
  deriving DecidableEq

/-- The loop over the continuous features (piecewise_simple_linear_regression.cpp:336-353). `none`: `DBL_MAX`. -/
def lineLoop (s : LinStat) (r : Rat) (v : Nat → Rat) : List Nat → Option LineLeaf → Option LineLeaf
  | [], best => best
  | f :: fs, best =>
    let t := lineFit s r (v f) f
    let better := best.all fun l => decide (t.2.2 < l.cost)
    lineLoop s r v fs (if better then some ⟨f, t.1, t.2.1, max 0 t.2.2⟩ else best)

/-- `SimpleLinearRegression::SolveLeafNode` (piecewise_simple_linear_regression.cpp:296-355). `last_branch` is never
set, so nothing is reused. `minLeaf` is at least one (piecewise_simple_linear_regression.h:75). -/
def lineLeaf (n minLeaf : Nat) (r : Rat) (v : Nat → Rat) (D : List LinStat) : Option LineLeaf :=
  let s := linTotal D
  if s.w < minLeaf then none else lineLoop s r v (List.range n) none

/-- `GetSimpleModel` (piecewise_simple_linear_regression.cpp:408-427). `rp` is the penalty times the variance. -/
def simpleModel (s : LinStat) (f : Nat) (rp : Rat) : Rat × Rat × Rat :=
  let divisor := s.w * s.xsq f - s.x f * s.x f + s.w * rp
  if |divisor| < 1 / 1000 then (0, s.y / s.w, s.ysq - s.y * s.y / s.w)
  else
    let a := (s.w * s.yx f - s.x f * s.y) / divisor
    let b := (s.y - a * s.x f) / s.w
    (a, b, s.ysq - 2 * a * s.yx f - 2 * b * s.y + a * a * s.xsq f + 2 * a * b * s.x f + s.w * b * b + rp * a * a)

/-- The loop of `ComputeD2Costs` over the features that are left, highest first. -/
def lineD2Loop (s : LinStat) (r : Rat) (v : Nat → Rat) : Nat → Option Rat → Option Rat
  | 0, best => best
  | f + 1, best =>
    let t := simpleModel s f (r * v f)
    let better := best.all fun c => decide (t.2.2 < c)
    lineD2Loop s r v f (if better then some (max 0 t.2.2) else best)

/-- `SimpleLinearRegression::ComputeD2Costs` (piecewise_simple_linear_regression.cpp:429-446). -/
def lineD2Costs (n minLeaf : Nat) (r : Rat) (v : Nat → Rat) (s : LinStat) : Option Rat :=
  if s.w < minLeaf then none else lineD2Loop s r v n none

/-- The loop of `GetLabel`: best feature, slope, intercept and cost. -/
def lineLabelLoop (s : LinStat) (r : Rat) (v : Nat → Rat) : List Nat → Option LineLeaf → Option LineLeaf
  | [], best => best
  | f :: fs, best =>
    let t := simpleModel s f (r * v f)
    let better := best.all fun l => decide (t.2.2 < l.cost)
    lineLabelLoop s r v fs (if better then some ⟨f, t.1, t.2.1, t.2.2⟩ else best)

/-- `SimpleLinearRegression::GetLabel` (piecewise_simple_linear_regression.cpp:448-466). -/
def lineLabel (n minLeaf : Nat) (r : Rat) (v : Nat → Rat) (s : LinStat) : Option LineLeaf :=
  if s.w < minLeaf then none else lineLabelLoop s r v (List.range n) none

/-- The coefficients of `LinearModel(num_cont_features, f, a, b)` (piecewise_linear_regression.h:31). -/
def LineLeaf.coefs (l : LineLeaf) (n : Nat) : List Rat := (List.replicate n 0).set l.f l.a

/-- The loop that looks for the feature in use (piecewise_simple_linear_regression.cpp:359-366). -/
def usedLoop (c : List Rat) : List Nat → Nat × Rat → Nat × Rat
  | [], s => s
  | f :: fs, (cf, m) => usedLoop c fs (if |c.getD f 0| > m then (f, |c.getD f 0|) else (cf, m))

def usedFeature (c : List Rat) (n : Nat) : Nat := (usedLoop c ((List.range n).drop 1) (0, 0)).1

/-- `SimpleLinearRegression::GetLeafCosts` (piecewise_simple_linear_regression.cpp:357-379). -/
def lineLeafCosts (n : Nat) (r : Rat) (v : Nat → Rat) (D : List LinStat) (c : List Rat) (b : Rat) : Rat :=
  let cf := usedFeature c n
  let a := c.getD cf 0
  D.foldl (fun e i => e + (i.ysq - 2 * a * i.yx cf - 2 * b * i.y + a * a * i.xsq cf + 2 * a * b * i.x cf + i.w * b * b)) 0
    + r * a * a * v cf

/-- `feature_variance[f]` (piecewise_simple_linear_regression.cpp:256-277). `total_training_weight` is the sum of the
weights. -/
def lineVariance (T : List LinStat) (f : Nat) : Rat :=
  let s := linTotal T
  (s.xsq f - s.x f * s.x f / s.w) / s.w

end Streed
