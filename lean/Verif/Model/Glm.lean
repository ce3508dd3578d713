import Mathlib.Algebra.Order.Field.Rat

/-!
# Model of the leaf of piecewise linear regression

`SolveGLMNet` fits a linear model with lasso and ridge penalties by coordinate descent. Doubles are rationals, so
rounding and overflow are not modelled.
-/

namespace Streed

/-- One instance: the (normalised) continuous features and the target. -/
structure GlmInst where
  x : Nat → Rat
  y : Rat

/-- `y_mu`, `cf_mu[j]` (piecewise_linear_regression.cpp:269, 292): a mean. The data is not empty. -/
def glmMean (v : GlmInst → Rat) (D : List GlmInst) : Rat := (D.map v).sum / D.length

/-- `delta_sum` (piecewise_linear_regression.cpp:280-289): differences between consecutive values. -/
def deltaSum (f : GlmInst → Rat) : Rat → List GlmInst → Rat
  | _, [] => 0
  | prev, i :: D => |f i - prev| + deltaSum f (f i) D

/-- `redundant_feature[j]` (piecewise_linear_regression.cpp:279-296). -/
def glmRedundant (D : List GlmInst) (j : Nat) : Bool :=
  match D with
  | [] => true
  | i :: _ => decide (|deltaSum (fun k => k.x j) (i.x j) D| < 1 / 10000)

/-- `X[j]` after centring (piecewise_linear_regression.cpp:300-311), on the instances of the leaf. -/
def glmX (D : List GlmInst) (j : Nat) : List Rat :=
  if glmRedundant D j then D.map fun _ => 0 else D.map fun i => i.x j - glmMean (·.x j) D

/-- The targets minus their mean (piecewise_linear_regression.cpp:326). -/
def glmY (D : List GlmInst) : List Rat := D.map fun i => i.y - glmMean (·.y) D

/-- A sum of products. -/
def dot (a b : List Rat) : Rat := (List.zipWith (· * ·) a b).sum

/-- `xy[j]` (piecewise_linear_regression.cpp:320-334). -/
def glmXY (D : List GlmInst) (j : Nat) : Rat := if glmRedundant D j then 0 else dot (glmX D j) (glmY D)

/-- `ysq_sum` (piecewise_linear_regression.cpp:318-334): it is added once for every feature that is not redundant. -/
def glmYsq (n : Nat) (D : List GlmInst) : Rat :=
  (((List.range n).filter fun j => !glmRedundant D j).map fun _ => dot (glmY D) (glmY D)).sum

/-- `x1x2` at the start: zero, with `x1x2[j][j]` filled in (piecewise_linear_regression.cpp:240-243, 320-334). -/
def cov0 (D : List GlmInst) : Nat → Nat → Rat := fun j k =>
  if j = k ∧ !glmRedundant D j then dot (glmX D j) (glmX D j) else 0

/-- `GetCovariate` (piecewise_linear_regression.cpp:217-228): a value below 1e-4 is computed (again) and added. -/
def getCov (D : List GlmInst) (cov : Nat → Nat → Rat) (j k : Nat) : Rat × (Nat → Nat → Rat) :=
  if |cov j k| < 1 / 10000 then
    let v := cov j k + dot (glmX D j) (glmX D k)
    (v, fun a b => if a = j ∧ b = k ∨ a = k ∧ b = j then v else cov a b)
  else (cov j k, cov)

/-- The variables of the coordinate descent. -/
structure GlmSt where
  b : Nat → Rat
  nz : List Nat
  cov : Nat → Nat → Rat
  sig : Bool

/-- The loop over the other coefficients (piecewise_linear_regression.cpp:360-363). -/
def glmInner (D : List GlmInst) (j : Nat) (b : Nat → Rat) : List Nat → Rat × (Nat → Nat → Rat) → Rat × (Nat → Nat → Rat)
  | [], s => s
  | k :: ks, (bj, cov) =>
    if k = j then glmInner D j b ks (bj, cov)
    else
      let c := getCov D cov j k
      glmInner D j b ks (bj - b k * c.1, c.2)

/-- One coordinate (piecewise_linear_regression.cpp:355-382). When the coefficient was zero, the relative change is
infinite, or not-a-number if it stays zero. -/
def glmStep (D : List GlmInst) (lam gam : Rat) (s : GlmSt) (j : Nat) : GlmSt :=
  if glmRedundant D j then s
  else
    let r := glmInner D j s.b s.nz (glmXY D j, s.cov)
    let zj := s.cov j j
    if |r.1| < lam then { s with cov := r.2 }
    else
      let new := if r.1 < 0 then (r.1 + lam) / (zj + gam) else (r.1 - lam) / (zj + gam)
      let change := if s.b j = 0 then decide (new ≠ 0) else decide (|(new - s.b j) / s.b j| > 1 / 1000)
      ⟨fun k => if k = j then new else s.b k, if j ∈ s.nz then s.nz else s.nz ++ [j], r.2, s.sig || change⟩

/-- One round over the features (piecewise_linear_regression.cpp:352-383). -/
def glmRound (D : List GlmInst) (n : Nat) (lam gam : Rat) (s : GlmSt) : GlmSt :=
  (List.range n).foldl (glmStep D lam gam) { s with sig := false }

/-- The pairs `k > j` of the error (piecewise_linear_regression.cpp:399-402). -/
def sseRow (D : List GlmInst) (s : GlmSt) (j : Nat) : List Nat → Rat × (Nat → Nat → Rat) → Rat × (Nat → Nat → Rat)
  | [], r => r
  | k :: ks, (e, cov) =>
    if k ∈ s.nz then
      let c := getCov D cov j k
      sseRow D s j ks (e + 2 * s.b j * s.b k * c.1, c.2)
    else sseRow D s j ks (e, cov)

/-- The features of the error (piecewise_linear_regression.cpp:395-403). `b0` is zero. -/
def sseLoop (D : List GlmInst) (n : Nat) (s : GlmSt) : List Nat → Rat × (Nat → Nat → Rat) → Rat × (Nat → Nat → Rat)
  | [], r => r
  | j :: js, (e, cov) =>
    if j ∈ s.nz then
      sseLoop D n s js (sseRow D s j ((List.range n).filter (j < ·)) (e + s.b j * s.b j * cov j j, cov))
    else sseLoop D n s js (e, cov)

/-- The error after a round, with the penalties (piecewise_linear_regression.cpp:386-409), and the covariances. -/
def glmSse (D : List GlmInst) (n : Nat) (lam gam : Rat) (s : GlmSt) : Rat × (Nat → Nat → Rat) :=
  let e0 := s.nz.foldl (fun e k => e - 2 * s.b k * glmXY D k) (glmYsq n D)
  let r := sseLoop D n s (List.range n) (e0, s.cov)
  (r.1 + 2 * lam * (s.nz.map fun k => |s.b k|).sum + gam * (s.nz.map fun k => s.b k * s.b k).sum, r.2)

/-- `(prev_sse - sse) / sse < 1e-3` (piecewise_linear_regression.cpp:411). With `sse` zero the quotient is an infinity
with the sign of `prev_sse`, or not-a-number. -/
def glmStop (prev sse : Rat) : Bool :=
  if sse = 0 then decide (prev < 0) else decide ((prev - sse) / sse < 1 / 1000)

/-- The coordinate descent (piecewise_linear_regression.cpp:346-414). `prev` is `none` for `DBL_MAX`. -/
def glmLoop (D : List GlmInst) (n : Nat) (lam gam : Rat) : Nat → Option Rat → GlmSt → GlmSt
  | 0, _, s => s
  | fuel + 1, prev, s =>
    if s.sig then
      let s1 := glmRound D n lam gam s
      let e := glmSse D n lam gam s1
      let s2 := { s1 with cov := e.2 }
      if prev.any fun p => glmStop p e.1 then s2 else glmLoop D n lam gam fuel (some e.1) s2
    else s

/-- `lambda_max` (piecewise_linear_regression.cpp:336-339). -/
def lambdaMax (D : List GlmInst) (n : Nat) : Rat := (List.range n).foldl (fun m j => max m |glmXY D j|) 0

/-- The cost of the model in the units of the data (piecewise_linear_regression.cpp:427-443): pairs `k > j`. `y_std` and
`cf_std` are one (lines 270, 293); `x[j]` and `y_sum` are sums of centred values. -/
def glmCostRow (D : List GlmInst) (b : Nat → Rat) (j : Nat) : List Nat → Rat × (Nat → Nat → Rat) → Rat × (Nat → Nat → Rat)
  | [], r => r
  | k :: ks, (e, cov) =>
    if |b k| < 1 / 10000 then glmCostRow D b j ks (e, cov)
    else
      let c := getCov D cov j k
      let v := c.1 + (glmX D j).sum * glmMean (·.x k) D + (glmX D k).sum * glmMean (·.x j) D
        + D.length * glmMean (·.x j) D * glmMean (·.x k) D
      glmCostRow D b j ks (e + 2 * b j * b k * v, c.2)

def glmCostLoop (D : List GlmInst) (n : Nat) (nz : List Nat) (b : Nat → Rat) (b0 : Rat) :
    List Nat → Rat × (Nat → Nat → Rat) → Rat × (Nat → Nat → Rat)
  | [], r => r
  | j :: js, (e, cov) =>
    if j ∈ nz then
      glmCostLoop D n nz b b0 js (glmCostRow D b j ((List.range n).filter (j < ·))
        (e + 2 * b0 * b j * (D.map (·.x j)).sum + b j * b j * (D.map fun i => i.x j * i.x j).sum, cov))
    else glmCostLoop D n nz b b0 js (e, cov)

/-- `y_sum` in the part after the descent: added once for every feature that is not redundant
(piecewise_linear_regression.cpp:319-334). -/
def glmYsum (n : Nat) (D : List GlmInst) : Rat :=
  (((List.range n).filter fun j => !glmRedundant D j).map fun _ => (glmY D).sum).sum

/-- The cost that is returned (piecewise_linear_regression.cpp:422-443). -/
def glmCost (D : List GlmInst) (n : Nat) (lam gam : Rat) (s : GlmSt) (b0 : Rat) : Rat :=
  let e0 := (D.map fun i => i.y * i.y).sum - 2 * b0 * (D.map (·.y)).sum + b0 * b0 * D.length
  let e1 := s.nz.foldl (fun e k => e - 2 * s.b k * (glmXY D k + (glmX D k).sum * glmMean (·.y) D
    + glmMean (·.x k) D * glmYsum n D + D.length * glmMean (·.x k) D * glmMean (·.y) D)) e0
  let e2 := (glmCostLoop D n s.nz s.b b0 (List.range n) (e1, s.cov)).1
  e2 + 2 * (s.nz.map fun k => |s.b k|).sum * lam + (s.nz.map fun k => s.b k * s.b k).sum * gam

/-- A leaf model: `n` coefficients, the intercept and the cost. -/
structure GlmLeaf where
  b : Nat → Rat
  b0 : Rat
  cost : Rat

/-- `PieceWiseLinearRegression::SolveGLMNet` (piecewise_linear_regression.cpp:230-446). `none`: the model without
coefficients and the cost `DBL_MAX`, which the search takes for "no solution". -/
def solveGlm (D : List GlmInst) (n : Nat) (lasso ridge : Rat) : Option GlmLeaf :=
  let lam := D.length * lasso
  let gam := D.length * ridge
  if lam ≥ lambdaMax D n then none
  else
    let s := glmLoop D n lam gam 10000 none ⟨fun _ => 0, [], cov0 D, true⟩
    let b0 := (List.range n).foldl (fun b0 j => b0 - glmMean (·.x j) D * s.b j) (glmMean (·.y) D)
    some ⟨s.b, b0, glmCost D n lam gam s b0⟩

end Streed
