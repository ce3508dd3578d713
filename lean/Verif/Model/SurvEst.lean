import Verif.Model.Estimator
import Verif.Model.SurvPy

/-!
# The survival estimator over several calls of `fit`

`fit` stores the baseline hazard and the observed times before it calls `fit` of the base class (survival_analysis.py:113-121), which may
raise or find no tree.
-/

namespace Streed

/-- A call of `fit` of the survival estimator. -/
structure SurvStep where
  /-- There are as many rows as observations, and `check_array_survival` accepts them (survival_analysis.py:113-115). -/
  rows : Bool
  /-- The observations: times and events. -/
  obs : List Obs
  /-- What the base class does. -/
  step : FitStep
  /-- The hazard ratio of each leaf of the tree that is found. -/
  theta : Nat → Rat

/-- What a survival estimator stores: the attributes of the base class; `_baseline_hazard_function`, `unique_times_` and
`is_event_time_`, all functions of the observations (survival_analysis.py:116-117); the hazard ratios of the leaves of the result. -/
structure SurvEst where
  base : Est
  hazard : Option (List Obs)
  theta : Nat → Rat

/-- A new estimator. -/
def SurvEst.init : SurvEst := ⟨Est.init, none, fun _ => 0⟩

/-- `fit` (survival_analysis.py:92-121): the baseline first, then the base class, which begins with checking the parameters. -/
def SurvEst.fit (tests : Column → List (Rat → Bool)) (cuts : Column → List Rat) (e : SurvEst) (c : SurvStep) : SurvEst × FitEnd :=
  if !c.rows then (e, .raised)
  else
    let r := e.base.fit tests cuts c.step
    (⟨r.1, some c.obs, match r.2 with | .fitted _ _ => c.theta | _ => e.theta⟩, r.2)

/-- What `predict_cumulative_hazard_function` answers. -/
inductive SurvAnswer
  | curves (c : List (List Rat))
  | notFitted
  | raises
  | undef
  deriving DecidableEq

/-- The curve of a row with hazard ratio `theta` (survival_analysis.py:276-280): the version of `chfRow` for fractions. -/
def hazardCurve (D : List Obs) (theta : Rat) : List Rat := (uniqueTimes D).map fun t => theta * (pyBaseline D t).getD 0

/-- `predict_cumulative_hazard_function(X, return_array=True)` (survival_analysis.py:275-280): the hazard ratios of the base class, times the
baseline at the stored times. -/
def SurvEst.hazards (e : SurvEst) (X : Frame) (n : Nat) : SurvAnswer :=
  match e.base.predict X n with
  | .notFitted => .notFitted
  | .raises => .raises
  | .undef => .undef
  | .labels l =>
    match e.hazard with
    | none => .raises
    | some D => .curves (l.map fun k => hazardCurve D (e.theta k))

/-- A sequence of calls of `fit`; exceptions are caught. -/
def SurvEst.fits (tests : Column → List (Rat → Bool)) (cuts : Column → List Rat) (e : SurvEst) (cs : List SurvStep) : SurvEst :=
  cs.foldl (fun e c => (e.fit tests cuts c).1) e

end Streed
