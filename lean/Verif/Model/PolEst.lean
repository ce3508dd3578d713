import Verif.Model.Estimator
import Verif.Model.PolicyData

/-!
# The policy estimator over several calls of `fit`

`fit` stores the number of different treatments in the given array before it calls `fit` of the base class
(prescriptive_policy_generation.py:122-124, 157-158). `score` reads new arrays with it.
-/

namespace Streed

/-- A call of `fit`: an array with its number of columns, and what the base class does. -/
structure PolStep where
  width : Nat
  rows : List (List Rat)
  step : FitStep

/-- What the estimator stores: the attributes of the base class and `n_classes_`. -/
structure PolEst where
  base : Est
  nC : Option Nat

/-- A new estimator (prescriptive_policy_generation.py:79). -/
def PolEst.init : PolEst := ⟨Est.init, none⟩

/-- `fit` (prescriptive_policy_generation.py:129-158): an array that is refused changes nothing. -/
def PolEst.fit (tests : Column → List (Rat → Bool)) (cuts : Column → List Rat) (e : PolEst) (c : PolStep) : PolEst × FitEnd :=
  match ppgCheck c.width e.nC true c.rows with
  | none => (e, .raised)
  | some r =>
    let b := e.base.fit tests cuts c.step
    (⟨b.1, some r.2⟩, b.2)

/-- What `score` answers. -/
inductive ShareAnswer
  | share (s : Rat)
  | notFitted
  | raises
  /-- Undefined behaviour. -/
  | undef
  deriving DecidableEq

/-- `score` (prescriptive_policy_generation.py:186-205, base.py:318-337) for `n` rows and an array of new data. `_check_data` stores a number of
treatments only if there is none yet, in which case nothing was fitted. scikit-learn refuses data without rows and different numbers of rows. A negative
treatment is used as an index (bindings.cpp:79-81). The score is the share of rows whose prediction is the best treatment (prescriptive_policy.h:60,
prescriptive_policy.cpp:104-115). -/
def PolEst.score (e : PolEst) (X : Frame) (n width : Nat) (rows : List (List Rat)) : ShareAnswer :=
  match ppgCheck width e.nC false rows with
  | none => .raises
  | some r =>
    if e.base.res = .absent then .notFitted
    else
      match e.base.bin with
      | none => .raises
      | some none => .raises
      | some (some F) =>
        match F.transform X with
        | none => .raises
        | some cols =>
          if n = 0 then .raises
          else if e.base.width.any (· ≠ cols.length) then .raises
          else if rows.length ≠ n then .raises
          else
            match e.base.solver with
            | none => .raises
            | some m =>
              if r.1.any fun p => decide (p.k < 0) then .undef
              else if m < cols.length then .undef
              else
                match e.base.res with
                | .val t =>
                  .share ((((r.1.zipIdx.filter fun p => decide (p.1.kOpt = (t.predict (rowInst cols p.2) : Int))).length : Nat) : Rat) / (n : Rat))
                | _ => .undef

/-- A sequence of calls of `fit`; exceptions are caught. -/
def PolEst.fits (tests : Column → List (Rat → Bool)) (cuts : Column → List Rat) (e : PolEst) (cs : List PolStep) : PolEst :=
  cs.foldl (fun e c => (e.fit tests cuts c).1) e

end Streed
