import Verif.Model.Estimator
import Verif.Model.CostVecs

/-!
# The instance-cost-sensitive classifier over several calls of `fit`

`fit` stores the number of classes of the given costs before it calls `fit` of the base class
(instance_cost_sensitive_classification.py:105-106, 132-133). `score` checks new costs against it.
-/

namespace Streed

/-- A call of `fit`: the costs and what the base class does. -/
structure VecStep where
  y : VecInput
  step : FitStep

/-- What the classifier stores: the attributes of the base class and `n_classes_`. -/
structure VecEst where
  base : Est
  nC : Option Nat

/-- A new classifier (instance_cost_sensitive_classification.py:76). -/
def VecEst.init : VecEst := ⟨Est.init, none⟩

/-- `fit` (instance_cost_sensitive_classification.py:112-133): costs that are refused change nothing. -/
def VecEst.fit (tests : Column → List (Rat → Bool)) (cuts : Column → List Rat) (e : VecEst) (c : VecStep) : VecEst × FitEnd :=
  match checkVecs none c.y with
  | none => (e, .raised)
  | some r =>
    let b := e.base.fit tests cuts c.step
    (⟨b.1, some r.2⟩, b.2)

/-- What `score` answers. -/
inductive ScoreAnswer
  | total (s : Rat)
  | notFitted
  | raises
  /-- Undefined behaviour. -/
  | undef
  deriving DecidableEq

/-- `score` (instance_cost_sensitive_classification.py:154-168, base.py:318-337, bindings.cpp:141-152) for `n` rows. `_check_data` sets the number of
classes only if there is none yet, in which case nothing was fitted. The numbers of rows and costs are compared by scikit-learn. A cost that is
not there raises, as in `vecCost`. -/
def VecEst.score (e : VecEst) (X : Frame) (n : Nat) (y : VecInput) : ScoreAnswer :=
  match checkVecs e.nC y with
  | none => .raises
  | some _ =>
    if e.base.res = .absent then .notFitted
    else
      match e.base.bin with
      | none => .raises
      | some none => .raises
      | some (some F) =>
        match F.transform X with
        | none => .raises
        | some cols =>
          if e.base.width.any (· ≠ cols.length) then .raises
          else if y.vecs.length ≠ n then .raises
          else
            match e.base.solver with
            | none => .raises
            | some m =>
              if m < cols.length then .undef
              else
                match e.base.res with
                | .val t =>
                  match vecCost y.vecs t ((List.range n).map (rowInst cols)) with
                  | some s => .total s
                  | none => .raises
                | _ => .undef

/-- A sequence of calls of `fit`; exceptions are caught. -/
def VecEst.fits (tests : Column → List (Rat → Bool)) (cuts : Column → List Rat) (e : VecEst) (cs : List VecStep) : VecEst :=
  cs.foldl (fun e c => (e.fit tests cuts c).1) e

end Streed
