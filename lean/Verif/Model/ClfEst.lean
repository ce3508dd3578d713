import Verif.Model.Estimator
import Verif.Model.Proba

/-!
# The classifier over several calls of `fit`

`fit` of the classifier stores the number of classes before it calls `fit` of the base class (classification.py:122-123), which stores the training
rows before it starts the solver (base.py:263-265). `predict_proba` reads both.
-/

namespace Streed

/-- A call of `fit` of the classifier: the labels, what the base class does, and whether a call that raises gets as far as storing its rows. -/
structure ClfStep where
  y : List Nat
  step : FitStep
  stored : Bool

/-- A matrix of 0 and 1 from columns, the first `n` rows. -/
def matrixRows (cols : List (List Bool)) (n : Nat) : List IntRow :=
  (List.range n).map fun r f => if (cols.getD f []).getD r false then 1 else 0

/-- The binarised training rows of a call and their number of columns (base.py:259-264). -/
def ClfStep.rows (tests : Column → List (Rat → Bool)) (cuts : Column → List Rat) (c : ClfStep) : Option (Nat × List (IntRow × Nat)) :=
  (fitBin tests cuts (frameTypes c.step.given c.step.X) c.step.X).bind fun F =>
    (F.transform c.step.X).map fun cols => (cols.length, (matrixRows cols c.y.length).zip c.y)

/-- What a classifier stores: the attributes of the base class, `n_classes_`, and `train_X_` with `train_y_`. -/
structure ClfEst where
  base : Est
  nC : Option Nat
  train : Option (Nat × List (IntRow × Nat))

/-- A new classifier. -/
def ClfEst.init : ClfEst := ⟨Est.init, none, none⟩

/-- Whether a call raised. -/
def FitEnd.isRaised : FitEnd → Bool
  | .raised => true
  | _ => false

/-- `fit` (classification.py:99-123, base.py:237-293). -/
def ClfEst.fit (tests : Column → List (Rat → Bool)) (cuts : Column → List Rat) (e : ClfEst) (c : ClfStep) : ClfEst × FitEnd :=
  let r := e.base.fit tests cuts c.step
  (⟨r.1, some c.y.dedup.length, if r.2.isRaised && !c.stored then e.train else (c.rows tests cuts).or e.train⟩, r.2)

/-- What `predict_proba` answers. -/
inductive ProbaAnswer
  | probs (p : List (List Rat))
  | notFitted
  | raises
  deriving DecidableEq

/-- Whether a tree tests only the first `w` columns; otherwise an index is out of range (classification.py:164-166). -/
def Tree.testsBelow (w : Nat) : Tree → Bool
  | .leaf _ => true
  | .node f l r => decide (f < w) && l.testsBelow w && r.testsBelow w

/-- `predict_proba` (classification.py:125-148) for `n` rows. -/
def ClfEst.proba (e : ClfEst) (X : Frame) (n : Nat) : ProbaAnswer :=
  if e.base.res = .absent then .notFitted
  else
    match e.base.bin with
    | some (some F) =>
      match F.transform X with
      | none => .raises
      | some cols =>
        if e.base.width.any (· ≠ cols.length) then .raises
        else
          match e.nC, e.train, e.base.tree with
          | some k, some T, some t =>
            if t.testsBelow cols.length && t.testsBelow T.1 then
              match predictProba k t (matrixRows cols n) T.2 with
              | .ok p => .probs p
              | .error _ => .raises
            else .raises
          | _, _, _ => .raises
    | _ => .raises

/-- A sequence of calls of `fit`; exceptions are caught. -/
def ClfEst.fits (tests : Column → List (Rat → Bool)) (cuts : Column → List Rat) (e : ClfEst) (cs : List ClfStep) : ClfEst :=
  cs.foldl (fun e c => (e.fit tests cuts c).1) e

end Streed
