import Verif.Model.ClfEst
import Verif.Model.Colours

/-!
# Graphs of a classifier over calls of `fit` and `export_dot`

The colours of the classes are made when the first leaf is drawn and kept in the estimator from then on (classification.py:172-176; the same
lines in cost_sensitive_classification.py:93-97, group_fair.py:163-167 and prescriptive_policy_generation.py:207-211).
-/

namespace Streed

/-- A colour: red, green and blue. -/
abbrev Colour := Nat × Nat × Nat

/-- A classifier and its attribute `_colors`, which does not exist at first. -/
structure DrawEst where
  clf : ClfEst
  colours : Option (List Colour)

/-- A new classifier. -/
def DrawEst.init : DrawEst := ⟨ClfEst.init, none⟩

/-- `fit` (classification.py:99-123) does not touch `_colors`. -/
def DrawEst.fit (tests : Column → List (Rat → Bool)) (cuts : Column → List Rat) (e : DrawEst) (c : ClfStep) : DrawEst × FitEnd :=
  let r := e.clf.fit tests cuts c
  (⟨r.1, e.colours⟩, r.2)

/-- `_recursive_export_dot` (base.py:456-471) with the leaves of the classifier (classification.py:172-176): the colours kept afterwards and the
colours of the leaves from left to right. `n` is `n_classes_`, `w` the number of columns of `train_X_`, which `_split` indexes before it goes to
the children (base.py:473-478). `none` is an exception. -/
def drawLeaves (n w : Nat) : Tree → Option (List Colour) → Option (List Colour) × Option (List Colour)
  | .leaf k, kept =>
    match kept.or (colorBrew n) with
    | none => (none, none)
    | some cs => (some cs, (cs[k]?).map fun c => [c])
  | .node f l r, kept =>
    if f < w then
      match drawLeaves n w l kept with
      | (kept, none) => (kept, none)
      | (kept, some a) =>
        match drawLeaves n w r kept with
        | (kept, none) => (kept, none)
        | (kept, some b) => (kept, some (a ++ b))
    else (kept, none)

/-- What `export_dot` does. -/
inductive DrawAnswer
  /-- A graph is written, with these colours of leaves. -/
  | graph (cs : List Colour)
  | notFitted
  | raises
  deriving DecidableEq

/-- `export_dot` (base.py:424-444). -/
def DrawEst.export (e : DrawEst) : DrawEst × DrawAnswer :=
  match e.clf.base.tree with
  | none => (e, .notFitted)
  | some t =>
    match e.clf.nC, e.clf.train with
    | some n, some T =>
      let r := drawLeaves n T.1 t e.colours
      (⟨e.clf, r.1⟩, match r.2 with
        | some cs => .graph cs
        | none => .raises)
    | _, _ => (e, .raises)

/-- A call. -/
inductive DrawCall
  | fit (c : ClfStep)
  | export

/-- A sequence of calls; exceptions are caught. -/
def DrawEst.calls (tests : Column → List (Rat → Bool)) (cuts : Column → List Rat) (e : DrawEst) (cs : List DrawCall) : DrawEst :=
  cs.foldl (fun e c => match c with
    | .fit c => (e.fit tests cuts c).1
    | .export => e.export.1) e

end Streed
