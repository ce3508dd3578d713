import Verif.Model.Solver
import Verif.Model.Preprocess

/-!
# Fitting the accuracy classifier

Preprocessing followed by the search (solver.cpp:80-174, 212-245, 1157-1229) with the constants of the
accuracy task (tasks/accuracy.h, tasks/optimization_task.h).
-/

namespace Streed

/-- The switches of the search (solver.h:32-44), the feature order and the clock. -/
structure Options where
  useLB : Bool
  useUB : Bool
  subUB : Bool
  simLB : Bool
  useTerm : Bool
  useBr : Bool
  useDs : Bool
  order : Data → List Nat
  clock : Nat → Bool

/-- The configuration of an accuracy run: costs 0/1, `minimum_difference` 1, worst case per label 1
(accuracy.h:12-40); not a sparse objective, no custom lower bound. -/
def accCfg (nF nL mls : Nat) (o : Options) (red : Nat → Bool) : Cfg where
  P := accuracy nF nL
  mls := mls
  useLB := o.useLB
  useUB := o.useUB
  subUB := o.subUB
  simLB := o.simLB
  useTerm := o.useTerm
  useBr := o.useBr
  useDs := o.useDs
  md := 1
  worst := int32Max
  worstPer := fun _ => 1
  simInst := none
  order := o.order
  redundant := red
  clock := o.clock
  sparse := false
  customLB := fun _ => 0

/-- `Solve` on a fresh solver: preprocess, then search. -/
def fitAccuracy (nF nL mls : Nat) (o : Options) (t : Top) (T : Data) : Run × Bool :=
  solve (accCfg nF nL mls o (isRedundant (accuracy nF nL) mls T)) t (preprocess (accuracy nF nL) mls T)

end Streed
