import Verif.Model.Fit
import Verif.Model.Tol

/-!
# Fitting the instance cost-sensitive classifier

`InstanceCostSensitive` (tasks/instance_cost_sensitive.h, .cpp): every training instance comes with one cost per label. The costs
of the code are doubles; here they are integers in units of `1 / u`. Rounding of doubles is not modelled.
-/

namespace Streed

/-- `GetLeafCosts` (instance_cost_sensitive.cpp:14-24): the cost of giving an instance a label is looked up in its extra data. No
branching costs. -/
def instProblem (nF nL : Nat) (w : Nat → Nat → Nat) : Problem where
  nF := nF
  nL := nL
  may := fun _ => true
  cost := fun i k => w i.id k
  bc := 0

/-- `InstanceCostSensitiveData::worst` (instance_cost_sensitive.h:13-15, .cpp:109-113): the largest cost. -/
def instWorst (nL : Nat) (w : Nat → Nat → Nat) (i : Inst) : Nat := ((List.range nL).map (w i.id)).foldl max 0

/-- `DBL_MAX`. -/
def largestDouble : Nat := (2 ^ 53 - 1) * 2 ^ 971

/-- The configuration of a run: no minimum difference (optimization_task.h), worst value `DBL_MAX`
(instance_cost_sensitive.h:49), its own similarity bound (instance_cost_sensitive.cpp:59-96), in which the worst values per label
are not used; not a sparse objective, no custom lower bound. -/
def instCfg (nF nL u : Nat) (w : Nat → Nat → Nat) (mls : Nat) (o : Options) (red : Nat → Bool) : Cfg where
  P := instProblem nF nL w
  mls := mls
  useLB := o.useLB
  useUB := o.useUB
  subUB := o.subUB
  simLB := o.simLB
  useTerm := o.useTerm
  useBr := o.useBr
  useDs := o.useDs
  md := 0
  worst := (u * largestDouble : Nat)
  worstPer := fun _ => 0
  simInst := some fun i => (instWorst nL w i : Nat)
  order := o.order
  redundant := red
  clock := o.clock
  sparse := false
  customLB := fun _ => 0

/-- `Solve` on a fresh solver (solver.cpp:80-174): preprocess, then search with the comparisons of doubles. -/
def fitCosts (nF nL u : Nat) (w : Nat → Nat → Nat) (mls : Nat) (o : Options) (t : Top) (T : Data) : Run × Bool :=
  Tol.solve (instCfg nF nL u w mls o (isRedundant (instProblem nF nL w) mls T)) t (preprocess (instProblem nF nL w) mls T)

end Streed
