import Verif.Model.InstCosts
import Verif.Model.Policy

/-!
# Fitting a prescriptive policy

`PrescriptivePolicy` (tasks/prescriptive_policy.h, .cpp): the search minimises the costs that `InformTrainData` computes from the
estimated outcomes. The costs are doubles; here they are integers in units of `1 / u`. Rounding is not modelled.
-/

namespace Streed

/-- A row of `cost_per_training_instance` in units of `1 / u`. -/
def policyUnits (u : Nat) (rows : List (Nat × (Nat → Rat))) (id k : Nat) : Nat := ((u : Rat) * costRow rows id k).num.toNat

/-- The configuration of a run: no minimum difference, worst value `INT32_MAX` (prescriptive_policy.h:45), worst values per label as
computed by `InformTrainData`; not a sparse objective, no custom lower bound. The worst values are rounded down to the unit, which
changes nothing for labels that occur. -/
def policyCfg (nF nL u : Nat) (ext : Inst → Treatment) (m : Teacher) (mls : Nat) (o : Options) (red : Nat → Bool) (T : Data) : Cfg where
  P := instProblem nF nL (policyUnits u (costRows ext m nL T))
  mls := mls
  useLB := o.useLB
  useUB := o.useUB
  subUB := o.subUB
  simLB := o.simLB
  useTerm := o.useTerm
  useBr := o.useBr
  useDs := o.useDs
  md := 0
  worst := (u * int32Max : Nat)
  worstPer := fun k => ((u : Rat) * (informWorst ext m nL T []).getD k 0).floor
  simInst := none
  order := o.order
  redundant := red
  clock := o.clock
  sparse := false
  customLB := fun _ => 0

/-- `Solve` on a fresh solver (solver.cpp:80-174): preprocess, then search with the comparisons of doubles. `InformTrainData` is
called with the preprocessed data, whose extra data are the same. -/
def fitPolicy (nF nL u : Nat) (ext : Inst → Treatment) (m : Teacher) (mls : Nat) (o : Options) (t : Top) (T : Data) : Run × Bool :=
  let P := instProblem nF nL (policyUnits u (costRows ext m nL T))
  Tol.solve (policyCfg nF nL u ext m mls o (isRedundant P mls T) T) t (preprocess P mls T)

end Streed
