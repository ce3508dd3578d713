import Verif.Model.CostSearch
import Verif.Model.CostSensitive

/-!
# Fitting the cost-sensitive classifier

Preprocessing followed by the search (solver.cpp:80-174, 212-245, 1157-1229) with the constants of the cost-sensitive
task (`include/tasks/cost_sensitive.h`). Costs are multiples of `1 / q`; the model counts in that unit.
-/

namespace Streed

/-- The misclassification costs in units of `1 / q` (`GetLeafCosts`, cost_sensitive.cpp:136-147). The code leaves the
diagonal of the matrix out of leaf costs, so this is the task for matrices with a zero diagonal. -/
def Costs.problem (C : Costs) (q nF nL : Nat) : Problem where
  nF := nF
  nL := nL
  may := fun _ => true
  cost := fun i k => (q * C.matrix i.label k).num
  bc := 0

/-- The price of a test in units of `1 / q` (`GetBranchingCosts`, cost_sensitive.cpp:149-161). -/
def Costs.prices (C : Costs) (q : Nat) : Ctx.Prices := fun b f => (q * C.branchCost b f).num

/-- The configuration of a cost-sensitive run: `worst` is `INT32_MAX` (cost_sensitive.h:51), `minimum_difference` is 0
(optimization_task.h:54); the worst cost per label is used by the similarity bound only. -/
def costCfg (C : Costs) (q nF nL mls : Nat) (o : Options) (red : Nat → Bool) : Cfg where
  P := C.problem q nF nL
  mls := mls
  useLB := o.useLB
  useUB := o.useUB
  subUB := o.subUB
  simLB := o.simLB
  useTerm := o.useTerm
  useBr := o.useBr
  useDs := o.useDs
  md := 0
  worst := int32Max * q
  worstPer := fun _ => (q * C.worst nL).num
  simInst := none
  order := o.order
  redundant := red
  clock := o.clock
  sparse := false
  customLB := fun _ => 0

/-- `Solve` on a fresh solver: preprocess, then search. -/
def fitCostSensitive (C : Costs) (q nF nL mls : Nat) (o : Options) (t : Top) (T : Data) : Run × Bool :=
  Ctx.solve (costCfg C q nF nL mls o (isRedundant (C.problem q nF nL) mls T)) (C.prices q) t
    (preprocess (C.problem q nF nL) mls T)

end Streed
