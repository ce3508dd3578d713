import Verif.Model.Fit
import Verif.Model.Tol
import Verif.Model.EquivPoints

/-!
# Fitting the complexity-penalised classifier

`CostComplexAccuracy` (tasks/accuracy/cost_complex_accuracy.h, .cpp): misclassifications plus a fixed price per
branching node. The price in the code is the double `cost_complexity * n`; here an error costs `e` and a node `p`
units, so that every rational price is `p / e`. Rounding of doubles is not modelled.
-/

namespace Streed

/-- `GetLeafCosts` and `GetBranchingCosts` (cost_complex_accuracy.cpp:42-49, cost_complex_accuracy.h:51-53), in units:
`e` for an error and `p` for a branching node. -/
def penalised (nF nL e p : Nat) : Problem where
  nF := nF
  nL := nL
  may := fun _ => true
  cost := fun i k => if i.label = k then 0 else e
  bc := p

/-- `ComputeLowerBound` of the task (cost_complex_accuracy.cpp:51-150) for a view: the group of an instance is looked
up by its id. On an empty view, where the code is undefined, the bound is 0; the search does not ask for it with a leaf
size of at least one. -/
def ccaLB (nL e : Nat) (E : List EInst) (D : Data) : Int :=
  (e : Int) * ((equivBound nL (D.map fun i => ⟨i, ((E.find? fun x => x.inst.id == i.id).map (·.gid)).getD 0⟩)).getD 0 : Nat)

/-- The configuration of a run: no minimum difference (optimization_task.h), worst value `INT32_MAX` errors, worst case
per label one error (cost_complex_accuracy.h:36-38, 62), sparse objective (solver.h:110), equivalent-points bound. -/
def ccaCfg (nF nL e p mls : Nat) (o : Options) (red : Nat → Bool) (E : List EInst) : Cfg where
  P := penalised nF nL e p
  mls := mls
  useLB := o.useLB
  useUB := o.useUB
  subUB := o.subUB
  simLB := o.simLB
  useTerm := o.useTerm
  useBr := o.useBr
  useDs := o.useDs
  md := 0
  worst := e * int32Max
  worstPer := fun _ => e
  simInst := none
  order := o.order
  redundant := red
  clock := o.clock
  sparse := true
  customLB := ccaLB nL e E

/-- `Solve` on a fresh solver for training data `T`, where `S` is what sorting the preprocessed data by features leaves
(solver.cpp:1157-1229, cost_complex_accuracy.cpp:5-40). -/
def fitPenalised (nF nL e p mls : Nat) (o : Options) (t : Top) (T S : Data) : Run × Bool :=
  solve (ccaCfg nF nL e p mls o (isRedundant (penalised nF nL e p) mls T) (assignGroups nF S)) t
    ((assignGroups nF S).map (·.inst))

/-- The same with the comparisons of doubles (optimization_utils.h:193-218), which are the ones this task uses. -/
def fitPenalisedTol (nF nL e p mls : Nat) (o : Options) (t : Top) (T S : Data) : Run × Bool :=
  Tol.solve (ccaCfg nF nL e p mls o (isRedundant (penalised nF nL e p) mls T) (assignGroups nF S)) t
    ((assignGroups nF S).map (·.inst))

end Streed
