import Verif.Model.InstCosts
import Verif.Model.KMeans
import Verif.Model.EquivPoints

/-!
# Fitting cost-complexity regression

`CostComplexRegression` (tasks/regression/cost_complex_regression.h, .cpp): squared error plus a price per branching node,
on instances merged by their features.

The target of an instance is `tg` of its label. A leaf of the code predicts the mean of its targets; here the search
chooses among the means of all non-empty sublists of the training targets, which include every mean that the code can
compute. That the best of them costs what `SolveLeafNode` and `ComputeD2Costs` return is proved in
`Verif/Props/RegFit.lean`. Costs are integers in units of `1 / q`; rounding of doubles is not modelled, and comparisons are
exact.
-/

namespace Streed

/-- The mean of some targets. -/
def meanOf (l : List Rat) : Rat := l.sum / l.length

/-- The values that a leaf may predict. -/
def leafValues (tg : Nat → Rat) (T : Data) : List Rat :=
  (((T.map fun i => tg i.label).sublists).filter fun l => !l.isEmpty).map meanOf

/-- Squared error of single instances (cost_complex_regression.cpp:198-210) in units of `1 / q`; `bc` is the price of a
branching node (cost_complex_regression.h, `GetBranchingCosts`). -/
def regProblem (nF q : Nat) (tg : Nat → Rat) (vals : List Rat) (bc : Rat) : Problem where
  nF := nF
  nL := vals.length
  may := fun _ => true
  cost := fun i k => (q * (tg i.label - vals.getD k 0) ^ 2 : Rat).num
  bc := (q * bc : Rat).num

/-- `branching_cost` (cost_complex_regression.cpp:61-84): the parameter times the squared error of the best single leaf. -/
def regPrice (ccp : Rat) (tg : Nat → Rat) (T : Data) : Rat :=
  ccp * ((T.map fun i => tg i.label * tg i.label).sum -
    (T.map fun i => tg i.label).sum * (T.map fun i => tg i.label).sum / T.length)

/-- The runs of instances with equal features, which `PreprocessTrainData` merges (cost_complex_regression.cpp:93-150).
The store in which it does so is modelled in `Verif/Model/Regression.lean`. -/
def runsOf : List EInst → List (List EInst)
  | [] => []
  | e :: l =>
    match runsOf l with
    | (a :: r) :: rs => if e.gid = a.gid then (e :: a :: r) :: rs else [e] :: (a :: r) :: rs
    | rs => [e] :: rs

/-- The merged instance: id and features of the first one of the run (cost_complex_regression.cpp:106-124). All instances
are under label 0 in the data view. -/
def mergedInst (r : List EInst) : Inst :=
  match r with
  | [] => ⟨0, fun _ => false, 0⟩
  | e :: _ => { e.inst with label := 0 }

/-- The instances that were merged into the one with this id. -/
def rowsWith (R : List (List EInst)) (id : Nat) : List EInst := (R.find? fun r => (mergedInst r).id == id).getD []

/-- Sum of targets, sum of squares and weight of a merged instance (cost_complex_regression.cpp:93-150). -/
def runInst (tg : Nat → Rat) (r : List EInst) : RInst :=
  ⟨(mergedInst r).id, (r.map EInst.gid).headD 0, (r.map fun e => tg e.inst.label).sum,
    (r.map fun e => tg e.inst.label * tg e.inst.label).sum, r.length⟩

/-- The problem on the merged instances: each costs what its parts cost. -/
def mergedProblem (P : Problem) (R : List (List EInst)) : Problem :=
  { P with cost := fun i k => ((rowsWith R i.id).map fun e => P.cost e.inst k).sum }

/-- A view as `ComputeLowerBound` and `SolveLeafNode` see it. -/
def viewInsts (tg : Nat → Rat) (R : List (List EInst)) (D : Data) : List RInst :=
  D.map fun i => runInst tg (rowsWith R i.id)

/-- The bound of the task in units, rounded down (cost_complex_regression.cpp:237-347): the equivalent-points bound, or, for `some n`,
the k-means bound asked for with `n` nodes. The k-means bound depends on the number of nodes, which this model fixes: it is
the code's bound where the search asks with `n` nodes only, as at depth one. -/
def regLB (q : Nat) (tg : Nat → Rat) (R : List (List EInst)) (bc : Rat) (clusters : Option Nat) (D : Data) : Int :=
  match clusters with
  | none => (q * (KM.regressionLB false bc [] (viewInsts tg R D) 0).1 : Rat).floor
  | some n => (q * (KM.regressionLB true bc [] (viewInsts tg R D) n).1 : Rat).floor

/-- The configuration of a run: no minimum difference (optimization_task.h), worst value `DBL_MAX`, its own similarity bound
(cost_complex_regression.cpp:349-383), sparse objective (solver.h:110). -/
def regCfg (nF q : Nat) (tg : Nat → Rat) (vals : List Rat) (bc : Rat) (clusters : Option Nat) (o : Options) (red : Nat → Bool)
    (R : List (List EInst)) (range : Rat × Rat) : Cfg where
  P := mergedProblem (regProblem nF q tg vals bc) R
  mls := 1
  useLB := o.useLB
  useUB := o.useUB
  subUB := o.subUB
  simLB := o.simLB
  useTerm := o.useTerm
  useBr := o.useBr
  useDs := o.useDs
  md := 0
  worst := (q * largestDouble : Nat)
  worstPer := fun _ => 0
  simInst := some fun i => (q * ccrRemoved range (runInst tg (rowsWith R i.id)) : Rat).ceil
  order := o.order
  redundant := red
  clock := o.clock
  sparse := true
  customLB := regLB q tg R bc clusters

/-- Smallest and largest target (cost_complex_regression.cpp:63-74). -/
def targetRange (tg : Nat → Rat) (T : Data) : Rat × Rat :=
  match T.map fun i => tg i.label with
  | [] => (0, 0)
  | y :: l => ccrRange ⟨0, 0, y, y * y, 1⟩ (l.map fun z => ⟨0, 0, z, z * z, 1⟩)

/-- The problem that the user poses. -/
def userProblem (nF q : Nat) (ccp : Rat) (tg : Nat → Rat) (T : Data) : Problem :=
  regProblem nF q tg (leafValues tg T) (regPrice ccp tg T)

/-- The configuration for training data `T`, sorted as `S`. -/
def fitCfg (nF q : Nat) (ccp : Rat) (tg : Nat → Rat) (clusters : Option Nat) (o : Options) (T S : Data) : Cfg :=
  regCfg nF q tg (leafValues tg T) (regPrice ccp tg T) clusters o (isRedundant (userProblem nF q ccp tg T) 1 T)
    (runsOf (assignGroups nF S)) (targetRange tg T)

/-- The merged training data. -/
def mergedData (nF : Nat) (S : Data) : Data := (runsOf (assignGroups nF S)).map mergedInst

/-- `Solve` on a fresh solver for training data `T`, where `S` is what sorting the preprocessed data by features leaves
(solver.cpp:1157-1229, cost_complex_regression.cpp:10-51). -/
def fitRegression (nF q : Nat) (ccp : Rat) (tg : Nat → Rat) (clusters : Option Nat) (o : Options) (t : Top) (T S : Data) :
    Run × Bool :=
  solve (fitCfg nF q ccp tg clusters o T S) t (mergedData nF S)

/-- The same with the tolerant comparisons of doubles (optimization_utils.h:193-218). -/
def fitRegressionTol (nF q : Nat) (ccp : Rat) (tg : Nat → Rat) (clusters : Option Nat) (o : Options) (t : Top) (T S : Data) :
    Run × Bool :=
  Tol.solve (fitCfg nF q ccp tg clusters o T S) t (mergedData nF S)

end Streed
