import Verif.Model.RealTree

/-!
# Fitting plain regression

`Regression` (tasks/regression/regression.h, .cpp): squared error without a price per node. Unlike cost-complexity regression the
instances are not merged. The targets are real numbers; all instances are stored under label 0 (bindings.cpp:55-84). As in
`Model/RegFit.lean` a leaf chooses among the means of all parts of the training targets, costs are integers in units of `1 / q`, and
rounding of doubles is not modelled.
-/

namespace Streed

/-- The instances as the solver stores them: all under label 0 (bindings.cpp:63, 76-84). -/
def oneLabel (T : Data) : Data := T.map fun i => { i with label := 0 }

/-- The row with this id, whose target the instance object holds. -/
def rowOf (T : Data) (id : Nat) : Inst := (T.find? fun i => i.id == id).getD ⟨0, fun _ => false, 0⟩

/-- Squared error of single instances (regression.cpp:19-26), no branching costs. -/
def plainProblem (nF q : Nat) (tg : Nat → Rat) (T : Data) : Problem :=
  { userProblem nF q 0 tg T with cost := fun i k => (userProblem nF q 0 tg T).cost (rowOf T i.id) k }

/-- `SolveLeafNode` (regression.cpp:5-17): label and error of a leaf with these targets. -/
def plainLeaf (ys : List Rat) : Rat × Rat :=
  let ysq := ys.foldl (fun s y => s + y * y) 0
  let y := ys.foldl (fun s y => s + y) 0
  (y / ys.length, ysq - y * y / ys.length)

/-- What the depth-two solver computes for a leaf (regression.cpp:28-46): the sums of targets and squares, each added or removed with
a multiplier, are turned into an error and a label. -/
def plainD2 (ys yys : Rat) (count : Nat) : Rat × Rat :=
  if count = 0 then (0, 0)
  else
    let costs := yys - ys * ys / count
    (ys / count, if costs < 0 then 0 else costs)

/-- The configuration of a run: no minimum difference (optimization_task.h), worst value `DBL_MAX` and worst value per label `DBL_MAX`
(regression.h:29, 43), no similarity bound of its own, not a sparse objective, no custom lower bound. -/
def plainCfg (nF q : Nat) (tg : Nat → Rat) (mls : Nat) (o : Options) (red : Nat → Bool) (T : Data) : Cfg where
  P := plainProblem nF q tg T
  mls := mls
  useLB := o.useLB
  useUB := o.useUB
  subUB := o.subUB
  simLB := o.simLB
  useTerm := o.useTerm
  useBr := o.useBr
  useDs := o.useDs
  md := 0
  worst := (q * largestDouble : Nat)
  worstPer := fun _ => (q * largestDouble : Nat)
  simInst := none
  order := o.order
  redundant := red
  clock := o.clock
  sparse := false
  customLB := fun _ => 0

/-- `Solve` on a fresh solver (solver.cpp:80-174): preprocess, then search with the comparisons of doubles. -/
def fitPlain (nF q : Nat) (tg : Nat → Rat) (mls : Nat) (o : Options) (t : Top) (T : Data) : Run × Bool :=
  let P := plainProblem nF q tg T
  Tol.solve (plainCfg nF q tg mls o (isRedundant P mls (oneLabel T)) T) t (preprocess P mls (oneLabel T))

/-- The returned tree and its train value (solver.cpp:80-209) in units of `1 / q`. Labels of leaves are positions in `leafValues`. -/
def fitPlainTree (nF q : Nat) (tg : Nat → Rat) (mls : Nat) (o : Options) (t : Top) (T : Data) : Option (Option Fitted) :=
  let P := plainProblem nF q tg T
  let D := preprocess P mls (oneLabel T)
  (Tol.returned (plainCfg nF q tg mls o (isRedundant P mls (oneLabel T)) T) D (fitPlain nF q tg mls o t T).1).map fun x =>
    x.map fun tr => ⟨unflip (flipped P (oneLabel T)) tr, trainValue P tr D 0⟩

end Streed
