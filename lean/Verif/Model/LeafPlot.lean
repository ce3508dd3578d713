import Verif.Model.LabelRange
import Verif.Model.Export

/-!
# What the exported graph of the instance-cost-sensitive classifier says (instance_cost_sensitive_classification.py)

Costs are natural numbers, in units small enough for all given costs. `w i k` is the cost of label `k` for row `i`.
-/

namespace Streed

/-- `Solve` from Python with cost vectors of length `K`, as `fitCostVectors`: the rebuilt tree with its flips undone, and its train value
(solver.cpp:80-209). -/
def fitCostVectorsTree (extraCols nF K u : Nat) (w : Nat → Nat → Nat) (mls : Nat) (o : Options) (t : Top) (T : Data) : Option (Option Fitted) :=
  let D := costInstances K w T
  let P := instProblem nF (trainLabels extraCols D) w
  let c : Cfg := { instCfg nF (trainLabels extraCols D) u w mls o (isRedundant P mls D) with simInst := some fun i => (instWorst K w i : Nat) }
  (Tol.returned c (preprocess P mls D) (fitCostVectors extraCols nF K u w mls o t T).1).map fun x =>
    x.map fun tr => ⟨unflip (flipped P D) tr, trainValue P tr (preprocess P mls D) 0⟩

/-- The title of a picture: `N`, `Best` and `Costs`. -/
structure PlotTitle where
  rows : Nat
  best : Nat
  costs : Rat
  deriving Repr, DecidableEq

/-- The title that `_export_bar_plot` and the fallback of branching nodes compute (instance_cost_sensitive_classification.py:203-210, 226,
239-247): the costs of every label are summed over the rows and divided by their number; the best label is the first of the least. Without
rows the quotients are not numbers (`none`). -/
def plotTitle (K : Nat) (w : Nat → Nat → Nat) (D : Data) : Option PlotTitle :=
  if D.length = 0 then none
  else
    let sums : Nat → Nat := fun k => (D.map fun i => w i.id k).sum
    let best := npArgmin sums K
    some ⟨D.length, best, (sums best : Rat) / D.length⟩

/-- `_recursive_export_dot` with `_split` (base.py:456-477): the number of every node with the title of its picture. A row goes left if its
feature is 0. -/
def plotTitles (K : Nat) (w : Nat → Nat → Nat) : Tree → Nat → Data → List (Nat × Option PlotTitle)
  | .leaf _, id, D => [(id, plotTitle K w D)]
  | .node f l r, id, D => (id, plotTitle K w D) ::
      (plotTitles K w l (id * 2 + 1) (without f D) ++ plotTitles K w r (id * 2 + 2) (having f D))

/-- The number of the leaf that a row reaches (base.py:456-470). -/
def leafNumber : Tree → Nat → Inst → Nat
  | .leaf _, id, _ => id
  | .node f l r, id, x => if x.feat f then leafNumber r (id * 2 + 2) x else leafNumber l (id * 2 + 1) x

end Streed
