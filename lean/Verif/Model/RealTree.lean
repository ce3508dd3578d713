import Verif.Model.TolTree
import Verif.Model.Penalised
import Verif.Model.PolicyFit
import Verif.Model.RegFit

/-!
# The tree returned by tasks with real-valued costs

As `Model/FitTree.lean`, with the comparisons of doubles. `none` if no solution is added to the result, `some none` for undefined
behaviour while the tree is rebuilt.
-/

namespace Streed

/-- `Solve` for `InstanceCostSensitive` on a fresh solver (solver.cpp:80-209): the rebuilt tree with its flips undone, and its train value,
which is the train score of this task (instance_cost_sensitive.h). -/
def fitCostsTree (nF nL u : Nat) (w : Nat → Nat → Nat) (mls : Nat) (o : Options) (t : Top) (T : Data) : Option (Option Fitted) :=
  let P := instProblem nF nL w
  let D := preprocess P mls T
  (Tol.returned (instCfg nF nL u w mls o (isRedundant P mls T)) D (fitCosts nF nL u w mls o t T).1).map fun x =>
    x.map fun tr => ⟨unflip (flipped P T) tr, trainValue P tr D 0⟩

/-- `Solve` for `PrescriptivePolicy` (solver.cpp:80-209), value in units of `1 / u`. -/
def fitPolicyTree (nF nL u : Nat) (ext : Inst → Treatment) (m : Teacher) (mls : Nat) (o : Options) (t : Top) (T : Data) : Option (Option Fitted) :=
  let P := instProblem nF nL (policyUnits u (costRows ext m nL T))
  let D := preprocess P mls T
  (Tol.returned (policyCfg nF nL u ext m mls o (isRedundant P mls T) T) D (fitPolicy nF nL u ext m mls o t T).1).map fun x =>
    x.map fun tr => ⟨unflip (flipped P T) tr, trainValue P tr D 0⟩

/-- `Solve` for `CostComplexAccuracy` (solver.cpp:80-209) with the comparisons that this task uses; `fitPenalisedTree` has exact ones. -/
def fitPenalisedTreeTol (nF nL e p mls : Nat) (o : Options) (t : Top) (T S : Data) : Option (Option Fitted) :=
  let P := penalised nF nL e p
  let D := (assignGroups nF S).map (·.inst)
  (Tol.returned (ccaCfg nF nL e p mls o (isRedundant P mls T) (assignGroups nF S)) D (fitPenalisedTol nF nL e p mls o t T S).1).map fun x =>
    x.map fun tr => ⟨unflip (flipped P T) tr, trainValue P tr D 0⟩

/-- `Solve` for `CostComplexRegression` (solver.cpp:80-209), value in units of `1 / q`. The train value is computed on the merged instances.
Labels of leaves are positions in `leafValues`. -/
def fitRegressionTree (nF q : Nat) (ccp : Rat) (tg : Nat → Rat) (clusters : Option Nat) (o : Options) (t : Top) (T S : Data) : Option (Option Fitted) :=
  let P := userProblem nF q ccp tg T
  let D := mergedData nF S
  (Tol.returned (fitCfg nF q ccp tg clusters o T S) D (fitRegressionTol nF q ccp tg clusters o t T S).1).map fun x =>
    x.map fun tr => ⟨unflip (flipped P T) tr, trainValue (mergedProblem P (runsOf (assignGroups nF S))) tr D 0⟩

end Streed
