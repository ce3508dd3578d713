import Verif.Model.Penalised
import Verif.Model.FitTree

/-! # The tree returned by the complexity-penalised classifier -/

namespace Streed

/-- `Solve` for `CostComplexAccuracy` on a fresh solver (solver.cpp:80-209) with exact comparisons: the tree is rebuilt on the sorted data
(cost_complex_accuracy.cpp:5-40), its train value, with the price of its branching nodes, is computed there and the flips are undone.
`none` if no solution is added to the result, `some none` for undefined behaviour. -/
def fitPenalisedTree (nF nL e p mls : Nat) (o : Options) (t : Top) (T S : Data) : Option (Option Fitted) :=
  let D := (assignGroups nF S).map (·.inst)
  (returned (ccaCfg nF nL e p mls o (isRedundant (penalised nF nL e p) mls T) (assignGroups nF S)) D (fitPenalised nF nL e p mls o t T S).1).map fun x =>
    x.map fun tr => ⟨unflip (flipped (penalised nF nL e p) T) tr, trainValue (penalised nF nL e p) tr D 0⟩

end Streed
