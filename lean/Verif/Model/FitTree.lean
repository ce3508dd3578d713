import Verif.Model.Fit
import Verif.Model.Reconstruct

/-!
# The result of fitting the accuracy classifier

What `Solve` hands back after the search (solver.cpp:172-191): the rebuilt tree with its flips undone, and its
train value.
-/

namespace Streed

/-- `Tree::ComputeTrainScore` (tree.h:77-97), the component `train_value`, with the value so far as accumulator.
The context only carries the branch and is left out. -/
def trainValue (P : Problem) : Tree → Data → Int → Int
  | .leaf k, D, a => a + leafCost P D k
  | .node f l r, D, a => trainValue P r (having f D) (trainValue P l (without f D) (a + P.bc))

/-- A solution of a `SolverTaskResult` (result.h:119-133): the tree and `train_value`, from which the train
score is computed (accuracy.h: `(size - value) / size`). -/
structure Fitted where
  tree : Tree
  value : Int
  deriving Repr, DecidableEq

/-- `Solve` for the accuracy task on a fresh solver (solver.cpp:80-209): `none` if no solution is added to the
result, `some none` if rebuilding the tree runs into undefined behaviour. The score is computed on the preprocessed data,
before the flips are undone (solver.cpp:188-189). -/
def fitTree (nF nL mls : Nat) (o : Options) (t : Top) (T : Data) : Option (Option Fitted) :=
  let D := preprocess (accuracy nF nL) mls T
  (returned (accCfg nF nL mls o (isRedundant (accuracy nF nL) mls T)) D (fitAccuracy nF nL mls o t T).1).map fun x =>
    x.map fun tr => ⟨unflip (flipped (accuracy nF nL) T) tr, trainValue (accuracy nF nL) tr D 0⟩

end Streed
