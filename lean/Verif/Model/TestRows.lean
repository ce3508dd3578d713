import Verif.Model.FitTree
import Verif.Model.TestScore

/-!
# Fitting next to rows that are not trained on

The command line reads the training and the test rows into one dataset and preprocesses that (main.cpp:96-104,
file_reader.cpp:9-54), so that the features are flipped and disabled by counts over both.
-/

namespace Streed

/-- The rows `D` of a dataset `A` after `PreprocessData(data, true)` (main.cpp:97, solver.cpp:1157-1229): what is flipped and
disabled depends on all rows of the dataset. -/
def prepAmong (P : Problem) (mls : Nat) (A D : Data) : Data := D.map (prepInst (flipped P A) (isRedundant P mls A))

/-- `Solve(train_data)` of the command line (main.cpp:103): the training rows `T` of the dataset `A`. -/
def fitAmong (nF nL mls : Nat) (o : Options) (t : Top) (A T : Data) : Run × Bool :=
  solve (accCfg nF nL mls o (isRedundant (accuracy nF nL) mls A)) t (prepAmong (accuracy nF nL) mls A T)

/-- The tree and train value of the command line, as in `fitTree` (solver.cpp:172-191). -/
def fitTreeAmong (nF nL mls : Nat) (o : Options) (t : Top) (A T : Data) : Option (Option Fitted) :=
  let D := prepAmong (accuracy nF nL) mls A T
  (returned (accCfg nF nL mls o (isRedundant (accuracy nF nL) mls A)) D (fitAmong nF nL mls o t A T).1).map fun x =>
    x.map fun tr => ⟨unflip (flipped (accuracy nF nL) A) tr, trainValue (accuracy nF nL) tr D 0⟩

/-- `flipped_features` as it is stored (solver.cpp:1162-1179): one entry per feature. -/
def flipList (P : Problem) (A : Data) : List Nat := (List.range P.nF).map fun f => if flipped P A f then 1 else 0

/-- `FillDataView` (file_reader.cpp:56-77, the same loop as in `NumpyToSTreeDData`), then the preprocessing of the dataset
underneath: the view points to the rows, so they change in place. -/
def testView (P : Problem) (mls : Nat) (A D : Data) : View :=
  let v := loadRows D
  { v with groups := v.groups.map fun g => g.map (prepInst (flipped P A) (isRedundant P mls A)) }

/-- `TestPerformance(result, test_data)` of the command line (main.cpp:104-105, solver.cpp:1255-1265, result.h:75-88): the test
score and the sum of the path lengths of the tree that was returned. -/
def testAmong (nF nL mls : Nat) (A : Data) (t : Obj) (D : Data) : Option (Rat × Nat) := do
  let v := testView (accuracy nF nL) mls A D
  let r ← t.testWalk (flipList (accuracy nF nL) A) (· + ·) accLeafV v (0, 0)
  let s ← accScore v.size r.1
  pure (s, r.2)

end Streed
