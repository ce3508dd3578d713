import Verif.Model.Sensitive
import Verif.Spec

/-!
# From data frames to the bits of the solver, and the columns of linear leaves

`Binarizer.fit` and `Binarizer.transform` (binarizer.py:49-117), which find columns by name; `_get_continuous_columns` of the
piecewise-linear regressor (regression.py:198-225) with the state it keeps between calls; and the loading of labels
(bindings.cpp:49-84). Column names are numbers and differ; an array is a frame whose names are the positions.
-/

namespace Streed

/-- `X[name]`. -/
def Frame.col (X : Frame) (n : Nat) : Option Column := X.find? fun c => c.name == n

/-- `get_column_types` on a data frame (binarizer.py:16-29): names of the binary, the categorical and the continuous columns, given the list
of columns declared categorical. -/
def frameTypes (given : List Nat) (X : Frame) : List Nat × List Nat × List Nat :=
  let cat := given ++ (X.filter fun c => !given.contains c.name && !c.numeric).map (·.name)
  let bin := (X.filter Column.binary).map (·.name)
  (bin, cat, (X.filter fun c => !cat.contains c.name && !bin.contains c.name).map (·.name))

/-- `get_column_types` on an array (binarizer.py:24-26): nothing is found to be categorical. -/
def arrayTypes (given : List Nat) (X : Frame) : List Nat × List Nat × List Nat :=
  let bin := (X.filter Column.binary).map (·.name)
  (bin, given, (X.filter fun c => !given.contains c.name && !bin.contains c.name).map (·.name))

/-- A fitted `Binarizer`: the names of its columns with the tests made for them. -/
structure FittedBin where
  bin : List Nat
  cat : List (Nat × List (Rat → Bool))
  cont : List (Nat × List Rat)

/-- `Binarizer.fit` (binarizer.py:49-79) with the column types already found. `tests` is `CategoricalBinarizer.fit` and `cuts` is
`KThresholdBinarizer.fit` on one column (`Model/Binarizer.lean`). `none`: a declared column does not exist. -/
def fitBin (tests : Column → List (Rat → Bool)) (cuts : Column → List Rat) (ty : List Nat × List Nat × List Nat) (X : Frame) :
    Option FittedBin := do
  let cat ← ty.2.1.mapM fun n => (X.col n).map fun c => (n, tests c)
  let cont ← ty.2.2.mapM fun n => (X.col n).map fun c => (n, cuts c)
  some ⟨ty.1, cat, cont⟩

/-- A value of a binary column on its way to the solver: converted to an integer, which drops the fraction (base.py:208), then to a truth
value (bindings.cpp:73). -/
def bitOf (v : Rat) : Bool := decide (1 ≤ v ∨ v ≤ -1)

/-- `Binarizer.transform` (binarizer.py:81-117): the columns of the result. `none`: a column is missing. -/
def FittedBin.transform (F : FittedBin) (X : Frame) : Option (List (List Bool)) := do
  let bin ← F.bin.mapM fun n => (X.col n).map fun c => c.vals.map bitOf
  let cat ← F.cat.mapM fun p => (X.col p.1).map fun c => p.2.map fun t => c.vals.map t
  let cont ← F.cont.mapM fun p => (X.col p.1).map fun c => p.2.map fun t => c.vals.map fun v => decide (v ≤ t)
  some (bin ++ (cat.flatten ++ cont.flatten))

/-- Row `r` of a matrix given by columns, as an instance. -/
def rowInst (cols : List (List Bool)) (r : Nat) : Inst := ⟨r, fun f => (cols.getD f []).getD r false, 0⟩

/-- `predict` (base.py:289-307): binarise `n` rows, let every row find its leaf. -/
def predictFrame (F : FittedBin) (t : Tree) (X : Frame) (n : Nat) : Option (List Nat) :=
  (F.transform X).map fun cols => (List.range n).map fun r => t.predict (rowInst cols r)

/-! ### Columns of linear leaves -/

/-- The argument `continuous_columns`: absent, a list of columns, or the values themselves. -/
inductive ColsArg
  | absent
  | names (l : List Nat)
  | values (V : Frame)

/-- What the regressor keeps between calls: `continuous_columns_` and `categorical_columns_`. -/
structure LinSt where
  cols : Option (List Nat)
  cat : List Nat

/-- A new regressor (regression.py:176-178). -/
def LinSt.init : LinSt := ⟨none, []⟩

/-- `_get_continuous_columns` (regression.py:198-225) with `types` for the two kinds of data: the columns that are handed to the leaves, and the
state afterwards. `none`: an error is raised. -/
def LinSt.columns (types : List Nat → Frame → List Nat × List Nat × List Nat) (s : LinSt) (X : Frame) (arg : ColsArg) :
    Option (Frame × LinSt) :=
  let named (l : List Nat) : Option (Frame × LinSt) := (l.mapM X.col).map fun cs => (cs, { s with cols := some l })
  match arg with
  | .names l => named l
  | .values V => some (V, s)
  | .absent =>
    match s.cols with
    | some l => named l
    | none =>
      let l := (types s.cat X).2.2
      if l.length = 0 then none else named l

/-- `fit` (regression.py:227-259) as far as the columns go. -/
def LinSt.fit (types : List Nat → Frame → List Nat × List Nat × List Nat) (s : LinSt) (X : Frame) (arg : ColsArg) (cat : List Nat) :
    Option (Frame × LinSt) :=
  LinSt.columns types { s with cat := cat } X arg

/-- A sequence of `predict` calls (regression.py:261-264) without `continuous_columns`: the columns each of them uses. -/
def LinSt.predicts (types : List Nat → Frame → List Nat × List Nat × List Nat) : LinSt → List Frame → Option (List Frame)
  | _, [] => some []
  | s, X :: Xs => do
    let (cs, s) ← s.columns types X .absent
    let rest ← s.predicts types Xs
    some (cs :: rest)

/-- `LinearModel::Predict` (piecewise_linear_regression.cpp:50-56) for row `r`: intercept and coefficients; `none`: reading past the end of the
values of the instance. -/
def linPredict (b0 : Rat) (b : List Rat) (cs : Frame) (r : Nat) : Option Rat :=
  if cs.length < b.length then none
  else some (b0 + ((b.zip cs).map fun p => p.1 * p.2.vals.getD r 0).sum)

/-! ### Labels -/

/-- What happens when labels are loaded. -/
inductive Loaded
  | ok (groups : List (List Nat))
  /-- a C++ exception, raised in Python -/
  | raises
  /-- an access out of range -/
  | undef
  deriving DecidableEq, Repr

/-- `instances_per_label[i].push_back(instance)` after resizing. -/
def pushAt : List (List Nat) → Nat → Nat → List (List Nat)
  | [], _, _ => []
  | g :: gs, 0, i => (g ++ [i]) :: gs
  | g :: gs, k + 1, i => g :: pushAt gs k i

/-- The loop over the rows in `NumpyToSTreeDData` (bindings.cpp:66-84) for class labels: rows are numbered from `i`. The comparison
`instances_per_label.size() <= i_label` is unsigned: a negative label is larger than every size. Then `resize(i_label + 1)` empties the
vector for `-1`, whose last element is then accessed, and exceeds the maximal size below. -/
def loadLabels : List Int → Nat → List (List Nat) → Loaded
  | [], _, gs => .ok gs
  | y :: ys, i, gs =>
    if y = -1 then .undef
    else if y < -1 then .raises
    else
      let k := y.toNat
      let gs := if gs.length ≤ k then gs ++ List.replicate (k + 1 - gs.length) [] else gs
      loadLabels ys (i + 1) (pushAt gs k i)

end Streed
