import Mathlib.Data.Rat.Defs
import Mathlib.Algebra.Order.Ring.Int

/-!
# Which column the fairness limit is applied to (group_fair.py, binarizer.py)

Column names are numbers and differ. Values of a column without numbers are coded by numbers other than 0 and 1.
-/

namespace Streed

/-- A column of a data frame. -/
structure Column where
  name : Nat
  numeric : Bool
  vals : List Rat
  deriving DecidableEq, Repr

/-- A data frame. -/
abbrev Frame := List Column

/-- A column of the binarised data, and the column it is made from. -/
structure BinColumn where
  source : Nat
  vals : List Bool
  deriving DecidableEq, Repr

/-- `not set(X[col].unique()) - set([0,1])` (binarizer.py:22). -/
def Column.binary (c : Column) : Bool := c.vals.all fun v => v == 0 || v == 1

/-- `get_column_types` (binarizer.py:16-29) without a list of categorical columns: the binary, the categorical and the continuous columns. -/
def columnTypes (X : Frame) : Frame × Frame × Frame :=
  (X.filter Column.binary, X.filter fun c => !c.numeric, X.filter fun c => c.numeric && !c.binary)

/-- `Binarizer.transform` (binarizer.py:87-117): binary columns first, then what becomes of the categorical ones (`cat`), then of the continuous ones
(`cont`). -/
def binariseFrame (cat cont : Column → List (List Bool)) (X : Frame) : List BinColumn :=
  let T := columnTypes X
  T.1.map (fun c => ⟨c.name, c.vals.map fun v => v == 1⟩) ++
    (T.2.1.flatMap (fun c => (cat c).map fun v => ⟨c.name, v⟩) ++ T.2.2.flatMap fun c => (cont c).map fun v => ⟨c.name, v⟩)

/-- `sensitive_feature`: an index or a name. -/
inductive Sensitive
  | index (i : Int)
  | name (n : Nat)
  deriving DecidableEq, Repr

/-- `a[i]` in Python: negative indices count from the end. -/
def pyIndex (n : Nat) (i : Int) : Option Nat :=
  if 0 ≤ i then (if i.toNat < n then some i.toNat else none) else if -i ≤ n then some (n - (-i).toNat) else none

/-- `X.pop(name)` and `X.insert(0, name, column)`. -/
def popInsert (X : Frame) (c : Column) : Frame := c :: X.filter fun d => d.name != c.name

/-- `_move_sensitive_feature_first` on a data frame (group_fair.py:88-106); `none` if it raises. The frame is changed in place, so the result
is also what the caller's frame is afterwards. -/
def moveFirstFrame (s : Sensitive) (X : Frame) : Option Frame :=
  match s with
  | .index i =>
    if i = 0 then some X
    else match pyIndex X.length i with
      | none => none
      | some j => X[j]?.map (popInsert X)
  | .name n => (X.find? fun c => c.name == n).map (popInsert X)

/-- `range(a, b)`. -/
def pyRange (a b : Int) : List Int := (List.range (b - a).toNat).map fun k : Nat => a + k

/-- `X[:, idx]` on an array; `none` if an index is out of range. -/
def takeColumns (X : Frame) (idx : List Int) : Option Frame := idx.mapM fun i => (pyIndex X.length i).bind fun j => X[j]?

/-- `_move_sensitive_feature_first` on an array (group_fair.py:89-96). The result is a new array. A name raises, since an array has no
`columns`. -/
def moveFirstArray (s : Sensitive) (X : Frame) : Option Frame :=
  match s with
  | .index i => if i = 0 then some X else takeColumns X (i :: (pyRange 0 i ++ pyRange (i + 1) X.length))
  | .name _ => none

/-- The data that `fit` of the fairness classifier hands to the solver (group_fair.py:108-131, base.py:257-260), if `moved` is the frame with
the sensitive column first. `categorical` is passed on as extra data, and `_process_extra_data` (base.py:210-217) raises if there are
any. -/
def fairFit (cat cont : Column → List (List Bool)) (moved : Option Frame) (categorical : Bool) : Option (List BinColumn) :=
  if categorical then none else moved.map (binariseFrame cat cont)

/-- The column the solver measures discrimination on: feature 0 (group_fairness.cpp:11, 25, 38, 55). -/
def measured (D : List BinColumn) : Option BinColumn := D.head?

end Streed
