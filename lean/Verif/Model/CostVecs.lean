import Verif.Model.LabelRange
import Verif.Model.Preprocess

/-!
# Cost vectors of any length

`STreeDInstanceCostSensitiveClassifier` takes an array of costs or a list of `CostVector` objects
(instance_cost_sensitive_classification.py:81-107). `none` is an exception: of Python, or `std::out_of_range` of `costs.at(label)`
(instance_cost_sensitive.h:20), which reaches Python as `IndexError`.
-/

namespace Streed

/-- Making a `CostVector` from a list (instance_cost_sensitive.h:13-15): the largest entry of an empty list is read through the end
iterator, undefined (`none`). -/
def makeCostVector (c : List Rat) : Option (List Rat × Rat) :=
  match c with
  | [] => none
  | x :: xs => some (x :: xs, xs.foldl max x)

/-- `np.argmin`: the first of the least entries; an empty list raises (instance_cost_sensitive_classification.py:102). -/
def argminFrom (best : Nat) (least : Rat) (j : Nat) : List Rat → Nat
  | [] => best
  | x :: xs => if x < least then argminFrom j x (j + 1) xs else argminFrom best least (j + 1) xs

/-- The label given to a row. -/
def argminVec : List Rat → Option Nat
  | [] => none
  | x :: xs => some (argminFrom 0 x 1 xs)

/-- What is given as costs: a two-dimensional array with its number of columns, or a list of `CostVector`s. -/
inductive VecInput
  | array (width : Nat) (rows : List (List Rat))
  | list (vs : List (List Rat))

/-- The cost vectors. -/
def VecInput.vecs : VecInput → List (List Rat)
  | .array _ rows => rows
  | .list vs => vs

/-- The checks of the shape (instance_cost_sensitive_classification.py:83-92): `n` is the stored number of classes, `none` in a call of `fit`. Lists are
not checked. -/
def VecInput.shapeOK (n : Option Nat) : VecInput → Bool
  | .array w _ => decide (2 ≤ w) && (match n with | none => true | some k => k == w)
  | .list _ => true

/-- `_check_data` (instance_cost_sensitive_classification.py:81-107): the labels and the new number of classes. -/
def checkVecs (n : Option Nat) (y : VecInput) : Option (List Nat × Nat) :=
  if y.shapeOK n then
    (y.vecs.mapM argminVec).map fun ls => (ls, match n with | none => y.vecs.foldl (fun m v => max m v.length) 0 | some k => k)
  else none

/-- The number of labels of the view (bindings.cpp:79-82). -/
def vecLabels (ls : List Nat) : Nat := ls.foldl (fun m l => max m (l + 1)) 0

/-- `InformTrainData` (instance_cost_sensitive.cpp:40-57): every cost of a label of the view is read, in every row. The largest of each label. -/
def worstPerLabel (nL : Nat) (vs : List (List Rat)) : Option (List Rat) :=
  (List.range nL).mapM fun l => vs.foldlM (fun (w : Rat) v => (v[l]?).map fun c => if c > w then c else w) 0

/-- `fit` up to the search: the labels considered, or an exception. -/
def startVecs (y : VecInput) : Option (List Nat × Nat) :=
  (checkVecs none y).bind fun r => (worstPerLabel (vecLabels r.1) y.vecs).map fun _ => (r.1, vecLabels r.1)

/-- `GetLeafCosts` (instance_cost_sensitive.cpp:14-24) of the rows with the given numbers. -/
def vecLeaf (vs : List (List Rat)) (D : Data) (label : Nat) : Option Rat :=
  D.foldlM (fun (s : Rat) i => ((vs[i.id]?).bind fun v => v[label]?).map fun c => s + c) 0

/-- The cost of a tree: that of its leaves (optimization_utils.h:176-195). -/
def vecCost (vs : List (List Rat)) : Tree → Data → Option Rat
  | .leaf k, D => vecLeaf vs D k
  | .node f l r, D => (vecCost vs l (without f D)).bind fun x => (vecCost vs r (having f D)).map fun y => x + y

/-- `score` (instance_cost_sensitive_classification.py:154-168): the check with the stored number of classes, then the total of the test rows. -/
def scoreVecs (n : Nat) (t : Tree) (y : VecInput) (D : Data) : Option Rat :=
  (checkVecs (some n) y).bind fun _ => vecCost y.vecs t D

end Streed
