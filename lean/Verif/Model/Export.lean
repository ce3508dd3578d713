import Verif.Spec
import Mathlib.Data.Rat.Floor

/-!
# Text and graph exports of a fitted tree (tree.h, base.py)

Strings are lists of characters. Labels and features are natural numbers. A leaf never has the label `worst_label`.
-/

namespace Streed

/-- A non-negative integer as text. -/
def digits (n : Nat) : List Char := Nat.toDigits 10 n

/-- `Tree::ToString` and `BuildTreeString` (tree.h:144-160) for integer labels. -/
def treeString : Tree → List Char
  | .leaf k => '[' :: (digits k ++ [']'])
  | .node f l r => '[' :: (digits f ++ (',' :: (treeString l ++ (',' :: (treeString r ++ [']'])))))

/-- `_recursive_print_tree` (base.py:397-406). `pred` and `lab` give the text of a predicate and of a label. A line is written without its
final newline. -/
def printTree (pred lab : Nat → List Char) : Tree → List Char → List (List Char)
  | .leaf k, ind => [ind ++ "Label: ".toList ++ lab k]
  | .node f l r, ind =>
    (ind ++ (pred f ++ " not satisfied".toList)) :: (printTree pred lab l (ind ++ "|   ".toList) ++
      ((ind ++ (pred f ++ " satisfied".toList)) :: printTree pred lab r (ind ++ "|   ".toList)))

/-- `_get_predicate_str` without names (base.py:387-388). -/
def featureText (f : Nat) : List Char := "Feature ".toList ++ digits f

/-- `text.split(sep)` for a non-empty separator. `skip` characters of a separator are still to be dropped, `acc` is the current part in
reverse. -/
def splitText (sep : List Char) : List Char → Nat → List Char → List (List Char)
  | [], _, acc => [acc.reverse]
  | _ :: s, skip + 1, acc => splitText sep s skip acc
  | c :: s, 0, acc => if sep.isPrefixOf (c :: s) then acc.reverse :: splitText sep s (sep.length - 1) [] else splitText sep s 0 (c :: acc)

/-- What `_get_predicate_str` can raise: too many or too few parts, no number, a feature without name. -/
inductive NameErr
  | unpack
  | notANumber
  | index
  deriving DecidableEq, Repr

/-- `_get_predicate_str` with names (base.py:389-395). `fmt` is `_dynamic_float_formatter(float(·))`, with `none` if `float` raises a
`ValueError`. `cmp` is the comparison sign, which depends on the export. -/
def predicateText (fmt : List Char → Option (List Char)) (cmp : List Char) (names : List (List Char)) (f : Nat) : Except NameErr (List Char) :=
  match names[f]? with
  | none => .error .index
  | some name =>
    if 1 < (splitText " <= ".toList name 0 []).length then
      match splitText " <= ".toList name 0 [] with
      | [n, t] =>
        if 3 ≤ t.length then
          match fmt t with
          | none => .error .notANumber
          | some t => .ok (n ++ (" ".toList ++ cmp ++ " ".toList) ++ t)
        else .ok (n ++ (" ".toList ++ cmp ++ " ".toList) ++ t)
      | _ => .error .unpack
    else .ok name

/-- The nearest integer, ties to the even one. -/
def roundEven (x : Rat) : Int :=
  let n := x.floor
  if x - n < 1 / 2 then n
  else if 1 / 2 < x - n then n + 1
  else if n % 2 = 0 then n else n + 1

/-- The number that `_dynamic_float_formatter` writes (utils.py:46-54). Simplified: `none` for non-integers of at least `10^6` or at most
`10^-4` in absolute value, which are written with an exponent. -/
def shownNumber (t : Rat) : Option Rat :=
  let a := if 0 ≤ t then t else -t
  if t.den = 1 then some t
  else if 1000000 ≤ a ∨ a ≤ 1 / 10000 then none
  else if 100 ≤ a then some (roundEven (t * 100) / 100)
  else some (roundEven (t * 1000000) / 1000000)

/-- A line of the graph: a leaf, a predicate, or an edge. -/
inductive DotLine
  | leaf (id label : Nat)
  | pred (id feature : Nat)
  | edge (parent child : Nat) (label : Bool)
  deriving DecidableEq, Repr

/-- The edge from the parent (base.py:461-465). -/
def dotEdge (id : Nat) : List DotLine := if 0 < id then [.edge ((id - 1) / 2) id (id % 2 == 0)] else []

/-- `_recursive_export_dot` (base.py:456-470). -/
def exportDot : Tree → Nat → List DotLine
  | .leaf k, id => .leaf id k :: dotEdge id
  | .node f l r, id => .pred id f :: (dotEdge id ++ (exportDot l (id * 2 + 1) ++ exportDot r (id * 2 + 2)))

/-- Whether the label of a leaf has a colour. -/
def DotLine.coloured (n : Nat) : DotLine → Bool
  | .leaf _ k => decide (k < n)
  | _ => true

/-- `export_dot` of a classifier (classification.py:172-176): the list of colours, one per class, is made at the first export and kept, and
every leaf label is looked up in it. `colours` is the length of the kept list, if there is one. The result is the graph (`none` if a lookup
raises) and the length kept afterwards. `_color_brew(n)` returns `n` colours. -/
def exportSession (colours : Option Nat) (nC : Nat) (t : Tree) : Option (List DotLine) × Option Nat :=
  let n := colours.getD nC
  let g := exportDot t 0
  (if g.all (DotLine.coloured n) then some g else none, some n)

end Streed
