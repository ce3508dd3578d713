import Verif.Spec

/-!
# Model of the feature queue

`include/utils/key_value_heap.h`, `src/utils/key_value_heap.cpp`, `include/solver/feature_selector.h`
and `src/solver/feature_selector_gini.cpp`. Values are rationals (finite doubles are rationals; the
rounding of the score computation is not modelled). The two maps between keys and positions are one
list of (key, value) pairs; the position of a key is looked up in it.
-/

namespace Streed

/-- `KeyValueHeap` (key_value_heap.h:38-41): the arrays, and `end_position_`. -/
structure Heap where
  a : List (Nat × Rat)
  n : Nat
  deriving DecidableEq

namespace Heap

/-- What is stored at a position. -/
def cell (l : List (Nat × Rat)) (i : Nat) : Nat × Rat := l.getD i (0, 0)
/-- `values_[i]`. -/
def val (l : List (Nat × Rat)) (i : Nat) : Rat := (cell l i).2

/-- `SwapPositions` (key_value_heap.cpp:101-107). -/
def swap (l : List (Nat × Rat)) (i j : Nat) : List (Nat × Rat) := (l.set i (cell l j)).set j (cell l i)

/-- `SiftUp` (key_value_heap.cpp:109-117), `fuel` bounds the recursion. -/
def siftUp : Nat → List (Nat × Rat) → Nat → List (Nat × Rat)
  | 0, l, _ => l
  | fuel + 1, l, i =>
    if i = 0 then l
    else if val l ((i - 1) / 2) ≥ val l i then l
    else siftUp fuel (swap l i ((i - 1) / 2)) ((i - 1) / 2)

/-- `GetLargestChild` (key_value_heap.cpp:150-160). -/
def largest (n : Nat) (l : List (Nat × Rat)) (i : Nat) : Nat :=
  if 2 * i + 2 < n ∧ val l (2 * i + 2) > val l (2 * i + 1) then 2 * i + 2 else 2 * i + 1

/-- `IsHeapLocally` (key_value_heap.cpp:177-179). -/
def locally (n : Nat) (l : List (Nat × Rat)) (i : Nat) : Bool :=
  if 2 * i + 1 ≥ n then true
  else if val l i < val l (2 * i + 1) then false
  else if 2 * i + 2 < n ∧ val l i < val l (2 * i + 2) then false
  else true

/-- `SiftDown` (key_value_heap.cpp:119-127), `fuel` bounds the recursion. -/
def siftDown (n : Nat) : Nat → List (Nat × Rat) → Nat → List (Nat × Rat)
  | 0, l, _ => l
  | fuel + 1, l, i =>
    if locally n l i then l
    else siftDown n fuel (swap l i (largest n l i)) (largest n l i)

/-- `map_key_to_position_[key]`. -/
def posOf (l : List (Nat × Rat)) (k : Nat) : Nat := l.findIdx fun p => p.1 == k

/-- `KeyValueHeap(num_entries)` (key_value_heap.cpp:9-15). -/
def new (m : Nat) : Heap := ⟨(List.range m).map fun k => (k, 0), m⟩

/-- `Increment` (key_value_heap.cpp:17-23). -/
def increment (h : Heap) (k : Nat) (x : Rat) : Heap :=
  let i := posOf h.a k
  let a := h.a.set i ((cell h.a i).1, val h.a i + x)
  { h with a := if i < h.n then siftUp i a i else a }

/-- `Remove` (key_value_heap.cpp:34-46). -/
def remove (h : Heap) (k : Nat) : Heap :=
  let p := posOf h.a k
  let a := swap h.a p (h.n - 1)
  let n := h.n - 1
  ⟨if n > 1 ∧ p < n then siftDown n n a p else a, n⟩

/-- `PopMax` (key_value_heap.cpp:25-32): the key and the new heap. -/
def popMax (h : Heap) : Nat × Heap := ((cell h.a 0).1, h.remove (cell h.a 0).1)

/-- `Readd` (key_value_heap.cpp:48-57). -/
def readd (h : Heap) (k : Nat) : Heap :=
  ⟨siftUp h.n (swap h.a (posOf h.a k) h.n) h.n, h.n + 1⟩

/-- `m` pops in a row. -/
def pops : Nat → Heap → List Nat × Heap
  | 0, h => ([], h)
  | m + 1, h =>
    let r := h.popMax
    let q := pops m r.2
    (r.1 :: q.1, q.2)

/-- The end of `FeatureSelectorGini::InitializeInternal` (feature_selector_gini.cpp:69-75): empty the
heap, then add every feature with its score. -/
def fill (scores : List Rat) : Heap :=
  (List.range scores.length).foldl (fun h f => (h.readd f).increment f (scores.getD f 0))
    (pops scores.length (new scores.length)).2

/-- The features in the order in which the selector returns them. -/
def order (scores : List Rat) : List Nat := (pops scores.length (fill scores)).1

end Heap

/-- Impurity of a group (feature_selector_gini.cpp:45-62); an empty group has impurity 1. -/
def impurity (nL : Nat) (D : Data) : Rat :=
  if D.length = 0 then 1
  else 1 - ((List.range nL).map fun k =>
    ((D.countP fun i => i.label == k : Nat) / (D.length : Nat) : Rat) ^ 2).sum

/-- The score of a feature (feature_selector_gini.cpp:38-67), in exact arithmetic. -/
def giniScore (nL : Nat) (D : Data) (f : Nat) : Rat :=
  (1 - ((List.range nL).map fun k =>
    ((D.countP fun i => i.label == k : Nat) / (D.length : Nat) : Rat) ^ 2).sum)
  - ((without f D).length / D.length : Rat) * impurity nL (without f D)
  - ((having f D).length / D.length : Rat) * impurity nL (having f D)

/-- The feature order of the default setting `feature-ordering = gini`. -/
def giniOrder (nF nL : Nat) (D : Data) : List Nat :=
  Heap.order ((List.range nF).map (giniScore nL D))

end Streed
