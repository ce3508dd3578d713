/-!
# The binariser

Models `pystreed/binarizer.py`: `KThresholdBinarizer` and `CategoricalBinarizer`.  Numbers are
rationals.  `np.unique` is a sorted list without repetitions, `np.quantile` its default method
(linear interpolation), `np.linspace` the exact equidistant points.  The strategy `tree` takes its
thresholds from scikit-learn; they are an input of the model.
-/

namespace Streed

/-- Insertion into a sorted list without repetitions. -/
def insertU (x : Rat) : List Rat → List Rat
  | [] => [x]
  | y :: l => if x < y then x :: y :: l else if x = y then y :: l else y :: insertU x l

/-- `np.unique`. -/
def uniqueR : List Rat → List Rat
  | [] => []
  | x :: l => insertU x (uniqueR l)

/-- Insertion into a sorted list, keeping repetitions. -/
def insertS (x : Rat) : List Rat → List Rat
  | [] => [x]
  | y :: l => if x ≤ y then x :: y :: l else y :: insertS x l

/-- `np.sort`. -/
def sortR : List Rat → List Rat
  | [] => []
  | x :: l => insertS x (sortR l)

/-- `[(u[i] + u[i+1]) / 2 for i in range(len(u) - 1)]` (binarizer.py:307, 310). -/
def midpoints : List Rat → List Rat
  | x :: y :: l => (x + y) / 2 :: midpoints (y :: l)
  | _ => []

/-- `np.linspace(a, b, n + 1)`. -/
def linspace (a b : Rat) (n : Nat) : List Rat :=
  (List.range (n + 1)).map fun i : Nat => a + (b - a) * (i : Rat) / (n : Rat)

/-- `np.quantile(column, q)` on the sorted column `s`, with `q = k / m`: linear interpolation at the
position `(len - 1) * q`. -/
def quantileR (s : List Rat) (k m : Nat) : Rat :=
  let p := (s.length - 1) * k
  let i := p / m
  let lo := s.getD i 0
  let hi := s.getD (i + 1) lo
  lo + (hi - lo) * ((p % m : Nat) : Rat) / (m : Rat)

/-- `continuous_strategy`; the list is what scikit-learn's tree returns for a column. -/
inductive Strategy
  | quantile
  | uniform
  | tree (thresholds : List Rat)

/-- The thresholds of one column (binarizer.py:298-326), given the requested number `n`. -/
def cutpoints (st : Strategy) (n : Nat) (col : List Rat) : List Rat :=
  let u := uniqueR col
  if n = 0 ∨ u.length ≤ 1 then []
  else match st with
    | .tree t => sortR t
    | .uniform =>
      if u.length ≤ n + 1 then midpoints u
      else uniqueR (midpoints (linspace (u.headD 0) (u.getLastD 0) n))
    | .quantile =>
      if u.length ≤ n + 1 then midpoints u
      else uniqueR ((List.range n).map fun k => quantileR (sortR col) (k + 1) (n + 1))

/-- `KThresholdBinarizer.fit` (binarizer.py:271-330): the thresholds of each feature; `X` is the list
of columns, `ns` the requested number for each. -/
def fitThresholds (st : Nat → Strategy) (ns : List Nat) (X : List (List Rat)) : List (List Rat) :=
  (X.zip ns).zipIdx.map fun p => cutpoints (st p.2) p.1.2 p.1.1

/-- The name of a generated column: the feature, and the threshold (binarizer.py:324). -/
def thresholdNames (ths : List (List Rat)) : List (Nat × Rat) :=
  ths.zipIdx.flatMap fun p => p.1.map fun t => (p.2, t)

/-- `KThresholdBinarizer.transform` on one row (binarizer.py:332-349): the columns are written one
after another, `j` being the feature whose thresholds come next. -/
def transformRow : List (List Rat) → List Rat → List Bool
  | ts :: ths, x :: xs => (ts.map fun t => decide (x ≤ t)) ++ transformRow ths xs
  | _, _ => []

/-! ### Categories -/

/-- `collections.Counter(column)`: the values in the order of first appearance, with counts. -/
def countInto (v : Nat) : List (Nat × Nat) → List (Nat × Nat)
  | [] => [(v, 1)]
  | (w, c) :: l => if w = v then (w, c + 1) :: l else (w, c) :: countInto v l

def counter (col : List Nat) : List (Nat × Nat) := col.foldl (fun acc v => countInto v acc) []

/-- The first entry with the largest count. -/
def mostCommon : List (Nat × Nat) → Option (Nat × Nat)
  | [] => none
  | p :: l => match mostCommon l with
    | none => some p
    | some q => if q.2 > p.2 then some q else some p

/-- `counter.most_common(2)[1][0]`: the value with the second largest count; ties in the order of
first appearance. -/
def secondCommon (l : List (Nat × Nat)) : Option Nat :=
  match mostCommon l with
  | none => none
  | some p => (mostCommon (l.filter fun q => q.1 ≠ p.1)).map (·.1)

/-- A category test: equal to a value, or a member of a list. -/
inductive CatTest
  | eq (v : Nat)
  | mem (vs : List Nat)
  deriving DecidableEq, Repr

/-- `CategoricalBinarizer.fit` for one column (binarizer.py:157-210), `n` the requested number.
Categories are numbers in the model. -/
def fitCategories (n : Nat) (col : List Nat) : List CatTest :=
  let c := counter col
  if n ≤ 1 ∨ c.length ≤ 1 then []
  else if n = 2 ∨ c.length = 2 then
    match secondCommon c with
    | some v => [.eq v]
    | none => []
  else
    let values := c.map (·.1)
    if values.length > n then
      (values.take (n - 1)).map .eq ++ [.mem (values.drop (n - 1))]
    else values.map .eq

/-- `CategoricalBinarizer.transform` (binarizer.py:212-232), one column of one row. -/
def CatTest.holds (x : Nat) : CatTest → Bool
  | .eq v => x == v
  | .mem vs => vs.contains x

def transformCats (ts : List CatTest) (x : Nat) : List Bool := ts.map (CatTest.holds x)

end Streed
