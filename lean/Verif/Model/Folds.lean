/-!
# Model of the train-test split and the k-fold split

`TrainTestSplitData` and `KFoldSplit` (`src/model/data.cpp:56-300`). An instance is its id, a view a list
of buckets of ids. Simplifications: the test percentage is the rational `a / b` and rounding is exact
(the code multiplies doubles); `std::shuffle` is an arbitrary function of the call number and the list,
`std::sort` by label an arbitrary function (the theorems assume that they permute); weights, which the
code does not split ("todo weights"), are left out. `none` is undefined behaviour: an index outside a
vector, an integer division by zero, or an iterator range that runs backwards.
-/

namespace Streed

/-- `int(std::round(a / b))` for non-negative numbers: halves go up. -/
def roundDiv (a b : Nat) : Nat := (2 * a + b) / (2 * b)

/-- Parameters shared by the two functions: the label of an instance, whether labels are doubles
(`std::is_same<LT, double>`), stratification, the shuffles and the sort by decreasing label. -/
structure SplitCfg where
  lab : Nat → Nat
  regression : Bool
  stratify : Bool
  shuffle : Nat → List Nat → List Nat
  sortLab : List Nat → List Nat

/-- Insertion into an ascending list. -/
def insertId (x : Nat) : List Nat → List Nat
  | [] => [x]
  | y :: l => if x ≤ y then x :: y :: l else y :: insertId x l

/-- `std::sort` on ids (any sorting function gives the same list). -/
def sortIds : List Nat → List Nat
  | [] => []
  | x :: l => insertId x (sortIds l)

/-- `v[label(i)].push_back(i)` for every `i` (data.cpp:105-110, 147-154, 252-257) into `n` buckets. -/
def labelFirst (lab : Nat → Nat) (n : Nat) (ids : List Nat) : Option (List (List Nat)) :=
  if ids.all (fun i => decide (lab i < n)) then
    some ((List.range n).map fun y => ids.filter fun i => lab i = y)
  else none

/-- The ten bins of the stratified regression split (data.cpp:73-84, 191-202). -/
def bins (sorted : List Nat) : Option (List (List Nat)) :=
  let bin := sorted.length / 10
  if sorted ≠ [] ∧ bin = 0 then none
  else some ((List.range 10).map fun y =>
    ((sorted.zipIdx.filter fun p => min (p.2 / bin) 9 = y).map (·.1)))

/-- The lists that are shuffled and cut: bins, labels, or everything. -/
def strata (s : SplitCfg) (view : List (List Nat)) : Option (List (List Nat)) :=
  if s.stratify then
    if s.regression then
      match view with
      | [] => none
      | v :: _ => bins (s.sortLab v)
    else labelFirst s.lab view.length view.flatten
  else some [view.flatten]

/-- One bucket followed by empty ones. -/
def firstBucket (n : Nat) (ids : List Nat) : Option (List (List Nat)) :=
  match n with
  | 0 => none
  | n + 1 => some (ids :: List.replicate n [])

/-- The buckets of one part of the split, given the part of each stratum (data.cpp:86-97 regression, 112-124
labels, 141-155 without stratification). -/
def ttBuckets (s : SplitCfg) (n : Nat) (parts : List (List Nat)) : Option (List (List Nat)) :=
  if s.regression then firstBucket n parts.flatten
  else if s.stratify then some parts
  else labelFirst s.lab n parts.flatten

/-- `TrainTestSplitData` (data.cpp:56-172): train and test buckets. -/
def trainTest (s : SplitCfg) (a b : Nat) (view : List (List Nat)) :
    Option (List (List Nat) × List (List Nat)) := do
  let ss ← strata s view
  let cut := ss.zipIdx.map fun (l, y) =>
    let sh := s.shuffle y l
    (sh.drop (roundDiv (a * sh.length) b), sh.take (roundDiv (a * sh.length) b))
  let tr ← ttBuckets s view.length (cut.map (·.1))
  let te ← ttBuckets s view.length (cut.map (·.2))
  pure (tr.map sortIds, te.map sortIds)

/-- The iterator range `[b, e)`; undefined if it leaves the vector or runs backwards. -/
def slice (l : List Nat) (b e : Nat) : Option (List Nat) :=
  if b ≤ e ∧ e ≤ l.length then some ((l.take e).drop b) else none

/-- The loop over the folds (data.cpp:205-213, 233-241, 243-250): `r` folds remain, the next is `f`, and
starts at `beg`. -/
def cutFolds (k : Nat) (l : List Nat) : Nat → Nat → Nat → Option (List (List Nat))
  | 0, _, _ => some []
  | r + 1, f, beg => do
    let e := roundDiv ((f + 1) * l.length) k
    let x ← slice l beg (if f = k - 1 then l.length else e)
    let xs ← cutFolds k l r (f + 1) e
    pure (x :: xs)

/-- The buckets of every fold (data.cpp:182-262), given the parts of each stratum. With stratification
everything goes to bucket 0, also for labels (data.cpp:210, 238). -/
def foldBuckets (s : SplitCfg) (n : Nat) (part : List Nat) : Option (List (List Nat)) :=
  if s.stratify ∨ s.regression then firstBucket n part else labelFirst s.lab n part

/-- `vector.insert(end, …)` for the buckets of all folds except `f`, bucket by bucket (data.cpp:277-282). -/
def otherFolds (n : Nat) (fs : List (List (List Nat))) (f : Nat) : List (List Nat) :=
  (List.range n).map fun j => ((fs.eraseIdx f).map fun b => b.getD j []).flatten

/-- `KFoldSplit` (data.cpp:175-298): for every fold its train and test buckets. -/
def kFold (s : SplitCfg) (k : Nat) (view : List (List Nat)) :
    Option (List (List (List Nat) × List (List Nat))) := do
  let ss ← strata s view
  let cuts ← (ss.zipIdx.map fun (l, y) => s.shuffle y l).mapM fun l => cutFolds k l k 0 0
  let parts := (List.range k).map fun f => (cuts.map fun c => c.getD f []).flatten
  let fs ← parts.mapM (foldBuckets s view.length)
  pure ((List.range k).map fun f =>
    ((otherFolds view.length fs f).map sortIds, (fs.getD f []).map sortIds))

end Streed
