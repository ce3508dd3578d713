import Verif.Spec
import Mathlib.Data.List.Sort

/-!
# Model of the regression tasks with a constant in every leaf

`Regression` and `CostComplexRegression`: leaf value, leaf cost, depth-two cost, and the merging of instances with
equal features. Doubles are rationals, so rounding is not modelled; `none` is the not-a-number that `0/0` gives.
-/

namespace Streed

/-! ### Regression -/

/-- The loop of `Regression::SolveLeafNode` (regression.cpp:6-11): sum of squares and sum. -/
def regSums (ys : List Rat) : Rat × Rat := ys.foldl (fun s y => (s.1 + y * y, s.2 + y)) (0, 0)

/-- `Regression::SolveLeafNode` (regression.cpp:5-16): the label and the cost. -/
def regLeaf (ys : List Rat) : Option (Rat × Rat) :=
  let (ysq, y) := regSums ys
  if ys.length = 0 then none else some (y / ys.length, ysq - y * y / ys.length)

/-- `Regression::GetLeafCosts` (regression.cpp:18-25). -/
def regLeafCosts (ys : List Rat) (label : Rat) : Rat :=
  ys.foldl (fun s y => s + (y - label) * (y - label)) 0

/-- `D2RegressionSol` (regression.h:6-9). -/
structure RegD2 where
  ys : Rat
  yys : Rat

/-- `Regression::GetInstanceLeafD2Costs` (regression.cpp:27-31). -/
def regD2 (y : Rat) (mult : Int) : RegD2 := ⟨mult * y, mult * y * y⟩

/-- `D2RegressionSol::operator+` (regression.h:10-11). -/
def RegD2.add (a b : RegD2) : RegD2 := ⟨a.ys + b.ys, a.yys + b.yys⟩

/-- `Regression::ComputeD2Costs` (regression.cpp:33-40). -/
def regCompute (v : RegD2) (count : Nat) : Rat :=
  if count = 0 then 0 else
    let c := v.yys - v.ys * v.ys / count
    if c < 0 then 0 else c

/-- `Regression::GetLabel` (regression.cpp:42-45). -/
def regLabel (v : RegD2) (count : Nat) : Rat := if count = 0 then 0 else v.ys / count

/-! ### Cost-complexity regression -/

/-- An instance of this task: `GetID`, `unique_feature_vector_id`, `GetLabel` (a sum of targets after merging), `ysq`
and the weight (always converted to an integer before use). -/
structure RInst where
  id : Nat
  group : Nat
  y : Rat
  ysq : Rat
  w : Nat
  deriving DecidableEq, Inhabited

/-- The three sums over the instances (cost_complex_regression.cpp:182-190). -/
def ccrSums (D : List RInst) : Rat × Rat × Nat :=
  D.foldl (fun s i => (s.1 + i.ysq, s.2.1 + i.y, s.2.2 + i.w)) (0, 0, 0)

/-- `CostComplexRegression::SolveLeafNode` (cost_complex_regression.cpp:181-196). `none`: the infeasible node. The
minimum leaf size is at least one (cost_complex_regression.h:62). -/
def ccrLeaf (minLeaf : Nat) (D : List RInst) : Option (Rat × Rat) :=
  let (ysq, y, weight) := ccrSums D
  if weight < minLeaf then none else some (y / weight, max 0 (ysq - y * y / weight))

/-- `CostComplexRegression::GetLeafCosts` (cost_complex_regression.cpp:198-210). -/
def ccrLeafCosts (D : List RInst) (label : Rat) : Rat :=
  let (ysq, y, weight) := ccrSums D
  max 0 (ysq - 2 * label * y + weight * label * label)

/-- `D2CostComplexRegressionSol` (cost_complex_regression.h:17-20). -/
structure CcrD2 where
  ys : Rat
  yys : Rat
  weight : Int

/-- `CostComplexRegression::GetInstanceLeafD2Costs` (cost_complex_regression.cpp:216-221). -/
def ccrD2 (i : RInst) (mult : Int) : CcrD2 := ⟨mult * i.y, mult * i.ysq, mult * i.w⟩

/-- `D2CostComplexRegressionSol::operator+` (cost_complex_regression.h:22-23). -/
def CcrD2.add (a b : CcrD2) : CcrD2 := ⟨a.ys + b.ys, a.yys + b.yys, a.weight + b.weight⟩

/-- `CostComplexRegression::ComputeD2Costs` (cost_complex_regression.cpp:223-230). `none`: `DBL_MAX`. -/
def ccrCompute (v : CcrD2) (count : Nat) : Option Rat :=
  if count = 0 then none else
    let c := v.yys - v.ys * v.ys / v.weight
    some (if c < 0 then 0 else c)

/-- The smallest and the largest label per unit of weight, before merging
(cost_complex_regression.cpp:62-79). -/
def ccrRange (first : RInst) (D : List RInst) : Rat × Rat :=
  D.foldl (fun m i => (if i.y / i.w < m.1 then i.y / i.w else m.1, if i.y / i.w > m.2 then i.y / i.w else m.2))
    (first.y / first.w, first.y / first.w)

/-- `CostComplexRegression::GetWorstPerLabel` (cost_complex_regression.h:82-87). -/
def ccrWorst (m : Rat × Rat) (label : Rat) : Rat :=
  if label - m.1 > m.2 - label then (label - m.1) * (label - m.1) else (m.2 - label) * (m.2 - label)

/-- What `ComputeSimilarityLowerBound` adds for one instance that left the data
(cost_complex_regression.cpp:371, 387). -/
def ccrRemoved (m : Rat × Rat) (i : RInst) : Rat := i.w * ccrWorst m (i.y / i.w)

/-! ### Merging instances with equal features -/

/-- The objects in memory, by address. -/
abbrev InstStore := List RInst

/-- The state of the merging loop: memory, the finished entries of `instances`, the entry `instances[ix_first]`, the
sums `y`, `ysq`, `n`, the weight `w` of the latest instance and its group. -/
structure MergeSt where
  store : InstStore
  done : List Nat
  first : Nat
  y : Rat
  ysq : Rat
  n : Nat
  w : Nat
  prev : Nat

/-- One iteration of the loop (cost_complex_regression.cpp:102-134), with the address of `current`. The vector is
overwritten in place behind the read position, which is modelled by the separate list `done`. -/
def mergeStep (s : MergeSt) (cur : Nat) : MergeSt :=
  let c := s.store.getD cur default
  let s := if s.prev = c.group then s else
    if s.n > s.w then
      { s with store := s.store ++ [{ s.store.getD s.first default with y := s.y, ysq := s.ysq, w := s.n }]
               done := s.done ++ [s.store.length], first := cur, y := 0, ysq := 0, n := 0 }
    else { s with done := s.done ++ [s.first], first := cur, y := 0, ysq := 0, n := 0 }
  { s with w := c.w, n := s.n + c.w, y := s.y + c.y, ysq := s.ysq + c.ysq, prev := c.group }

/-- After the loop, the last group is written into the object itself (cost_complex_regression.cpp:135-141). -/
def mergeFinish (s : MergeSt) : InstStore × List Nat :=
  (s.store.set s.first { s.store.getD s.first default with y := s.y, ysq := s.ysq, w := s.n }, s.done ++ [s.first])

/-- `CostComplexRegression::PreprocessTrainData` (cost_complex_regression.cpp:53-150) on a copy of the view (a list of
addresses): sort by ID, merge. `none`: an empty view, where `instances[0]` is undefined. The sort is not stable in the
code; the ids of a view are distinct. -/
def preprocessTrain (m : InstStore) (view : List Nat) : Option (InstStore × List Nat) :=
  match view.insertionSort (fun a b => (m.getD a default).id ≤ (m.getD b default).id) with
  | [] => none
  | a :: l =>
    let p := m.getD a default
    some (mergeFinish (l.foldl mergeStep ⟨m, [], a, p.y, p.ysq, p.w, p.w, p.group⟩))

end Streed
