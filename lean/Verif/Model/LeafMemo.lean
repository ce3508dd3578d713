import Verif.Lemmas.CacheInv

/-!
# Model of the leaf memory of piecewise linear regression

The task remembers the branch and the result of the last leaf it solved, and returns that result again if the next call is for the same
branch. The memory belongs to the task object and is never cleared.
-/

namespace Streed

/-- `last_branch` and `last_solution` (piecewise_linear_regression.h:137-138); `α` is a model with its cost. -/
structure LeafMemo (α : Type) where
  branch : Branch
  sol : α

/-- The task object after construction: the branch of the root, and a default node, whose label is `worst_label`
(node.h:14, piecewise_linear_regression.cpp:39). -/
def LeafMemo.init {α : Type} (worst : α) : LeafMemo α := ⟨[], worst⟩

/-- `PieceWiseLinearRegression::SolveLeafNode` (piecewise_linear_regression.cpp:448-461). `fit` is `SolveGLMNet` with the penalties of the
moment, `isWorst` the comparison with `worst_label`. -/
def LeafMemo.call {α : Type} (isWorst : α → Bool) (fit : Data → α) (m : LeafMemo α) (D : Data) (b : Branch) : α × LeafMemo α :=
  if b = m.branch ∧ 0 < m.branch.length ∧ isWorst m.sol = false then (m.sol, m) else (fit D, ⟨b, fit D⟩)

/-- The leaf calls of one run on training data `T`, in order: the branches at which they are made (solver.cpp:99, 288, 324, 352, 650,
1054, 1065). The data of a branch are the rows that satisfy its tests. Only the answers and the memory are kept. -/
def LeafMemo.calls {α : Type} (isWorst : α → Bool) (fit : Data → α) (T : Data) : LeafMemo α → List Branch → List α × LeafMemo α
  | m, [] => ([], m)
  | m, b :: bs =>
    let x := m.call isWorst fit (sel b T) b
    let y := x.2.calls isWorst fit T bs
    (x.1 :: y.1, y.2)

/-- One run: the fit with its penalties, the training data, the branches of the leaf calls after the first. A run on new data or new
penalties has an empty `global_UB` (`InitializeSolver`, solver.cpp:212-244; `reset_solver`, piecewise_linear_regression.cpp:600), so its
first leaf call is for the root (solver.cpp:88-99). -/
structure LeafRun (α : Type) where
  fit : Data → α
  T : Data
  rest : List Branch

/-- Several runs of one task object (the trial runs of a fold, solver.cpp:928-972): the answers of each run. -/
def LeafMemo.runs {α : Type} (isWorst : α → Bool) : LeafMemo α → List (LeafRun α) → List (List α)
  | _, [] => []
  | m, r :: rs =>
    let x := m.calls isWorst r.fit r.T ([] :: r.rest)
    x.1 :: x.2.runs isWorst rs

end Streed
