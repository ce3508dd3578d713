import Verif.Model.Regression
import Verif.Model.Folds

/-!
# Model of hyper-parameter tuning around the search

What `HyperSolve` does to the solver before, between and after the trial runs: which cost-complexity price the final
search uses, and which rows the trial runs are trained and tested on. The trial runs themselves and the choice among
them are in `Model/ResultSet.lean` (`tunePhase`); here the choice is an arbitrary number. Doubles are rationals.
-/

namespace Streed

/-- The three ways in which a task with a cost-complexity parameter uses it. `perUse`: at every use
(cost_complex_accuracy.h:48-50). `merging`: the price is stored when the training view is preprocessed
(cost_complex_regression.cpp:82-84, piecewise_simple_linear_regression.cpp:171-172). `scaling`: when the task is told
about the training data (piecewise_linear_regression.cpp:181-185). -/
inductive TuneKind
  | perUse
  | merging
  | scaling
  deriving DecidableEq

/-- What is left in the solver and its task between calls: memory, the parameter `cost-complexity` of the task, the
views `org_train_data` and `train_data` (lists of addresses; empty before the first call) and the stored price
`branching_cost`. -/
structure TuneSt where
  store : InstStore
  cc : Rat
  org : List Nat
  train : List Nat
  price : Rat

/-- `ADataView::operator==` (data.cpp:328-357) for views with one bucket: an empty view is unequal to everything, else
sizes and ids are compared, in order. Hashes, when set, are functions of the ids. -/
def sameView (m : InstStore) (a b : List Nat) : Bool :=
  !a.isEmpty && !b.isEmpty && (a.map fun x => (m.getD x default).id) == (b.map fun x => (m.getD x default).id)

/-- The factor of the price: `cost_complexity_norm_coef` (cost_complex_regression.cpp:66-82,
piecewise_simple_linear_regression.cpp:155-171, piecewise_linear_regression.cpp:165-184, where every weight is one and
`ysq` the square of the label). -/
def priceNorm (m : InstStore) (view : List Nat) : Rat :=
  let (yys, ys, w) := ccrSums (view.map fun a => m.getD a default)
  yys - ys * ys / w

/-- `Solver::PreprocessTrainData` (solver.cpp:1232-1237) with the tasks' functions: sort by id
(cost_complex_accuracy.cpp:33-40; one bucket), sort and merge (`preprocessTrain`), or copy every instance to a new
address with the same id (piecewise_linear_regression.cpp:112-125; the continuous features, which are scaled, are not
part of the model; the label is copied). `none`: an empty view, where the code reads `instances[0]`. -/
def prepView (kind : TuneKind) (m : InstStore) (view : List Nat) : Option (InstStore × List Nat) :=
  match kind with
  | .perUse => some (m, view.insertionSort fun a b => (m.getD a default).id ≤ (m.getD b default).id)
  | .merging => preprocessTrain m view
  | .scaling =>
    if view = [] then none
    else some (m ++ view.map fun a => m.getD a default, (List.range view.length).map (m.length + ·))

/-- `Solver::InitializeSolver` (solver.cpp:212-228): the task takes over the parameters; if the view equals the previous
one and no reset is asked for, nothing else happens; otherwise the view is stored and preprocessed, and the task
computes its price with the current parameter. -/
def initSolver (kind : TuneKind) (cc : Rat) (s : TuneSt) (view : List Nat) (reset : Bool) : Option TuneSt :=
  let s := { s with cc := cc }
  if !reset && sameView s.store s.org view then some s
  else
    match prepView kind s.store view with
    | none => none
    | some (m, t) => some ⟨m, cc, view, t, cc * priceNorm s.store view⟩

/-- `GetBranchingCosts` of the three kinds (cost_complex_accuracy.h:48-50, cost_complex_regression.h:73-75,
piecewise_linear_regression.h:86-88, piecewise_simple_linear_regression.h:80-82). -/
def TuneSt.charged (kind : TuneKind) (s : TuneSt) : Rat :=
  match kind with
  | .perUse => s.cc * s.train.length
  | _ => s.price

/-- A new solver (solver.cpp:8-60): no data yet. -/
def freshSolver (m : InstStore) : TuneSt := ⟨m, 0, [], [], 0⟩

/-- `Solver::Solve` without tuning (solver.cpp:80-90) on a new solver: the state in which the search runs. -/
def plainFit (kind : TuneKind) (m : InstStore) (view : List Nat) (cc : Rat) : Option TuneSt :=
  initSolver kind cc (freshSolver m) view false

/-- `Solver::HyperSolve` (solver.cpp:905-990) around the trial runs, which use solvers of their own: initialise with the
user's parameter `cc₀`, put the chosen parameter `cc` in its place, call `Solve` on the preprocessed view. The state in
which the final search runs. -/
def tunedFit (kind : TuneKind) (m : InstStore) (view : List Nat) (cc₀ cc : Rat) : Option TuneSt := do
  let s ← initSolver kind cc₀ (freshSolver m) view false
  initSolver kind cc s s.train false

/-- The rows that the trial runs of a merging task use (solver.cpp:923-924, data.cpp:174-318): the ids of the
preprocessed view are split into folds, and the instance with each id is fetched from the data set, where it stands
at the address of that number. One pair of training and test rows for each fold. -/
def tuneFolds (m : InstStore) (view : List Nat) (s : SplitCfg) (k : Nat) : Option (List (List RInst × List RInst)) := do
  let (m', t) ← preprocessTrain m view
  let res ← kFold s k [t.map fun a => (m'.getD a default).id]
  some (res.map fun p => (p.1.flatten.map fun i => m'.getD i default, p.2.flatten.map fun i => m'.getD i default))

/-- The penalties of `SimpleLinearRegression::UpdateParameters` (piecewise_simple_linear_regression.h:66-70): the ridge
penalty is read from the parameter `lasso-penalty`; `ridge-penalty` is not read. -/
def simpleRidge (lassoPenalty _ridgePenalty : Rat) : Rat := lassoPenalty

end Streed
