import Verif.Model.ParamTable

/-!
# The settings of an estimator, from the constructor to the solver, for C99

`fit` first lets scikit-learn test the settings (`_validate_params`), then copies them one by one to a
new parameter handler, whose setters end the process when a value is out of range, and then has the
handler tested as a whole.
-/

namespace Streed

/-- The settings that only one class of estimators has.  The linear regressor also knows the number of
variables of its lines. -/
inductive OwnSettings
  | classifier (taskLower : Bool)
  | regressor (bound : String) (taskLower : Bool)
  | linear (lasso ridge : Dbl) (nVars : Nat)
  | fair (limit : Dbl)
  | policy (teacher : String)
  | plain
  deriving DecidableEq, Repr

/-- The settings of an estimator (base.py:37-57 and the constructors of the subclasses).  Settings of
the binariser are left out.  A setting that takes a real number is a double, and the flags are
Booleans. -/
structure PySettings where
  task : String
  maxDepth : Int := 3
  maxNodes : Option Int := none
  allTrees : Bool := false
  minLeaf : Int := 1
  timeLimit : Dbl := .fin 600
  costComplexity : Dbl := .fin (1 / 100)
  ordering : String := "in-order"
  hyperTune : Bool := false
  branchCaching : Bool := false
  datasetCaching : Bool := true
  terminalSolver : Bool := true
  similarity : Bool := true
  useUpper : Bool := true
  useLower : Bool := true
  upperBound : Dbl := .fin 2147483647
  verbose : Bool := false
  seed : Int := 27
  own : OwnSettings := .plain
  deriving DecidableEq, Repr

/-- `value in Interval(Real, lo, hi)` of scikit-learn, which is not in /repo: not-a-number is refused,
a missing bound (`none`) is the infinity, and a bound that is not closed is refused itself.  An infinity
is thus refused at an open end. -/
def inReal (lo : Rat) (loClosed : Bool) (hi : Option Rat) : Dbl → Bool
  | .fin q => (decide (lo < q) || (loClosed && decide (lo = q))) &&
      (match hi with | none => true | some h => decide (q ≤ h))
  | _ => false

/-- The tasks an estimator may have (base.py:17-22). -/
def pyTasks : List String :=
  ["accuracy", "cost-complex-accuracy", "regression", "cost-complex-regression",
   "piecewise-linear-regression", "simple-linear-regression", "cost-sensitive", "f1-score",
   "prescriptive-policy", "instance-cost-sensitive", "group-fairness", "equality-of-opportunity",
   "survival-analysis"]

/-- The tests of the settings of a subclass (group_fair.py:11-13, regression.py:14-16, 103-106,
prescriptive_policy_generation.py:10-12). -/
def OwnSettings.accepted : OwnSettings → Bool
  | .classifier _ => true
  | .regressor b _ => ["equivalent", "kmeans"].contains b
  | .linear l r _ => inReal 0 true (some 1000000000000) l && inReal 0 true (some 1000000000000) r
  | .fair d => inReal 0 true (some 1) d
  | .policy t => ["DR", "DM", "IPW"].contains t
  | .plain => true

/-- `_validate_params` with `_parameter_constraints` (base.py:16-35, 258). -/
def PySettings.accepted (s : PySettings) : Bool :=
  pyTasks.contains s.task &&
  decide (0 ≤ s.maxDepth ∧ s.maxDepth ≤ 20) &&
  (match s.maxNodes with | none => true | some n => decide (0 ≤ n ∧ n ≤ 1048575)) &&
  decide (1 ≤ s.minLeaf) &&
  inReal 0 false none s.timeLimit &&
  inReal 0 true (some 1) s.costComplexity &&
  ["in-order", "gini"].contains s.ordering &&
  inReal 0 true none s.upperBound &&
  decide (-1 ≤ s.seed) &&
  s.own.accepted

/-- The number of branching nodes that is passed on (base.py:116-123). -/
def PySettings.nodes (s : PySettings) : Int :=
  let most : Int := 2 ^ s.maxDepth.toNat - 1
  match s.maxNodes with
  | none => most
  | some n => if n > most then most else n

/-- Whether the price per node is passed on (base.py:133-134). -/
def PySettings.priced (s : PySettings) : Bool :=
  ["cost-complex-accuracy", "cost-complex-regression", "piecewise-linear-regression",
   "simple-linear-regression"].contains s.task

/-- The assignments of the subclasses after those of the base class (classification.py:94-97,
regression.py:95-99, 184-193, group_fair.py:83-86, prescriptive_policy_generation.py:81-83). -/
def OwnSettings.ops (minLeaf : Int) : OwnSettings → List SetOp
  | .classifier t => [.bool "use-task-lower-bound" t]
  | .regressor b t => [.str "regression-bound" b, .bool "use-task-lower-bound" t]
  | .linear l r k => [.flt "lasso-penalty" l, .flt "ridge-penalty" r] ++
      (if minLeaf < 5 * (k : Int) then [.int "min-leaf-node-size" (5 * (k : Int))] else [])
  | .fair d => [.flt "discrimination-limit" d]
  | .policy t => [.str "ppg-teacher-method" t]
  | .plain => []

/-- `_initialize_param_handler` (base.py:115-148), as the assignments it makes in order; the names are
those of the bindings (bindings.cpp:234-261). -/
def PySettings.ops (s : PySettings) : List SetOp :=
  [.str "task" s.task, .bool "hyper-tune" s.hyperTune, .int "max-depth" s.maxDepth,
   .int "max-num-nodes" s.nodes, .bool "all-trees" s.allTrees,
   .int "min-leaf-node-size" s.minLeaf, .flt "time" s.timeLimit,
   .flt "cost-complexity" (if s.priced then s.costComplexity else .fin 0),
   .str "feature-ordering" s.ordering, .bool "verbose" s.verbose, .int "random-seed" s.seed,
   .bool "use-branch-caching" s.branchCaching, .bool "use-dataset-caching" s.datasetCaching,
   .bool "use-terminal-solver" s.terminalSolver, .bool "use-similarity-lower-bound" s.similarity,
   .bool "use-upper-bound" s.useUpper, .bool "use-lower-bound" s.useLower,
   .flt "upper-bound" s.upperBound] ++ s.own.ops s.minLeaf

/-- What becomes of a call from Python: an exception, the end of the process, or a handler with which
the solver is made. -/
inductive PyCall
  | raised
  | ended
  | ready (h : Handler)
  deriving DecidableEq, Repr

/-- Whether a Python integer fits the `int` the setters take (bindings.cpp:181-185); pybind11 raises a
`TypeError` for others. -/
def SetOp.fitsInt : SetOp → Bool
  | .int _ v => decide (-2147483648 ≤ v ∧ v ≤ 2147483647)
  | _ => true

/-- The assignments from Python, one by one (bindings.cpp:175-197). -/
def pyRun (h : Handler) : List SetOp → PyCall
  | [] => .ready h
  | o :: os =>
    if o.fitsInt then
      match SetOp.apply h o with
      | .ok h' => pyRun h' os
      | _ => .ended
    else .raised

/-- The first part of `fit`, until the solver is made or updated (base.py:258, 267-276;
bindings.cpp:101-105, 290-294).  The data are left out: they are modelled elsewhere. -/
def PySettings.fit (s : PySettings) : PyCall :=
  if s.accepted then
    match pyRun declared s.ops with
    | .ready h => match h.check with
      | .ok _ => .ready h
      | _ => .ended
    | r => r
  else .raised

end Streed
