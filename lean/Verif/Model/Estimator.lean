import Verif.Model.Columns

/-!
# The estimator objects of the Python package

What `fit` stores and in which order, what `predict`, `get_tree` and `is_fitted` read, and which arguments the subclasses pass on
(pystreed/base.py and the modules of the tasks). What the steps of a call do is given by the call: whether they raise, and the tree that is
found.
-/

namespace Streed

/-- A call of `fit`. -/
structure FitStep where
  /-- `_validate_params` accepts the parameters. -/
  params : Bool
  X : Frame
  given : List Nat
  /-- There are at least two rows. -/
  enough : Bool
  /-- There are as many labels as rows, and they can be read. -/
  labels : Bool
  /-- `_process_extra_data` and the checks of the parameters accept. -/
  extra : Bool
  /-- `_solve` reads the data without raising. -/
  loads : Bool
  /-- The tree, or nothing if none is feasible. -/
  answer : Option Tree

/-- The attribute `fit_result`: removed, `None`, or a result, here its tree. -/
inductive FitAttr
  | absent
  | isNone
  | val (t : Tree)
  deriving DecidableEq

/-- What an estimator stores (base.py:108-113, 237-285). -/
structure Est where
  /-- `binarizer_`: `None`, not yet fitted, or fitted. -/
  bin : Option (Option FittedBin)
  /-- `n_features_in_`, which scikit-learn sets. -/
  width : Option Nat
  /-- `_solver`, here the length of its vector of flipped features, empty until it has preprocessed data (solver.cpp:1162-1163). -/
  solver : Option Nat
  res : FitAttr
  /-- `tree_`, if set. -/
  tree : Option Tree

/-- A new estimator (base.py:108-113). -/
def Est.init : Est := ⟨none, none, none, .isNone, none⟩

/-- How a call of `fit` ends. -/
inductive FitEnd
  | raised
  | noTree
  | fitted (F : FittedBin) (t : Tree)

/-- `fit` (base.py:237-293). The binariser is stored before it is fitted (base.py:225-227); scikit-learn stores the number of columns when
it accepts the rows, before the labels are checked (base.py:172-185); the solver is replaced before it reads the data (base.py:267-279; that
it always is, C47); without a tree only `fit_result` is removed (base.py:281-285). -/
def Est.fit (tests : Column → List (Rat → Bool)) (cuts : Column → List Rat) (e : Est) (c : FitStep) : Est × FitEnd :=
  if !c.params then (e, .raised)
  else
    match fitBin tests cuts (frameTypes c.given c.X) c.X with
    | none => ({ e with bin := some none }, .raised)
    | some F =>
      let e := { e with bin := some (some F) }
      match F.transform c.X with
      | none => (e, .raised)
      | some cols =>
        if !c.enough then (e, .raised)
        else
          let e := { e with width := some cols.length }
          if !c.labels then (e, .raised)
          else if !c.extra then (e, .raised)
          else if !c.loads then ({ e with solver := some 0 }, .raised)
          else
            match c.answer with
            | none => ({ e with solver := some cols.length, res := .absent }, .noTree)
            | some t => ({ e with solver := some cols.length, res := .val t, tree := some t }, .fitted F t)

/-- What a call answers. -/
inductive PyAnswer
  | labels (l : List Nat)
  /-- `NotFittedError`. -/
  | notFitted
  /-- Some other exception. -/
  | raises
  /-- Undefined behaviour. -/
  | undef
  deriving DecidableEq

/-- `predict` (base.py:298-316, bindings.cpp:125-139). `check_is_fitted` only asks whether the attribute exists. With another
number of columns than `n_features_in_` scikit-learn raises, if it is set. The solver reads its flipped features for every column
(solver.cpp:1216-1224), and takes the result without asking whether it is there. -/
def Est.predict (e : Est) (X : Frame) (n : Nat) : PyAnswer :=
  if e.res = .absent then .notFitted
  else
    match e.bin with
    | none => .raises
    | some none => .raises
    | some (some F) =>
      match F.transform X with
      | none => .raises
      | some cols =>
        if e.width.any (· ≠ cols.length) then .raises
        else
          match e.solver with
          | none => .raises
          | some m =>
            if m < cols.length then .undef
            else
              match e.res with
              | .val t => .labels ((List.range n).map fun r => t.predict (rowInst cols r))
              | _ => .undef

/-- `is_fitted` (base.py:295-296): whether the attribute exists. -/
def Est.isFitted (e : Est) : Bool := e.res ≠ .absent

/-- `get_tree` (base.py:376-381), also what `print_tree` and `export_dot` show (base.py:408-444). -/
def Est.getTree (e : Est) : Option Tree := e.tree

/-- A sequence of calls of `fit`; exceptions are caught. -/
def Est.fits (tests : Column → List (Rat → Bool)) (cuts : Column → List Rat) (e : Est) (cs : List FitStep) : Est :=
  cs.foldl (fun e c => (e.fit tests cuts c).1) e

/-- The estimators. -/
inductive EstKind
  | classifier | costSensitive | groupFair | instanceCosts | policy | regressor | linear | survival
  deriving DecidableEq

/-- The arguments `extra_data` and `categorical` that `fit` of the subclass passes to the base class, when it is called with `cat`
(classification.py:123, cost_sensitive_classification.py:91, group_fair.py:130, instance_cost_sensitive_classification.py:133,
prescriptive_policy_generation.py:157, regression.py:256, survival_analysis.py:121; the regressor has no `fit` of its own). The first part is
whether `extra_data` is given although the task has no extra data, the second the names of the columns. -/
def EstKind.passes (k : EstKind) (cat : Option (List Nat)) : Bool × List Nat :=
  match k with
  | .costSensitive => (cat.isSome, [])
  | .groupFair => (cat.isSome, [])
  | .instanceCosts => (false, [])
  | _ => (false, cat.getD [])

/-- The binariser of a call of `fit` with categorical columns `cat`: the base class binarises and then refuses extra data that the task does
not have (base.py:210-217, 257-261). The cost-sensitive classifier does not binarise (cost_sensitive_classification.py:63-64), which is
not modelled. -/
def EstKind.fitBin (tests : Column → List (Rat → Bool)) (cuts : Column → List Rat) (k : EstKind) (cat : Option (List Nat)) (X : Frame) :
    Option FittedBin :=
  (Streed.fitBin tests cuts (frameTypes (k.passes cat).2 X) X).bind fun F => if (k.passes cat).1 then none else some F

end Streed
