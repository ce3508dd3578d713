import Verif.Model.Params

/-!
# What the parameters are, for C50

The specification `Props/Params.lean` is stated against: the value a list of assignments leaves, the
documented table of parameters, and which assignments are valid.
-/

namespace Streed

/-- The value of a parameter after a list of assignments that started from the default `d`. -/
def lastInt (n : String) (d : Int) : List SetOp → Int
  | [] => d
  | .int m v :: ops => lastInt n (if m = n then v else d) ops
  | _ :: ops => lastInt n d ops

def lastStr (n : String) (d : String) : List SetOp → String
  | [] => d
  | .str m v :: ops => lastStr n (if m = n then v else d) ops
  | _ :: ops => lastStr n d ops

def lastBool (n : String) (d : Bool) : List SetOp → Bool
  | [] => d
  | .bool m v :: ops => lastBool n (if m = n then v else d) ops
  | _ :: ops => lastBool n d ops

def lastFlt (n : String) (d : Dbl) : List SetOp → Dbl
  | [] => d
  | .flt m v :: ops => lastFlt n (if m = n then v else d) ops
  | _ :: ops => lastFlt n d ops

/-- The integer parameters with default, smallest and largest value
(define_parameters.cpp). -/
def intTable : List (String × Int × Int × Int) :=
  [("max-depth", 3, 0, 20), ("max-num-nodes", 7, 0, 2147483647),
   ("max-num-features", 2147483647, 1, 2147483647), ("num-instances", 2147483647, 1, 2147483647),
   ("num-extra-cols", 0, 0, 2147483647), ("min-leaf-node-size", 1, 1, 2147483647),
   ("random-seed", 4, -1, 2147483647), ("duplicate-factor", 1, 1, 2147483647)]

/-- The floating-point parameters with default, smallest and largest value. -/
def fltTable : List (String × Rat × Rat × Rat) :=
  [("time", 3600, 0, 2147483647), ("train-test-split", 0, 0, 1),
   ("upper-bound", 2147483647, 0, (2 ^ 53 - 1) * 2 ^ 971), ("discrimination-limit", 1, 0, 1),
   ("cost-complexity", 0, 0, 1), ("lasso-penalty", 0, 0, 1000000000000),
   ("ridge-penalty", 0, 0, 1000000000000)]

/-- The Boolean parameters with default. -/
def boolTable : List (String × Bool) :=
  [("hyper-tune", false), ("verbose", true), ("all-trees", false), ("stratify", true),
   ("use-terminal-solver", true), ("use-similarity-lower-bound", true), ("use-upper-bound", true),
   ("use-lower-bound", true), ("use-task-lower-bound", true), ("use-branch-caching", false),
   ("use-dataset-caching", true)]

/-- The string parameters with default and allowed values; `none` when every text is allowed. -/
def strTable : List (String × String × Option (List String)) :=
  [("task", "accuracy", some ["accuracy", "cost-complex-accuracy", "f1-score", "group-fairness",
      "survival-analysis", "regression", "cost-complex-regression", "piecewise-linear-regression",
      "simple-linear-regression", "equality-of-opportunity", "cost-sensitive",
      "prescriptive-policy", "instance-cost-sensitive"]),
   ("file", "", none), ("test-file", "", none),
   ("feature-ordering", "in-order", some ["in-order", "gini"]),
   ("cost-file", "", none),
   ("ppg-teacher-method", "DM", some ["DM", "IPW", "DR", ""]),
   ("regression-bound", "equivalent", some ["equivalent", "kmeans", ""])]

/-- An assignment to a declared parameter of a value in the declared range. -/
def SetOp.Valid : SetOp → Prop
  | .int n v => ∃ d lo hi, (n, d, lo, hi) ∈ intTable ∧ lo ≤ v ∧ v ≤ hi
  | .flt n v => ∃ d lo hi q, (n, d, lo, hi) ∈ fltTable ∧ v = .fin q ∧ lo ≤ q ∧ q ≤ hi
  | .bool n _ => ∃ d, (n, d) ∈ boolTable
  | .str n v => ∃ d a, (n, d, a) ∈ strTable ∧ ∀ l, a = some l → v ∈ l

/-- The handler as `DefineParameters` returns it; `declared_ok` shows that it does return. -/
def declared : Handler :=
  match defineParameters with
  | .ok h => h
  | _ => {}

end Streed
