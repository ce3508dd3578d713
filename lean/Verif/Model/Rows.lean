import Mathlib.Data.List.Basic

/-!
# Model of the checks on the number of rows

How `fit`, `predict` and `score` bring feature rows, labels and extra data together. Rows, labels and extra data are of any types; what is
modelled is which label and extra data each row gets, and what happens if there are too few or too many. Binarisation and the other checks
of values (shape of arrays, classes of objects) are left out; they do not change numbers of rows.
-/

namespace Streed

namespace Rows

/-- What comes of a call: an exception, undefined behaviour (access out of range), or the instances that reach the solver. -/
inductive Outcome (A : Type) where
  | raises
  | undef
  | ok (instances : List A)
  deriving DecidableEq, Repr

variable {R L E : Type}

/-- The loop of `NumpyToSTreeDData` (bindings.cpp:65-84) from row number `i` on: label 0 (`l₀`) if there are no labels, else label number
`i`; the default (`e₀`) if there is no extra data, else item number `i`; `none` if there is no such label or item. -/
def load (l₀ : L) (e₀ : E) (y : List L) (e : List E) : Nat → List R → Option (List (R × L × E))
  | _, [] => some []
  | i, r :: X =>
    match (if y = [] then some l₀ else y[i]?), (if e = [] then some e₀ else e[i]?), load l₀ e₀ y e (i + 1) X with
    | some l, some d, some rest => some ((r, l, d) :: rest)
    | _, _, _ => none

/-- The call of the solver (bindings.cpp:110-152). -/
def pass (l₀ : L) (e₀ : E) (X : List R) (y : List L) (e : List E) : Outcome (R × L × E) :=
  match load l₀ e₀ y e 0 X with
  | none => .undef
  | some is => .ok is

/-- `_process_fit_data` (base.py:173-187) and `_process_score_data` (base.py:189-202), which differ in the least number of rows, then the
call of the solver with the extra data (base.py:261-279, 336-337). Arrays of labels must not be empty (`check_array`). -/
def checked (least : Nat) (l₀ : L) (e₀ : E) (X : List R) (y : List L) (e : List E) : Outcome (R × L × E) :=
  if X.length < least then .raises
  else if y = [] then .raises
  else if X.length ≠ y.length then .raises
  else pass l₀ e₀ X y e

/-- `fit` (base.py:237-279) once the extra data are processed. -/
def fitCall (l₀ : L) (e₀ : E) (X : List R) (y : List L) (e : List E) : Outcome (R × L × E) := checked 2 l₀ e₀ X y e

/-- `score` (base.py:318-338) once the extra data are processed. -/
def scoreCall (l₀ : L) (e₀ : E) (X : List R) (y : List L) (e : List E) : Outcome (R × L × E) := checked 1 l₀ e₀ X y e

/-- `predict` (base.py:298-316) once the extra data are processed: there are no labels. -/
def predictCall (l₀ : L) (e₀ : E) (X : List R) (e : List E) : Outcome (R × L × E) :=
  if X.length < 1 then .raises else pass l₀ e₀ X [] e

/-- `_process_extra_data` of tasks without extra data (base.py:210-217): `none` is the exception. -/
def noExtra : Option (List E) → Option (List E)
  | none => some []
  | some _ => none

/-- `fit` and `score` of tasks without extra data (base.py:261, 336). -/
def plainCall (call : List R → List L → List E → Outcome (R × L × E)) (X : List R) (y : List L) (ex : Option (List E)) :
    Outcome (R × L × E) :=
  match noExtra ex with
  | none => .raises
  | some e => call X y e

/-- `fit` and `score` of tasks whose labels are read from the extra data: costs per label (instance_cost_sensitive_classification.py:81-107,
132-133, 167-168) and treatments (prescriptive_policy_generation.py:85-124, 156-157, 204-205). -/
def targetCall (call : List R → List L → List E → Outcome (R × L × E)) (label : E → L) (X : List R) (ys : List E) : Outcome (R × L × E) :=
  call X (ys.map label) ys

/-- `predict` of these tasks (instance_cost_sensitive_classification.py:149-152, prescriptive_policy_generation.py:180-183): extra data
may be given, otherwise every row gets an empty item (`e₁`). -/
def targetPredict (l₀ : L) (e₀ e₁ : E) (X : List R) (ex : Option (List E)) : Outcome (R × L × E) :=
  predictCall l₀ e₀ X (ex.getD (X.map fun _ => e₁))

/-- `fit` and `score` of the survival tree (survival_analysis.py:109-118, 137-141, 84-90): pairs of event and time. -/
def survivalCall {V : Type} (call : List R → List L → List E → Outcome (R × L × E)) (wrap : V → E) (X : List R) (y : List (V × L)) :
    Outcome (R × L × E) :=
  if X.length ≠ y.length then .raises
  else call X (y.map Prod.snd) (y.map fun p => wrap p.1)

/-- The call of `predict` in `predict_cumulative_hazard_function` (survival_analysis.py:276, 84-90). -/
def survivalPredict {V : Type} (l₀ : L) (e₀ e₁ : E) (wrap : V → E) (X : List R) (events : Option (List V)) : Outcome (R × L × E) :=
  predictCall l₀ e₀ X (match events with | none => X.map fun _ => e₁ | some ev => ev.map wrap)

/-- The columns for linear leaves (regression.py:198-224): taken from the rows, or given as values. -/
def lineExtra (cols : R → E) (X : List R) : Option (List E) → List E
  | none => X.map cols
  | some vals => vals

/-- `fit` and `score` of piecewise linear regression (regression.py:253-256, 263-266). -/
def lineCall (call : List R → List L → List E → Outcome (R × L × E)) (cols : R → E) (X : List R) (y : List L) (vals : Option (List E)) :
    Outcome (R × L × E) :=
  call X y (lineExtra cols X vals)

/-- `predict` of piecewise linear regression (regression.py:258-261). -/
def linePredict (l₀ : L) (e₀ : E) (cols : R → E) (X : List R) (vals : Option (List E)) : Outcome (R × L × E) :=
  predictCall l₀ e₀ X (lineExtra cols X vals)

end Rows

end Streed
