import Verif.Model.InstCosts
import Verif.Model.RealTree

/-!
# Model of the labels that a search from Python considers

The labels of a search are those of the data view, whose number is one more than the largest label given (bindings.cpp:62-84).
For cost vectors the label given is the cheapest one of the row (instance_cost_sensitive_classification.py:98-103); for policies it is the
historic treatment (prescriptive_policy_generation.py:117-120). `PreprocessTrainData` makes room for `num_labels` labels
(instance_cost_sensitive.cpp:6-8), which is the parameter `num-extra-cols` (instance_cost_sensitive.h:53-59). No Python class sets this
parameter, so it is 0 (define_parameters.cpp:107-114).
-/

namespace Streed

/-- `np.argmin` of the first `n` entries: the first of the least (instance_cost_sensitive_classification.py:102). -/
def npArgmin (c : Nat → Nat) : Nat → Nat
  | 0 => 0
  | n + 1 => if c n < c (npArgmin c n) then n else npArgmin c n

/-- The instances as the binding makes them from cost vectors of length `K` (instance_cost_sensitive_classification.py:98-107,
bindings.cpp:66-77). -/
def costInstances (K : Nat) (w : Nat → Nat → Nat) (T : Data) : Data := T.map fun i => { i with label := npArgmin (w i.id) K }

/-- The length of `instances_per_label` (bindings.cpp:79-82). -/
def viewLabels (T : Data) : Nat := T.foldl (fun m i => max m (i.label + 1)) 0

/-- `NumLabels` after `PreprocessTrainData` with the parameter `num-extra-cols` (instance_cost_sensitive.cpp:6-8). -/
def trainLabels (extraCols : Nat) (T : Data) : Nat := if extraCols > viewLabels T then extraCols else viewLabels T

/-- `num-extra-cols` in a call from Python: the default (define_parameters.cpp:107-114). -/
def pyExtraCols : Nat := 0

/-- `Solve` with cost vectors of length `K` and the given `num-extra-cols`: as `fitCosts`, but the worst value of an instance is over its
whole cost vector (instance_cost_sensitive.h:13-15), while the labels are those of the view. -/
def fitCostVectors (extraCols nF K u : Nat) (w : Nat → Nat → Nat) (mls : Nat) (o : Options) (t : Top) (T : Data) : Run × Bool :=
  let D := costInstances K w T
  let P := instProblem nF (trainLabels extraCols D) w
  Tol.solve { instCfg nF (trainLabels extraCols D) u w mls o (isRedundant P mls D) with simInst := some fun i => (instWorst K w i : Nat) }
    t (preprocess P mls D)

/-- The instances as the binding makes them from policy data: the label is the historic treatment
(prescriptive_policy_generation.py:117-120, bindings.cpp:66-77). `ext` gives the record of every row. -/
def policyInstances (ext : Nat → Treatment) (T : Data) : Data := T.map fun i => { i with label := (ext i.id).k }

/-- `Solve` for policy data from Python: the treatments are those of the view; the task has no `PreprocessTrainData` of its own. -/
def fitPolicyPy (nF u : Nat) (ext : Nat → Treatment) (m : Teacher) (mls : Nat) (o : Options) (t : Top) (T : Data) : Option (Option Fitted) :=
  fitPolicyTree nF (viewLabels (policyInstances ext T)) u (fun i => ext i.id) m mls o t (policyInstances ext T)

end Streed
