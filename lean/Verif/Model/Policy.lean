import Verif.Model.Tasks

/-!
# Model of the prescriptive-policy and instance-cost-sensitive tasks

Doubles are rationals, so rounding is not modelled. The extra data of an instance is a function of the
instance. Vectors over the labels are functions; every index the code uses is below the number of labels.
-/

namespace Streed

/-- `PPGData` (prescriptive_policy.h:17-28), the part used in training. -/
structure Treatment where
  /-- historic treatment -/
  k : Nat
  /-- historic outcome -/
  y : Rat
  /-- propensity score -/
  mu : Rat
  /-- predicted outcome of every treatment -/
  yhat : Nat → Rat

/-- The teacher method (`use_dm`, `use_ipw`, `use_dr`, prescriptive_policy.cpp:37-42). -/
inductive Teacher where
  | dm | ipw | dr
  deriving DecidableEq

/-- `PPGData::ProcessData` (prescriptive_policy.cpp:24-34), the entry of treatment `k` in the score vector of
the method. -/
def Treatment.score (e : Treatment) (m : Teacher) (k : Nat) : Rat :=
  let none := decide (|e.mu| ≤ 1 / 1000000)
  match m with
  | .dm => -(e.yhat k)
  | .ipw => -(if none then 0 else if k = e.k then e.y / e.mu else 0)
  | .dr => -(if none then 0 else e.yhat k + (if k = e.k then (e.y - e.yhat e.k) / e.mu else 0))

/-- The instances as the loops over the labels visit them. -/
def byLabels (nL : Nat) (D : Data) : Data := (List.range nL).flatMap fun k => D.filter fun i => i.label = k

/-- The minimum over all instances and treatments, starting from 1 (prescriptive_policy.cpp:48-58). -/
def minScore (ext : Inst → Treatment) (m : Teacher) (nL : Nat) (D : Data) : Rat :=
  (byLabels nL D).foldl (fun v i => (List.range nL).foldl (fun v k => min ((ext i).score m k) v) v) 1

/-- The scan that raises `worst_per_label[k]` (prescriptive_policy.cpp:50-62). The vector is not cleared
first. -/
def scanWorst (ext : Inst → Treatment) (m : Teacher) (nL : Nat) (D : Data) (w : List Rat) : List Rat :=
  (List.range nL).foldl (fun w k =>
    let w := w ++ [-2147483647]
    w.set k ((D.filter fun i => i.label = k).foldl (fun v i =>
      (List.range nL).foldl (fun v k2 => if (ext i).score m k2 > v then (ext i).score m k2 else v) v)
        (w.getD k 0))) w

/-- `worst_per_label` after `InformTrainData` (prescriptive_policy.cpp:44-72), from its value before. -/
def informWorst (ext : Inst → Treatment) (m : Teacher) (nL : Nat) (D : Data) (w : List Rat) : List Rat :=
  (List.range nL).foldl (fun w k => w.set k (w.getD k 0 - minScore ext m nL D)) (scanWorst ext m nL D w)

/-- `cost_per_training_instance` after `InformTrainData` (prescriptive_policy.cpp:74-91): the rows written, the
latest first. Rows never written are zero. -/
def costRows (ext : Inst → Treatment) (m : Teacher) (nL : Nat) (D : Data) : List (Nat × (Nat → Rat)) :=
  (byLabels nL D).foldl (fun rows i => (i.id, fun k => (ext i).score m k - minScore ext m nL D) :: rows) []

/-- Reading a row of `cost_per_training_instance`. -/
def costRow (rows : List (Nat × (Nat → Rat))) (id : Nat) : Nat → Rat :=
  match rows.find? fun r => r.1 == id with
  | some r => r.2
  | none => fun _ => 0

/-- `PrescriptivePolicy::GetLeafCosts` (prescriptive_policy.cpp:94-102). -/
def policyLeaf (rows : List (Nat × (Nat → Rat))) (nL : Nat) (D : Data) (label : Nat) : Rat :=
  (byLabels nL D).foldl (fun r i => r + costRow rows i.id label) 0

/-- `PrescriptivePolicy::GetInstanceLeafD2Costs` (prescriptive_policy.cpp:117-121). -/
def policyD2 (rows : List (Nat × (Nat → Rat))) (i : Inst) (label : Nat) (mult : Int) : Rat :=
  mult * costRow rows i.id label

/-- `PrescriptivePolicy::GetTestLeafCosts` (prescriptive_policy.cpp:104-115), with `opt` the best treatment of an
instance. -/
def policyTestLeaf (opt : Inst → Nat) (nL : Nat) (D : Data) (label : Nat) : Int :=
  (byLabels nL D).foldl (fun e i => e + (if opt i = label then 0 else 1)) 0

/-! ### Instance cost-sensitive classification -/

/-- `InstanceCostSensitive::GetLeafCosts` (instance_cost_sensitive.cpp:14-24), with `c i k` the cost of label `k`
for instance `i`. -/
def icsLeaf (c : Inst → Nat → Rat) (nL : Nat) (D : Data) (label : Nat) : Rat :=
  (byLabels nL D).foldl (fun r i => r + c i label) 0

/-- `InstanceCostSensitive::GetInstanceLeafD2Costs` (instance_cost_sensitive.cpp:31-34). -/
def icsD2 (c : Inst → Nat → Rat) (i : Inst) (label : Nat) (mult : Int) : Rat := mult * c i label

/-- `InstanceCostSensitive::ComputeD2Costs` (instance_cost_sensitive.cpp:36-38). -/
def icsCompute (v : Rat) : Rat := if v < 0 then 0 else v

/-- The worst cost of one instance, as `ReadData` computes it (instance_cost_sensitive.cpp:106-110), from a start
value (`-DBL_MAX` in the code). -/
def icsWorst (c : Inst → Nat → Rat) (nL : Nat) (start : Rat) (i : Inst) : Rat :=
  (List.range nL).foldl (fun w k => if c i k > w then c i k else w) start

/-- `worst_per_label` of `InstanceCostSensitive::InformTrainData` (instance_cost_sensitive.cpp:40-57). -/
def icsWorstLabel (c : Inst → Nat → Rat) (nL : Nat) (D : Data) (l : Nat) : Rat :=
  (byLabels nL D).foldl (fun w i => if c i l > w then c i l else w) 0

end Streed
