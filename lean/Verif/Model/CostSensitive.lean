import Verif.Model.Tasks
import Verif.Model.Node

/-!
# Model of the cost-sensitive task

`src/tasks/cost_sensitive.cpp`, `include/tasks/cost_sensitive.h`. Doubles are rationals. The tables of the code have
one row per feature below `num_features`; the model describes them for features in that range (the code reads
outside its tables for others).
-/

namespace Streed

/-- `FeatureCostSpecifier` (cost_sensitive.h:6-16): the cost of measuring an attribute, its cost when another
attribute of the same group was measured, the group, and the binary features made from the attribute. -/
structure AttrCost where
  cost : Rat
  disc : Rat
  group : Nat
  lo : Nat
  hi : Nat

/-- `CostSpecifier` (cost_sensitive.h:17-36): the matrix is indexed by true label, then assigned label. -/
structure Costs where
  matrix : Nat → Nat → Rat
  attrs : List AttrCost

namespace Costs

/-- `num_features` (cost_sensitive.cpp:59-62). -/
def numFeatures (c : Costs) : Nat := (c.attrs.map fun a => a.hi - a.lo + 1).sum

/-- `feature_costs[f]`: later attributes overwrite earlier ones (cost_sensitive.cpp:75). -/
def featCost (c : Costs) (f : Nat) : Rat :=
  c.attrs.foldl (fun x a => if a.lo ≤ f ∧ f ≤ a.hi then a.cost else x) 0

/-- `discount_costs[f]` (cost_sensitive.cpp:76). -/
def discCost (c : Costs) (f : Nat) : Rat :=
  c.attrs.foldl (fun x a => if a.lo ≤ f ∧ f ≤ a.hi then a.disc else x) 0

/-- `same_binarized` (cost_sensitive.cpp:82-86). -/
def sameBin (c : Costs) (f g : Nat) : Bool :=
  c.attrs.any fun a => decide (a.lo ≤ f) && decide (f ≤ a.hi) && decide (a.lo ≤ g) && decide (g ≤ a.hi)

/-- The features in the order in which they enter `group_attribute_map`, with their group
(cost_sensitive.cpp:69-81). -/
def entries (c : Costs) : List (Nat × Nat) :=
  c.attrs.flatMap fun a => (List.range' a.lo (a.hi + 1 - a.lo)).map fun f => (a.group, f)

/-- Whether an earlier entry `g` and a later entry `f` of one group exist. -/
def pairIn (f g : Nat) : List (Nat × Nat) → Bool
  | [] => false
  | e :: es => (decide (e.2 = g) && es.any fun e' => decide (e'.1 = e.1) && decide (e'.2 = f)) || pairIn f g es

/-- `same_group` (cost_sensitive.cpp:77-80). -/
def sameGroup (c : Costs) (f g : Nat) : Bool := pairIn f g c.entries || pairIn g f c.entries

/-- The loop of `ComputeTotalTestCosts` (cost_sensitive.cpp:99-114); `seen` are the features for which
`binary_done` and `group_done` were updated. -/
def totalFrom (c : Costs) : List Nat → List Nat → Rat
  | [], _ => 0
  | f :: fs, seen =>
    if seen.any (fun g => c.sameBin g f) then c.totalFrom fs seen
    else (if seen.any (fun g => c.sameGroup g f) then c.discCost f else c.featCost f) + c.totalFrom fs (f :: seen)

/-- `ComputeTotalTestCosts` (cost_sensitive.cpp:94-116). -/
def totalTest (c : Costs) : Rat := c.totalFrom (List.range c.numFeatures) []

/-- `ComputeMaxMisclassificationCost` (cost_sensitive.cpp:118-128), for `n` labels. -/
def maxMis (c : Costs) (n : Nat) : Rat :=
  (((List.range n).flatMap fun i => (List.range n).map fun j => c.matrix i j)).foldl max (c.matrix 0 0)

/-- `GetWorstPerLabel` (cost_sensitive.h:77): `max_instance_costs`. -/
def worst (c : Costs) (n : Nat) : Rat := c.totalTest + c.maxMis n

/-- `GetInstanceLeafD2Costs` (cost_sensitive.cpp:136-138). -/
def d2 (c : Costs) (org label : Nat) (mult : Int) : Rat := mult * c.matrix org label

/-- `GetLeafCosts` (cost_sensitive.cpp:140-147): the assigned label itself is skipped. -/
def leaf (c : Costs) (nL : Nat) (D : Data) (label : Nat) : Rat :=
  (List.range nL).foldl (fun e k => if k = label then e else e + numLabel D k * c.matrix k label) 0

/-- `GetBranchingCosts(context, feature)` (cost_sensitive.cpp:149-161). -/
def branchCost (c : Costs) (b : Branch) (f : Nat) : Rat :=
  if b.any (fun x => c.sameBin (x / 2) f) then 0
  else if b.any (fun x => c.sameGroup (x / 2) f) then c.discCost f
  else c.featCost f

/-- The value of a tree: leaf costs, plus at every branching node the size of its data times the test cost
(cost_sensitive.h:69, optimization_utils.h:176-195). -/
def eval (c : Costs) (nL : Nat) : Tree → Branch → Data → Rat
  | .leaf k, _, D => c.leaf nL D k
  | .node f l r, b, D =>
    D.length * c.branchCost b f +
      (c.eval nL l (b.child f false) (without f D) + c.eval nL r (b.child f true) (having f D))

end Costs

end Streed
