import Verif.Model.TestScore
import Verif.Model.CostSensitive
import Verif.Model.Policy
import Verif.Model.Regression

/-!
# Model of scoring new data with costs, treatments and numbers

`score` (base.py:318-338) for cost-sensitive classification, instance-specific costs, policies and piecewise-constant regression, on
data that the solver sees for the first time. As in `Model/TestScore.lean`, `none` is an access beyond the end of a vector, an
exception or a division by zero. Doubles are rationals.
-/

namespace Streed

/-- `Tree::ComputeTestScore` (tree.h:97-119) for a task with branching costs: the context of the children is the branch extended by
the code of the half of the data that they get (`GetLeftContext`, `GetRightContext`, optimization_task.h). The path lengths are left
out. -/
def Obj.costWalk (fl : List Nat) (price : Branch → Nat → Rat) (leaf : View → Nat → Option Rat) :
    Obj → Branch → View → Rat → Option Rat
  | .null, _, _, _ => none
  | .mk feat lab l r, b, v, acc =>
    match lab with
    | some k => (leaf v k).map fun c => acc + c
    | none =>
      match feat with
      | none => none
      | some f =>
        let s := v.split f
        let acc := acc + v.size * price b f
        if f < fl.length ∧ fl.getD f 0 = 1 then do
          let a ← r.costWalk fl price leaf (b.child f false) s.1 acc
          l.costWalk fl price leaf (b.child f true) s.2 a
        else do
          let a ← l.costWalk fl price leaf (b.child f false) s.1 acc
          r.costWalk fl price leaf (b.child f true) s.2 a

/-- `CostSensitive::GetTestLeafCosts` (cost_sensitive.h:64-66, cost_sensitive.cpp:140-147): the loop runs over the label groups of the
data; the matrix has `n` rows of `n` entries. -/
def csLeafV (C : Costs) (n : Nat) (v : View) (label : Nat) : Option Rat :=
  (List.range v.groups.length).foldlM (fun e k =>
    if k = label then some e
    else if k < n ∧ label < n then some (e + (v.groups.getD k []).length * C.matrix k label) else none) 0

/-- `ComputeScore` (cost_sensitive.cpp:163-169): the average divided by the cost of measuring everything plus the largest
misclassification cost for the rows outside the largest class. -/
def csScore (C : Costs) (n : Nat) (v : View) (value : Rat) : Option Rat :=
  if v.size = 0 then none
  else
    let biggest := (v.groups.map List.length).foldl max 0
    let standard := C.totalTest + (1 - (biggest : Rat) / v.size) * C.maxMis n
    if standard = 0 then none else some (value / v.size / standard)

/-- `score` with cost-sensitive classification: `ComputeTestPerformance` (result.h:75-88) and `ComputeTestTestScore`
(cost_sensitive.cpp:175-177). -/
def csTest (fl : List Nat) (C : Costs) (n : Nat) (t : Obj) (D : Data) : Option Rat := do
  let v := preprocessTest fl (loadRows D)
  let r ← t.costWalk fl C.branchCost (csLeafV C n) [] v 0
  csScore C n v r

/-- `InstanceCostSensitive::GetTestLeafCosts` (instance_cost_sensitive.cpp:14-29) with `GetLabelCost` (instance_cost_sensitive.h:20),
which throws for labels beyond the costs of the row. `w` gives the costs that came with a row. -/
def icLeafV (w : Nat → List Rat) (v : View) (label : Nat) : Option Rat :=
  v.groups.flatten.foldlM (fun (c : Rat) (i : Inst) => ((w i.id)[label]?).map (c + ·)) 0

/-- `PreprocessTestData` (instance_cost_sensitive.cpp:10-12): empty label groups are added. -/
def padGroups (n : Nat) (v : View) : View :=
  if n > v.groups.length then { v with groups := v.groups ++ List.replicate (n - v.groups.length) [] } else v

/-- `score` with instance-specific costs: `ComputeTestTestScore` returns the value (instance_cost_sensitive.h:89). -/
def icTest (fl : List Nat) (n : Nat) (w : Nat → List Rat) (t : Obj) (D : Data) : Option Rat := do
  let v := padGroups n (preprocessTest fl (loadRows D))
  let r ← t.testWalk fl (· + ·) (icLeafV w) v (0, 0)
  pure r.1

/-- The best treatment stored with a row: zero when the array has no column for it (`PPGData`, prescriptive_policy.h:10-15; the two
calls in prescriptive_policy_generation.py:98-109). -/
def storedBest (given : Option Nat) : Nat := given.getD 0

/-- `PrescriptivePolicy::GetTestLeafCosts` (prescriptive_policy.cpp:104-115). -/
def ppLeafV (given : Nat → Option Nat) (v : View) (label : Nat) : Option Int :=
  some (v.groups.flatten.foldl (fun (e : Int) (i : Inst) => e + (if storedBest (given i.id) = label then 0 else 1)) 0)

/-- `score` of a policy (prescriptive_policy_generation.py:185-205): `ComputeTestTestScore` (prescriptive_policy.h:60). -/
def ppTest (fl : List Nat) (given : Nat → Option Nat) (t : Obj) (D : Data) : Option Rat := do
  let v := preprocessTest fl (loadRows D)
  let r ← t.testWalk fl (· + ·) (ppLeafV given) v (0, 0)
  accScore v.size r.1

/-- The rows of a regression task are all in the first label group (bindings.cpp:63, 76-77). Targets are looked up by row number, so
the class label of the model is not used; it is set to zero. -/
def loadNumbers (D : Data) : View := View.ofGroups [D.map fun i => { i with label := 0 }]

/-- `Regression::GetTestLeafCosts` (regression.h:32-34, regression.cpp:18-25); `tg` gives the target of a row, `val` the number that
a leaf predicts. -/
def rgLeafV (tg val : Nat → Rat) (v : View) (label : Nat) : Option Rat :=
  (v.groups[0]?).map fun g => regLeafCosts (g.map fun i => tg i.id) (val label)

/-- `CostComplexRegression::GetTestLeafCosts` (cost_complex_regression.cpp:198-214); new rows have weight one and their own square
(`PreprocessData`, cost_complex_regression.cpp:44-50). Branching costs of new data are zero (cost_complex_regression.h:76). -/
def ccLeafV (tg val : Nat → Rat) (v : View) (label : Nat) : Option Rat :=
  (v.groups[0]?).map fun g => ccrLeafCosts (g.map fun i => ⟨i.id, 0, tg i.id, tg i.id * tg i.id, 1⟩) (val label)

/-- `score` of a regression tree: `ComputeTestTestScore` (regression.h:47, cost_complex_regression.h:102). -/
def rgTest (fl : List Nat) (leaf : View → Nat → Option Rat) (t : Obj) (D : Data) : Option Rat := do
  let v := preprocessTest fl (loadNumbers D)
  let r ← t.testWalk fl (· + ·) leaf v (0, 0)
  if v.size = 0 then none else some (r.1 / v.size)

end Streed
