import Verif.Model.TreeObj
import Verif.Model.Tasks

/-!
# Model of scoring new data

`score`, `get_question_length` and `predict` (base.py:298-360) on data that the solver sees for the first time: loading the rows
(bindings.cpp:50-86), informing the task (`Solver::InitializeTest`, solver.cpp:247-259), the walk through the tree
(`Tree::ComputeTestScore`, tree.h:97-119) and the final score (`InternalTestScore::ComputeTestPerformance`, result.h:75-88).
Accuracy (with or without complexity cost), F1-score, demographic parity and equality of opportunity. `none` is an access beyond the
end of a vector, a null pointer or a division by zero. The checks `runtime_assert` are empty outside debug builds (base.h:31-35).
What is kept from an earlier test set is the subject of `Model/Session.lean`.
-/

namespace Streed

/-- One row in the loop of `NumpyToSTreeDData` (bindings.cpp:65-84), for a label that is not negative: the vector of label groups
grows to `label + 1` groups when needed, never further. -/
def loadRow (gs : List Data) (i : Inst) : List Data :=
  (if gs.length ≤ i.label then gs ++ List.replicate (i.label + 1 - gs.length) [] else gs).modify i.label (· ++ [i])

/-- `NumpyToSTreeDData` (bindings.cpp:50-86) for class labels. -/
def loadRows (D : Data) : View := View.ofGroups (D.foldl loadRow [])

/-- `Tree::ComputeTestScore` (tree.h:97-119): the value and the sum of path lengths so far are passed along. -/
def Obj.testWalk {S : Type} (fl : List Nat) (add : S → S → S) (leaf : View → Nat → Option S) :
    Obj → View → S × Nat → Option (S × Nat)
  | .null, _, _ => none
  | .mk feat lab l r, v, acc =>
    match lab with
    | some k => (leaf v k).map fun c => (add acc.1 c, acc.2 + v.size)
    | none =>
      match feat with
      | none => none
      | some f =>
        let s := v.split f
        if f < fl.length ∧ fl.getD f 0 = 1 then do
          let a ← r.testWalk fl add leaf s.1 (acc.1, acc.2 + v.size)
          l.testWalk fl add leaf s.2 a
        else do
          let a ← l.testWalk fl add leaf s.1 (acc.1, acc.2 + v.size)
          r.testWalk fl add leaf s.2 a

/-- `Accuracy::GetTestLeafCosts` (accuracy.h:24-26, accuracy.cpp:5-12) and `CostComplexAccuracy::GetTestLeafCosts`
(cost_complex_accuracy.h:44-46): the loop runs over the label groups that the data have. -/
def accLeafV (v : View) (label : Nat) : Option Int :=
  some ((List.range v.groups.length).foldl (fun e k => if k = label then e else e + (v.groups.getD k []).length) 0)

/-- `F1Score::GetTestLeafCosts` (f1score.h:43-45, f1score.cpp:5-12): `NumInstancesForLabel(label)` (data.h:190) is not checked. -/
def f1LeafV (v : View) (label : Nat) : Option F1Sol :=
  (v.groups[label]?).map fun g =>
    if label ≠ 0 then ⟨0, (v.size : Int) - g.length⟩ else ⟨(v.size : Int) - g.length, 0⟩

/-- `GroupFairness::GetTestLeafCosts` (group_fairness.h:80-82, group_fairness.cpp:33-52), with the group sizes of the training data. -/
def gfLeafV (G : Groups) (v : View) (label : Nat) : Option FairSol :=
  let g0 : Nat := (v.groups.map (groupSize false)).sum
  let a : Rat := (g0 : Rat) / G.n0
  let b : Rat := (((v.size : Int) - g0 : Int) : Rat) / G.n1
  if label ≠ 0 then (v.groups[0]?).map fun g => ⟨g.length, a, b, false⟩
  else (v.groups[1]?).map fun g => ⟨g.length, b, a, false⟩

/-- `EqOpp::GetTestLeafCosts` (eq_opp.h:80-82, eq_opp.cpp:33-50): the group of label 1 is always read. -/
def eoLeafV (G : Groups) (v : View) (label : Nat) : Option FairSol := do
  let pos ← v.groups[1]?
  let neg ← v.groups[0]?
  let g0 : Nat := groupSize false pos
  let a : Rat := (g0 : Rat) / G.n0
  let b : Rat := (((pos.length : Int) - g0 : Int) : Rat) / G.n1
  pure (if label ≠ 0 then ⟨neg.length, a, b, false⟩ else ⟨pos.length, b, a, false⟩)

/-- `score` with accuracy: `InternalTestScore::ComputeTestPerformance` (result.h:75-88) and
`Accuracy::ComputeTestTestScore` (accuracy.h:47). -/
def accTest (fl : List Nat) (t : Obj) (D : Data) : Option Rat := do
  let v := preprocessTest fl (loadRows D)
  let r ← t.testWalk fl (· + ·) accLeafV v (0, 0)
  accScore v.size r.1

/-- `score` with the F1-score: `F1Score::ComputeTestTestScore` (f1score.cpp:28-36) reads the second entry of the class counts of the
test data (`DataSummary`, data.h:234-245), which has one entry per label group. -/
def f1Test (fl : List Nat) (t : Obj) (D : Data) : Option Rat := do
  let v := preprocessTest fl (loadRows D)
  let r ← t.testWalk fl f1Add f1LeafV v (⟨0, 0⟩, 0)
  let pos ← v.groups[1]?
  f1Score pos.length r.1

/-- `score` with demographic parity: `GroupFairness::ComputeTestTestScore` (group_fairness.cpp:86-95). -/
def gfTest (fl : List Nat) (limit : Rat) (G : Groups) (t : Obj) (D : Data) : Option Rat := do
  let v := preprocessTest fl (loadRows D)
  let r ← t.testWalk fl fairAdd (gfLeafV G) v (⟨0, 0, 0, false⟩, 0)
  if v.size = 0 then none else some (fairScore limit v.size r.1)

/-- `EqOpp::InformTestData` (eq_opp.cpp:19-31): counts the groups among the rows of label 1. -/
def eoInform (v : View) : Option Groups := (v.groups[1]?).map fun g => ⟨groupSize false g, groupSize true g⟩

/-- `score` with equality of opportunity: `InformTestData`, then `EqOpp::ComputeTestTestScore` (eq_opp.cpp:85-94). -/
def eoTest (fl : List Nat) (limit : Rat) (G : Groups) (t : Obj) (D : Data) : Option Rat := do
  let v := preprocessTest fl (loadRows D)
  let _ ← eoInform v
  let r ← t.testWalk fl fairAdd (eoLeafV G) v (⟨0, 0, 0, false⟩, 0)
  if v.size = 0 then none else some (fairScore limit v.size r.1)

/-- `predict` with equality of opportunity (bindings.cpp:125-139): there are no labels, so every row gets label 0; `Solver::Predict`
(solver.cpp:1266-1273) informs the task as well. -/
def eoPredict (fl : List Nat) (t : Obj) (D : Data) : Option (List Nat) := do
  let v := loadRows (D.map fun i => { i with label := 0 })
  let _ ← eoInform (preprocessTest fl v)
  predictFresh fl t v

/-- `get_question_length` (base.py:341-360): the sum of the path lengths divided by the number of rows (result.h:85). -/
def questionLength (fl : List Nat) (t : Obj) (D : Data) : Option Rat := do
  let v := preprocessTest fl (loadRows D)
  let r ← t.testWalk fl (· + ·) accLeafV v (0, 0)
  if v.size = 0 then none else some ((r.2 : Rat) / v.size)

end Streed
