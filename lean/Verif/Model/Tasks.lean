import Verif.Spec
import Verif.Model.Front
import Verif.Model.FrontUB

/-!
# Model of the tasks with integer or fairness values

Accuracy, F1-score, demographic parity (`GroupFairness`) and equality of opportunity (`EqOpp`): leaf costs,
costs per instance for the depth-two solver, scores and constraint. Doubles are rationals, so rounding is
not modelled.
-/

namespace Streed

/-- The value of a tree: leaf values combined with the task's `Add` at every branching node
(`CombineSols`, optimization_utils.h; `Solver::InternalTrainScore`/`InternalTestScore`, result.h:35-110),
for tasks without branching costs. -/
def evalTree {S : Type} (add : S → S → S) (leaf : Data → Nat → S) : Tree → Data → S
  | .leaf k, D => leaf D k
  | .node f l r, D => add (evalTree add leaf l (without f D)) (evalTree add leaf r (having f D))

/-- `ADataView::NumInstancesForLabel` (data.h). -/
def numLabel (D : Data) (k : Nat) : Nat := (D.filter fun i => i.label = k).length

/-! ### Accuracy -/

/-- `Accuracy::GetLeafCosts` (accuracy.cpp:5-12), also `CostComplexAccuracy::GetLeafCosts`
(cost_complex_accuracy.cpp:42-49): the loop over the labels, skipping the assigned one. -/
def accLeafCosts (nL : Nat) (D : Data) (label : Nat) : Int :=
  (List.range nL).foldl (fun e k => if k = label then e else e + numLabel D k) 0

/-- `Accuracy::GetInstanceLeafD2Costs` (accuracy.h:29). -/
def accD2 (org label : Nat) (mult : Int) : Int := mult * (if org = label then 0 else 1)

/-- `Accuracy::GetWorstPerLabel` (accuracy.h:38). -/
def accWorst (_label : Nat) : Int := 1

/-- `ComputeTrainScore`, `ComputeTrainTestScore`, `ComputeTestTestScore` (accuracy.h:40-47): the size is that
of the training or of the test data. `none`: division by zero. -/
def accScore (size : Nat) (v : Int) : Option Rat :=
  if size = 0 then none else some (((size : Int) - v : Int) / (size : Rat))

/-! ### F1-score -/

/-- `F1Score::GetLeafCosts` (f1score.cpp:5-11). -/
def f1LeafCosts (D : Data) (label : Nat) : F1Sol :=
  if label ≠ 0 then ⟨0, (D.length : Int) - numLabel D label⟩ else ⟨(D.length : Int) - numLabel D label, 0⟩

/-- `F1Score::GetInstanceLeafD2Costs` (f1score.h:47-51). -/
def f1D2 (org label : Nat) (mult : Int) : F1Sol :=
  if label = 0 then ⟨if org = 1 then mult else 0, 0⟩ else ⟨0, if org = 0 then mult else 0⟩

/-- `F1Score::GetWorstPerLabel` (f1score.h:54). -/
def f1Worst (label : Nat) : F1Sol := if label = 0 then ⟨0, 1⟩ else ⟨1, 0⟩

/-- `F1Score::ComputeTrainScore` and `ComputeTestTestScore` (f1score.cpp:14-36), with `pos` the number of
instances of class 1 in the summary. `none`: the division 0/0, a not-a-number. (`runtime_assert` is empty
outside debug builds, base.h:31-35.) -/
def f1Score (pos : Nat) (v : F1Sol) : Option Rat :=
  let tp : Int := pos - v.fn
  let den : Rat := tp + 1 / 2 * ((v.fp + v.fn : Int) : Rat)
  if den = 0 then none else some (tp / den)

/-! ### Demographic parity and equality of opportunity -/

/-- The group sizes that a task remembers: `train_group0_size`, `train_group1_size`. -/
structure Groups where
  n0 : Nat
  n1 : Nat

/-- The number of instances with (`x = true`) or without the sensitive feature 0. -/
def groupSize (x : Bool) (D : Data) : Nat := (D.filter fun i => i.feat 0 == x).length

/-- `GroupFairness::InformTrainData` (group_fairness.cpp:5-17). -/
def gfGroups (T : Data) : Groups := ⟨groupSize false T, groupSize true T⟩

/-- `GroupFairness::GetLeafCosts` (group_fairness.cpp:33-52). -/
def gfLeaf (G : Groups) (D : Data) (label : Nat) : FairSol :=
  let g0 : Nat := groupSize false D
  let a : Rat := (g0 : Rat) / G.n0
  let b : Rat := (((D.length : Int) - g0 : Int) : Rat) / G.n1
  if label ≠ 0 then ⟨numLabel D 0, a, b, false⟩ else ⟨numLabel D 1, b, a, false⟩

/-- `GroupFairness::GetInstanceLeafD2Costs` (group_fairness.cpp:54-67). -/
def gfD2 (G : Groups) (i : Inst) (org label : Nat) (mult : Int) : FairSol :=
  let g0 : Int := if i.feat 0 then 0 else 1
  let a : Rat := mult * ((g0 : Rat) / G.n0)
  let b : Rat := mult * (((1 - g0 : Int) : Rat) / G.n1)
  if label ≠ 0 then ⟨mult * ((label : Int) - org), a, b, false⟩ else ⟨mult * ((org : Int) - label), b, a, false⟩

/-- `GroupFairness::GetWorstPerLabel` (group_fairness.h:89-93). -/
def gfWorst (G : Groups) (label : Nat) : FairSol :=
  if label ≠ 0 then ⟨1, 1 / (G.n1 : Rat), 1 / (G.n0 : Rat), false⟩ else ⟨1, 1 / (G.n0 : Rat), 1 / (G.n1 : Rat), false⟩

/-- `GroupFairnessSol::operator+=` (group_fairness.h:26-32) and `EqOppSol::operator+=` (eq_opp.h:26-32). -/
def fairAdd (a b : FairSol) : FairSol := ⟨a.mis + b.mis, a.g0 + b.g0, a.g1 + b.g1, false⟩

/-- `SatisfiesConstraint` (group_fairness.h:160-163, eq_opp.h:160-163). -/
def fairAccepts (limit : Rat) (v : FairSol) : Bool := decide (max v.g0 v.g1 - 1 ≤ limit)

/-- `ComputeTrainScore` and `ComputeTestTestScore` (group_fairness.cpp:70-95, eq_opp.cpp:70-94), with `size`
the number of instances in the train or test summary. -/
def fairScore (limit : Rat) (size : Nat) (v : FairSol) : Rat :=
  if fairAccepts limit v then ((size : Int) - v.mis : Int) / (size : Rat) else 0

/-- `MayBranchOnFeature` of both fairness tasks (group_fairness.h:167, eq_opp.h:167). -/
def fairMay (f : Nat) : Bool := decide (f > 0)

/-- The instances with the positive label. -/
def positives (D : Data) : Data := D.filter fun i => i.label = 1

/-- `EqOpp::InformTrainData` (eq_opp.cpp:5-17). -/
def eoGroups (T : Data) : Groups := ⟨groupSize false (positives T), groupSize true (positives T)⟩

/-- `EqOpp::GetLeafCosts` (eq_opp.cpp:33-50). -/
def eoLeaf (G : Groups) (D : Data) (label : Nat) : FairSol :=
  let g0 : Nat := groupSize false (positives D)
  let a : Rat := (g0 : Rat) / G.n0
  let b : Rat := (((numLabel D 1 : Int) - g0 : Int) : Rat) / G.n1
  if label ≠ 0 then ⟨numLabel D 0, a, b, false⟩ else ⟨numLabel D 1, b, a, false⟩

/-- `EqOpp::GetInstanceLeafD2Costs` (eq_opp.cpp:52-68). -/
def eoD2 (G : Groups) (i : Inst) (org label : Nat) (mult : Int) : FairSol :=
  let h0 : Int := if i.feat 0 then 0 else 1
  let g1 : Int := if org = 1 then 1 - h0 else 0
  let g0 : Int := if org = 1 then h0 else 0
  let a : Rat := mult * ((g0 : Rat) / G.n0)
  let b : Rat := mult * ((g1 : Rat) / G.n1)
  if label ≠ 0 then ⟨mult * ((label : Int) - org), a, b, false⟩ else ⟨mult * ((org : Int) - label), b, a, false⟩

/-- `EqOpp::GetWorstPerLabel` (eq_opp.h:88-92). -/
def eoWorst (G : Groups) (label : Nat) : FairSol :=
  if label ≠ 0 then ⟨1, 1 / (G.n1 : Rat), 1 / (G.n0 : Rat), false⟩ else ⟨1, 0, 0, false⟩

end Streed
