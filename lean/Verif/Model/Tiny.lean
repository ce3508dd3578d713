import Verif.Model.InstCosts
import Verif.Model.Counts

/-!
# Costs that the depth-two solver takes for zero

`CostCalculator::UpdateCosts` skips the costs for which the task says `IsD2ZeroCost`. For instance costs that is `|cost| <= 1e-6`
(instance_cost_sensitive.h:74), also for policies (prescriptive_policy.h:53, with `<`). `Model/Counts.lean` has the exact test.
-/

namespace Streed

/-- `IsD2ZeroCost` of `InstanceCostSensitive` (instance_cost_sensitive.h:74) for a cost in units of `1 / u`. -/
def tiny (u : Nat) (c : Int) : Bool := c.natAbs * 1000000 ≤ u

/-- The label loop for one instance (cost_combiner.cpp:134-149) with the test of the task. -/
def updateInstZ (z : Int → Bool) (P : Problem) (zeroTrue one : Bool) (mult : Int) (org : Nat) (i : Inst) (S : Storage) : Storage :=
  let ls := storeLabels P.nL zeroTrue org
  let first := ls.headD 0
  ls.foldl (fun S l =>
    let costs := mult * P.cost i l
    if z costs then
      (if first < l then S else updateCountCost P.nF one true false i l costs mult S)
    else if first < l then updateCountCost P.nF one false true i l costs mult S
    else updateCountCost P.nF one true true i l costs mult S) S

/-- `UpdateCosts` (cost_combiner.cpp:121-157). -/
def updateCostsZ (z : Int → Bool) (P : Problem) (zeroTrue one : Bool) (mult : Int) (D : Data) (S : Storage) : Storage :=
  let S := (List.range P.nL).foldl (fun S k =>
    (byLabel D k).foldl (fun S i => updateInstZ z P zeroTrue one mult k i S) S) S
  { S with tot := S.tot + D.length * mult }

/-- `Initialize` (cost_combiner.cpp:14-43). -/
def Calc.initializeZ (z : Int → Bool) (P : Problem) (zeroTrue : Bool) (c : Calc) (D : Data) (n : Nat) : Calc × Bool :=
  let recount : Calc := ⟨some (D, n), updateCostsZ z P zeroTrue (n == 1) 1 D Storage.zero⟩
  match c.prev with
  | none => (recount, true)
  | some (D', n') =>
    if (n == 1) = (n' == 1) then
      let df := computeDifference P.nL D' D
      if df.1.length = 0 ∧ df.2.length = 0 then (c, false)
      else if df.1.length + df.2.length < D.length then
        (⟨some (D, n), updateCostsZ z P zeroTrue (n == 1) (-1) df.2
          (updateCostsZ z P zeroTrue (n == 1) 1 df.1 c.S)⟩, true)
      else (recount, true)
    else (recount, true)

/-- The costs as the depth-two solver sees them. -/
def dropTiny (z : Int → Bool) (P : Problem) : Problem := { P with cost := fun i k => if z (P.cost i k) then 0 else P.cost i k }

/-- `Solve` on a fresh solver with at most three nodes, without `all_trees`: the best leaf (solver.cpp:88-103), then one call of the
depth-two solver (solver.cpp:143-169, 277-338, 533-596), whose answer is kept if it is smaller. `P2` are the costs that the
depth-two solver adds up. -/
def shallow (c : Cfg) (P2 : Problem) (t : Top) (D : Data) : Node :=
  let start := Tol.solveLeaf c D (Node.addMin (Node.empty c.worst) (Node.value t.ub))
  let r := terminal c.tc (statsOf P2 D) [] t.maxNodes
  let v := if t.maxNodes = 1 then r.one else if t.maxNodes = 2 then r.two else r.three
  Node.addMin start.1 (if Tol.sdom start.2.sol v.sol then Node.empty c.worst else v)

/-- `Solve` for `InstanceCostSensitive` with at most three nodes, with the test of this task in the depth-two solver. -/
def fitCostsShallow (nF nL u : Nat) (w : Nat → Nat → Nat) (mls : Nat) (o : Options) (t : Top) (T : Data) : Node :=
  let P := instProblem nF nL w
  shallow (instCfg nF nL u w mls o (isRedundant P mls T)) (dropTiny (tiny u) P) t (preprocess P mls T)

end Streed
