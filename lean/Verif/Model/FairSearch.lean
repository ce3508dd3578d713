import Verif.Model.Pareto

/-!
# The fairness tasks as tasks of the search

Demographic parity (`GroupFairness`) and equality of opportunity (`EqOpp`); they differ in leaf costs and in the bound per
label. Doubles are rationals.
-/

namespace Streed

/-- `GroupFairnessSol::operator-=` (group_fairness.h:34-40), `EqOppSol::operator-=` (eq_opp.h:34-40). -/
def fairSub (a b : FairSol) : FairSol := ⟨max 0 (a.mis - b.mis), max 0 (a.g0 - b.g0), max 0 (a.g1 - b.g1), false⟩

/-- `ExtremePoints` (group_fairness.h:156-158, eq_opp.h:156-158). -/
def fairExtremes : List FairSol := [⟨intMax, 0, 0, false⟩, ⟨0, 1, 0, false⟩, ⟨0, 0, 1, false⟩]

/-- `DominatesD0` (group_fairness.h:128-130, eq_opp.h:128-130). -/
def fairDomD0 (limit : Rat) (size : Nat) (a b : FairSol) : Bool :=
  decide (fairScore limit size b ≤ fairScore limit size a)

/-- A fairness task on training data of `size` instances, with its leaf costs and its bound per label (group_fairness.h:50-170,
eq_opp.h:50-170; `RelaxRootSolution`, group_fairness.cpp:93-97, eq_opp.cpp:92-96). -/
def fairTask (nF size : Nat) (limit : Rat) (leaf : Data → Nat → FairSol) (worst : Nat → FairSol) : PTask FairSol where
  o := fairOps
  leaf := leaf
  add := fairAdd
  comb _ := fairAdd
  sub := fairSub
  best := ⟨0, 0, 0, true⟩
  ext := fairExtremes
  domD0 := fairDomD0 limit size
  worstFor k n := ⟨(worst k).mis * n, (worst k).g0 * n, (worst k).g1 * n, false⟩
  constrained := true
  ok := fairAccepts limit
  relax s := { s with root := true }
  may := fairMay
  nF := nF
  nL := 2

/-- `GroupFairness` on training data `T`. -/
def parityTask (nF : Nat) (limit : Rat) (T : Data) : PTask FairSol :=
  fairTask nF T.length limit (gfLeaf (gfGroups T)) (gfWorst (gfGroups T))

/-- `EqOpp` on training data `T`. -/
def opportunityTask (nF : Nat) (limit : Rat) (T : Data) : PTask FairSol :=
  fairTask nF T.length limit (eoLeaf (eoGroups T)) (eoWorst (eoGroups T))

end Streed
