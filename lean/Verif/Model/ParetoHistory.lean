import Verif.Model.Pareto

/-!
# Histories of the caches of fronts

Calls of `Cache` (cache.cpp:17-69) for a partially ordered task, in any order.
-/

namespace Streed

/-- A call that changes the caches. -/
inductive POp (S : Type) where
  /-- `StoreOptimalBranchAssignment(data, branch, solutions, depth, nodes)` -/
  | store (D : Data) (b : Branch) (F : Front S) (d n : Nat)
  /-- `UpdateLowerBound(data, branch, bound, depth, nodes)` -/
  | lower (D : Data) (b : Branch) (v : Front S) (d n : Nat)
  /-- `TransferAssignmentsForEquivalentBranches(_, source, _, destination)` -/
  | transfer (src dst : Branch)

/-- One call (cache.cpp:17-69). -/
def POp.apply {S : Type} (c : PCfg S) (C : PCache S) : POp S → PCache S
  | .store D b F d n => C.storeOpt c D b F d n
  | .lower D b v d n => C.updateLB c D b v d n
  | .transfer a b => C.transfer c a b

/-- All calls, on empty caches. -/
def runPOps {S : Type} (c : PCfg S) (ops : List (POp S)) : PCache S := ops.foldl (POp.apply c) PCache.init

end Streed
