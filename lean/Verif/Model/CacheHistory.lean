import Verif.Model.Cache

/-!
# Histories of cache operations

`Cache` (src/solver/cache.cpp) driven by an arbitrary sequence of calls.
-/

namespace Streed

/-- The calls that change the cache (cache.h:28-38). -/
inductive CacheOp where
  /-- `StoreOptimalBranchAssignment(data, branch, solution, depth, nodes)` -/
  | store (D : Data) (b : Branch) (s : Node) (d n : Nat)
  /-- `UpdateLowerBound(data, branch, bound, depth, nodes)` -/
  | lower (D : Data) (b : Branch) (v : Node) (d n : Nat)
  /-- `TransferAssignmentsForEquivalentBranches(_, source, _, destination)` -/
  | transfer (src dst : Branch)

/-- One call (cache.cpp:17-69). -/
def CacheOp.apply (c : CacheCfg) (S : Cache) : CacheOp → Cache
  | .store D b s d n => S.storeOpt c D b s d n
  | .lower D b v d n => S.updateLB c D b v d n
  | .transfer a b => S.transfer c a b

/-- The cache after a sequence of calls. -/
def runOps (c : CacheCfg) (S : Cache) (ops : List CacheOp) : Cache := ops.foldl (CacheOp.apply c) S

end Streed
