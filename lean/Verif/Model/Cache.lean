import Verif.Model.Node

/-!
# Model of the caches

`include/solver/cache_entry.h`, `src/solver/branch_cache.cpp`, `src/solver/dataset_cache.cpp`,
`src/solver/cache.cpp`. Hash maps are association lists with the key equality the code uses.
The dataset cache's iterator memo (`FindIterator`) is modelled in `Verif/Model/IterMemo.lean`;
here a lookup goes straight to the map.
-/

namespace Streed

/-- `CacheEntry` (cache_entry.h:10-62). -/
structure Entry where
  depth : Nat
  nodes : Nat
  opt : Node
  lb : Node
  deriving DecidableEq, Repr

namespace Entry
/-- `CacheEntry(depth, num_nodes)` (cache_entry.h:15-21). -/
def fresh (w : Int) (d n : Nat) : Entry := ⟨d, n, Node.empty w, Node.value 0⟩
/-- `CacheEntry(depth, num_nodes, solutions)` (cache_entry.h:23-30). -/
def solved (d n : Nat) (s : Node) : Entry := ⟨d, n, s, s⟩
/-- `IsOptimal` (cache_entry.h:54). -/
def isOpt (e : Entry) : Bool := !e.opt.isEmpty
/-- `SetOptimalSolutions` (cache_entry.h:40-47). -/
def setOpt (e : Entry) (s : Node) : Entry :=
  { e with opt := s, lb := if s.isEmpty then e.lb else s }
/-- `UpdateLowerBound` (cache_entry.h:49-52); the assertion is a no-op in release builds. -/
def updLB (e : Entry) (v : Node) : Entry := { e with lb := Node.addMax e.lb v }
end Entry

/-- One hash map: key to its vector of entries. -/
abbrev Store (K : Type) := List (K × List Entry)

namespace Store
variable {K : Type} [DecidableEq K]

/-- `hashmap.find`. -/
def find (m : Store K) (k : K) : Option (List Entry) := (m.find? (fun p => p.1 = k)).map (·.2)

/-- Overwrite the entries of a key, or insert the key. -/
def set (m : Store K) (k : K) (es : List Entry) : Store K :=
  match m with
  | [] => [(k, es)]
  | p :: rest => if p.1 = k then (k, es) :: rest else p :: set rest k es

end Store

/-- The (depth, nodes) budgets for which a solution with `lo` nodes that is optimal for depth `d`
and `n` nodes is stored (branch_cache.cpp:41-45, dataset_cache.cpp:50-54). -/
def budgets (lo n od d : Nat) : List (Nat × Nat) :=
  (List.range' lo (n + 1 - lo)).flatMap fun nb =>
    (List.range' od (min d nb + 1 - od)).map fun db => (db, nb)

/-- `StoreOptimalBranchAssignment` on the entries of one key; `old = none` if the key is new.
`od` is `optimal_node_depth` (branch_cache.cpp:27-96, dataset_cache.cpp:35-107). -/
def storeEntries (old : Option (List Entry)) (s : Node) (od d n : Nat) : List Entry :=
  let lo := s.numNodes
  match old with
  | none => (budgets lo n od d).map fun b => Entry.solved b.1 b.2 s
  | some es =>
    let es' := es.map fun e =>
      if lo ≤ e.nodes ∧ e.nodes ≤ n ∧ od ≤ e.depth ∧ e.depth ≤ d then
        (if e.isOpt then e else e.setOpt s) else e
    es' ++ ((budgets lo n od d).filter fun b => !es.any fun e => e.depth == b.1 && e.nodes == b.2).map
      fun b => Entry.solved b.1 b.2 s

/-- `UpdateLowerBound` on the entries of one key (branch_cache.cpp:147-180,
dataset_cache.cpp:133-165). `guard` is true for the branch cache, which leaves entries that are
already optimal alone; the dataset cache does not check. -/
def updateFirst (guard : Bool) (v : Node) (d n : Nat) : List Entry → List Entry
  | [] => []
  | e :: es =>
    if e.depth = d ∧ e.nodes = n then (if guard && e.isOpt then e else e.updLB v) :: es
    else e :: updateFirst guard v d n es

/-- See `updateFirst`; a missing entry is created. -/
def updateLBEntries (w : Int) (guard : Bool) (old : Option (List Entry)) (v : Node) (d n : Nat) :
    List Entry :=
  match old with
  | none => [(Entry.fresh w d n).updLB v]
  | some es =>
    if es.any fun e => e.depth == d && e.nodes == n then updateFirst guard v d n es
    else es ++ [(Entry.fresh w d n).updLB v]

/-- `RetrieveOptimalAssignment` (branch_cache.cpp:131-145, dataset_cache.cpp:115-130). -/
def retrieveOptEntries (w : Int) (es : List Entry) (d n : Nat) : Node :=
  match es.find? fun e => e.depth == d && e.nodes == n && e.isOpt with
  | some e => e.opt
  | none => Node.empty w

/-- `IsOptimalAssignmentCached` (branch_cache.cpp:10-24, dataset_cache.cpp:18-32). -/
def isOptEntries (es : List Entry) (d n : Nat) : Bool :=
  match es.find? fun e => e.nodes == n && e.depth == d with
  | some e => e.isOpt
  | none => false

/-- `RetrieveLowerBound` (branch_cache.cpp:183-211, dataset_cache.cpp:168-193). -/
def retrieveLBEntries (es : List Entry) (d n : Nat) : Node :=
  es.foldl (fun best e =>
    if n ≤ e.nodes ∧ d ≤ e.depth ∧ e.lb.isEmpty = false then
      (if best.isEmpty then e.lb else Node.addMax best e.lb)
    else best) (Node.value 0)

/-- Replacement test of `TransferAssignmentsForEquivalentBranches` (branch_cache.cpp:109-126) for
one source entry: the first destination entry of that budget which the source should replace is
replaced; `none` if no destination entry has that budget. -/
def transferOne (src : Entry) : List Entry → List Entry
  | [] => []
  | e :: es =>
    if src.depth = e.depth ∧ src.nodes = e.nodes ∧
        ((src.isOpt = true ∧ e.isOpt = false) ∨ src.lb.sol < e.lb.sol) then src :: es
    else e :: transferOne src es

/-- `TransferAssignmentsForEquivalentBranches` on the destination's entries. -/
def transferEntries (src : List Entry) (dst : List Entry) : List Entry :=
  src.foldl (fun dst e =>
    if dst.any fun x => e.depth == x.depth && e.nodes == x.nodes then transferOne e dst
    else dst ++ [e]) dst

/-- The two caches together (`Cache`, cache.h:11-50). The dataset cache is keyed by the ids of the
instances of the view. -/
structure Cache where
  br : Store Branch
  ds : Store (List Nat)

/-- Which caches are active (cache.h:19-27, solver.cpp:262-265): `use_optimal_caching` is always
true; lower-bound caching is off when lower bounding is off. -/
structure CacheCfg where
  useBr : Bool
  useDs : Bool
  useLB : Bool
  worst : Int

/-- Key of a dataset. -/
def dataKey (D : Data) : List Nat := D.map (·.id)

namespace Cache

/-- An empty cache. -/
def init : Cache := ⟨[], []⟩

/-- `Cache::IsOptimalAssignmentCached` (cache.cpp:6-14). -/
def isOptCached (c : CacheCfg) (S : Cache) (D : Data) (b : Branch) (d n : Nat) : Bool :=
  (c.useBr && isOptEntries ((S.br.find b).getD []) d n) ||
  (c.useDs && isOptEntries ((S.ds.find (dataKey D)).getD []) d n)

/-- `Cache::StoreOptimalBranchAssignment` (cache.cpp:17-21). The branch cache uses
`min(depth, num_nodes)` as smallest depth, the dataset cache `min(depth, sol_num_nodes)`. -/
def storeOpt (c : CacheCfg) (S : Cache) (D : Data) (b : Branch) (s : Node) (d n : Nat) : Cache :=
  { br := if c.useBr then S.br.set b (storeEntries (S.br.find b) s (min d n) d n) else S.br
    ds := if c.useDs then
        S.ds.set (dataKey D) (storeEntries (S.ds.find (dataKey D)) s (min d s.numNodes) d n)
      else S.ds }

/-- `Cache::RetrieveOptimalAssignment` (cache.cpp:24-35). -/
def retrieveOpt (c : CacheCfg) (S : Cache) (D : Data) (b : Branch) (d n : Nat) : Node :=
  let r1 := if c.useBr then retrieveOptEntries c.worst ((S.br.find b).getD []) d n
    else Node.empty c.worst
  if r1.isEmpty then
    (if c.useDs then retrieveOptEntries c.worst ((S.ds.find (dataKey D)).getD []) d n
      else Node.empty c.worst)
  else r1

/-- `Cache::UpdateLowerBound` (cache.cpp:38-46). -/
def updateLB (c : CacheCfg) (S : Cache) (D : Data) (b : Branch) (v : Node) (d n : Nat) : Cache :=
  if c.useLB then
    { br := if c.useBr then S.br.set b (updateLBEntries c.worst true (S.br.find b) v d n) else S.br
      ds := if c.useDs then
          S.ds.set (dataKey D) (updateLBEntries c.worst false (S.ds.find (dataKey D)) v d n)
        else S.ds }
  else S

/-- `Cache::RetrieveLowerBound` (cache.cpp:49-60). -/
def retrieveLB (c : CacheCfg) (S : Cache) (D : Data) (b : Branch) (d n : Nat) : Node :=
  if c.useLB then
    let r1 := if c.useBr then retrieveLBEntries ((S.br.find b).getD []) d n else Node.value 0
    if r1.isEmpty then
      (let r2 := if c.useDs then retrieveLBEntries ((S.ds.find (dataKey D)).getD []) d n
        else Node.value 0
       if r2.isEmpty then Node.value 0 else r2)
    else r1
  else Node.value 0

/-- `Cache::TransferAssignmentsForEquivalentBranches` (cache.cpp:63-69,
branch_cache.cpp:94-128). The code looks both branches up in the map for the *source's* length, so a
destination of another length counts as missing; the following `insert` then does nothing if the
destination has entries in its own map. -/
def transfer (c : CacheCfg) (S : Cache) (src dst : Branch) : Cache :=
  if c.useLB && c.useBr && src != dst then
    match S.br.find src, S.br.find dst with
    | none, _ => S
    | some es, none => { S with br := S.br.set dst es }
    | some es, some es' =>
      if src.length = dst.length then { S with br := S.br.set dst (transferEntries es es') } else S
  else S

end Cache
end Streed
