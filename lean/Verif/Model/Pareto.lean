import Verif.Model.FrontUB
import Verif.Model.Solver
import Verif.Model.Tasks

/-!
# Model of the search for partially ordered tasks

`src/solver/solver.cpp`, `src/solver/terminal_solver.cpp`, the caches and the similarity bound, for partially
ordered tasks without branching costs: the F1 task and the two fairness tasks. Solutions are fronts
(`Verif/Model/Front.lean`).

Simplifications, all stated here once:
* there is no time limit;
* the feature order is an arbitrary function of the data;
* the depth-two solver reads the leaf costs of the four parts of the data directly (`Verif/Props/Counts.lean`
  shows that the stored statistics are those of the data);
* a node of a front is its value and its number of branching nodes; the tested feature and the sizes of the two sides,
  where they matter, are part of the value (`comb`);
* a front stored in the cache is a copy (the code shares it, and does not change it afterwards).
-/

namespace Streed

/-- What a partially ordered task provides. -/
structure PTask (S : Type) where
  o : Ops S
  /-- `GetLeafCosts` -/
  leaf : Data → Nat → S
  /-- `Add` -/
  add : S → S → S
  /-- `CombineSols` for a test on a feature -/
  comb : Nat → S → S → S
  /-- `Subtract` -/
  sub : S → S → S
  /-- `best` -/
  best : S
  /-- `ExtremePoints` -/
  ext : List S
  /-- `DominatesD0` -/
  domD0 : S → S → Bool
  /-- `GetWorstPerLabel(k) * n` -/
  worstFor : Nat → Nat → S
  /-- `has_constraint` and `terminal_filter`: both hold for the fairness tasks, neither for the F1 task -/
  constrained : Bool := false
  /-- `SatisfiesConstraint` -/
  ok : S → Bool := fun _ => true
  /-- `RelaxRootSolution` -/
  relax : S → S := id
  /-- `MayBranchOnFeature` -/
  may : Nat → Bool := fun _ => true
  nF : Nat
  nL : Nat

/-- Everything that is fixed during a search. -/
structure PCfg (S : Type) where
  T : PTask S
  mls : Nat
  useLB : Bool
  useUB : Bool
  subUB : Bool
  simLB : Bool
  useTerm : Bool
  useBr : Bool
  useDs : Bool
  order : Data → List Nat
  redundant : Nat → Bool
  /-- `UB_LB_max_size` -/
  max : Nat := maxFront

/-! ### Operations on solution containers (optimization_utils.h, container.h) -/

section Containers
variable {S : Type}

/-- `Add` of a node (container.h:21). -/
def PTask.put (T : PTask S) (F : Front S) (n : PNode S) : Front S := F.add T.o.dom T.o.key T.o.checkUnique n
/-- `Add` of a container (container.h:45). -/
def PTask.putAll (T : PTask S) (F : Front S) (ns : List (PNode S)) : Front S :=
  F.addAll T.o.dom T.o.key T.o.checkUnique ns
/-- `AddSol(task, depth, …)` (optimization_utils.h:104-115): scores are compared at the root. -/
def PTask.putAt (T : PTask S) (depth : Nat) (F : Front S) (n : PNode S) : Front S :=
  if depth = 0 then F.add T.domD0 T.o.key true n else T.put F n
/-- `AddSols(task, depth, …)` (optimization_utils.h:133-146). -/
def PTask.putAllAt (T : PTask S) (depth : Nat) (F : Front S) : List (PNode S) → Front S
  | [] => F
  | n :: ns => T.putAllAt depth (T.putAt depth F n) ns
/-- `AddSolsInv` (optimization_utils.h:152-160). -/
def PTask.putInv (T : PTask S) (F : Front S) (ns : List (PNode S)) : Front S :=
  F.addAll T.o.domInv T.o.key T.o.checkUnique ns
/-- `InitializeLB` (optimization_utils.h:35-38). -/
def PTask.lb0 (T : PTask S) : Front S := T.put Front.empty ⟨T.best, 0⟩
/-- `CheckEmptySol` (optimization_utils.h:71-77). -/
def Front.isNil (F : Front S) : Bool := F.sols.isEmpty
/-- `LeftStrictDominatesRight` on containers (optimization_utils.h:252-262). -/
def PTask.strictlyBelow (T : PTask S) (L R : Front S) : Bool :=
  L.sols.all fun u => R.sols.any fun r => !T.o.eq r.sol u.sol && T.o.domInv r.sol u.sol
/-- `SolutionsEqual` (optimization_utils.h:267-280). -/
def PTask.same (T : PTask S) (L R : Front S) : Bool :=
  !L.isNil && !R.isNil && L.sols.length == R.sols.length &&
    (L.sols.zip R.sols).all fun p => T.o.eq p.1.sol p.2.sol

end Containers

/-! ### Caches -/

/-- `CacheEntry` (cache_entry.h:10-62). -/
structure PEntry (S : Type) where
  depth : Nat
  nodes : Nat
  opt : Front S
  lb : Front S

/-- A hash map. -/
abbrev PStore (S K : Type) := List (K × List (PEntry S))

section Cache
variable {S : Type} {K : Type} [DecidableEq K]

/-- `IsOptimal` (cache_entry.h:54). -/
def PEntry.isOpt (e : PEntry S) : Bool := !e.opt.isNil
/-- `UpdateLowerBound` (cache_entry.h:49-52). -/
def PEntry.updLB (T : PTask S) (e : PEntry S) (v : Front S) : PEntry S := { e with lb := T.putInv e.lb v.sols }

/-- `hashmap.find`, no entries if the key is missing. -/
def PStore.get (m : PStore S K) (k : K) : Option (List (PEntry S)) := (m.find? fun p => p.1 = k).map (·.2)

/-- Overwrite or insert a key. -/
def PStore.put (m : PStore S K) (k : K) (es : List (PEntry S)) : PStore S K :=
  match m with
  | [] => [(k, es)]
  | p :: rest => if p.1 = k then (k, es) :: rest else p :: PStore.put rest k es

/-- `StoreOptimalBranchAssignment` on the entries of one key (branch_cache.cpp:27-96, dataset_cache.cpp:35-107). For
partial orders `sol_num_nodes = num_nodes`, so only the entry of exactly this budget is written. -/
def pStore (old : Option (List (PEntry S))) (F : Front S) (d n : Nat) : List (PEntry S) :=
  match old with
  | none => if d ≤ n then [⟨d, n, F, F⟩] else []
  | some es =>
    if es.any fun e => e.depth == d && e.nodes == n then
      es.map fun e => if e.depth = d ∧ e.nodes = n ∧ e.isOpt = false then ⟨d, n, F, F⟩ else e
    else if d ≤ n then es ++ [⟨d, n, F, F⟩] else es

/-- `UpdateLowerBound` (branch_cache.cpp:147-180, dataset_cache.cpp:133-165): the first entry of the budget. -/
def pUpdateFirst (T : PTask S) (guard : Bool) (v : Front S) (d n : Nat) : List (PEntry S) → List (PEntry S)
  | [] => [(⟨d, n, Front.empty, T.lb0⟩ : PEntry S).updLB T v]
  | e :: es =>
    if e.depth = d ∧ e.nodes = n then (if guard && e.isOpt then e else e.updLB T v) :: es
    else e :: pUpdateFirst T guard v d n es

/-- `RetrieveOptimalAssignment` (branch_cache.cpp:131-145, dataset_cache.cpp:115-130); `CopySol` drops the map. -/
def pRetrieve (es : List (PEntry S)) (d n : Nat) : Front S :=
  match es.find? fun e => e.depth == d && e.nodes == n && e.isOpt with
  | some e => e.opt.removeTemp
  | none => Front.empty

/-- `IsOptimalAssignmentCached` (branch_cache.cpp:10-24, dataset_cache.cpp:18-32). -/
def pIsOpt (es : List (PEntry S)) (d n : Nat) : Bool :=
  match es.find? fun e => e.nodes == n && e.depth == d with
  | some e => e.isOpt
  | none => false

/-- `RetrieveLowerBound` (branch_cache.cpp:183-211, dataset_cache.cpp:168-193). -/
def pRetrieveLB (T : PTask S) (es : List (PEntry S)) (d n : Nat) : Front S :=
  es.foldl (fun best e =>
    if n ≤ e.nodes ∧ d ≤ e.depth ∧ e.lb.isNil = false then
      (if best.isNil then e.lb.removeTemp else T.putInv best e.lb.sols)
    else best) T.lb0

/-- Replacement by `TransferAssignmentsForEquivalentBranches` for one source entry (branch_cache.cpp:109-126). -/
def pTransferOne (T : PTask S) (src : PEntry S) : List (PEntry S) → List (PEntry S)
  | [] => []
  | e :: es =>
    if src.depth = e.depth ∧ src.nodes = e.nodes ∧
        ((src.isOpt = true ∧ e.isOpt = false) ∨ T.strictlyBelow src.lb e.lb = true) then src :: es
    else e :: pTransferOne T src es

/-- `TransferAssignmentsForEquivalentBranches` on the destination's entries. -/
def pTransfer (T : PTask S) (src dst : List (PEntry S)) : List (PEntry S) :=
  src.foldl (fun dst e =>
    if dst.any fun x => e.depth == x.depth && e.nodes == x.nodes then pTransferOne T e dst
    else dst ++ [e]) dst

/-- The two caches (cache.h:11-50). -/
structure PCache (S : Type) where
  br : PStore S Branch
  ds : PStore S (List Nat)

namespace PCache

/-- An empty cache. -/
def init : PCache S := ⟨[], []⟩

/-- `Cache::IsOptimalAssignmentCached` (cache.cpp:6-14). -/
def isOptCached (c : PCfg S) (C : PCache S) (D : Data) (b : Branch) (d n : Nat) : Bool :=
  (c.useBr && pIsOpt ((C.br.get b).getD []) d n) || (c.useDs && pIsOpt ((C.ds.get (dataKey D)).getD []) d n)

/-- `Cache::StoreOptimalBranchAssignment` (cache.cpp:17-21). -/
def storeOpt (c : PCfg S) (C : PCache S) (D : Data) (b : Branch) (F : Front S) (d n : Nat) : PCache S :=
  { br := if c.useBr then C.br.put b (pStore (C.br.get b) F.removeTemp d n) else C.br
    ds := if c.useDs then C.ds.put (dataKey D) (pStore (C.ds.get (dataKey D)) F.removeTemp d n) else C.ds }

/-- `Cache::RetrieveOptimalAssignment` (cache.cpp:24-35). -/
def retrieveOpt (c : PCfg S) (C : PCache S) (D : Data) (b : Branch) (d n : Nat) : Front S :=
  let r1 := if c.useBr then pRetrieve ((C.br.get b).getD []) d n else Front.empty
  if r1.isNil then (if c.useDs then pRetrieve ((C.ds.get (dataKey D)).getD []) d n else Front.empty) else r1

/-- `Cache::UpdateLowerBound` (cache.cpp:38-46). -/
def updateLB (c : PCfg S) (C : PCache S) (D : Data) (b : Branch) (v : Front S) (d n : Nat) : PCache S :=
  if c.useLB then
    { br := if c.useBr then C.br.put b (pUpdateFirst c.T true v d n ((C.br.get b).getD [])) else C.br
      ds := if c.useDs then C.ds.put (dataKey D) (pUpdateFirst c.T false v d n ((C.ds.get (dataKey D)).getD []))
        else C.ds }
  else C

/-- `Cache::RetrieveLowerBound` (cache.cpp:49-60). A container holding `best` is not empty, so the dataset cache answers
only if the branch cache is off. -/
def retrieveLB (c : PCfg S) (C : PCache S) (D : Data) (b : Branch) (d n : Nat) : Front S :=
  if c.useLB then
    if c.useBr then
      (let r1 := match C.br.get b with
        | none => c.T.lb0
        | some es => pRetrieveLB c.T es d n
       if r1.isNil = false then r1
       else if c.useDs then pRetrieveLB c.T ((C.ds.get (dataKey D)).getD []) d n else c.T.lb0)
    else if c.useDs then pRetrieveLB c.T ((C.ds.get (dataKey D)).getD []) d n else c.T.lb0
  else c.T.lb0

/-- `Cache::TransferAssignmentsForEquivalentBranches` (cache.cpp:63-69); see `Cache.transfer`. -/
def transfer (c : PCfg S) (C : PCache S) (src dst : Branch) : PCache S :=
  if c.useLB && c.useBr && src != dst then
    match C.br.get src, C.br.get dst with
    | none, _ => C
    | some es, none => { C with br := C.br.put dst es }
    | some es, some es' =>
      if src.length = dst.length then { C with br := C.br.put dst (pTransfer c.T es es') } else C
  else C

end PCache
end Cache

/-! ### The depth-two solver -/

/-- `TerminalResults` (terminal_solver.h:20-36). -/
structure PRes (S : Type) where
  one : Front S
  two : Front S
  three : Front S

/-- No results (`TerminalResults::Clear`). -/
def PRes.clear {S : Type} : PRes S := ⟨Front.empty, Front.empty, Front.empty⟩

section Terminal
variable {S : Type}

/-- The tests of the depth-two solver before a node is added (for instance terminal_solver.cpp:175-176, 224-225, 350-351):
with constraints, the node satisfies them and the upper bound does not strictly dominate it. -/
def pKeep (c : PCfg S) (UB : Front S) (m : PNode S) : Bool :=
  !c.T.constrained || (c.T.ok m.sol && !UB.strictDominates c.T.o m.sol)

/-- The leaves of one side, if it is large enough (terminal_solver.cpp:169-177, 263-287). -/
def pLeaves (c : PCfg S) (UB : Front S) (D : Data) : Front S :=
  if D.length < c.mls then Front.empty
  else c.T.putAll Front.empty (((List.range c.T.nL).map fun k => ⟨c.T.leaf D k, 0⟩).filter (pKeep c UB))

/-- The pairs of leaves under a test on `f`, one node each (terminal_solver.cpp:183-205). -/
def pStumps (c : PCfg S) (D : Data) (f : Nat) : List (PNode S) :=
  if (without f D).length < c.mls ∨ (having f D).length < c.mls then []
  else (labelPairs c.T.nL).map fun p => ⟨c.T.comb f (c.T.leaf (without f D) p.1) (c.T.leaf (having f D) p.2), 1⟩

/-- All one-node trees in the order of the loop. -/
def pAllStumps (c : PCfg S) (D : Data) : List (PNode S) :=
  ((List.range c.T.nF).filter c.T.may).flatMap (pStumps c D)

/-- The loop of `SolveOneNode` over the one-node trees (terminal_solver.cpp:183-205): each one kept enters the results and
the upper bound. -/
def pOneLoop (c : PCfg S) : List (PNode S) → Front S → Front S → Front S × Front S
  | [], F, UB => (F, UB)
  | m :: ms, F, UB => if pKeep c UB m then pOneLoop c ms (c.T.put F m) (c.T.put UB m) else pOneLoop c ms F UB

/-- `SolveOneNode` (terminal_solver.cpp:159-207): the results and the upper bound. -/
def pOne (c : PCfg S) (UB : Front S) (D : Data) : Front S × Front S :=
  pOneLoop c (pAllStumps c D) (pLeaves c UB D) UB

/-- The features of the pair loop (terminal_solver.cpp:52-62). -/
def pFeatures (c : PCfg S) (D : Data) (b : Branch) : List Nat :=
  (List.range c.T.nF).filter fun f =>
    let t1 := (having f D).length
    let t0 := (without f D).length
    c.T.may f && !b.has f && !(decide (t0 < c.mls) || decide (t1 < c.mls)) &&
      !(decide (t0 < 2 * c.mls) && decide (t1 < 2 * c.mls))

/-- Children found so far per root feature: left and right. -/
abbrev PChildren (S : Type) := Tbl (Front S × Front S)

/-- Children of feature `f`. -/
def PChildren.at (ch : PChildren S) (f : Nat) : Front S × Front S := Tbl.get ch f (Front.empty, Front.empty)

/-- Update for one pair of features (terminal_solver.cpp:72-146): children testing `f2` below `f1` and the reverse. -/
def pPair (c : PCfg S) (UB : Front S) (D : Data) (f1 : Nat) (ch : PChildren S) (f2 : Nat) : PChildren S :=
  let o1 := ch.at f1
  let o2 := ch.at f2
  let l1 := c.T.putAll o1.1 ((pStumps c (without f1 D) f2).filter (pKeep c UB))
  let r1 := c.T.putAll o1.2 ((pStumps c (having f1 D) f2).filter (pKeep c UB))
  let l2 := c.T.putAll o2.1 ((pStumps c (without f2 D) f1).filter (pKeep c UB))
  let r2 := c.T.putAll o2.2 ((pStumps c (having f2 D) f1).filter (pKeep c UB))
  Tbl.set (Tbl.set ch f1 (l1, r1)) f2 (l2, r2)

/-- The products of two fronts, in the order of the double loop (solver.cpp:711-725, terminal_solver.cpp:346-361). -/
def pProducts (T : PTask S) (f : Nat) (l r : Front S) : List (PNode S) :=
  l.sols.flatMap fun a => r.sols.map fun b => ⟨T.comb f a.sol b.sol, a.size + b.size + 1⟩

/-- The loop over the first feature (terminal_solver.cpp:68-151): two- and three-node results. -/
def pPairLoop (c : PCfg S) (UB : Front S) (D : Data) : List Nat → PChildren S → Front S → Front S → Front S × Front S
  | [], _, two, three => (two, three)
  | f1 :: rest, ch, two, three =>
    if c.T.same c.T.lb0 three then (two, three)
    else
      let ch' := rest.foldl (pPair c UB D f1) ch
      let x := ch'.at f1
      let two := c.T.putAll (c.T.putAll two ((pProducts c.T f1 x.1 (pLeaves c UB (having f1 D))).filter (pKeep c UB)))
        ((pProducts c.T f1 (pLeaves c UB (without f1 D)) x.2).filter (pKeep c UB))
      pPairLoop c UB D rest ch' two (c.T.putAll three ((pProducts c.T f1 x.1 x.2).filter (pKeep c UB)))

/-- `TerminalSolver::Solve` (terminal_solver.cpp:25-156) on data that differ from the previous call: results and upper
bound. -/
def pTerminal (c : PCfg S) (D : Data) (b : Branch) (UB : Front S) (n : Nat) : PRes S × Front S :=
  if D.length < c.mls then (PRes.clear, UB)
  else
    let x := pOne c UB D
    let one := x.1
    if n = 1 then (⟨one, Front.empty, Front.empty⟩, x.2)
    else if c.T.same c.T.lb0 one then
      let two := c.T.putAll Front.empty one.sols
      (⟨one, two, c.T.putAll Front.empty two.sols⟩, x.2)
    else
      let r := pPairLoop c x.2 D (pFeatures c D b) [] Front.empty Front.empty
      let two := c.T.putAll r.1 one.sols
      (⟨one, two, c.T.putAll r.2 two.sols⟩, x.2)

/-- A depth-two solver between two calls: data, node budget and results of the last one. -/
abbrev PTS (S : Type) := Option (Data × Nat × PRes S)

/-- `ProbeDifference` (cost_combiner.cpp:71-76). -/
def PTS.probe (nL : Nat) (t : PTS S) (D : Data) : Int :=
  match t with
  | none => -1
  | some x => totalDifference nL x.1 D

/-- `Solve` with `CostCalculator::Initialize` (cost_combiner.cpp:14-41): results, upper bound, solver. If the data are
those of the last call and both calls ask for one node or both for more (with constraints: for equally many), the old
results are returned. -/
def PTS.solve (c : PCfg S) (t : PTS S) (D : Data) (b : Branch) (UB : Front S) (n : Nat) : PRes S × Front S × PTS S :=
  match t with
  | none => let r := pTerminal c D b UB n; (r.1, r.2, some (D, n, r.1))
  | some x =>
    if (n == 1) == (x.2.1 == 1) && totalDifference c.T.nL x.1 D == 0 && (n == x.2.1 || !c.T.constrained) then (x.2.2, UB, t)
    else let r := pTerminal c D b UB n; (r.1, r.2, some (D, n, r.1))

end Terminal

/-! ### The search -/

/-- The state of the search. -/
structure PSt (S : Type) where
  cache : PCache S
  arch : Tbl (List (Data × Branch))
  ts1 : PTS S
  ts2 : PTS S

/-- A freshly initialised solver. -/
def PSt.init {S : Type} : PSt S := ⟨PCache.init, [], none, none⟩

section Search
variable {S : Type}

/-- `UpdateUB` (solver.cpp:880-884). -/
def pUpdateUB (c : PCfg S) (UB : Front S) (n : PNode S) : Front S := if c.useUB then c.T.put UB n else UB

/-- Add a list of candidates: those that the upper bound strictly dominates are left out, the others also enter the upper
bound (solver.cpp:367-371, 613-619, 719-722). -/
def pFilterAdd (c : PCfg S) (depth : Nat) : List (PNode S) → Front S → Front S → Front S × Front S
  | [], F, UB => (F, UB)
  | n :: ns, F, UB =>
    if c.useUB && UB.strictDominates c.T.o n.sol then pFilterAdd c depth ns F UB
    else pFilterAdd c depth ns (c.T.putAt depth F n) (pUpdateUB c UB n)

/-- `SolveLeafNode` (solver.cpp:598-622): result and upper bound. -/
def pSolveLeaf (c : PCfg S) (D : Data) (depth : Nat) (UB : Front S) : Front S × Front S :=
  if D.length < c.mls then (Front.empty, UB)
  else pFilterAdd c depth (((List.range c.T.nL).map fun k => ⟨c.T.leaf D k, 0⟩).filter fun m => c.T.ok m.sol)
    Front.empty UB

/-- First optimal front cached for a smaller depth (solver.cpp:358-375). -/
def pLowerCached (c : PCfg S) (s : PSt S) (D : Data) (b : Branch) (n : Nat) : Nat → Front S
  | 0 => Front.empty
  | l + 1 =>
    let ln := min n (2 ^ l)
    if s.cache.isOptCached c D b (l + 1) ln then s.cache.retrieveOpt c D b (l + 1) ln
    else pLowerCached c s D b n l

/-- `ComputeLowerBound` (solver.cpp:624-638). -/
def pComputeLB (c : PCfg S) (s : PSt S) (D : Data) (b : Branch) (d n : Nat) : Front S :=
  if c.useLB then c.T.putInv c.T.lb0 (s.cache.retrieveLB c D b d n).sols else c.T.lb0

/-- Reduction to at most `max` values in `LBMerge` (solver.cpp:743-751). -/
def pSmall (c : PCfg S) (F : Front S) : Front S :=
  if F.sols.length > c.max then
    (Front.empty.addOrMergeAll c.T.o.domInv c.T.o.key c.T.o.eq c.T.o.diff c.T.o.merge c.max F.sols).getD Front.empty
  else F

/-- `ComputeLeftRightLowerBound` with `LBMerge` (solver.cpp:679-700, 730-762): combined, left, right. The combined front
starts with `best`. -/
def pComputeLRLB (c : PCfg S) (s : PSt S) (f : Nat) (DL : Data) (bl : Branch) (dl nl : Nat) (DR : Data) (br : Branch) (dr nr : Nat) :
    Front S × Front S × Front S :=
  if c.useLB then
    let l := pComputeLB c s DL bl dl nl
    let r := pComputeLB c s DR br dr nr
    (c.T.putAll c.T.lb0 (pProducts c.T f (pSmall c l) (pSmall c r)), l, r)
  else (c.T.lb0, c.T.lb0, c.T.lb0)

/-- `AddRootRelaxSols` (optimization_utils.h:165-176). -/
def pRelax (c : PCfg S) (depth : Nat) (UB sols : Front S) : Front S :=
  if c.T.constrained = true ∧ depth = 0 then c.T.putAll UB (sols.sols.map fun m => { m with sol := c.T.relax m.sol })
  else UB

/-- `SubtractUBs` (solver.cpp:764-868); `cur` are the current solutions. A merge is never undefined since the size limit is
positive. -/
def pSubtract (c : PCfg S) (depth : Nat) (UB sols cur : Front S) : Front S :=
  if c.useUB then
    pRelax c depth (if c.subUB then (Front.subtractUBs c.T.o c.T.sub c.T.ext c.max UB sols).getD Front.empty
      else UB.removeTemp) cur
  else UB.removeTemp

/-- The loop of the similarity bound (similarity_lowerbound.cpp:34-84). -/
def pSimLoop (c : PCfg S) (D : Data) (b : Branch) (d n : Nat) :
    List (Data × Branch) → Front S → PCache S → Front S × Bool × PCache S
  | [], lb, C => (lb, false, C)
  | (D', b') :: es, lb, C =>
    if 2 * D'.length > 3 * D.length then pSimLoop c D b d n es lb C
    else if 2 * totalRemovals c.T.nL D' D > D.length then pSimLoop c D b d n es lb C
    else
      let e := C.retrieveLB c D' b' d n
      let sb := ((List.range c.T.nL).map fun k => c.T.worstFor k (numRemovals D' D k)).foldl c.T.add c.T.best
      let e := c.T.putAll Front.empty (e.sols.map fun m => { m with sol := c.T.sub m.sol sb })
      if totalDifference c.T.nL D' D = 0 then
        let C' := C.transfer c b' b
        if C'.isOptCached c D b d n then (e, true, C')
        else pSimLoop c D b d n es (c.T.putInv lb e.sols) C'
      else pSimLoop c D b d n es (c.T.putInv lb e.sols) C

/-- `UpdateCacheUsingSimilarity` (solver.cpp:1116-1128). -/
def pUseSimilarity (c : PCfg S) (s : PSt S) (D : Data) (b : Branch) (d n : Nat) : Bool × PSt S :=
  if c.simLB = false then (false, s)
  else
    let r := pSimLoop c D b d n (Tbl.get s.arch d []) c.T.lb0 s.cache
    let s := { s with cache := r.2.2 }
    if r.1.isNil then (false, s)
    else if r.2.1 then (true, s)
    else if c.T.same c.T.lb0 r.1 = false then (false, { s with cache := s.cache.updateLB c D b r.1 d n })
    else (false, s)

/-- `UpdateArchive` (similarity_lowerbound.cpp:84-94). -/
def pUpdateArchive (c : PCfg S) (s : PSt S) (D : Data) (b : Branch) (d : Nat) : PSt S :=
  if c.simLB = false then s
  else
    let es := Tbl.get s.arch d []
    let es' := if es.length < 2 then es ++ [(D, b)] else replaceSimilar c.T.nL D b es
    { s with arch := Tbl.set s.arch d es' }

/-- Store one result of the depth-two solver (solver.cpp:557-581). -/
def pStoreTerminal (c : PCfg S) (D : Data) (b : Branch) (UB F : Front S) (d n : Nat) (C : PCache S) : PCache S :=
  if C.isOptCached c D b d n then C
  else if F.isNil = false then C.storeOpt c D b F d n
  else C.updateLB c D b UB d n

/-- `SolveTerminalNode` (solver.cpp:533-596). The upper bound here is the one that the depth-two solver has extended. -/
def pSolveTerminal (c : PCfg S) (D : Data) (b : Branch) (UB : Front S) (d n : Nat) (s : PSt S) : Front S × PSt S :=
  let first := decide (s.ts1.probe c.T.nL D < s.ts2.probe c.T.nL D)
  let x := (if first then s.ts1 else s.ts2).solve c D b UB n
  let r := x.1
  let UB := x.2.1
  let s := if first then { s with ts1 := x.2.2 } else { s with ts2 := x.2.2 }
  let C := pStoreTerminal c D b UB r.three 2 3
    (pStoreTerminal c D b UB r.two 2 2 (pStoreTerminal c D b UB r.one 1 1 s.cache))
  let s := pUpdateArchive c { s with cache := C } D b d
  let F := if n = 1 then r.one else if n = 2 then r.two else r.three
  (if c.T.strictlyBelow UB F then Front.empty else F.removeTemp, s)

/-- Recursive calls: data, path, upper bound, depth, nodes, state. Result, the caller's upper bound, state: the general
case changes the caller's container. -/
abbrev PRec (S : Type) := Data → Branch → Front S → Nat → Nat → PSt S → Front S × Front S × PSt S

/-- Local variables of the feature loop. -/
structure PLoc (S : Type) where
  sols : Front S
  UB : Front S
  inf : Front S

/-- A child of a split. -/
structure PSide where
  D : Data
  b : Branch

/-- One distribution of the node budget (solver.cpp:440-509). `L` is the larger side. -/
def pSizeStep (c : PCfg S) (rec : PRec S) (depth f : Nat) (L R : PSide) (swapped : Bool) (d n ls : Nat)
    (v : PLoc S) (s : PSt S) : PLoc S × PSt S :=
  let rs := n - ls - 1
  let ld := min (d - 1) ls
  let rd := min (d - 1) rs
  let lbs := pComputeLRLB c s f L.D L.b ld ls R.D R.b rd rs
  if c.useUB && c.T.strictlyBelow v.UB lbs.1 then ({ v with inf := c.T.putAll v.inf lbs.1.sols }, s)
  else if c.T.same lbs.1 v.sols then (v, s)
  else
    let lr := rec L.D L.b (pSubtract c depth v.UB lbs.2.2 v.sols) ld ls s
    let s1 := lr.2.2
    if lr.1.isNil then
      ({ v with inf := c.T.putAll v.inf (pComputeLRLB c s1 f L.D L.b ld ls R.D R.b rd rs).1.sols }, s1)
    else
      let rr := rec R.D R.b (pSubtract c depth v.UB lr.1 v.sols) rd rs s1
      let s2 := rr.2.2
      if rr.1.isNil then
        ({ v with inf := c.T.putAll v.inf (pComputeLRLB c s2 f L.D L.b ld ls R.D R.b rd rs).1.sols }, s2)
      else
        let r := pFilterAdd c depth ((if swapped then pProducts c.T f rr.1 lr.1 else pProducts c.T f lr.1 rr.1).filter
          fun m => c.T.ok m.sol) v.sols v.UB
        ({ v with sols := r.1, UB := r.2 }, s2)

/-- The loop over the sizes of the larger side (solver.cpp:440-509). -/
def pSizeLoop (c : PCfg S) (rec : PRec S) (depth f : Nat) (L R : PSide) (swapped : Bool) (d n : Nat) :
    List Nat → PLoc S → PSt S → PLoc S × PSt S
  | [], v, s => (v, s)
  | ls :: rest, v, s =>
    let r := pSizeStep c rec depth f L R swapped d n ls v s
    pSizeLoop c rec depth f L R swapped d n rest r.1 r.2

/-- The loop over the features (solver.cpp:391-511). -/
def pFeatLoop (c : PCfg S) (rec : PRec S) (D : Data) (b : Branch) (d n : Nat) (blb : Front S) :
    List Nat → PLoc S → PSt S → PLoc S × PSt S
  | [], v, s => (v, s)
  | f :: fs, v, s =>
    if c.useLB && c.T.same blb v.sols then (v, s)
    else if c.useLB && c.useUB && c.T.strictlyBelow v.UB blb then (v, s)
    else if b.has f || !c.T.may f || c.redundant f then pFeatLoop c rec D b d n blb fs v s
    else
      let DL := without f D
      let DR := having f D
      if DL.length < c.mls ∨ DR.length < c.mls then pFeatLoop c rec D b d n blb fs v s
      else
        let L : PSide := ⟨DL, b.child f false⟩
        let R : PSide := ⟨DR, b.child f true⟩
        let r := if DL.length < DR.length then pSizeLoop c rec b.length f R L true d n (sizes d n) v s
          else pSizeLoop c rec b.length f L R false d n (sizes d n) v s
        pFeatLoop c rec D b d n blb fs r.1 r.2

/-- `SolveSubTreeGeneralCase` (solver.cpp:340-531): result, upper bound, state. -/
def pGeneral (c : PCfg S) (rec : PRec S) (D : Data) (b : Branch) (UB : Front S) (d n : Nat) (s : PSt S) :
    Front S × Front S × PSt S :=
  let lf := pSolveLeaf c D b.length UB
  if D.length < 2 * c.mls then (lf.1, lf.2, s)
  else
    let st := pFilterAdd c b.length (pLowerCached c s D b n (d - 1)).sols lf.1 lf.2
    let blb := pComputeLB c s D b d n
    let r := pFeatLoop c rec D b d n blb (c.order D) ⟨st.1, st.2, Front.empty⟩ s
    let v := r.1
    let s := r.2
    let C := if v.sols.isNil = false then s.cache.storeOpt c D b v.sols d n
      else s.cache.updateLB c D b (c.T.putInv v.inf UB.sols) d n
    (v.sols, v.UB, pUpdateArchive c { s with cache := C } D b d)

/-- `SolveSubTree` (solver.cpp:277-338), given the recursive call. -/
def pSubTree (c : PCfg S) (rec : PRec S) (D : Data) (b : Branch) (UB : Front S) (d n : Nat) (s : PSt S) :
    Front S × Front S × PSt S :=
  if d = 0 ∨ n = 0 then ((pSolveLeaf c D b.length UB.removeTemp).1, UB, s)
  else
    let hit := s.cache.retrieveOpt c D b d n
    if hit.isNil = false then (hit, UB, s)
    else
      let go := fun (lf : Front S) (s : PSt S) =>
        if c.useTerm = true ∧ d ≤ 2 then
          let r := pSolveTerminal c D b (if c.useUB then pRelax c b.length UB.removeTemp lf else UB.removeTemp) d n s
          (r.1, UB, r.2)
        else pGeneral c rec D b UB d n s
      if c.useLB then
        let sim := pUseSimilarity c s D b d n
        let s := sim.2
        let hit := s.cache.retrieveOpt c D b d n
        if sim.1 = true ∧ hit.isNil = false then (hit, UB, s)
        else
          let lb := pComputeLB c s D b d n
          if c.useUB && c.T.strictlyBelow UB lb then (Front.empty, UB, s)
          else
            let lf := (pSolveLeaf c D b.length Front.empty).1
            if c.T.same lb lf then (lf, UB, s) else go lf s
      else go Front.empty s

/-- `SolveSubTree`; the fuel bounds the depth of the recursion. -/
def pSolveSub (c : PCfg S) : Nat → PRec S
  | 0 => pSubTree c (fun _ _ UB _ _ s => (Front.empty, UB, s))
  | fuel + 1 => pSubTree c (pSolveSub c fuel)

/-- Result, `global_UB` and state of the loops in `Solve`. -/
structure PRun (S : Type) where
  result : Front S
  gUB : Front S
  st : PSt S

/-- One call at the root (solver.cpp:119-122, 149-151). -/
def pRootRun (c : PCfg S) (maxDepth : Nat) (D : Data) (r : PRun S) (dn : Nat × Nat) : PRun S :=
  let x := pSolveSub c maxDepth D [] r.gUB dn.1 dn.2 r.st
  ⟨c.T.putAllAt 0 r.result x.1.sols, c.T.putAll x.2.1 x.1.sols, x.2.2⟩

/-- The budgets tried at the root (solver.cpp:102-170). -/
def pBudgets (maxDepth maxNodes : Nat) (allTrees : Bool) : List (Nat × Nat) :=
  if allTrees = true ∨ maxNodes = 1 then (List.range' 1 maxNodes).map fun n => (min maxDepth n, n)
  else
    let md := min maxDepth maxNodes
    let mn := min 2 md
    (List.range' mn (md + 1 - mn)).map fun d => (d, min maxNodes (2 ^ d - 1))

/-- The search part of `Solve` (solver.cpp:80-174) on a fresh solver. -/
def pSolve (c : PCfg S) (maxDepth maxNodes : Nat) (allTrees : Bool) (D : Data) : PRun S :=
  let lf := pSolveLeaf c D 0 Front.empty
  (pBudgets maxDepth maxNodes allTrees).foldl (pRootRun c maxDepth D) ⟨lf.1, lf.2, PSt.init⟩

end Search

/-! ### The F1 task -/

/-- `F1Score::DominatesD0` (f1score.h:87-89): comparisons with the undefined score are false. -/
def f1DomD0 (pos : Nat) (a b : F1Sol) : Bool :=
  match f1Score pos a, f1Score pos b with
  | some x, some y => decide (y ≤ x)
  | _, _ => false

/-- The F1 task on training data with `pos` positive instances. -/
def f1Task (nF pos : Nat) : PTask F1Sol where
  o := f1Ops
  leaf := f1LeafCosts
  add := f1Add
  comb _ := f1Add
  sub := f1Sub
  best := ⟨0, 0⟩
  ext := f1Extremes
  domD0 := f1DomD0 pos
  worstFor k n := ⟨(f1Worst k).fn * n, (f1Worst k).fp * n⟩
  nF := nF
  nL := 2

end Streed
