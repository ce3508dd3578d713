import Verif.Model.Cache
import Verif.Model.Difference
import Verif.Model.Terminal

/-!
# Model of the search

`src/solver/solver.cpp` for totally ordered tasks with additive costs, with
`src/solver/similarity_lowerbound.cpp`. Solution values are integers. The state (caches, archive
of the similarity bound, number of time checks done so far) is passed explicitly.

Simplifications, all stated here once:
* the clock is an arbitrary function from "number of earlier checks" to "within the limit";
* the feature order is an arbitrary function of the data (`feature_selector.cpp` has two);
* the data splitter is the split itself (`Verif/Model/Splitter.lean` treats its cache);
* the depth-two solver reads the statistics of the current data
  (`Verif/Model/Counts.lean` treats the incremental storage);
* progress output and timing statistics are left out.
-/

namespace Streed

/-- Everything that is fixed during a search: the problem, the parameters (solver.h:32-44), the task
constants, and the outside world (feature order, clock). -/
structure Cfg where
  P : Problem
  mls : Nat
  useLB : Bool
  useUB : Bool
  subUB : Bool
  simLB : Bool
  useTerm : Bool
  useBr : Bool
  useDs : Bool
  /-- `minimum_difference` of the task -/
  md : Int
  /-- `OT::worst` -/
  worst : Int
  /-- `GetWorstPerLabel` -/
  worstPer : Nat → Int
  /-- order in which the feature selector returns the features -/
  order : Data → List Nat
  redundant : Nat → Bool
  /-- `IsWithinTimeLimit` at the i-th check -/
  clock : Nat → Bool
  /-- `sparse_objective` (solver.h:110-111): constant branching costs are exploited -/
  sparse : Bool
  /-- the task's own lower bound (`custom_lower_bound`), 0 if it has none -/
  customLB : Data → Int
  /-- the worst value stored with an instance, for a task with its own similarity bound (`custom_similarity_lb`) -/
  simInst : Option (Inst → Int)

/-- The cache settings belonging to the parameters. -/
def Cfg.cc (c : Cfg) : CacheCfg := ⟨c.useBr, c.useDs, c.useLB, c.worst⟩
/-- What the depth-two solver sees. -/
def Cfg.tc (c : Cfg) : TCfg := ⟨c.P.nF, c.P.nL, c.P.may, c.P.bc, c.mls, c.worst⟩

/-- The state of the search. -/
structure St where
  cache : Cache
  /-- `archive_` of the similarity bound, per depth -/
  arch : Tbl (List (Data × Branch))
  tick : Nat
  /-- `max_depth_finished` -/
  mdf : Int
  /-- what the two terminal solvers keep between calls: data, node budget and results. Only read where results depend on
  the path (`Model/CostSearch.lean`). -/
  mem1 : Option (Data × Nat × TResults) := none
  mem2 : Option (Data × Nat × TResults) := none

/-- State of a freshly initialised solver. -/
def St.init : St := ⟨Cache.init, [], 0, 0, none, none⟩

/-- One call of `stopwatch.IsWithinTimeLimit()`: the answer and the new state. -/
def St.next (s : St) : St := { s with tick := s.tick + 1 }
/-- The answer of the next time check. -/
def Cfg.ok (c : Cfg) (s : St) : Bool := c.clock s.tick

/-- `UpdateUB` (solver.cpp:880-884). -/
def updateUB (c : Cfg) (UB v : Node) : Node := if c.useUB then Node.addMin UB v else UB

/-- The label loop of `SolveLeafNode` (solver.cpp:613-619): result and upper bound. -/
def leafLoop (c : Cfg) (D : Data) : List Nat → Node → Node → Node × Node
  | [], r, UB => (r, UB)
  | k :: ks, r, UB =>
    let v := Node.leaf k (leafCost c.P D k)
    if c.useUB = true ∧ UB.sol < v.sol then leafLoop c D ks r UB
    else leafLoop c D ks (Node.addMin r v) (updateUB c UB v)

/-- `SolveLeafNode` (solver.cpp:598-622): result and upper bound. -/
def solveLeaf (c : Cfg) (D : Data) (UB : Node) : Node × Node :=
  if D.length < c.mls then (Node.empty c.worst, UB)
  else leafLoop c D (List.range c.P.nL) (Node.empty c.worst) UB

/-- First optimal solution cached for a smaller depth (the loops at solver.cpp:358-375 and
654-661), for depths `l, l-1, …, 1`. The code's `1 << (l)-1` is `2^(l-1)`. -/
def lowerCached (c : Cfg) (s : St) (D : Data) (b : Branch) (n : Nat) : Nat → Option (Nat × Node)
  | 0 => none
  | l + 1 =>
    let ln := min n (2 ^ l)
    if s.cache.isOptCached c.cc D b (l + 1) ln then
      some (l + 1, s.cache.retrieveOpt c.cc D b (l + 1) ln)
    else lowerCached c s D b n l

/-- The part of `ComputeLowerBound` for constant branching costs (solver.cpp:640-674). -/
def sparseLB (c : Cfg) (s : St) (D : Data) (b : Branch) (d n : Nat) (lb : Node) : Node :=
  let leaf := (solveLeaf c D (Node.empty c.worst)).1
  let low := lowerCached c s D b n (d - 1)
  let sols := match low with
    | some (_, v) => Node.addMin leaf v
    | none => leaf
  let searched : Int := match low with
    | some (l, _) => l
    | none => 0
  let minNodes : Int := max searched (s.mdf - b.length) + 1
  let v := minNodes * c.P.bc + c.customLB D
  if sols.sol ≤ v then Node.addMax lb sols
  else Node.addMax lb ⟨some 0, none, v, sols.nl, sols.nr⟩

/-- `ComputeLowerBound` (solver.cpp:624-677). -/
def computeLB (c : Cfg) (s : St) (D : Data) (b : Branch) (d n : Nat) : Node :=
  if c.useLB then
    let lb := Node.addMax (Node.value 0) (s.cache.retrieveLB c.cc D b d n)
    let lb := Node.addMax lb (Node.value (c.customLB D))
    if c.sparse then sparseLB c s D b d n lb else lb
  else Node.value 0

/-- `ComputeLeftRightLowerBound` (solver.cpp:679-700): combined bound, left bound, right bound. -/
def computeLRLB (c : Cfg) (s : St) (f : Nat) (DL : Data) (bl : Branch) (dl nl : Nat) (DR : Data)
    (br : Branch) (dr nr : Nat) : Node × Node × Node :=
  if c.useLB then
    let l := computeLB c s DL bl dl nl
    let r := computeLB c s DR br dr nr
    (Node.combine f l r c.P.bc, l, r)
  else (Node.value 0, Node.value 0, Node.value 0)

/-- `SubtractUBs` for total orders (solver.cpp:764-780): only the value of the result is set. -/
def subtractUB (c : Cfg) (UB sols cur : Node) : Node :=
  if c.useUB && c.subUB then
    let x := if cur.sol ≤ UB.sol then subtract (cur.sol - c.md) sols.sol
      else subtract UB.sol sols.sol
    Node.value (subtract x c.P.bc)
  else Node.value UB.sol

/-! ### Similarity bound (similarity_lowerbound.cpp) -/

/-- The amount subtracted for the instances that were removed: the worst case per label
(similarity_lowerbound.cpp:65-68), or per instance (instance_cost_sensitive.cpp:59-96, whose loop is the merge loop of
`ComputeDifference`). -/
def removalCost (c : Cfg) (old new : Data) : Int :=
  match c.simInst with
  | none => ((List.range c.P.nL).map fun k => c.worstPer k * (numRemovals old new k : Int)).sum
  | some w => ((computeDifference c.P.nL old new).2.map w).sum

/-- The loop of `ComputeLowerBound` over the archive (similarity_lowerbound.cpp:42-80). Returns the
bound, whether an optimal solution was transferred, and the cache. A task with its own bound does not limit the number of
removals (similarity_lowerbound.cpp:45-60). -/
def simLoop (c : Cfg) (D : Data) (b : Branch) (d n : Nat) :
    List (Data × Branch) → Node → Cache → Node × Bool × Cache
  | [], lb, C => (lb, false, C)
  | (D', b') :: es, lb, C =>
    if 2 * D'.length > 3 * D.length then simLoop c D b d n es lb C
    else if c.simInst.isNone = true ∧ 2 * totalRemovals c.P.nL D' D > D.length then simLoop c D b d n es lb C
    else
      let e := C.retrieveLB c.cc D' b' d n
      let e := { e with sol := subtract e.sol (removalCost c D' D) }
      if totalDifference c.P.nL D' D = 0 then
        let C' := C.transfer c.cc b' b
        if C'.isOptCached c.cc D b d n then (e, true, C')
        else simLoop c D b d n es (Node.addMax lb e) C'
      else simLoop c D b d n es (Node.addMax lb e) C

/-- `UpdateCacheUsingSimilarity` (solver.cpp:1116-1128): whether an optimal solution is now cached,
and the new state. -/
def useSimilarity (c : Cfg) (s : St) (D : Data) (b : Branch) (d n : Nat) : Bool × St :=
  if c.simLB = false then (false, s)
  else
    let r := simLoop c D b d n (Tbl.get s.arch d []) (Node.value 0) s.cache
    let s := { s with cache := r.2.2 }
    if r.1.isEmpty then (false, s)
    else if r.2.1 then (true, s)
    else if r.1.sol ≠ 0 then (false, { s with cache := s.cache.updateLB c.cc D b r.1 d n })
    else (false, s)

/-- Replace the archived dataset with the smallest difference; the first one wins ties
(similarity_lowerbound.cpp:92, 119-134). -/
def replaceSimilar (nL : Nat) (D : Data) (b : Branch) (es : List (Data × Branch)) :
    List (Data × Branch) :=
  let ds := es.map fun e => totalDifference nL e.1 D
  let best := ds.foldl min (ds.headD 0)
  es.set (ds.findIdx (· == best)) (D, b)

/-- `UpdateArchive` (similarity_lowerbound.cpp:84-94). -/
def updateArchive (c : Cfg) (s : St) (D : Data) (b : Branch) (d : Nat) : St :=
  if c.simLB = false then s
  else
    let es := Tbl.get s.arch d []
    let es' := if es.length < 2 then es ++ [(D, b)] else replaceSimilar c.P.nL D b es
    { s with arch := Tbl.set s.arch d es' }

/-! ### Depth-two nodes -/

/-- Store one result of the depth-two solver (solver.cpp:557-581). -/
def storeTerminal (c : Cfg) (D : Data) (b : Branch) (UB v : Node) (d n : Nat) (C : Cache) : Cache :=
  if C.isOptCached c.cc D b d n then C
  else if v.isEmpty = false then C.storeOpt c.cc D b v d n
  else C.updateLB c.cc D b UB d n

/-- `SolveTerminalNode` (solver.cpp:533-596). -/
def solveTerminal (c : Cfg) (D : Data) (b : Branch) (UB : Node) (d n : Nat) (s : St) : Node × St :=
  let r := terminal c.tc (statsOf c.P D) b n
  let C := storeTerminal c D b UB r.three 2 3
    (storeTerminal c D b UB r.two 2 2 (storeTerminal c D b UB r.one 1 1 s.cache))
  let s := updateArchive c { s with cache := C } D b d
  let v := if n = 1 then r.one else if n = 2 then r.two else r.three
  (if UB.sol < v.sol then Node.empty c.worst else v, s)

/-! ### The general case -/

/-- Recursive calls: data, path, upper bound, depth, nodes, state. -/
abbrev Rec := Data → Branch → Node → Nat → Nat → St → Node × St

/-- Local variables of the feature loop: `solutions`, `UB`, `infeasible_lb`. -/
structure Loc where
  sols : Node
  UB : Node
  inf : Node

/-- A child of a split: its data and path. -/
structure Side where
  D : Data
  b : Branch

/-- One distribution of the node budget (body of the loop at solver.cpp:440-509). `L` is the larger
side. `swapped` tells whether the larger side is the right child. Returns whether the loop stops
(time), the local variables and the state. -/
def sizeStep (c : Cfg) (rec : Rec) (f : Nat) (L R : Side) (swapped : Bool) (d n : Nat) (ls : Nat)
    (v : Loc) (s : St) : Bool × Loc × St :=
  let rs := n - ls - 1
  let ld := min (d - 1) ls
  let rd := min (d - 1) rs
  let lbs := computeLRLB c s f L.D L.b ld ls R.D R.b rd rs
  if c.useUB = true ∧ v.UB.sol < lbs.1.sol then
    (false, { v with inf := Node.addMin v.inf lbs.1 }, s)
  else if lbs.1.sol = v.sols.sol then (false, v, s)
  else
    let lr := rec L.D L.b (subtractUB c v.UB lbs.2.2 v.sols) ld ls s
    let s1 := lr.2
    if c.ok s1 = false then (true, v, s1.next)
    else
      let s1 := s1.next
      if lr.1.isEmpty then
        let lbs := computeLRLB c s1 f L.D L.b ld ls R.D R.b rd rs
        (false, { v with inf := Node.addMin v.inf lbs.1 }, s1)
      else
        let rr := rec R.D R.b (subtractUB c v.UB lr.1 v.sols) rd rs s1
        let s2 := rr.2
        if c.ok s2 = false then (true, v, s2.next)
        else
          let s2 := s2.next
          if rr.1.isEmpty then
            let lbs := computeLRLB c s2 f L.D L.b ld ls R.D R.b rd rs
            (false, { v with inf := Node.addMin v.inf lbs.1 }, s2)
          else
            let nn := if swapped then Node.combine f rr.1 lr.1 c.P.bc
              else Node.combine f lr.1 rr.1 c.P.bc
            if c.useUB = true ∧ v.UB.sol < nn.sol then
              (false, { v with inf := Node.addMin v.inf nn }, s2)
            else
              (false, { v with sols := if nn.sol < v.sols.sol then nn else v.sols
                               UB := updateUB c v.UB nn }, s2)

/-- The loop over the sizes of the larger side (solver.cpp:440-509). -/
def sizeLoop (c : Cfg) (rec : Rec) (f : Nat) (L R : Side) (swapped : Bool) (d n : Nat) :
    List Nat → Loc → St → Loc × St
  | [], v, s => (v, s)
  | ls :: rest, v, s =>
    let r := sizeStep c rec f L R swapped d n ls v s
    if r.1 then (r.2.1, r.2.2) else sizeLoop c rec f L R swapped d n rest r.2.1 r.2.2

/-- The sizes tried for the larger side (solver.cpp:348-349, 441). -/
def sizes (d n : Nat) : List Nat :=
  let mx := min (2 ^ (d - 1) - 1) (n - 1)
  let mn := n - 1 - mx
  List.range' mn (mx + 1 - mn)

/-- The loop over the features (solver.cpp:391-511). -/
def featLoop (c : Cfg) (rec : Rec) (D : Data) (b : Branch) (d n : Nat) (blb : Node) :
    List Nat → Loc → St → Loc × St
  | [], v, s => (v, s)
  | f :: fs, v, s =>
    if c.ok s = false then (v, s.next)
    else
      let s := s.next
      if c.useLB = true ∧ blb.sol = v.sols.sol then (v, s)
      else if c.useLB = true ∧ c.useUB = true ∧ v.UB.sol < blb.sol then (v, s)
      else if b.has f || !c.P.may f || c.redundant f then featLoop c rec D b d n blb fs v s
      else if c.sparse = true ∧ c.useUB = true ∧ v.UB.sol < c.P.bc then (v, s)
      else
        let DL := without f D
        let DR := having f D
        if DL.length < c.mls ∨ DR.length < c.mls then featLoop c rec D b d n blb fs v s
        else
          let L : Side := ⟨DL, b.child f false⟩
          let R : Side := ⟨DR, b.child f true⟩
          let r := if DL.length < DR.length then sizeLoop c rec f R L true d n (sizes d n) v s
            else sizeLoop c rec f L R false d n (sizes d n) v s
          featLoop c rec D b d n blb fs r.1 r.2

/-- Local variables before the feature loop: the best leaf, or a cached solution for a smaller depth
(solver.cpp:352-375). -/
def startLoc (c : Cfg) (D : Data) (b : Branch) (UB : Node) (d n : Nat) (s : St) : Loc :=
  let lf := solveLeaf c D UB
  let v : Loc := ⟨lf.1, lf.2, Node.empty c.worst⟩
  match lowerCached c s D b n (d - 1) with
  | none => v
  | some (_, w) =>
    if c.useUB = true ∧ v.UB.sol < w.sol then v
    else { v with sols := Node.addMin v.sols w, UB := Node.addMin v.UB w }

/-- `SolveSubTreeGeneralCase` (solver.cpp:340-531). -/
def generalCase (c : Cfg) (rec : Rec) (D : Data) (b : Branch) (UB : Node) (d n : Nat) (s : St) :
    Node × St :=
  let lf := solveLeaf c D UB
  if D.length < 2 * c.mls then (lf.1, s)
  else
    let v := startLoc c D b UB d n s
    let blb := computeLB c s D b d n
    let r := featLoop c rec D b d n blb (c.order D) v s
    let v := r.1
    let s := r.2
    let C := if v.sols.isEmpty = false then s.cache.storeOpt c.cc D b v.sols d n
      else
        let inf := if v.inf.sol = c.worst then UB else Node.addMax v.inf UB
        s.cache.updateLB c.cc D b inf d n
    (v.sols, updateArchive c { s with cache := C } D b d)

/-- `ReduceNodeBudget` (solver.cpp:886-902) for integer values. -/
def reduceBudget (c : Cfg) (UB : Node) (d n : Nat) : Nat × Nat :=
  if c.sparse = false ∨ c.P.bc ≤ 0 then (d, n)
  else
    let nodes := (max 0 UB.sol / c.P.bc).toNat
    if nodes < n then
      let d' := min d nodes
      if d' < d then (d', min n (2 ^ d' - 1)) else (d, n)
    else (d, n)

/-- `SolveSubTree` (solver.cpp:277-338), given the recursive call. -/
def subTree (c : Cfg) (rec : Rec) (D : Data) (b : Branch) (UB : Node) (d n : Nat) (s : St) :
    Node × St :=
  if c.ok s = false then (Node.empty c.worst, s.next)
  else
    let s := s.next
    let dn := reduceBudget c UB d n
    let d := dn.1
    let n := dn.2
    if d = 0 ∨ n = 0 then ((solveLeaf c D UB).1, s)
    else
      let hit := s.cache.retrieveOpt c.cc D b d n
      if hit.isEmpty = false then (hit, s)
      else
        let go := fun s : St =>
          if c.useTerm = true ∧ d ≤ 2 then solveTerminal c D b UB d n s
          else generalCase c rec D b UB d n s
        if c.useLB then
          let sim := useSimilarity c s D b d n
          let s := sim.2
          let hit := s.cache.retrieveOpt c.cc D b d n
          if sim.1 = true ∧ hit.isEmpty = false then (hit, s)
          else
            let lb := computeLB c s D b d n
            if c.useUB = true ∧ UB.sol < lb.sol then (Node.empty c.worst, s)
            else
              let lf := (solveLeaf c D (Node.empty c.worst)).1
              if lb.sol = lf.sol then (lf, s) else go s
        else go s

/-- `SolveSubTree`; `fuel` bounds the depth of the recursion (each call lowers the depth). -/
def solveSub (c : Cfg) : Nat → Rec
  | 0 => subTree c (fun _ _ _ _ _ s => (Node.empty c.worst, s))
  | fuel + 1 => subTree c (solveSub c fuel)

/-! ### The top level -/

/-- Options of `Solve` that are not used below the root. -/
structure Top where
  maxDepth : Nat
  maxNodes : Nat
  allTrees : Bool
  /-- the `upper-bound` parameter -/
  ub : Int

/-- `result`, `global_UB` and the state. -/
structure Run where
  result : Node
  gUB : Node
  maxDepthSearched : Nat
  st : St

/-- `global_UB.solution = min(global_UB.solution, result.solution - minimum_difference)`
(solver.cpp:152-156); with `all_trees` the minimum is not taken (solver.cpp:124-128). -/
def tighten (c : Cfg) (allTrees : Bool) (result gUB : Node) : Node :=
  if result.sol = c.worst then gUB
  else { gUB with sol := if allTrees then result.sol - c.md else min gUB.sol (result.sol - c.md) }

/-- One iteration of the loop over sizes (solver.cpp:112-139). -/
def sizeRun (c : Cfg) (t : Top) (D : Data) (r : Run) (n : Nat) : Run :=
  let d := min t.maxDepth n
  let x := solveSub c t.maxDepth D [] r.gUB d n r.st
  let result := Node.addMin r.result x.1
  let gUB := tighten c true result (Node.addMin r.gUB x.1)
  ⟨result, gUB, d, { x.2 with mdf := Nat.log2 (n + 1) }⟩

/-- The loop over sizes with its two time checks. -/
def sizeRuns (c : Cfg) (t : Top) (D : Data) : List Nat → Run → Run
  | [], r => r
  | n :: ns, r =>
    if c.ok r.st = false then { r with st := r.st.next }
    else
      let r := sizeRun c t D { r with st := r.st.next } n
      if c.ok r.st = false then { r with st := r.st.next }
      else sizeRuns c t D ns { r with st := r.st.next }

/-- One iteration of the loop over depths (solver.cpp:143-169). -/
def depthRun (c : Cfg) (t : Top) (D : Data) (r : Run) (d : Nat) : Run :=
  let n := min t.maxNodes (2 ^ d - 1)
  let x := solveSub c t.maxDepth D [] r.gUB d n r.st
  let result := Node.addMin r.result x.1
  let gUB := tighten c false result (Node.addMin r.gUB x.1)
  ⟨result, gUB, d, { x.2 with mdf := d }⟩

/-- The loop over depths with its time check. -/
def depthRuns (c : Cfg) (t : Top) (D : Data) : List Nat → Run → Run
  | [], r => r
  | d :: ds, r =>
    let r := depthRun c t D r d
    if c.ok r.st = false then { r with st := r.st.next }
    else depthRuns c t D ds { r with st := r.st.next }

/-- The search part of `Solve` (solver.cpp:80-174), given the state and `global_UB` left by an
earlier call. The result of the search and the flag `is_proven_optimal`. -/
def solveFrom (c : Cfg) (t : Top) (D : Data) (gUB : Node) (s : St) : Run × Bool :=
  let start : Node × Node :=
    if gUB.isEmpty then solveLeaf c D (Node.addMin (Node.empty c.worst) (Node.value t.ub))
    else (Node.empty c.worst, gUB)
  let r : Run := ⟨start.1, start.2, t.maxDepth, { s with mdf := 0 }⟩
  let r :=
    if t.allTrees = true ∨ t.maxNodes = 1 then
      sizeRuns c t D (List.range' 1 t.maxNodes) r
    else
      let md := min t.maxDepth t.maxNodes
      let mn := min 2 md
      depthRuns c t D (List.range' mn (md + 1 - mn)) r
  ({ r with st := r.st.next }, c.ok r.st)

/-- `Solve` on a fresh solver. -/
def solve (c : Cfg) (t : Top) (D : Data) : Run × Bool :=
  solveFrom c t D (Node.empty c.worst) St.init

end Streed
