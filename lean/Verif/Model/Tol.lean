import Verif.Model.Solver

/-!
# Model of the search for tasks with real-valued costs

The same functions as in `Model/Solver.lean`, with the comparisons that `optimization_utils.h` uses when
the solution value is a `double`: they leave a relative tolerance of `DBL_DIFF = 1e-4`
(optimization_utils.h:9, 193-218, 277-291). Values are integers: the costs in units of a common
denominator. The comparisons do not depend on the unit. Rounding of sums is not modelled.

Only the functions that contain such a comparison, or call one that does, are repeated here. `AddSol`,
`AddSols`, `AddSolsInv` and `UpdateUB` compare exactly for every type (optimization_utils.h:93-158).
-/

namespace Streed.Tol

/-- `LeftStrictDominatesRight` for doubles (optimization_utils.h:208-218): `left * (1 + 1e-4) < right`. -/
abbrev sdom (a b : Int) : Prop := 10001 * a < 10000 * b
/-- `LeftDominatesRight` for doubles (optimization_utils.h:193-203):
`left * (1 + 1e-4) <= right || |left - right| <= 1e-4 * left`. -/
abbrev dom (a b : Int) : Prop := 10001 * a ≤ 10000 * b ∨ (10000 * (a - b) ≤ a ∧ 10000 * (b - a) ≤ a)
/-- `SolutionsEqual` for doubles (optimization_utils.h:277-291): `|left - right| <= 1e-4 * left`. -/
abbrev same (a b : Int) : Prop := 10000 * (a - b) ≤ a ∧ 10000 * (b - a) ≤ a

/-- The label loop of `SolveLeafNode` (solver.cpp:613-619). -/
def leafLoop (c : Cfg) (D : Data) : List Nat → Node → Node → Node × Node
  | [], r, UB => (r, UB)
  | k :: ks, r, UB =>
    let v := Node.leaf k (leafCost c.P D k)
    if c.useUB = true ∧ sdom UB.sol v.sol then leafLoop c D ks r UB
    else leafLoop c D ks (Node.addMin r v) (updateUB c UB v)

/-- `SolveLeafNode` (solver.cpp:598-622). -/
def solveLeaf (c : Cfg) (D : Data) (UB : Node) : Node × Node :=
  if D.length < c.mls then (Node.empty c.worst, UB)
  else leafLoop c D (List.range c.P.nL) (Node.empty c.worst) UB

/-- The part of `ComputeLowerBound` for constant branching costs (solver.cpp:640-674). -/
def sparseLB (c : Cfg) (s : St) (D : Data) (b : Branch) (d n : Nat) (lb : Node) : Node :=
  let leaf := (solveLeaf c D (Node.empty c.worst)).1
  let low := lowerCached c s D b n (d - 1)
  let sols := match low with
    | some (_, v) => Node.addMin leaf v
    | none => leaf
  let searched : Int := match low with
    | some (l, _) => l
    | none => 0
  let minNodes : Int := max searched (s.mdf - b.length) + 1
  let v := minNodes * c.P.bc + c.customLB D
  if sols.sol ≤ v then Node.addMax lb sols
  else Node.addMax lb ⟨some 0, none, v, sols.nl, sols.nr⟩

/-- `ComputeLowerBound` (solver.cpp:624-677). -/
def computeLB (c : Cfg) (s : St) (D : Data) (b : Branch) (d n : Nat) : Node :=
  if c.useLB then
    let lb := Node.addMax (Node.value 0) (s.cache.retrieveLB c.cc D b d n)
    let lb := Node.addMax lb (Node.value (c.customLB D))
    if c.sparse then sparseLB c s D b d n lb else lb
  else Node.value 0

/-- `ComputeLeftRightLowerBound` (solver.cpp:679-700). -/
def computeLRLB (c : Cfg) (s : St) (f : Nat) (DL : Data) (bl : Branch) (dl nl : Nat) (DR : Data)
    (br : Branch) (dr nr : Nat) : Node × Node × Node :=
  if c.useLB then
    let l := computeLB c s DL bl dl nl
    let r := computeLB c s DR br dr nr
    (Node.combine f l r c.P.bc, l, r)
  else (Node.value 0, Node.value 0, Node.value 0)

/-- `SubtractUBs` for total orders (solver.cpp:764-780). -/
def subtractUB (c : Cfg) (UB sols cur : Node) : Node :=
  if c.useUB && c.subUB then
    let x := if dom cur.sol UB.sol then subtract (cur.sol - c.md) sols.sol
      else subtract UB.sol sols.sol
    Node.value (subtract x c.P.bc)
  else Node.value UB.sol

/-- Replacement test of `TransferAssignmentsForEquivalentBranches` (branch_cache.cpp:109-126). -/
def transferOne (src : Entry) : List Entry → List Entry
  | [] => []
  | e :: es =>
    if src.depth = e.depth ∧ src.nodes = e.nodes ∧
        ((src.isOpt = true ∧ e.isOpt = false) ∨ sdom src.lb.sol e.lb.sol) then src :: es
    else e :: transferOne src es

/-- `TransferAssignmentsForEquivalentBranches` on the destination's entries (branch_cache.cpp:94-128). -/
def transferEntries (src : List Entry) (dst : List Entry) : List Entry :=
  src.foldl (fun dst e =>
    if dst.any fun x => e.depth == x.depth && e.nodes == x.nodes then transferOne e dst
    else dst ++ [e]) dst

/-- `TransferAssignmentsForEquivalentBranches` (cache.h, branch_cache.cpp:95-128). -/
def transfer (c : CacheCfg) (S : Cache) (src dst : Branch) : Cache :=
  if c.useLB && c.useBr && src != dst then
    match S.br.find src, S.br.find dst with
    | none, _ => S
    | some es, none => { S with br := S.br.set dst es }
    | some es, some es' =>
      if src.length = dst.length then { S with br := S.br.set dst (transferEntries es es') } else S
  else S

/-- The loop of `ComputeLowerBound` over the archive (similarity_lowerbound.cpp:42-80). -/
def simLoop (c : Cfg) (D : Data) (b : Branch) (d n : Nat) :
    List (Data × Branch) → Node → Cache → Node × Bool × Cache
  | [], lb, C => (lb, false, C)
  | (D', b') :: es, lb, C =>
    if 2 * D'.length > 3 * D.length then simLoop c D b d n es lb C
    else if c.simInst.isNone = true ∧ 2 * totalRemovals c.P.nL D' D > D.length then simLoop c D b d n es lb C
    else
      let e := C.retrieveLB c.cc D' b' d n
      let e := { e with sol := subtract e.sol (removalCost c D' D) }
      if totalDifference c.P.nL D' D = 0 then
        let C' := transfer c.cc C b' b
        if C'.isOptCached c.cc D b d n then (e, true, C')
        else simLoop c D b d n es (Node.addMax lb e) C'
      else simLoop c D b d n es (Node.addMax lb e) C

/-- `UpdateCacheUsingSimilarity` (solver.cpp:1116-1128). The bound is compared with 0 on the left:
`|0 - lb| <= 0`, which is exact. -/
def useSimilarity (c : Cfg) (s : St) (D : Data) (b : Branch) (d n : Nat) : Bool × St :=
  if c.simLB = false then (false, s)
  else
    let r := simLoop c D b d n (Tbl.get s.arch d []) (Node.value 0) s.cache
    let s := { s with cache := r.2.2 }
    if r.1.isEmpty then (false, s)
    else if r.2.1 then (true, s)
    else if ¬ same 0 r.1.sol then (false, { s with cache := s.cache.updateLB c.cc D b r.1 d n })
    else (false, s)

/-- `SolveTerminalNode` (solver.cpp:533-596). The depth-two solver compares with 0 on the left only
(terminal_solver.cpp:37, 70), which is exact. -/
def solveTerminal (c : Cfg) (D : Data) (b : Branch) (UB : Node) (d n : Nat) (s : St) : Node × St :=
  let r := terminal c.tc (statsOf c.P D) b n
  let C := storeTerminal c D b UB r.three 2 3
    (storeTerminal c D b UB r.two 2 2 (storeTerminal c D b UB r.one 1 1 s.cache))
  let s := updateArchive c { s with cache := C } D b d
  let v := if n = 1 then r.one else if n = 2 then r.two else r.three
  (if sdom UB.sol v.sol then Node.empty c.worst else v, s)

/-- One distribution of the node budget (solver.cpp:440-509). -/
def sizeStep (c : Cfg) (rec : Rec) (f : Nat) (L R : Side) (swapped : Bool) (d n : Nat) (ls : Nat)
    (v : Loc) (s : St) : Bool × Loc × St :=
  let rs := n - ls - 1
  let ld := min (d - 1) ls
  let rd := min (d - 1) rs
  let lbs := computeLRLB c s f L.D L.b ld ls R.D R.b rd rs
  if c.useUB = true ∧ sdom v.UB.sol lbs.1.sol then
    (false, { v with inf := Node.addMin v.inf lbs.1 }, s)
  else if same lbs.1.sol v.sols.sol then (false, v, s)
  else
    let lr := rec L.D L.b (subtractUB c v.UB lbs.2.2 v.sols) ld ls s
    let s1 := lr.2
    if c.ok s1 = false then (true, v, s1.next)
    else
      let s1 := s1.next
      if lr.1.isEmpty then
        let lbs := computeLRLB c s1 f L.D L.b ld ls R.D R.b rd rs
        (false, { v with inf := Node.addMin v.inf lbs.1 }, s1)
      else
        let rr := rec R.D R.b (subtractUB c v.UB lr.1 v.sols) rd rs s1
        let s2 := rr.2
        if c.ok s2 = false then (true, v, s2.next)
        else
          let s2 := s2.next
          if rr.1.isEmpty then
            let lbs := computeLRLB c s2 f L.D L.b ld ls R.D R.b rd rs
            (false, { v with inf := Node.addMin v.inf lbs.1 }, s2)
          else
            let nn := if swapped then Node.combine f rr.1 lr.1 c.P.bc
              else Node.combine f lr.1 rr.1 c.P.bc
            if c.useUB = true ∧ sdom v.UB.sol nn.sol then
              (false, { v with inf := Node.addMin v.inf nn }, s2)
            else
              (false, { v with sols := if sdom nn.sol v.sols.sol then nn else v.sols
                               UB := updateUB c v.UB nn }, s2)

/-- The loop over the sizes of the larger side (solver.cpp:440-509). -/
def sizeLoop (c : Cfg) (rec : Rec) (f : Nat) (L R : Side) (swapped : Bool) (d n : Nat) :
    List Nat → Loc → St → Loc × St
  | [], v, s => (v, s)
  | ls :: rest, v, s =>
    let r := sizeStep c rec f L R swapped d n ls v s
    if r.1 then (r.2.1, r.2.2) else sizeLoop c rec f L R swapped d n rest r.2.1 r.2.2

/-- The loop over the features (solver.cpp:391-511). `UB.solution < branching_costs` is exact
(solver.cpp:409-413). -/
def featLoop (c : Cfg) (rec : Rec) (D : Data) (b : Branch) (d n : Nat) (blb : Node) :
    List Nat → Loc → St → Loc × St
  | [], v, s => (v, s)
  | f :: fs, v, s =>
    if c.ok s = false then (v, s.next)
    else
      let s := s.next
      if c.useLB = true ∧ same blb.sol v.sols.sol then (v, s)
      else if c.useLB = true ∧ c.useUB = true ∧ sdom v.UB.sol blb.sol then (v, s)
      else if b.has f || !c.P.may f || c.redundant f then featLoop c rec D b d n blb fs v s
      else if c.sparse = true ∧ c.useUB = true ∧ v.UB.sol < c.P.bc then (v, s)
      else
        let DL := without f D
        let DR := having f D
        if DL.length < c.mls ∨ DR.length < c.mls then featLoop c rec D b d n blb fs v s
        else
          let L : Side := ⟨DL, b.child f false⟩
          let R : Side := ⟨DR, b.child f true⟩
          let r := if DL.length < DR.length then sizeLoop c rec f R L true d n (sizes d n) v s
            else sizeLoop c rec f L R false d n (sizes d n) v s
          featLoop c rec D b d n blb fs r.1 r.2

/-- Local variables before the feature loop (solver.cpp:352-375). -/
def startLoc (c : Cfg) (D : Data) (b : Branch) (UB : Node) (d n : Nat) (s : St) : Loc :=
  let lf := solveLeaf c D UB
  let v : Loc := ⟨lf.1, lf.2, Node.empty c.worst⟩
  match lowerCached c s D b n (d - 1) with
  | none => v
  | some (_, w) =>
    if c.useUB = true ∧ sdom v.UB.sol w.sol then v
    else { v with sols := Node.addMin v.sols w, UB := Node.addMin v.UB w }

/-- `SolveSubTreeGeneralCase` (solver.cpp:340-531). -/
def generalCase (c : Cfg) (rec : Rec) (D : Data) (b : Branch) (UB : Node) (d n : Nat) (s : St) :
    Node × St :=
  let lf := solveLeaf c D UB
  if D.length < 2 * c.mls then (lf.1, s)
  else
    let v := startLoc c D b UB d n s
    let blb := computeLB c s D b d n
    let r := featLoop c rec D b d n blb (c.order D) v s
    let v := r.1
    let s := r.2
    let C := if v.sols.isEmpty = false then s.cache.storeOpt c.cc D b v.sols d n
      else
        let inf := if same v.inf.sol c.worst then UB else Node.addMax v.inf UB
        s.cache.updateLB c.cc D b inf d n
    (v.sols, updateArchive c { s with cache := C } D b d)

/-- `SolveSubTree` (solver.cpp:277-338), given the recursive call. -/
def subTree (c : Cfg) (rec : Rec) (D : Data) (b : Branch) (UB : Node) (d n : Nat) (s : St) :
    Node × St :=
  if c.ok s = false then (Node.empty c.worst, s.next)
  else
    let s := s.next
    let dn := reduceBudget c UB d n
    let d := dn.1
    let n := dn.2
    if d = 0 ∨ n = 0 then ((solveLeaf c D UB).1, s)
    else
      let hit := s.cache.retrieveOpt c.cc D b d n
      if hit.isEmpty = false then (hit, s)
      else
        let go := fun s : St =>
          if c.useTerm = true ∧ d ≤ 2 then solveTerminal c D b UB d n s
          else generalCase c rec D b UB d n s
        if c.useLB then
          let sim := useSimilarity c s D b d n
          let s := sim.2
          let hit := s.cache.retrieveOpt c.cc D b d n
          if sim.1 = true ∧ hit.isEmpty = false then (hit, s)
          else
            let lb := computeLB c s D b d n
            if c.useUB = true ∧ sdom UB.sol lb.sol then (Node.empty c.worst, s)
            else
              let lf := (solveLeaf c D (Node.empty c.worst)).1
              if same lb.sol lf.sol then (lf, s) else go s
        else go s

/-- `SolveSubTree`; `fuel` bounds the depth of the recursion. -/
def solveSub (c : Cfg) : Nat → Rec
  | 0 => subTree c (fun _ _ _ _ _ s => (Node.empty c.worst, s))
  | fuel + 1 => subTree c (solveSub c fuel)

/-- One iteration of the loop over sizes (solver.cpp:112-139). -/
def sizeRun (c : Cfg) (t : Top) (D : Data) (r : Run) (n : Nat) : Run :=
  let d := min t.maxDepth n
  let x := solveSub c t.maxDepth D [] r.gUB d n r.st
  let result := Node.addMin r.result x.1
  let gUB := tighten c true result (Node.addMin r.gUB x.1)
  ⟨result, gUB, d, { x.2 with mdf := Nat.log2 (n + 1) }⟩

/-- The loop over sizes with its two time checks. -/
def sizeRuns (c : Cfg) (t : Top) (D : Data) : List Nat → Run → Run
  | [], r => r
  | n :: ns, r =>
    if c.ok r.st = false then { r with st := r.st.next }
    else
      let r := sizeRun c t D { r with st := r.st.next } n
      if c.ok r.st = false then { r with st := r.st.next }
      else sizeRuns c t D ns { r with st := r.st.next }

/-- One iteration of the loop over depths (solver.cpp:143-169). -/
def depthRun (c : Cfg) (t : Top) (D : Data) (r : Run) (d : Nat) : Run :=
  let n := min t.maxNodes (2 ^ d - 1)
  let x := solveSub c t.maxDepth D [] r.gUB d n r.st
  let result := Node.addMin r.result x.1
  let gUB := tighten c false result (Node.addMin r.gUB x.1)
  ⟨result, gUB, d, { x.2 with mdf := d }⟩

/-- The loop over depths with its time check. -/
def depthRuns (c : Cfg) (t : Top) (D : Data) : List Nat → Run → Run
  | [], r => r
  | d :: ds, r =>
    let r := depthRun c t D r d
    if c.ok r.st = false then { r with st := r.st.next }
    else depthRuns c t D ds { r with st := r.st.next }

/-- The search part of `Solve` (solver.cpp:80-174). -/
def solveFrom (c : Cfg) (t : Top) (D : Data) (gUB : Node) (s : St) : Run × Bool :=
  let start : Node × Node :=
    if gUB.isEmpty then solveLeaf c D (Node.addMin (Node.empty c.worst) (Node.value t.ub))
    else (Node.empty c.worst, gUB)
  let r : Run := ⟨start.1, start.2, t.maxDepth, { s with mdf := 0 }⟩
  let r :=
    if t.allTrees = true ∨ t.maxNodes = 1 then
      sizeRuns c t D (List.range' 1 t.maxNodes) r
    else
      let md := min t.maxDepth t.maxNodes
      let mn := min 2 md
      depthRuns c t D (List.range' mn (md + 1 - mn)) r
  ({ r with st := r.st.next }, c.ok r.st)

/-- `Solve` on a fresh solver. -/
def solve (c : Cfg) (t : Top) (D : Data) : Run × Bool :=
  solveFrom c t D (Node.empty c.worst) St.init

end Streed.Tol
