import Verif.Model.Solver
import Verif.Model.Fit
import Verif.Model.Difference

/-!
# Model of the search with test costs that depend on the path

The cost-sensitive task (`include/tasks/cost_sensitive.h`): a test costs the number of instances times a price that
depends on the features tested above it. The parts of the search that do not look at the path are shared with
`Verif/Model/Solver.lean`; a distribution of nodes for feature `f` is that of a constant branching cost. Values are
integers compared exactly; the tolerance for doubles is the subject of `Verif/Model/Tol.lean`.
-/

namespace Streed

/-- What one terminal solver keeps between calls: `cost_calculator.data`, `cost_calculator.num_nodes` and `results`
(cost_combiner.cpp:13-41, terminal_solver.cpp:25-29). -/
abbrev TMem := Option (Data × Nat × TResults)

namespace Ctx

/-- The price of testing a feature for one instance, given the path: `GetBranchingCosts(context, feature)`
(cost_sensitive.cpp:149-161). -/
abbrev Prices := Branch → Nat → Int

/-! ### The depth-two solver -/

/-- `SolveOneNode` (terminal_solver.cpp:159-207); `r f` is `branching_costs[f][f]` (cost_combiner.cpp:210-228). -/
def oneNode (c : TCfg) (S : Stats) (r : Nat → Int) : Node :=
  let r0 := (List.range c.nL).foldl (fun v k => Node.addMin v (Node.leaf k (S.ctot k))) (Node.empty c.worst)
  (List.range c.nF).foldl (fun v f =>
    if c.may f = false then v
    else
      let q := S.counts f f
      if q.v00 < c.mls ∨ q.v11 < c.mls then v
      else (labelPairs c.nL).foldl (fun v p =>
        Node.addMin v ⟨some f, none, (S.sols p.1 f f).v00 + (S.sols p.2 f f).v11 + S.tot * r f, 0, 0⟩) v) r0

/-- A constant branching cost in place of the one of the configuration. -/
def withBC (c : TCfg) (x : Int) : TCfg := { c with bc := x }

/-- Update of one pair `f1 < f2` (terminal_solver.cpp:72-146); `s f g` is `branching_costs[f][g]`, the price of `g`
below `f`. -/
def pairStep (c : TCfg) (S : Stats) (s : Nat → Nat → Int) (f1 : Nat) (ch : Children) (f2 : Nat) : Children :=
  let n := S.counts f1 f2
  let m : Int := c.mls
  if (n.v00 < m ∨ n.v01 < m) ∧ (n.v10 < m ∨ n.v11 < m) ∧ (n.v00 < m ∨ n.v10 < m) ∧
      (n.v01 < m ∨ n.v11 < m) then ch
  else
    let q := fun k => S.sols k f1 f2
    let o1 := ch.at c.worst f1
    let o2 := ch.at c.worst f2
    let l1 := if m ≤ n.v00 ∧ m ≤ n.v01 then
        bestChild (withBC c ((n.v00 + n.v01) * s f1 f2)) f2 (fun p => (q p.1).v00 + (q p.2).v01) o1.1 else o1.1
    let r1 := if m ≤ n.v10 ∧ m ≤ n.v11 then
        bestChild (withBC c ((n.v10 + n.v11) * s f1 f2)) f2 (fun p => (q p.1).v10 + (q p.2).v11) o1.2 else o1.2
    let l2 := if m ≤ n.v00 ∧ m ≤ n.v10 then
        bestChild (withBC c ((n.v00 + n.v10) * s f2 f1)) f1 (fun p => (q p.1).v00 + (q p.2).v10) o2.1 else o2.1
    let r2 := if m ≤ n.v01 ∧ m ≤ n.v11 then
        bestChild (withBC c ((n.v01 + n.v11) * s f2 f1)) f1 (fun p => (q p.1).v01 + (q p.2).v11) o2.2 else o2.2
    Tbl.set (Tbl.set ch f1 (l1, r1)) f2 (l2, r2)

/-- The pair loop (terminal_solver.cpp:68-151). -/
def pairLoop (c : TCfg) (S : Stats) (r : Nat → Int) (s : Nat → Nat → Int) :
    List Nat → Children → Node → Node → Node × Node
  | [], _, two, three => (two, three)
  | f1 :: rest, ch, two, three =>
    if three.sol = 0 then (two, three)
    else
      let ch' := rest.foldl (pairStep c S s f1) ch
      pairLoop c S r s rest ch' (bestTwo (withBC c (S.tot * r f1)) S ch' f1 two)
        (bestThree (withBC c (S.tot * r f1)) ch' f1 three)

/-- `TerminalSolver::Solve` (terminal_solver.cpp:25-156) on freshly initialised statistics. -/
def terminal (c : TCfg) (S : Stats) (r : Nat → Int) (s : Nat → Nat → Int) (b : Branch) (numNodes : Nat) : TResults :=
  let e := Node.empty c.worst
  if S.tot < c.mls then ⟨e, e, e⟩
  else
    let one := oneNode c S r
    if numNodes = 1 then ⟨one, e, e⟩
    else if one.sol = 0 then
      let two := Node.addMin e one
      ⟨one, two, Node.addMin e two⟩
    else
      let x := pairLoop c S r s (pairFeatures c S b) [] e e
      let two := Node.addMin x.1 one
      ⟨one, two, Node.addMin x.2 two⟩

/-- The results for data `D` on path `b`: the table of prices is made from the context of the left child for both
children (`UpdateBranchingCosts`, cost_combiner.cpp:210-228). -/
def results (c : Cfg) (τ : Prices) (D : Data) (b : Branch) (n : Nat) : TResults :=
  terminal c.tc (statsOf c.P D) (τ b) (fun f g => τ (b.child f false) g) b n

/-- Whether `Initialize` finds nothing to do (cost_combiner.cpp:15-22): same kind of budget and same data. The path is
not compared. -/
def unchanged (nL : Nat) (D : Data) (n : Nat) : TMem → Option TResults
  | none => none
  | some (E, k, r) => if (n == 1) == (k == 1) && totalDifference nL E D == 0 then some r else none

/-- `TerminalSolver::Solve` with the memory of the object: the results and the new memory. -/
def recall (c : Cfg) (τ : Prices) (D : Data) (b : Branch) (n : Nat) (m : TMem) : TResults × TMem :=
  match unchanged c.P.nL D n m with
  | some r => (r, m)
  | none => (results c τ D b n, some (D, n, results c τ D b n))

/-- `ProbeDifference` (cost_combiner.cpp:72-76). -/
def probe (nL : Nat) (D : Data) : TMem → Int
  | none => -1
  | some (E, _, _) => totalDifference nL E D

/-- `SolveTerminalNode` (solver.cpp:533-596): the terminal solver whose data differ least is used. -/
def solveTerminal (c : Cfg) (τ : Prices) (D : Data) (b : Branch) (UB : Node) (d n : Nat) (s : St) : Node × St :=
  let first := decide (probe c.P.nL D s.mem1 < probe c.P.nL D s.mem2)
  let x := recall c τ D b n (if first then s.mem1 else s.mem2)
  let r := x.1
  let C := storeTerminal c D b UB r.three 2 3
    (storeTerminal c D b UB r.two 2 2 (storeTerminal c D b UB r.one 1 1 s.cache))
  let s := updateArchive c { s with
    cache := C, mem1 := if first then x.2 else s.mem1, mem2 := if first then s.mem2 else x.2 } D b d
  let v := if n = 1 then r.one else if n = 2 then r.two else r.three
  (if UB.sol < v.sol then Node.empty c.worst else v, s)

/-! ### The search -/

/-- The configuration for the distributions of nodes below feature `f`: there the price of the test is constant
(`GetBranchingCosts(data, context, feature)`, cost_sensitive.h:69). -/
def costOf (c : Cfg) (τ : Prices) (D : Data) (b : Branch) (f : Nat) : Cfg :=
  { c with P := { c.P with bc := D.length * τ b f } }

/-- The loop over the features (solver.cpp:391-511). The test for constant branching costs is left out: this task has
none. -/
def featLoop (c : Cfg) (τ : Prices) (rec : Rec) (D : Data) (b : Branch) (d n : Nat) (blb : Node) :
    List Nat → Loc → St → Loc × St
  | [], v, s => (v, s)
  | f :: fs, v, s =>
    if c.ok s = false then (v, s.next)
    else
      let s := s.next
      if c.useLB = true ∧ blb.sol = v.sols.sol then (v, s)
      else if c.useLB = true ∧ c.useUB = true ∧ v.UB.sol < blb.sol then (v, s)
      else if b.has f || !c.P.may f || c.redundant f then featLoop c τ rec D b d n blb fs v s
      else
        let DL := without f D
        let DR := having f D
        if DL.length < c.mls ∨ DR.length < c.mls then featLoop c τ rec D b d n blb fs v s
        else
          let L : Side := ⟨DL, b.child f false⟩
          let R : Side := ⟨DR, b.child f true⟩
          let r := if DL.length < DR.length then sizeLoop (costOf c τ D b f) rec f R L true d n (sizes d n) v s
            else sizeLoop (costOf c τ D b f) rec f L R false d n (sizes d n) v s
          featLoop c τ rec D b d n blb fs r.1 r.2

/-- `SolveSubTreeGeneralCase` (solver.cpp:340-531). -/
def generalCase (c : Cfg) (τ : Prices) (rec : Rec) (D : Data) (b : Branch) (UB : Node) (d n : Nat) (s : St) :
    Node × St :=
  let lf := solveLeaf c D UB
  if D.length < 2 * c.mls then (lf.1, s)
  else
    let v := startLoc c D b UB d n s
    let blb := computeLB c s D b d n
    let r := featLoop c τ rec D b d n blb (c.order D) v s
    let v := r.1
    let s := r.2
    let C := if v.sols.isEmpty = false then s.cache.storeOpt c.cc D b v.sols d n
      else
        let inf := if v.inf.sol = c.worst then UB else Node.addMax v.inf UB
        s.cache.updateLB c.cc D b inf d n
    (v.sols, updateArchive c { s with cache := C } D b d)

/-- `SolveSubTree` (solver.cpp:277-338), given the recursive call. The node budget is reduced only for constant branching
costs. -/
def subTree (c : Cfg) (τ : Prices) (rec : Rec) (D : Data) (b : Branch) (UB : Node) (d n : Nat) (s : St) :
    Node × St :=
  if c.ok s = false then (Node.empty c.worst, s.next)
  else
    let s := s.next
    if d = 0 ∨ n = 0 then ((solveLeaf c D UB).1, s)
    else
      let hit := s.cache.retrieveOpt c.cc D b d n
      if hit.isEmpty = false then (hit, s)
      else
        let go := fun s : St =>
          if c.useTerm = true ∧ d ≤ 2 then solveTerminal c τ D b UB d n s
          else generalCase c τ rec D b UB d n s
        if c.useLB then
          let sim := useSimilarity c s D b d n
          let s := sim.2
          let hit := s.cache.retrieveOpt c.cc D b d n
          if sim.1 = true ∧ hit.isEmpty = false then (hit, s)
          else
            let lb := computeLB c s D b d n
            if c.useUB = true ∧ UB.sol < lb.sol then (Node.empty c.worst, s)
            else
              let lf := (solveLeaf c D (Node.empty c.worst)).1
              if lb.sol = lf.sol then (lf, s) else go s
        else go s

/-- `SolveSubTree`; `fuel` bounds the depth of the recursion. -/
def solveSub (c : Cfg) (τ : Prices) : Nat → Rec
  | 0 => subTree c τ (fun _ _ _ _ _ s => (Node.empty c.worst, s))
  | fuel + 1 => subTree c τ (solveSub c τ fuel)

/-- One iteration of the loop over sizes (solver.cpp:112-139). -/
def sizeRun (c : Cfg) (τ : Prices) (t : Top) (D : Data) (r : Run) (n : Nat) : Run :=
  let d := min t.maxDepth n
  let x := solveSub c τ t.maxDepth D [] r.gUB d n r.st
  let result := Node.addMin r.result x.1
  let gUB := tighten c true result (Node.addMin r.gUB x.1)
  ⟨result, gUB, d, { x.2 with mdf := Nat.log2 (n + 1) }⟩

/-- The loop over sizes with its two time checks. -/
def sizeRuns (c : Cfg) (τ : Prices) (t : Top) (D : Data) : List Nat → Run → Run
  | [], r => r
  | n :: ns, r =>
    if c.ok r.st = false then { r with st := r.st.next }
    else
      let r := sizeRun c τ t D { r with st := r.st.next } n
      if c.ok r.st = false then { r with st := r.st.next }
      else sizeRuns c τ t D ns { r with st := r.st.next }

/-- One iteration of the loop over depths (solver.cpp:143-169). -/
def depthRun (c : Cfg) (τ : Prices) (t : Top) (D : Data) (r : Run) (d : Nat) : Run :=
  let n := min t.maxNodes (2 ^ d - 1)
  let x := solveSub c τ t.maxDepth D [] r.gUB d n r.st
  let result := Node.addMin r.result x.1
  let gUB := tighten c false result (Node.addMin r.gUB x.1)
  ⟨result, gUB, d, { x.2 with mdf := d }⟩

/-- The loop over depths with its time check. -/
def depthRuns (c : Cfg) (τ : Prices) (t : Top) (D : Data) : List Nat → Run → Run
  | [], r => r
  | d :: ds, r =>
    let r := depthRun c τ t D r d
    if c.ok r.st = false then { r with st := r.st.next }
    else depthRuns c τ t D ds { r with st := r.st.next }

/-- The search part of `Solve` on a fresh solver (solver.cpp:80-174). -/
def solve (c : Cfg) (τ : Prices) (t : Top) (D : Data) : Run × Bool :=
  let start := solveLeaf c D (Node.addMin (Node.empty c.worst) (Node.value t.ub))
  let r : Run := ⟨start.1, start.2, t.maxDepth, St.init⟩
  let r :=
    if t.allTrees = true ∨ t.maxNodes = 1 then
      sizeRuns c τ t D (List.range' 1 t.maxNodes) r
    else
      let md := min t.maxDepth t.maxNodes
      let mn := min 2 md
      depthRuns c τ t D (List.range' mn (md + 1 - mn)) r
  ({ r with st := r.st.next }, c.ok r.st)

end Ctx
end Streed
