import Verif.Model.Node

/-!
# Model of the depth-two solver

`src/solver/terminal_solver.cpp` for totally ordered tasks without constraints
(`terminal_filter = false`), constant branching costs, and the statistics it reads
(`src/solver/cost_combiner.cpp`).
-/

namespace Streed

/-- The stored statistics (counter.h, cost_storage.h): total count, count per feature pair
(row ≤ column), total cost per label, cost per label and feature pair. -/
structure Stats where
  tot : Int
  cnt : Nat → Nat → Int
  ctot : Nat → Int
  cst : Nat → Nat → Nat → Int

/-- The statistics of a dataset computed directly. That the array-based storage with incremental
updates holds exactly these values is proved in `Verif/Props/Counts.lean`. -/
def statsOf (P : Problem) (D : Data) : Stats where
  tot := D.length
  cnt f g := (D.countP fun i => i.feat f && i.feat g : Nat)
  ctot k := leafCost P D k
  cst k f g := leafCost P (D.filter fun i => i.feat f && i.feat g) k

/-- Four values, one per combination of the outcomes of two features. -/
structure Quad where
  v00 : Int
  v01 : Int
  v10 : Int
  v11 : Int
  deriving DecidableEq, Repr

/-- `GetCounts` with an `IndexInfo` (cost_combiner.cpp:414-428; swap logic lines 60-66). -/
def Stats.counts (S : Stats) (f g : Nat) : Quad :=
  let sw := g < f
  let a := min f g
  let b := max f g
  let c11 := S.cnt a b
  let ca := S.cnt a a
  let cb := S.cnt b b
  let c00 := S.tot - ca - cb + c11
  if sw then ⟨c00, ca - c11, cb - c11, c11⟩ else ⟨c00, cb - c11, ca - c11, c11⟩

/-- `CalcSols` with an `IndexInfo` (cost_combiner.cpp:313-347). For equal features only `v00` and
`v11` are written; the other two keep old values which are not read. -/
def Stats.sols (S : Stats) (k f g : Nat) : Quad :=
  let sw := g < f
  let a := min f g
  let b := max f g
  let c11 := S.cst k a b
  let ca := S.cst k a a
  let cb := S.cst k b b
  if f = g then ⟨S.ctot k - c11, 0, 0, c11⟩
  else
    let c00 := S.ctot k - (ca - c11) - cb
    if sw then ⟨c00, ca - c11, cb - c11, c11⟩ else ⟨c00, cb - c11, ca - c11, c11⟩

/-- `label_assignments` (terminal_solver.cpp:16-21): all ordered pairs of different labels, or the
single pair when there is one label. -/
def labelPairs (nL : Nat) : List (Nat × Nat) :=
  ((List.range nL).flatMap fun a => (List.range nL).map fun b => (a, b)).filter
    fun p => !(decide (nL > 1) && p.1 == p.2)

/-- `TerminalResults` (terminal_solver.h:20-36). -/
structure TResults where
  one : Node
  two : Node
  three : Node
  deriving DecidableEq, Repr

/-- Best left and right child per root feature (`children_info`, terminal_solver.h:63-75). -/
abbrev Children := Tbl (Node × Node)

/-- What the depth-two solver needs to know. -/
structure TCfg where
  nF : Nat
  nL : Nat
  may : Nat → Bool
  bc : Int
  mls : Nat
  worst : Int

/-- `SolveOneNode` (terminal_solver.cpp:159-207). -/
def oneNode (c : TCfg) (S : Stats) : Node :=
  let r0 := (List.range c.nL).foldl (fun r k => Node.addMin r (Node.leaf k (S.ctot k)))
    (Node.empty c.worst)
  (List.range c.nF).foldl (fun r f =>
    if c.may f = false then r
    else
      let q := S.counts f f
      if q.v00 < c.mls ∨ q.v11 < c.mls then r
      else (labelPairs c.nL).foldl (fun r p =>
        Node.addMin r ⟨some f, none, (S.sols p.1 f f).v00 + (S.sols p.2 f f).v11 + c.bc, 0, 0⟩) r) r0

/-- The features kept for the pair loop (terminal_solver.cpp:52-62). -/
def pairFeatures (c : TCfg) (S : Stats) (b : Branch) : List Nat :=
  (List.range c.nF).filter fun f =>
    let t1 := S.cnt f f
    let t0 := S.tot - t1
    c.may f && !b.has f && !(decide (t0 < c.mls) || decide (t1 < c.mls)) &&
      !(decide (t0 < 2 * c.mls) && decide (t1 < 2 * c.mls))

/-- `UpdateBestLeftChild` / `UpdateBestRightChild` over all label pairs (terminal_solver.cpp:99-144,
222-241): `val p` is the cost of the pair of leaves; `g` the child's feature. -/
def bestChild (c : TCfg) (g : Nat) (val : Nat × Nat → Int) (cur : Node) : Node :=
  (labelPairs c.nL).foldl (fun r p => Node.addMin r ⟨some g, none, val p + c.bc, 0, 0⟩) cur

/-- Best children of feature `f` found so far; infeasible nodes at first. -/
def Children.at (w : Int) (ch : Children) (f : Nat) : Node × Node :=
  Tbl.get ch f (Node.empty w, Node.empty w)

/-- Update of one pair `f1 < f2` (terminal_solver.cpp:72-146). -/
def pairStep (c : TCfg) (S : Stats) (f1 : Nat) (ch : Children) (f2 : Nat) : Children :=
  let n := S.counts f1 f2
  let m : Int := c.mls
  if (n.v00 < m ∨ n.v01 < m) ∧ (n.v10 < m ∨ n.v11 < m) ∧ (n.v00 < m ∨ n.v10 < m) ∧
      (n.v01 < m ∨ n.v11 < m) then ch
  else
    let q := fun k => S.sols k f1 f2
    let o1 := ch.at c.worst f1
    let o2 := ch.at c.worst f2
    let l1 := if m ≤ n.v00 ∧ m ≤ n.v01 then
        bestChild c f2 (fun p => (q p.1).v00 + (q p.2).v01) o1.1 else o1.1
    let r1 := if m ≤ n.v10 ∧ m ≤ n.v11 then
        bestChild c f2 (fun p => (q p.1).v10 + (q p.2).v11) o1.2 else o1.2
    let l2 := if m ≤ n.v00 ∧ m ≤ n.v10 then
        bestChild c f1 (fun p => (q p.1).v00 + (q p.2).v10) o2.1 else o2.1
    let r2 := if m ≤ n.v01 ∧ m ≤ n.v11 then
        bestChild c f1 (fun p => (q p.1).v01 + (q p.2).v11) o2.2 else o2.2
    Tbl.set (Tbl.set ch f1 (l1, r1)) f2 (l2, r2)

/-- Best leaf of one side of root feature `f` (terminal_solver.cpp:263-287). -/
def bestLeaf (c : TCfg) (size : Int) (val : Nat → Int) : Node :=
  if (c.mls : Int) ≤ size then
    (List.range c.nL).foldl (fun r k => Node.addMin r (Node.leaf k (val k))) (Node.empty c.worst)
  else Node.empty c.worst

/-- Add a combination if both parts exist and it is strictly better. -/
def addCombination (c : TCfg) (f : Nat) (l r : Node) (cur : Node) : Node :=
  if l.isEmpty = false ∧ r.isEmpty = false then
    let v := Node.combine f l r c.bc
    if v.sol < cur.sol then v else cur
  else cur

/-- `UpdateBestTwoNodeAssignment` (terminal_solver.cpp:244-318). -/
def bestTwo (c : TCfg) (S : Stats) (ch : Children) (f : Nat) (cur : Node) : Node :=
  let n := S.counts f f
  let ll := bestLeaf c n.v00 (fun k => (S.sols k f f).v00)
  let rl := bestLeaf c n.v11 (fun k => (S.sols k f f).v11)
  addCombination c f ll (ch.at c.worst f).2 (addCombination c f (ch.at c.worst f).1 rl cur)

/-- `UpdateBestThreeNodeAssignment` (terminal_solver.cpp:321-338). -/
def bestThree (c : TCfg) (ch : Children) (f : Nat) (cur : Node) : Node :=
  addCombination c f (ch.at c.worst f).1 (ch.at c.worst f).2 cur

/-- The pair loop (terminal_solver.cpp:68-151). It stops as soon as the best three-node value is
zero. -/
def pairLoop (c : TCfg) (S : Stats) : List Nat → Children → Node → Node → Node × Node
  | [], _, two, three => (two, three)
  | f1 :: rest, ch, two, three =>
    if three.sol = 0 then (two, three)
    else
      let ch' := rest.foldl (pairStep c S f1) ch
      pairLoop c S rest ch' (bestTwo c S ch' f1 two) (bestThree c ch' f1 three)

/-- `TerminalSolver::Solve` (terminal_solver.cpp:25-156) on freshly initialised statistics. -/
def terminal (c : TCfg) (S : Stats) (b : Branch) (numNodes : Nat) : TResults :=
  let e := Node.empty c.worst
  if S.tot < c.mls then ⟨e, e, e⟩
  else
    let one := oneNode c S
    if numNodes = 1 then ⟨one, e, e⟩
    else if one.sol = 0 then
      let two := Node.addMin e one
      ⟨one, two, Node.addMin e two⟩
    else
      let r := pairLoop c S (pairFeatures c S b) [] e e
      let two := Node.addMin r.1 one
      ⟨one, two, Node.addMin r.2 two⟩

end Streed
