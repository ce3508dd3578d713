import Verif.Model.Solver

/-!
# Model of the construction of the returned tree

`Solver::ConstructOptimalTree` (solver.cpp:993-1114), `TerminalSolver::ConstructOptimalTree`
(terminal_solver.cpp:373-493) and the end of `Solve` (solver.cpp:172-191), for totally ordered tasks.
`none` stands for a tree that contains a leaf without a label.
-/

namespace Streed

/-- `CreateLabelNode(sol.label)`. -/
def labelTree (v : Node) : Option Tree := v.label.map Tree.leaf

/-- Cheapest leaf of one side (terminal_solver.cpp:389-418); `val` is the cost per label. -/
def reLeaf (c : TCfg) (cap : Int) (val : Nat → Int) : Node :=
  (List.range c.nL).foldl (fun r k =>
    if cap < val k then r else Node.addMin r (Node.leaf k (val k))) (Node.empty c.worst)

/-- A node with its two leaves (`TreeNode`, node.h). -/
structure TNode where
  parent : Node
  left : Node
  right : Node
  deriving DecidableEq, Repr

/-- All ordered label pairs (terminal_solver.cpp:432-433). -/
def allPairs (nL : Nat) : List (Nat × Nat) :=
  (List.range nL).flatMap fun a => (List.range nL).map fun b => (a, b)

/-- The loop over label pairs for one side and one second feature `g`
(terminal_solver.cpp:432-450, 456-474). -/
def reChild (c : TCfg) (cap : Int) (g : Nat) (v0 v1 : Nat → Int) (cur : TNode) : TNode :=
  (allPairs c.nL).foldl (fun r p =>
    let a := Node.leaf p.1 (v0 p.1)
    let b := Node.leaf p.2 (v1 p.2)
    let x := Node.combine g a b c.bc
    if cap < x.sol then r
    else if x.sol < r.parent.sol then ⟨x, a, b⟩ else r) cur

/-- The loop over the second feature (terminal_solver.cpp:420-477). -/
def reLoop (c : TCfg) (S : Stats) (v : Node) (f : Nat) (st : TNode × TNode) : TNode × TNode :=
  (List.range c.nF).foldl (fun st g =>
    if g = f then st
    else
      let n := S.counts f g
      let q := fun k => S.sols k f g
      let l := if 0 < v.nl ∧ (c.mls : Int) ≤ n.v00 ∧ (c.mls : Int) ≤ n.v01 then
          reChild c v.sol g (fun k => (q k).v00) (fun k => (q k).v01) st.1 else st.1
      let r := if 0 < v.nr ∧ (c.mls : Int) ≤ n.v10 ∧ (c.mls : Int) ≤ n.v11 then
          reChild c v.sol g (fun k => (q k).v10) (fun k => (q k).v11) st.2 else st.2
      (l, r)) st

/-- One child of `CreateD2TreeFromTreeNodes` (tree.h:39-57): a split with two leaves, or a leaf. -/
def tnodeTree (t : TNode) : Option Tree :=
  match t.parent.feature with
  | some g => (labelTree t.left).bind fun a => (labelTree t.right).map fun b => Tree.node g a b
  | none => labelTree t.parent

/-- `TerminalSolver::ConstructOptimalTree` (terminal_solver.cpp:373-493). The outer `none` is the
exception thrown when a side has no solution. -/
def terminalConstruct (c : TCfg) (S : Stats) (v : Node) (f : Nat) : Option (Option Tree) :=
  let e : TNode := ⟨Node.empty c.worst, Node.empty c.worst, Node.empty c.worst⟩
  let l0 := if v.nl = 0 then { e with parent := reLeaf c v.sol fun k => (S.sols k f f).v00 } else e
  let r0 := if v.nr = 0 then { e with parent := reLeaf c v.sol fun k => (S.sols k f f).v11 } else e
  let st := if 0 < v.nl ∨ 0 < v.nr then reLoop c S v f (l0, r0) else (l0, r0)
  if st.1.parent.sol = c.worst ∨ st.2.parent.sol = c.worst then none
  else some ((tnodeTree st.1).bind fun a => (tnodeTree st.2).map fun b => Tree.node f a b)

/-- Lookup of one child (solver.cpp:1050-1069): the sizes `lo, lo+1, …` are tried until one gives a
solution. Returns the solution and the size reached. -/
def childLookup (c : Cfg) (s : St) (D : Data) (b : Branch) (d : Nat) : List Nat → Node × Option Nat
  | [] => (Node.empty c.worst, none)
  | z :: zs =>
    let v := if z = 0 then (solveLeaf c D (Node.empty c.worst)).1
      else s.cache.retrieveOpt c.cc D b (min (d - 1) z) z
    if v.isEmpty then childLookup c s D b d zs else (v, some z)

/-- The solution used for one child, with its depth and size (solver.cpp:1034-1091). `z0` is the
number of nodes recorded for that child in the parent. -/
def childSol (c : Cfg) (D : Data) (b : Branch) (d n z0 : Nat) (look : Node × Option Nat) (s : St) :
    (Node × Nat × Nat) × St :=
  match look.2 with
  | some z => ((look.1, min (d - 1) z, z), s)
  | none =>
    let ld := min (d - 1) z0
    let mx := min (2 ^ (d - 1) - 1) (n - 1)
    let z := if c.useBr || c.useDs then max (max z0 (n - 1 - mx)) (mx + 1) else z0
    let r := solveSub c ld D b (Node.empty c.worst) ld z0 s
    if r.1.isEmpty then
      let r := solveSub c ld D b (Node.empty c.worst) ld z0 r.2
      ((r.1, ld, z), r.2)
    else ((r.1, ld, z), r.2)

/-- `Solver::ConstructOptimalTree` (solver.cpp:993-1114). The stopwatch is disabled, which the
caller models by a clock that always answers true. `fuel` bounds the recursion depth. -/
def construct (c : Cfg) : Nat → Node → Data → Branch → Nat → Nat → St → Option Tree × St
  | 0, v, _, _, _, _, s => (labelTree v, s)
  | fuel + 1, v, D, b, d0, n0, s =>
    let d := min d0 n0
    let n := min n0 (2 ^ d - 1)
    match v.feature with
    | none => (labelTree v, s)
    | some f =>
      if d = 0 ∨ n = 0 then (labelTree v, s)
      else
        let d1 := d = 1 ∨ n = 1 ∨ v.numNodes = 1
        let special := if ¬ d1 ∧ c.useTerm = true ∧ d ≤ 2 then
          terminalConstruct c.tc (statsOf c.P D) v f else none
        match special with
        | some t => (t, s)
        | none =>
          let DL := without f D
          let DR := having f D
          let bl := b.child f false
          let br := b.child f true
          let mx := min (2 ^ (d - 1) - 1) (n - 1)
          let mn := n - 1 - mx
          let look := fun (D : Data) (b : Branch) (z : Nat) =>
            if c.useBr || c.useDs then
              childLookup c s D b d (List.range' (max z mn) (mx + 1 - max z mn))
            else (Node.empty c.worst, none)
          let ll := look DL bl v.nl
          let lr := look DR br v.nr
          let x := childSol c DL bl d n v.nl ll s
          let y := childSol c DR br d n v.nr lr x.2
          let tl := construct c fuel x.1.1 DL bl x.1.2.1 x.1.2.2 y.2
          let tr := construct c fuel y.1.1 DR br y.1.2.1 y.1.2.2 tl.2
          (tl.1.bind fun a => tr.1.map fun b => Tree.node f a b, tr.2)

/-- The depth at which the root is rebuilt (solver.cpp:178-185): the loop `depth, depth+1, …` with
`k` steps left. -/
def rootDepth (c : Cfg) (D : Data) (v : Node) (s : St) : Nat → Nat → Nat
  | 0, d => d
  | k + 1, d =>
    if s.cache.isOptCached c.cc D [] d v.numNodes = true ∧
        s.cache.retrieveOpt c.cc D [] d v.numNodes = v then d
    else rootDepth c D v s k (d + 1)

/-- The tree returned by `Solve` (solver.cpp:172-191), before flipped features are restored; `none`
when there is no feasible solution. -/
def returned (c : Cfg) (D : Data) (r : Run) : Option (Option Tree) :=
  if r.result.sol = c.worst then none
  else
    let k := r.result.numNodes
    let lo := Nat.log2 (k + 1)
    let d := min (rootDepth c D r.result r.st (min r.maxDepthSearched k + 1 - lo) lo) r.maxDepthSearched
    some (construct { c with clock := fun _ => true } (d + 1) r.result D [] d k r.st).1

end Streed
