import Verif.Model.Pareto
import Verif.Model.Reconstruct

/-!
# Model of the construction of the returned trees of partially ordered tasks

`Solver::ConstructOptimalTree` (solver.cpp:993-1114), `TerminalSolver::ConstructOptimalTree`
(terminal_solver.cpp:373-493) and the end of `Solve` (solver.cpp:192-201). Values carry the remaining fields of their node.
-/

namespace Streed

/-- The fields of `Node` (node.h:48-59) besides the value: the tested feature (none for a leaf), the label (of a leaf) and
the sizes of the two subtrees. -/
structure Tag where
  feat : Option Nat
  label : Nat
  nl : Nat
  nr : Nat
  deriving DecidableEq, Repr

/-- `worst_label` of the classification tasks (classification.h): `INT32_MAX`. -/
def worstLabel : Nat := int32Max

/-- The fields of a node made from a value (node.h:14-17). -/
def Tag.plain : Tag := ⟨none, worstLabel, 0, 0⟩

/-- `NumNodes` (node.h:34). -/
def Tag.numNodes (t : Tag) : Nat := if t.feat.isSome then t.nl + t.nr + 1 else 0

/-- The task with values that carry the other fields of their node; comparisons read the value only (container.h,
optimization_utils.h:181-188). -/
def PTask.tagged {S : Type} (T : PTask S) : PTask (S × Tag) where
  o :=
    { dom := fun a b => T.o.dom a.1 b.1
      domInv := fun a b => T.o.domInv a.1 b.1
      eq := fun a b => T.o.eq a.1 b.1
      key := fun a b => T.o.key a.1 b.1
      merge := fun a b => (T.o.merge a.1 b.1, b.2)
      mergeInv := fun a b => (T.o.mergeInv a.1 b.1, b.2)
      diff := fun a b => T.o.diff a.1 b.1
      checkUnique := T.o.checkUnique }
  leaf D k := (T.leaf D k, ⟨none, k, 0, 0⟩)
  add a b := (T.add a.1 b.1, Tag.plain)
  comb f a b := (T.comb f a.1 b.1, ⟨some f, worstLabel, a.2.numNodes, b.2.numNodes⟩)
  sub a b := (T.sub a.1 b.1, a.2)
  best := (T.best, Tag.plain)
  ext := T.ext.map fun x => (x, Tag.plain)
  domD0 a b := T.domD0 a.1 b.1
  worstFor k n := (T.worstFor k n, Tag.plain)
  constrained := T.constrained
  ok a := T.ok a.1
  relax a := (T.relax a.1, a.2)
  may := T.may
  nF := T.nF
  nL := T.nL

section
variable {S : Type}

/-- `LeftStrictDominatesRight` on values (optimization_utils.h:208-218). -/
def PTask.strictDom (T : PTask S) (a b : S) : Bool := T.o.dom a b && !T.o.eq a b

/-- The leaves that may be one side of the node `v` (terminal_solver.cpp:389-418), with their trees. -/
def pLeafCands (c : PCfg S) (v : S) (D : Data) : List (S × Tree) :=
  ((List.range c.T.nL).map fun k => (c.T.leaf D k, Tree.leaf k)).filter fun x => !c.T.strictDom v x.1

/-- The one-node trees that may be one side of the node `v` with feature `f` (terminal_solver.cpp:420-477). The loop
passes over `f` only: it does not ask whether the task allows the second feature. -/
def pStumpCands (c : PCfg S) (v : S) (f : Nat) (D : Data) : List (S × Tree) :=
  (((List.range c.T.nF).filter fun g => g ≠ f).flatMap fun g =>
    if c.mls ≤ (without g D).length ∧ c.mls ≤ (having g D).length then
      (allPairs c.T.nL).map fun p =>
        (c.T.comb g (c.T.leaf (without g D) p.1) (c.T.leaf (having g D) p.2), Tree.node g (.leaf p.1) (.leaf p.2))
    else []).filter fun x => !c.T.strictDom v x.1

/-- The first pair of one left and one right candidate whose sum is the value of the node (terminal_solver.cpp:482-491,
solver.cpp:715-716, `CheckReconstructSolution`, optimization_utils.h:297-312). -/
def PTask.firstPair {α β : Type} (T : PTask S) (v : S) (ls : List (S × α)) (rs : List (S × β)) :
    Option ((S × α) × (S × β)) :=
  (ls.flatMap fun l => rs.map fun r => (l, r)).find? fun p => T.o.eq v (T.add p.1.1 p.2.1)

/-- `TerminalSolver::ConstructOptimalTree` (terminal_solver.cpp:373-493) for a node `v` testing `f`; `none` is the
exception. -/
def pTerminalTree (c : PCfg (S × Tag)) (v : S × Tag) (f : Nat) (D : Data) : Option Tree :=
  let ls := if v.2.nl = 0 then pLeafCands c v (without f D) else pStumpCands c v f (without f D)
  let rs := if v.2.nr = 0 then pLeafCands c v (having f D) else pStumpCands c v f (having f D)
  (c.T.firstPair v ls rs).map fun p => Tree.node f p.1.2 p.2.2

/-- Lookup of one child (solver.cpp:1050-1069): the sizes are tried until one gives a front. -/
def pChildLookup (c : PCfg S) (UB : Front S) (s : PSt S) (D : Data) (b : Branch) (d : Nat) :
    List Nat → Front S × Option Nat
  | [] => (Front.empty, none)
  | z :: zs =>
    let F := if z = 0 then (pSolveLeaf c D b.length UB).1 else s.cache.retrieveOpt c D b (min (d - 1) z) z
    if F.isNil then pChildLookup c UB s D b d zs else (F, some z)

/-- The lookup in the caches for one child of size `z0` (solver.cpp:1043-1072): the front without the larger trees, and
the size reached. `none`: the loop does not run, and the code filters a container that does not exist. -/
def pChildCached (c : PCfg S) (UB : Front S) (s : PSt S) (D : Data) (b : Branch) (d n z0 : Nat) : Option (Front S × Nat) :=
  let mx := min (2 ^ (d - 1) - 1) (n - 1)
  let lo := max z0 (n - 1 - mx)
  if mx < lo then none
  else
    let r := pChildLookup c UB s D b d (List.range' lo (mx + 1 - lo))
    some (r.1.filterNodes lo, r.2.getD (mx + 1))

/-- Solving one child again (solver.cpp:1074-1091): front and state. -/
def pChildSolve (c : PCfg S) (UB : Front S) (D : Data) (b : Branch) (d z0 : Nat) (s : PSt S) : Front S × PSt S :=
  let ld := min (d - 1) z0
  let r := pSolveSub c ld D b UB ld z0 s
  if r.1.isNil then
    let r2 := pSolveSub c ld D b r.2.1 ld z0 r.2.2
    (r2.1.filterNodes z0, r2.2.2)
  else (r.1.filterNodes z0, r.2.2)

/-- Front, depth, size and state for one child, given the result of the lookup (solver.cpp:1074-1091). -/
def pChild (c : PCfg S) (UB : Front S) (D : Data) (b : Branch) (d z0 : Nat) (look : Front S × Nat) (s : PSt S) :
    (Front S × Nat × Nat) × PSt S :=
  if look.1.isNil then
    let r := pChildSolve c UB D b d z0 s
    ((r.1, min (d - 1) z0, look.2), r.2)
  else ((look.1, min (d - 1) look.2, look.2), s)

/-- `Solver::ConstructOptimalTree` (solver.cpp:993-1114) for a node `v`; `w` is the worst value, with which the upper
bounds start. `none`: undefined behaviour. If no pair of children gives the value of the node, the children are leaves
with the worst label. `fuel` bounds the recursion depth. -/
def pConstruct (c : PCfg (S × Tag)) (w : S) :
    Nat → S × Tag → Data → Branch → Nat → Nat → PSt (S × Tag) → Option Tree × PSt (S × Tag)
  | 0, v, _, _, _, _, s => (some (.leaf v.2.label), s)
  | fuel + 1, v, D, b, d0, n0, s =>
    let d := min d0 n0
    let n := min n0 (2 ^ d - 1)
    match v.2.feat with
    | none => (some (.leaf v.2.label), s)
    | some f =>
      if d = 0 ∨ n = 0 then (some (.leaf v.2.label), s)
      else
        let special := if ¬ (d = 1 ∨ n = 1 ∨ v.2.numNodes = 1) ∧ c.useTerm = true ∧ d ≤ 2 then
          pTerminalTree c v f D else none
        match special with
        | some t => (some t, s)
        | none =>
          let UB := c.T.put Front.empty ⟨(w, Tag.plain), 0⟩
          let DL := without f D
          let DR := having f D
          let bl := b.child f false
          let br := b.child f true
          let look := fun (D : Data) (b : Branch) (z : Nat) =>
            if c.useBr || c.useDs then pChildCached c UB s D b d n z else some (Front.empty, z)
          match look DL bl v.2.nl, look DR br v.2.nr with
          | some ll, some lr =>
            let x := pChild c UB DL bl d v.2.nl ll s
            let y := pChild c UB DR br d v.2.nr lr x.2
            let p := (c.T.firstPair v (x.1.1.sols.map fun m => (m.sol, ())) (y.1.1.sols.map fun m => (m.sol, ()))).getD
              (((w, Tag.plain), ()), ((w, Tag.plain), ()))
            let tl := pConstruct c w fuel p.1.1 DL bl x.1.2.1 x.1.2.2 y.2
            let tr := pConstruct c w fuel p.2.1 DR br y.1.2.1 y.1.2.2 tl.2
            (tl.1.bind fun a => tr.1.map fun b => Tree.node f a b, tr.2)
          | _, _ => (none, s)

/-- The depth of the last search (solver.cpp:102-170). -/
def pDepthSearched (maxDepth maxNodes : Nat) (allTrees : Bool) : Nat :=
  ((pBudgets maxDepth maxNodes allTrees).map (·.1)).getLastD maxDepth

/-- The trees for the solutions, one after another (solver.cpp:193-200). -/
def pConstructAll (c : PCfg (S × Tag)) (w : S) (D : Data) (d n : Nat) :
    List (PNode (S × Tag)) → PSt (S × Tag) → List (Option Tree)
  | [], _ => []
  | m :: ms, s =>
    let r := pConstruct c w (d + 1) m.sol D [] d n s
    r.1 :: pConstructAll c w D d n ms r.2

/-- The trees that `Solve` returns (solver.cpp:192-201), before flipped features are restored. -/
def pReturned (c : PCfg (S × Tag)) (w : S) (maxDepth maxNodes : Nat) (allTrees : Bool) (D : Data) :
    List (Option Tree) :=
  let r := pSolve c maxDepth maxNodes allTrees D
  pConstructAll c w D (pDepthSearched maxDepth maxNodes allTrees) maxNodes r.result.sols r.st

end

end Streed
