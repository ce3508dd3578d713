import Verif.Model.PwSearch
import Verif.Model.Reconstruct

/-!
# The returned tree for tasks that fit a model in every leaf

The functions of `Model/TolTree.lean` without the depth-two solver. The model of a leaf is the one fitted to its instances, so only the
shape of the tree is kept (every leaf has label 0).
-/

namespace Streed.Pw

/-- Lookup of one child (solver.cpp:1041-1067): the sizes are tried until one gives a solution. -/
def childLookup (p : Task) (s : St) (D : Data) (b : Branch) (d : Nat) : List Nat → Node × Option Nat
  | [] => (Node.empty p.c.worst, none)
  | z :: zs =>
    let v := if z = 0 then (solveLeaf p D (Node.empty p.c.worst)).1
      else s.cache.retrieveOpt p.c.cc D b (min (d - 1) z) z
    if v.isEmpty then childLookup p s D b d zs else (v, some z)

/-- The solution used for one child, with its depth and size (solver.cpp:1031-1090). `z0` is the number of nodes recorded for that
child in the parent. -/
def childSol (p : Task) (D : Data) (b : Branch) (d n z0 : Nat) (look : Node × Option Nat) (s : St) :
    (Node × Nat × Nat) × St :=
  match look.2 with
  | some z => ((look.1, min (d - 1) z, z), s)
  | none =>
    let ld := min (d - 1) z0
    let mx := min (2 ^ (d - 1) - 1) (n - 1)
    let z := if p.c.useBr || p.c.useDs then max (max z0 (n - 1 - mx)) (mx + 1) else z0
    let r := solveSub p ld D b (Node.empty p.c.worst) ld z0 s
    if r.1.isEmpty then
      let r := solveSub p ld D b (Node.empty p.c.worst) ld z0 r.2
      ((r.1, ld, z), r.2)
    else ((r.1, ld, z), r.2)

/-- `Solver::ConstructOptimalTree` (solver.cpp:993-1114). The stopwatch is disabled, which the caller models by a clock that always
answers true. `fuel` bounds the recursion depth. -/
def construct (p : Task) : Nat → Node → Data → Branch → Nat → Nat → St → Option Tree × St
  | 0, v, _, _, _, _, s => (labelTree v, s)
  | fuel + 1, v, D, b, d0, n0, s =>
    let d := min d0 n0
    let n := min n0 (2 ^ d - 1)
    match v.feature with
    | none => (labelTree v, s)
    | some f =>
      if d = 0 ∨ n = 0 then (labelTree v, s)
      else
        let DL := without f D
        let DR := having f D
        let bl := b.child f false
        let br := b.child f true
        let mx := min (2 ^ (d - 1) - 1) (n - 1)
        let mn := n - 1 - mx
        let look := fun (D : Data) (b : Branch) (z : Nat) =>
          if p.c.useBr || p.c.useDs then
            childLookup p s D b d (List.range' (max z mn) (mx + 1 - max z mn))
          else (Node.empty p.c.worst, none)
        let ll := look DL bl v.nl
        let lr := look DR br v.nr
        let x := childSol p DL bl d n v.nl ll s
        let y := childSol p DR br d n v.nr lr x.2
        let tl := construct p fuel x.1.1 DL bl x.1.2.1 x.1.2.2 y.2
        let tr := construct p fuel y.1.1 DR br y.1.2.1 y.1.2.2 tl.2
        (tl.1.bind fun a => tr.1.map fun b => Tree.node f a b, tr.2)

/-- The task while the tree is built: the stopwatch is disabled (solver.cpp:996). -/
def Task.untimed (p : Task) : Task := { p with c := { p.c with clock := fun _ => true } }

/-- The tree returned by `Solve` (solver.cpp:173-191), before flipped features are restored; `none` when there is no feasible
solution. -/
def returned (p : Task) (D : Data) (r : Run) : Option (Option Tree) :=
  if r.result.sol = p.c.worst then none
  else
    let k := r.result.numNodes
    let lo := Nat.log2 (k + 1)
    let d := min (rootDepth p.c D r.result r.st (min r.maxDepthSearched k + 1 - lo) lo) r.maxDepthSearched
    some (construct p.untimed (d + 1) r.result D [] d k r.st).1

end Streed.Pw
