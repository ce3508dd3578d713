import Verif.Model.ParetoTree

/-!
# Model of the search for partially ordered tasks under a time limit

The functions of `Verif/Model/Pareto.lean` that ask the stopwatch, or call one that does, with the time checks of
solver.cpp:113, 138, 168, 174, 280, 399, 463 and 479. `clk i` is the answer to the `i`-th check of a run; the last component
of each result is the number of the next check. `ConstructOptimalTree` turns the stopwatch off (solver.cpp:996), so the
construction of the trees is that of `Verif/Model/ParetoTree.lean`.
-/

namespace Streed

variable {S : Type}

/-- Recursive calls with the number of the next time check: result, the caller's upper bound, state, next check
(solver.cpp:277-338). -/
abbrev TRec (S : Type) := Data → Branch → Front S → Nat → Nat → PSt S → Nat → Front S × Front S × PSt S × Nat

/-- One distribution of the node budget (solver.cpp:440-509), with the time checks after the two children (solver.cpp:463,
479). The first component says that the loop over the sizes ends. -/
def tSizeStep (c : PCfg S) (clk : Nat → Bool) (rec : TRec S) (depth f : Nat) (L R : PSide) (swapped : Bool) (d n ls : Nat)
    (v : PLoc S) (s : PSt S) (t : Nat) : Bool × PLoc S × PSt S × Nat :=
  let rs := n - ls - 1
  let ld := min (d - 1) ls
  let rd := min (d - 1) rs
  let lbs := pComputeLRLB c s f L.D L.b ld ls R.D R.b rd rs
  if c.useUB && c.T.strictlyBelow v.UB lbs.1 then (false, { v with inf := c.T.putAll v.inf lbs.1.sols }, s, t)
  else if c.T.same lbs.1 v.sols then (false, v, s, t)
  else
    let lr := rec L.D L.b (pSubtract c depth v.UB lbs.2.2 v.sols) ld ls s t
    let s1 := lr.2.2.1
    let t1 := lr.2.2.2
    if clk t1 = false then (true, v, s1, t1 + 1)
    else if lr.1.isNil then
      (false, { v with inf := c.T.putAll v.inf (pComputeLRLB c s1 f L.D L.b ld ls R.D R.b rd rs).1.sols }, s1, t1 + 1)
    else
      let rr := rec R.D R.b (pSubtract c depth v.UB lr.1 v.sols) rd rs s1 (t1 + 1)
      let s2 := rr.2.2.1
      let t2 := rr.2.2.2
      if clk t2 = false then (true, v, s2, t2 + 1)
      else if rr.1.isNil then
        (false, { v with inf := c.T.putAll v.inf (pComputeLRLB c s2 f L.D L.b ld ls R.D R.b rd rs).1.sols }, s2, t2 + 1)
      else
        let r := pFilterAdd c depth ((if swapped then pProducts c.T f rr.1 lr.1 else pProducts c.T f lr.1 rr.1).filter
          fun m => c.T.ok m.sol) v.sols v.UB
        (false, { v with sols := r.1, UB := r.2 }, s2, t2 + 1)

/-- The loop over the sizes of the larger side (solver.cpp:440-509). -/
def tSizeLoop (c : PCfg S) (clk : Nat → Bool) (rec : TRec S) (depth f : Nat) (L R : PSide) (swapped : Bool) (d n : Nat) :
    List Nat → PLoc S → PSt S → Nat → PLoc S × PSt S × Nat
  | [], v, s, t => (v, s, t)
  | ls :: rest, v, s, t =>
    let r := tSizeStep c clk rec depth f L R swapped d n ls v s t
    if r.1 then r.2 else tSizeLoop c clk rec depth f L R swapped d n rest r.2.1 r.2.2.1 r.2.2.2

/-- The loop over the features (solver.cpp:391-511), with the time check at its head (solver.cpp:399). -/
def tFeatLoop (c : PCfg S) (clk : Nat → Bool) (rec : TRec S) (D : Data) (b : Branch) (d n : Nat) (blb : Front S) :
    List Nat → PLoc S → PSt S → Nat → PLoc S × PSt S × Nat
  | [], v, s, t => (v, s, t)
  | f :: fs, v, s, t =>
    if clk t = false then (v, s, t + 1)
    else if c.useLB && c.T.same blb v.sols then (v, s, t + 1)
    else if c.useLB && c.useUB && c.T.strictlyBelow v.UB blb then (v, s, t + 1)
    else if b.has f || !c.T.may f || c.redundant f then tFeatLoop c clk rec D b d n blb fs v s (t + 1)
    else
      let DL := without f D
      let DR := having f D
      if DL.length < c.mls ∨ DR.length < c.mls then tFeatLoop c clk rec D b d n blb fs v s (t + 1)
      else
        let L : PSide := ⟨DL, b.child f false⟩
        let R : PSide := ⟨DR, b.child f true⟩
        let r := if DL.length < DR.length then tSizeLoop c clk rec b.length f R L true d n (sizes d n) v s (t + 1)
          else tSizeLoop c clk rec b.length f L R false d n (sizes d n) v s (t + 1)
        tFeatLoop c clk rec D b d n blb fs r.1 r.2.1 r.2.2

/-- `SolveSubTreeGeneralCase` (solver.cpp:340-531). What was found is stored as optimal also when the time ran out
(solver.cpp:513-517). -/
def tGeneral (c : PCfg S) (clk : Nat → Bool) (rec : TRec S) (D : Data) (b : Branch) (UB : Front S) (d n : Nat) (s : PSt S)
    (t : Nat) : Front S × Front S × PSt S × Nat :=
  let lf := pSolveLeaf c D b.length UB
  if D.length < 2 * c.mls then (lf.1, lf.2, s, t)
  else
    let st := pFilterAdd c b.length (pLowerCached c s D b n (d - 1)).sols lf.1 lf.2
    let blb := pComputeLB c s D b d n
    let r := tFeatLoop c clk rec D b d n blb (c.order D) ⟨st.1, st.2, Front.empty⟩ s t
    let v := r.1
    let s := r.2.1
    let C := if v.sols.isNil = false then s.cache.storeOpt c D b v.sols d n
      else s.cache.updateLB c D b (c.T.putInv v.inf UB.sols) d n
    (v.sols, v.UB, pUpdateArchive c { s with cache := C } D b d, r.2.2)

/-- `SolveSubTree` (solver.cpp:277-338), with the time check at its start (solver.cpp:280). -/
def tSubTree (c : PCfg S) (clk : Nat → Bool) (rec : TRec S) (D : Data) (b : Branch) (UB : Front S) (d n : Nat) (s : PSt S)
    (t : Nat) : Front S × Front S × PSt S × Nat :=
  if clk t = false then (Front.empty, UB, s, t + 1)
  else if d = 0 ∨ n = 0 then ((pSolveLeaf c D b.length UB.removeTemp).1, UB, s, t + 1)
  else
    let hit := s.cache.retrieveOpt c D b d n
    if hit.isNil = false then (hit, UB, s, t + 1)
    else
      let go := fun (lf : Front S) (s : PSt S) =>
        if c.useTerm = true ∧ d ≤ 2 then
          let r := pSolveTerminal c D b (if c.useUB then pRelax c b.length UB.removeTemp lf else UB.removeTemp) d n s
          (r.1, UB, r.2, t + 1)
        else tGeneral c clk rec D b UB d n s (t + 1)
      if c.useLB then
        let sim := pUseSimilarity c s D b d n
        let s := sim.2
        let hit := s.cache.retrieveOpt c D b d n
        if sim.1 = true ∧ hit.isNil = false then (hit, UB, s, t + 1)
        else
          let lb := pComputeLB c s D b d n
          if c.useUB && c.T.strictlyBelow UB lb then (Front.empty, UB, s, t + 1)
          else
            let lf := (pSolveLeaf c D b.length Front.empty).1
            if c.T.same lb lf then (lf, UB, s, t + 1) else go lf s
      else go Front.empty s

/-- `SolveSubTree` (solver.cpp:277-338); the fuel bounds the depth of the recursion. -/
def tSolveSub (c : PCfg S) (clk : Nat → Bool) : Nat → TRec S
  | 0 => tSubTree c clk (fun _ _ UB _ _ s t => (Front.empty, UB, s, t))
  | fuel + 1 => tSubTree c clk (tSolveSub c clk fuel)

/-- Result, `global_UB`, state, depth of the last search and number of the next time check in the loops of `Solve`
(solver.cpp:102-170). -/
structure TRun (S : Type) where
  run : PRun S
  depth : Nat
  tick : Nat

/-- One call at the root (solver.cpp:119-122, 149-159). -/
def tRootRun (c : PCfg S) (clk : Nat → Bool) (maxDepth : Nat) (D : Data) (r : TRun S) (dn : Nat × Nat) : TRun S :=
  let x := tSolveSub c clk maxDepth D [] r.run.gUB dn.1 dn.2 r.run.st r.tick
  ⟨⟨c.T.putAllAt 0 r.run.result x.1.sols, c.T.putAll x.2.1 x.1.sols, x.2.2.1⟩, dn.1, x.2.2.2⟩

/-- The loop over the numbers of nodes (solver.cpp:112-139), with a check before and one after each call. -/
def tSizeRuns (c : PCfg S) (clk : Nat → Bool) (maxDepth : Nat) (D : Data) : List (Nat × Nat) → TRun S → TRun S
  | [], r => r
  | p :: ps, r =>
    if clk r.tick = false then { r with tick := r.tick + 1 }
    else
      let r := tRootRun c clk maxDepth D { r with tick := r.tick + 1 } p
      if clk r.tick = false then { r with tick := r.tick + 1 }
      else tSizeRuns c clk maxDepth D ps { r with tick := r.tick + 1 }

/-- The loop over the depths (solver.cpp:143-169), with a check after each call. -/
def tDepthRuns (c : PCfg S) (clk : Nat → Bool) (maxDepth : Nat) (D : Data) : List (Nat × Nat) → TRun S → TRun S
  | [], r => r
  | p :: ps, r =>
    let r := tRootRun c clk maxDepth D r p
    if clk r.tick = false then { r with tick := r.tick + 1 }
    else tDepthRuns c clk maxDepth D ps { r with tick := r.tick + 1 }

/-- The search part of `Solve` (solver.cpp:80-174) on a fresh solver: what it ends with, and `is_proven_optimal`. -/
def tSolve (c : PCfg S) (clk : Nat → Bool) (maxDepth maxNodes : Nat) (allTrees : Bool) (D : Data) : TRun S × Bool :=
  let lf := pSolveLeaf c D 0 Front.empty
  let r0 : TRun S := ⟨⟨lf.1, lf.2, PSt.init⟩, maxDepth, 0⟩
  let bs := pBudgets maxDepth maxNodes allTrees
  let r := if allTrees = true ∨ maxNodes = 1 then tSizeRuns c clk maxDepth D bs r0 else tDepthRuns c clk maxDepth D bs r0
  (r, clk r.tick)

/-- The trees that `Solve` returns (solver.cpp:192-201), before flipped features are restored. -/
def tReturned (c : PCfg (S × Tag)) (clk : Nat → Bool) (w : S) (maxDepth maxNodes : Nat) (allTrees : Bool) (D : Data) :
    List (Option Tree) :=
  let r := (tSolve c clk maxDepth maxNodes allTrees D).1
  pConstructAll c w D r.depth maxNodes r.run.result.sols r.run.st

end Streed
