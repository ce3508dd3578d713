import Verif.Model.Tol
import Verif.Model.SimpleLinear
import Verif.Model.InstCosts

/-!
# Model of the search for tasks that fit a model in every leaf

`SimpleLinearRegression` and `PieceWiseLinearRegression` (include/tasks/regression): the leaf of a set of instances is found by the
task itself (`custom_leaf`), is expensive (`expensive_leaf`), and every branching node costs the same. `pystreed/regression.py:166`
turns the depth-two solver off, and `PieceWiseLinearRegression` has none, so it is not part of this model. Values are integers in
units of `1 / q`; the comparisons are those of doubles, as in `Model/Tol.lean`. Rounding of sums is not modelled.

Functions that do not look at leaves are those of `Model/Solver.lean` and `Model/Tol.lean`.
-/

namespace Streed.Pw

/-- A task of this kind. `c` holds the options, branching costs and worst value; its label costs are not used. -/
structure Task where
  c : Cfg
  /-- Denominator of the unit. -/
  q : Nat
  /-- The value of the model that the task fits to these instances, if it finds one (`SolveLeafNode` of the task). -/
  leaf : Data → Option Int
  /-- Number of original rows in these instances. -/
  weight : Data → Nat

/-- The node of a leaf; without a model it is the default node, whose value is `worst` (node.h). -/
def Task.leafNode (p : Task) (D : Data) : Node :=
  match p.leaf D with
  | some v => Node.leaf 0 v
  | none => Node.empty p.c.worst

/-- `SolveLeafNode` with a custom leaf (solver.cpp:598-609). -/
def solveLeaf (p : Task) (D : Data) (UB : Node) : Node × Node :=
  if p.weight D < p.c.mls then (Node.empty p.c.worst, UB)
  else
    let v := p.leafNode D
    if p.c.useUB = true ∧ Tol.sdom UB.sol v.sol then (Node.empty p.c.worst, UB)
    else (v, updateUB p.c UB v)

/-- The part of `ComputeLowerBound` for constant branching costs (solver.cpp:640-674). With an expensive leaf the loop starts from no
solution at all (solver.cpp:647-651). -/
def sparseLB (p : Task) (s : St) (D : Data) (b : Branch) (d n : Nat) (lb : Node) : Node :=
  let low := lowerCached p.c s D b n (d - 1)
  let sols := match low with
    | some (_, v) => v
    | none => Node.empty p.c.worst
  let searched : Int := match low with
    | some (l, _) => l
    | none => 0
  let minNodes : Int := max searched (s.mdf - b.length) + 1
  let v := minNodes * p.c.P.bc
  if sols.sol ≤ v then Node.addMax lb sols
  else Node.addMax lb ⟨some 0, none, v, sols.nl, sols.nr⟩

/-- `ComputeLowerBound` (solver.cpp:624-677); these tasks have no lower bound of their own. -/
def computeLB (p : Task) (s : St) (D : Data) (b : Branch) (d n : Nat) : Node :=
  if p.c.useLB then sparseLB p s D b d n (Node.addMax (Node.value 0) (s.cache.retrieveLB p.c.cc D b d n))
  else Node.value 0

/-- `ComputeLeftRightLowerBound` (solver.cpp:679-700). -/
def computeLRLB (p : Task) (s : St) (f : Nat) (DL : Data) (bl : Branch) (dl nl : Nat) (DR : Data)
    (br : Branch) (dr nr : Nat) : Node × Node × Node :=
  if p.c.useLB then
    let l := computeLB p s DL bl dl nl
    let r := computeLB p s DR br dr nr
    (Node.combine f l r p.c.P.bc, l, r)
  else (Node.value 0, Node.value 0, Node.value 0)

/-- One distribution of the node budget (solver.cpp:440-509). -/
def sizeStep (p : Task) (rec : Rec) (f : Nat) (L R : Side) (swapped : Bool) (d n : Nat) (ls : Nat)
    (v : Loc) (s : St) : Bool × Loc × St :=
  let rs := n - ls - 1
  let ld := min (d - 1) ls
  let rd := min (d - 1) rs
  let lbs := computeLRLB p s f L.D L.b ld ls R.D R.b rd rs
  if p.c.useUB = true ∧ Tol.sdom v.UB.sol lbs.1.sol then
    (false, { v with inf := Node.addMin v.inf lbs.1 }, s)
  else if Tol.same lbs.1.sol v.sols.sol then (false, v, s)
  else
    let lr := rec L.D L.b (Tol.subtractUB p.c v.UB lbs.2.2 v.sols) ld ls s
    let s1 := lr.2
    if p.c.ok s1 = false then (true, v, s1.next)
    else
      let s1 := s1.next
      if lr.1.isEmpty then
        let lbs := computeLRLB p s1 f L.D L.b ld ls R.D R.b rd rs
        (false, { v with inf := Node.addMin v.inf lbs.1 }, s1)
      else
        let rr := rec R.D R.b (Tol.subtractUB p.c v.UB lr.1 v.sols) rd rs s1
        let s2 := rr.2
        if p.c.ok s2 = false then (true, v, s2.next)
        else
          let s2 := s2.next
          if rr.1.isEmpty then
            let lbs := computeLRLB p s2 f L.D L.b ld ls R.D R.b rd rs
            (false, { v with inf := Node.addMin v.inf lbs.1 }, s2)
          else
            let nn := if swapped then Node.combine f rr.1 lr.1 p.c.P.bc
              else Node.combine f lr.1 rr.1 p.c.P.bc
            if p.c.useUB = true ∧ Tol.sdom v.UB.sol nn.sol then
              (false, { v with inf := Node.addMin v.inf nn }, s2)
            else
              (false, { v with sols := if Tol.sdom nn.sol v.sols.sol then nn else v.sols
                               UB := updateUB p.c v.UB nn }, s2)

/-- The loop over the sizes of the larger side (solver.cpp:440-509). -/
def sizeLoop (p : Task) (rec : Rec) (f : Nat) (L R : Side) (swapped : Bool) (d n : Nat) :
    List Nat → Loc → St → Loc × St
  | [], v, s => (v, s)
  | ls :: rest, v, s =>
    let r := sizeStep p rec f L R swapped d n ls v s
    if r.1 then (r.2.1, r.2.2) else sizeLoop p rec f L R swapped d n rest r.2.1 r.2.2

/-- The loop over the features (solver.cpp:391-511). -/
def featLoop (p : Task) (rec : Rec) (D : Data) (b : Branch) (d n : Nat) (blb : Node) :
    List Nat → Loc → St → Loc × St
  | [], v, s => (v, s)
  | f :: fs, v, s =>
    if p.c.ok s = false then (v, s.next)
    else
      let s := s.next
      if p.c.useLB = true ∧ Tol.same blb.sol v.sols.sol then (v, s)
      else if p.c.useLB = true ∧ p.c.useUB = true ∧ Tol.sdom v.UB.sol blb.sol then (v, s)
      else if b.has f || p.c.redundant f then featLoop p rec D b d n blb fs v s
      else if p.c.useUB = true ∧ v.UB.sol < p.c.P.bc then (v, s)
      else
        let DL := without f D
        let DR := having f D
        if p.weight DL < p.c.mls ∨ p.weight DR < p.c.mls then featLoop p rec D b d n blb fs v s
        else
          let L : Side := ⟨DL, b.child f false⟩
          let R : Side := ⟨DR, b.child f true⟩
          let r := if DL.length < DR.length then sizeLoop p rec f R L true d n (sizes d n) v s
            else sizeLoop p rec f L R false d n (sizes d n) v s
          featLoop p rec D b d n blb fs r.1 r.2

/-- Local variables before the feature loop (solver.cpp:352-375). -/
def startLoc (p : Task) (D : Data) (b : Branch) (UB : Node) (d n : Nat) (s : St) : Loc :=
  let lf := solveLeaf p D UB
  let v : Loc := ⟨lf.1, lf.2, Node.empty p.c.worst⟩
  match lowerCached p.c s D b n (d - 1) with
  | none => v
  | some (_, w) =>
    if p.c.useUB = true ∧ Tol.sdom v.UB.sol w.sol then v
    else { v with sols := Node.addMin v.sols w, UB := Node.addMin v.UB w }

/-- `SolveSubTreeGeneralCase` (solver.cpp:340-531). -/
def generalCase (p : Task) (rec : Rec) (D : Data) (b : Branch) (UB : Node) (d n : Nat) (s : St) :
    Node × St :=
  let lf := solveLeaf p D UB
  if p.weight D < 2 * p.c.mls then (lf.1, s)
  else
    let v := startLoc p D b UB d n s
    let blb := computeLB p s D b d n
    let r := featLoop p rec D b d n blb (p.c.order D) v s
    let v := r.1
    let s := r.2
    let C := if v.sols.isEmpty = false then s.cache.storeOpt p.c.cc D b v.sols d n
      else
        let inf := if Tol.same v.inf.sol p.c.worst then UB else Node.addMax v.inf UB
        s.cache.updateLB p.c.cc D b inf d n
    (v.sols, updateArchive p.c { s with cache := C } D b d)

/-- `ReduceNodeBudget` (solver.cpp:886-902): `(UB + 1e-6) / branching_costs`, rounded down. -/
def reduceBudget (p : Task) (UB : Node) (d n : Nat) : Nat × Nat :=
  if p.c.P.bc ≤ 0 then (d, n)
  else
    let nodes := (max 0 (1000000 * UB.sol + p.q) / (1000000 * p.c.P.bc)).toNat
    if nodes < n then
      let d' := min d nodes
      if d' < d then (d', min n (2 ^ d' - 1)) else (d, n)
    else (d, n)

/-- `SolveSubTree` (solver.cpp:277-338), given the recursive call. -/
def subTree (p : Task) (rec : Rec) (D : Data) (b : Branch) (UB : Node) (d n : Nat) (s : St) :
    Node × St :=
  if p.c.ok s = false then (Node.empty p.c.worst, s.next)
  else
    let s := s.next
    let dn := reduceBudget p UB d n
    let d := dn.1
    let n := dn.2
    if d = 0 ∨ n = 0 then ((solveLeaf p D UB).1, s)
    else
      let hit := s.cache.retrieveOpt p.c.cc D b d n
      if hit.isEmpty = false then (hit, s)
      else if p.c.useLB then
        let sim := Tol.useSimilarity p.c s D b d n
        let s := sim.2
        let hit := s.cache.retrieveOpt p.c.cc D b d n
        if sim.1 = true ∧ hit.isEmpty = false then (hit, s)
        else
          let lb := computeLB p s D b d n
          if p.c.useUB = true ∧ Tol.sdom UB.sol lb.sol then (Node.empty p.c.worst, s)
          else
            let lf := (solveLeaf p D (Node.empty p.c.worst)).1
            if Tol.same lb.sol lf.sol then (lf, s) else generalCase p rec D b UB d n s
      else generalCase p rec D b UB d n s

/-- `SolveSubTree`; `fuel` bounds the depth of the recursion. -/
def solveSub (p : Task) : Nat → Rec
  | 0 => subTree p (fun _ _ _ _ _ s => (Node.empty p.c.worst, s))
  | fuel + 1 => subTree p (solveSub p fuel)

/-- One iteration of the loop over sizes (solver.cpp:112-139). -/
def sizeRun (p : Task) (t : Top) (D : Data) (r : Run) (n : Nat) : Run :=
  let d := min t.maxDepth n
  let x := solveSub p t.maxDepth D [] r.gUB d n r.st
  let result := Node.addMin r.result x.1
  let gUB := tighten p.c true result (Node.addMin r.gUB x.1)
  ⟨result, gUB, d, { x.2 with mdf := Nat.log2 (n + 1) }⟩

/-- The loop over sizes with its two time checks. -/
def sizeRuns (p : Task) (t : Top) (D : Data) : List Nat → Run → Run
  | [], r => r
  | n :: ns, r =>
    if p.c.ok r.st = false then { r with st := r.st.next }
    else
      let r := sizeRun p t D { r with st := r.st.next } n
      if p.c.ok r.st = false then { r with st := r.st.next }
      else sizeRuns p t D ns { r with st := r.st.next }

/-- One iteration of the loop over depths (solver.cpp:143-169). -/
def depthRun (p : Task) (t : Top) (D : Data) (r : Run) (d : Nat) : Run :=
  let n := min t.maxNodes (2 ^ d - 1)
  let x := solveSub p t.maxDepth D [] r.gUB d n r.st
  let result := Node.addMin r.result x.1
  let gUB := tighten p.c false result (Node.addMin r.gUB x.1)
  ⟨result, gUB, d, { x.2 with mdf := d }⟩

/-- The loop over depths with its time check. -/
def depthRuns (p : Task) (t : Top) (D : Data) : List Nat → Run → Run
  | [], r => r
  | d :: ds, r =>
    let r := depthRun p t D r d
    if p.c.ok r.st = false then { r with st := r.st.next }
    else depthRuns p t D ds { r with st := r.st.next }

/-- `Solve` on a fresh solver (solver.cpp:80-174). -/
def solve (p : Task) (t : Top) (D : Data) : Run × Bool :=
  let start := solveLeaf p D (Node.addMin (Node.empty p.c.worst) (Node.value t.ub))
  let r : Run := ⟨start.1, start.2, t.maxDepth, St.init⟩
  let r :=
    if t.allTrees = true ∨ t.maxNodes = 1 then
      sizeRuns p t D (List.range' 1 t.maxNodes) r
    else
      let md := min t.maxDepth t.maxNodes
      let mn := min 2 md
      depthRuns p t D (List.range' mn (md + 1 - mn)) r
  ({ r with st := r.st.next }, p.c.ok r.st)

/-! ### Lines in the leaves -/

/-- Smallest and largest target per unit of weight (piecewise_simple_linear_regression.cpp:151-168), of the rows `Y` before merging. -/
def lineRange : List Rat → Rat × Rat
  | [] => (0, 0)
  | y :: Y => Y.foldl (fun m z => (if z < m.1 then z else m.1, if z > m.2 then z else m.2)) (y, y)

/-- `GetWorstPerLabel` (piecewise_simple_linear_regression.h:89-94). -/
def lineWorst (m : Rat × Rat) (y : Rat) : Rat :=
  if y - m.1 > m.2 - y then (y - m.1) * (y - m.1) else (m.2 - y) * (m.2 - y)

/-- `branching_cost` (piecewise_simple_linear_regression.cpp:155-172). `s` are the sums over the training data. -/
def linePrice (ccp : Rat) (s : LinStat) : Rat := ccp * (s.ysq - s.y * s.y / s.w)

/-- `SimpleLinearRegression` on training data `T`, whose instance with id `i` has the sums `S i` (those of the rows merged into it).
`Y`: targets of the rows, `n`: number of continuous features. Costs are in units of `1 / q`, rounded down; nothing is rounded if
`q` is a multiple of their denominators. No minimum difference (optimization_task.h), worst value `DBL_MAX`, own similarity bound
(piecewise_simple_linear_regression.cpp:468-511). -/
def lineTask (nF n mls q : Nat) (ridge ccp : Rat) (Y : List Rat) (S : Nat → LinStat) (T : Data) (o : Options) (red : Nat → Bool) :
    Task where
  c := { P := ⟨nF, 1, fun _ => true, fun _ _ => 0, (q * linePrice ccp (linTotal (T.map fun i => S i.id)) : Rat).floor⟩
         mls := mls
         useLB := o.useLB
         useUB := o.useUB
         subUB := o.subUB
         simLB := o.simLB
         useTerm := false
         useBr := o.useBr
         useDs := o.useDs
         md := 0
         worst := (q * largestDouble : Nat)
         worstPer := fun _ => 0
         order := o.order
         redundant := red
         clock := o.clock
         sparse := true
         customLB := fun _ => 0
         simInst := some fun i => (q * ((S i.id).w * lineWorst (lineRange Y) ((S i.id).y / (S i.id).w)) : Rat).ceil }
  q := q
  leaf := fun D =>
    (lineLeaf n mls ridge (lineVariance (T.map fun i => S i.id)) (D.map fun i => S i.id)).map fun l => (q * l.cost : Rat).floor
  weight := fun D => (D.map fun i => (S i.id).w.floor.toNat).sum

end Streed.Pw
