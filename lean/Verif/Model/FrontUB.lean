import Verif.Model.Front

/-!
# Model of upper-bound subtraction for partially ordered tasks

The second half of `SubtractUBs` (`src/solver/solver.cpp:781-868`), for tasks without branching costs and
without constraints, so without `AddRootRelaxSols` (that is the F1 task).
-/

namespace Streed

namespace Front

variable {S : Type}

/-- Adding a list of values as nodes without a tree (`Node(const SolType&)` has `NumNodes` zero). -/
def ofVals (vs : List S) : List (PNode S) := vs.map fun s => ⟨s, 0⟩

/-- `Merge`/`MergeInv` of every pair of positions `i < k`, in the order of the double loop
(solver.cpp:836-842, 852-858). -/
def pairVals (g : S → S → S) : List (PNode S) → List S
  | [] => []
  | a :: l => (l.map fun b => g a.sol b.sol) ++ pairVals g l

/-- `sub_ub` for one solution of the other side (solver.cpp:824-833). -/
def subUB (o : Ops S) (sub : S → S → S) (eps : List S) (ub : List (PNode S)) (s : S) : Front S :=
  ((empty : Front S).addAll o.dom o.key o.checkUnique (ofVals (ub.map fun u => sub u.sol s))).addAll
    o.dom o.key o.checkUnique (ofVals eps)

/-- The loop over the solutions of the other side (solver.cpp:823-849): `corner_union`, `sub_union`. -/
def unions (o : Ops S) (sub : S → S → S) (eps : List S) (ub : List (PNode S)) :
    List (PNode S) → Front S → Front S → Front S × Front S
  | [], cu, su => (cu, su)
  | s :: ss, cu, su =>
    let sb := subUB o sub eps ub s.sol
    let corners := (empty : Front S).addAll o.dom o.key o.checkUnique (ofVals (pairVals o.mergeInv sb.sols))
    unions o sub eps ub ss (cu.addAll o.domInv o.key o.checkUnique corners.sols)
      (su.addAll o.domInv o.key o.checkUnique sb.sols)

/-- `SubtractUBs` (solver.cpp:782-861). `none`: undefined behaviour inside a merge (never with a positive
size limit). -/
def subtractUBs (o : Ops S) (sub : S → S → S) (eps : List S) (max : Nat) (UB sols : Front S) :
    Option (Front S) := do
  if sols.sols = [] then return UB.removeTemp
  let ub ← if UB.sols.length ≥ max then
      (empty : Front S).addOrMergeAll o.dom o.key o.eq o.diff o.mergeInv max UB.sols
    else some UB
  let ss ← if sols.sols.length ≥ max then
      (empty : Front S).addOrMergeAll o.dom o.key o.eq o.diff o.merge max sols.sols
    else some sols
  let (cu, su) := unions o sub eps ub.sols ss.sols empty empty
  let cu := cu.addAll o.dom o.key o.checkUnique (ofVals eps)
  let up ← (empty : Front S).addOrMergeAll o.domInv o.key o.eq o.diff o.mergeInv max
    (ofVals (pairVals o.merge cu.sols))
  up.addOrMergeAll o.domInv o.key o.eq o.diff o.mergeInv max su.sols

end Front

/-- `INT32_MAX`. -/
def intMax : Int := 2147483647

/-- `F1Score::Subtract` (f1score.h:68-71). -/
def f1Sub (a b : F1Sol) : F1Sol := ⟨max 0 (a.fn - b.fn), max 0 (a.fp - b.fp)⟩

/-- `F1Score::Add` (f1score.h:59-61). -/
def f1Add (a b : F1Sol) : F1Sol := ⟨a.fn + b.fn, a.fp + b.fp⟩

/-- `F1Score::ExtremePoints` (f1score.h:108-110). -/
def f1Extremes : List F1Sol := [⟨0, intMax⟩, ⟨intMax, 0⟩]

/-- `UB_LB_max_size` (solver.h:43). -/
def maxFront : Nat := 12

/-- `SubtractUBs` of the F1 task. -/
def f1SubtractUBs (UB sols : Front F1Sol) : Option (Front F1Sol) :=
  Front.subtractUBs f1Ops f1Sub f1Extremes maxFront UB sols

/-- `StrictDominates` (container.h:103-109, 137-140). -/
def Front.strictDominates (o : Ops S) (F : Front S) (s : S) : Bool :=
  F.sols.any fun m => !o.eq m.sol s && o.dom m.sol s

end Streed
