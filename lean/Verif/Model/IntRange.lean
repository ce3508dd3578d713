import Verif.Model.FairSearch

/-!
# Model of the ranges of integers in the containers

Signed overflow and the conversion of a double to an `int` that does not hold it are undefined behaviour. `Model/Front.lean` computes
with unbounded integers; here the differences and hash codes of container.h are computed with their C++ types, `none` being undefined.
-/

namespace Streed

/-- A result of type `int`: `none` if it does not fit. -/
def int32 (x : Int) : Option Int := if -2147483648 ≤ x ∧ x ≤ 2147483647 then some x else none

/-- `F1Score::CalcDiff` (f1score.h:95-98). The result is computed as an `int` and then converted. -/
def f1Diff32 (a b : F1Sol) : Option Int := do
  let d ← int32 (a.fn - b.fn)
  let d' ← int32 (a.fp - b.fp)
  let x ← int32 (d * d)
  let y ← int32 (d' * d')
  int32 (x + y)

/-- `CalcDiff` of the fairness tasks (group_fairness.h:136-140, eq_opp.h:136-140); the product is an `int`. -/
def fairDiff32 (a b : FairSol) : Option Rat := do
  let d ← int32 (a.mis - b.mis)
  let x ← int32 (d * d)
  pure (x + |a.g0 - b.g0| * 100 + |a.g1 - b.g1| * 100)

/-- `int(x / gf_epsilon)` (group_fairness.h:181-182, eq_opp.h:181-182) for a non-negative `x`. -/
def fairCell32 (x : Rat) : Option Int := int32 (fairCell x)

/-- What the hash code of a value is computed from (group_fairness.h:177-184, eq_opp.h:177-184). -/
def fairHash (s : FairSol) : Option (Int × Int × Int) := do
  let x ← fairCell32 s.g0
  let y ← fairCell32 s.g1
  pure (s.mis, x, y)

/-- `worst` of the fairness tasks (group_fairness.h:69, eq_opp.h:69). -/
def fairWorst : FairSol := ⟨intMax, intMax, intMax, false⟩

/-- The value of an `int` computation on machines where overflow wraps around. -/
def wrap32 (x : Int) : Int := (x + 2147483648) % 4294967296 - 2147483648

/-- `F1Score::CalcDiff` (f1score.h:95-98) if overflow wraps around. -/
def f1DiffWrap (a b : F1Sol) : Rat := (wrap32 ((a.fn - b.fn) * (a.fn - b.fn) + (a.fp - b.fp) * (a.fp - b.fp)) : Int)

/-- `CalcDiff` of the fairness tasks (group_fairness.h:136-140, eq_opp.h:136-140) if overflow wraps around. -/
def fairDiffWrap (a b : FairSol) : Rat := (wrap32 ((a.mis - b.mis) * (a.mis - b.mis)) : Int) + |a.g0 - b.g0| * 100 + |a.g1 - b.g1| * 100

/-- A task with other differences. -/
def PTask.withDiff {S : Type} (T : PTask S) (diff : S → S → Rat) : PTask S := { T with o := { T.o with diff := diff } }

namespace Front

variable {S : Type}

/-- The hash codes asked for by `InternalAdd` of one node (container.h:159-175, `check_unique`): that of the node, also in an empty
container. -/
def addHashed (hash : S → Option (Int × Int × Int)) (cmp key : S → S → Bool) (F : Front S) (n : PNode S) : Option (Front S) :=
  (hash n.sol).map fun _ => F.add cmp key true n

/-- `InternalAddOrMerge` (container.h:283-355) with differences that may be undefined: if the container is full, the difference of the
node to every remaining solution is computed (lines 327-333). -/
def addOrMergeChk {V : Type} (diff? : S → S → Option V) (cmp key eq : S → S → Bool) (diff : S → S → Rat) (merge : S → S → S) (max : Nat)
    (F : Front S) (n : PNode S) : Option (Front S) :=
  if F.sols = [] then F.addOrMerge cmp key eq diff merge max n
  else
    match uniqStep key F.uniq n with
    | none => F.addOrMerge cmp key eq diff merge max n
    | some _ =>
      if F.sols.any fun m => cmp m.sol n.sol then F.addOrMerge cmp key eq diff merge max n
      else
        let rest := F.sols.filter fun m => !cmp n.sol m.sol
        if rest.length < max then F.addOrMerge cmp key eq diff merge max n
        else if rest.all fun m => (diff? m.sol n.sol).isSome then F.addOrMerge cmp key eq diff merge max n
        else none

/-- Adding nodes one after another (container.h:53-63). -/
def addOrMergeChkAll {V : Type} (diff? : S → S → Option V) (cmp key eq : S → S → Bool) (diff : S → S → Rat) (merge : S → S → S) (max : Nat)
    (F : Front S) : List (PNode S) → Option (Front S)
  | [] => some F
  | n :: ns =>
    match F.addOrMergeChk diff? cmp key eq diff merge max n with
    | none => none
    | some G => G.addOrMergeChkAll diff? cmp key eq diff merge max ns

/-- `SubtractUBs` (solver.cpp:782-861) with differences that may be undefined. -/
def subtractUBsChk {V : Type} (diff? : S → S → Option V) (o : Ops S) (sub : S → S → S) (eps : List S) (max : Nat) (UB sols : Front S) :
    Option (Front S) := do
  if sols.sols = [] then return UB.removeTemp
  let ub ← if UB.sols.length ≥ max then
      (empty : Front S).addOrMergeChkAll diff? o.dom o.key o.eq o.diff o.mergeInv max UB.sols
    else some UB
  let ss ← if sols.sols.length ≥ max then
      (empty : Front S).addOrMergeChkAll diff? o.dom o.key o.eq o.diff o.merge max sols.sols
    else some sols
  let (cu, su) := unions o sub eps ub.sols ss.sols empty empty
  let cu := cu.addAll o.dom o.key o.checkUnique (ofVals eps)
  let up ← (empty : Front S).addOrMergeChkAll diff? o.domInv o.key o.eq o.diff o.mergeInv max
    (ofVals (pairVals o.merge cu.sols))
  up.addOrMergeChkAll diff? o.domInv o.key o.eq o.diff o.mergeInv max su.sols

end Front

end Streed
