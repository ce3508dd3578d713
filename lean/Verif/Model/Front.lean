import Mathlib.Algebra.Order.Ring.Rat

/-!
# Model of the solution container of partially ordered tasks

`include/model/container.h`, with the order operations of `include/tasks/f1score.h`,
`include/tasks/group_fairness.h` and `include/tasks/eq_opp.h`. Fairness scores are exact rationals (the
code uses `double`).
-/

namespace Streed

/-- The operations a task provides on its solution values. `key a b`: the hash map treats `a` and `b` as the
same key (equal hash and `operator==`); `eq` is `operator==`. -/
structure Ops (S : Type) where
  dom : S → S → Bool
  domInv : S → S → Bool
  eq : S → S → Bool
  key : S → S → Bool
  merge : S → S → S
  mergeInv : S → S → S
  diff : S → S → Rat
  checkUnique : Bool

/-- A node of a container: its solution value and `NumNodes` (node.h:34). Label and feature play no role
here. -/
structure PNode (S : Type) where
  sol : S
  size : Nat
  deriving DecidableEq, Repr

/-- `Container` (container.h:357-366): the solutions, and the map `uniques`, as an association list. -/
structure Front (S : Type) where
  sols : List (PNode S)
  uniq : List (S × Nat)
  deriving Repr

namespace Front

variable {S : Type}

/-- A new container. -/
def empty : Front S := ⟨[], []⟩

/-- `uniques[s] = n`. -/
def setKey (key : S → S → Bool) (s : S) (n : Nat) : List (S × Nat) → List (S × Nat)
  | [] => [(s, n)]
  | p :: u => if key p.1 s then (p.1, n) :: u else p :: setKey key s n u

/-- The uniqueness test (container.h:168-175, 253-257, 291-295): `none` if the function returns. -/
def uniqStep (key : S → S → Bool) (u : List (S × Nat)) (n : PNode S) : Option (List (S × Nat)) :=
  match u.find? fun p => key p.1 n.sol with
  | some p => if p.2 ≤ n.size then none else some (setKey key n.sol n.size u)
  | none => some (setKey key n.sol n.size u)

/-- `InternalAdd` (container.h:157-202) and `InternalAddD0` (container.h:245-281), which differ in the
comparison and in whether the uniqueness test is made. The temporary nodes that the comparisons build
from solution values all have zero nodes, so the node counts do not influence them. -/
def add (cmp key : S → S → Bool) (check : Bool) (F : Front S) (n : PNode S) : Front S :=
  if F.sols = [] then ⟨[n], if check then setKey key n.sol n.size F.uniq else F.uniq⟩
  else
    match (if check then uniqStep key F.uniq n else some F.uniq) with
    | none => F
    | some u =>
      if F.sols.any fun m => cmp m.sol n.sol then ⟨F.sols, u⟩
      else ⟨(F.sols.filter fun m => !cmp n.sol m.sol) ++ [n], u⟩

/-- Adding nodes one after another (container.h:44-51). -/
def addAll (cmp key : S → S → Bool) (check : Bool) (F : Front S) : List (PNode S) → Front S
  | [] => F
  | n :: ns => (F.add cmp key check n).addAll cmp key check ns

/-- The search for the most similar solution (container.h:324-333), from position `i` on; `best` is the
position and difference found so far. -/
def similarFrom (diff : S → S → Rat) (s : S) : List (PNode S) → Nat → Nat × Rat → Nat
  | [], _, best => best.1
  | m :: ms, i, best =>
    if diff m.sol s < best.2 then similarFrom diff s ms (i + 1) (i, diff m.sol s)
    else similarFrom diff s ms (i + 1) best

/-- The search from the start. Differences are below `DBL_MAX`, so the first solution is always taken. -/
def similar (diff : S → S → Rat) (s : S) : List (PNode S) → Nat
  | [] => 0
  | m :: ms => similarFrom diff s ms 1 (0, diff m.sol s)

/-- Change the solution value at a position. -/
def mergeAt (g : S → S) : Nat → List (PNode S) → List (PNode S)
  | _, [] => []
  | 0, m :: ms => { m with sol := g m.sol } :: ms
  | i + 1, m :: ms => m :: mergeAt g i ms

/-- `InternalAddOrMerge` (container.h:283-355). `none`: access to the first element of an empty vector. -/
def addOrMerge (cmp key eq : S → S → Bool) (diff : S → S → Rat) (merge : S → S → S) (max : Nat)
    (F : Front S) (n : PNode S) : Option (Front S) :=
  if F.sols = [] then some ⟨[n], setKey key n.sol n.size F.uniq⟩
  else
    match uniqStep key F.uniq n with
    | none => some F
    | some u =>
      if F.sols.any fun m => cmp m.sol n.sol then some ⟨F.sols, u⟩
      else
        let rest := F.sols.filter fun m => !cmp n.sol m.sol
        if rest.length < max then some ⟨rest ++ [n], u⟩
        else if rest = [] then none
        else
          let merged := mergeAt (merge n.sol) (similar diff n.sol rest) rest
          some ⟨merged.filter fun m => !(!eq n.sol m.sol && cmp n.sol m.sol), u⟩

/-- Adding nodes one after another (container.h:53-63). -/
def addOrMergeAll (cmp key eq : S → S → Bool) (diff : S → S → Rat) (merge : S → S → S) (max : Nat)
    (F : Front S) : List (PNode S) → Option (Front S)
  | [] => some F
  | n :: ns =>
    match F.addOrMerge cmp key eq diff merge max n with
    | none => none
    | some G => G.addOrMergeAll cmp key eq diff merge max ns

/-- `FilterOnNumberOfNodes` (container.h:77-83): the map `uniques` is not touched. -/
def filterNodes (F : Front S) (k : Nat) : Front S := { F with sols := F.sols.filter fun m => m.size ≤ k }

/-- `RemoveTempData` (container.h:149); the copy constructor (container.h:18) does the same. -/
def removeTemp (F : Front S) : Front S := { F with uniq := [] }

end Front

/-- `F1ScoreSol` (f1score.h:8-25): false negatives and false positives. -/
structure F1Sol where
  fn : Int
  fp : Int
  deriving DecidableEq, Repr

/-- The operations of `F1Score` (f1score.h:73-108). -/
def f1Ops : Ops F1Sol where
  dom a b := decide (a.fn ≤ b.fn) && decide (a.fp ≤ b.fp)
  domInv a b := decide (a.fn ≥ b.fn) && decide (a.fp ≥ b.fp)
  eq a b := decide (a = b)
  key a b := decide (a = b)
  merge a b := ⟨min a.fn b.fn, min a.fp b.fp⟩
  mergeInv a b := ⟨max a.fn b.fn, max a.fp b.fp⟩
  diff a b := ((a.fn - b.fn) * (a.fn - b.fn) + (a.fp - b.fp) * (a.fp - b.fp) : Int)
  checkUnique := false

/-- `GroupFairnessSol` (group_fairness.h:6-48), `EqOppSol` (eq_opp.h:6-48). -/
structure FairSol where
  mis : Int
  g0 : Rat
  g1 : Rat
  root : Bool := false
  deriving DecidableEq, Repr

/-- `gf_epsilon` (group_fairness.h:7). -/
def fairEps : Rat := 1 / 10000

/-- `Dominates` (group_fairness.h:110-116, eq_opp.h:110-116). -/
def fairDom (a b : FairSol) : Bool :=
  if b.root && !a.root then false
  else if a.root && decide (a.mis ≤ b.mis) then true
  else decide (a.mis ≤ b.mis) && decide (a.g0 ≤ b.g0 + fairEps) && decide (a.g1 ≤ b.g1 + fairEps)

/-- `operator==` (group_fairness.h:17-22). -/
def fairEq (a b : FairSol) : Bool :=
  decide (b.mis = a.mis) && decide (|b.g0 - a.g0| ≤ fairEps) && decide (|b.g1 - a.g1| ≤ fairEps) &&
    decide (a.root = b.root)

/-- `int(x / gf_epsilon)` for a non-negative `x`. -/
def fairCell (x : Rat) : Int := (x / fairEps).floor

/-- The operations of `GroupFairness` and `EqOpp`. Two keys meet in the hash map when they are equal and their
hashes agree; the model takes hashes to agree exactly when the hashed numbers do. -/
def fairOps : Ops FairSol where
  dom := fairDom
  domInv a b := decide (a.mis ≥ b.mis) && decide (a.g0 + fairEps ≥ b.g0) && decide (a.g1 + fairEps ≥ b.g1)
  eq := fairEq
  key a b := fairEq a b && decide (fairCell a.g0 = fairCell b.g0) && decide (fairCell a.g1 = fairCell b.g1)
  merge a b := ⟨min a.mis b.mis, min a.g0 b.g0, min a.g1 b.g1, false⟩
  mergeInv a b := ⟨max a.mis b.mis, max a.g0 b.g0, max a.g1 b.g1, false⟩
  diff a b := ((a.mis - b.mis) * (a.mis - b.mis) : Int) + |a.g0 - b.g0| * 100 + |a.g1 - b.g1| * 100
  checkUnique := true

end Streed
