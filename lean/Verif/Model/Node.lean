import Verif.Spec

/-!
# Model of solution nodes and paths

`include/model/node.h`, `include/solver/optimization_utils.h` (totally ordered tasks, integer
solution values), `include/model/branch.h`, `src/model/branch.cpp`.
-/

namespace Streed

/-- `INT32_MAX`. -/
def int32Max : Nat := 2147483647

/-- `Node<OT>` (node.h:8-60). `feature = none` and `label = none` stand for `INT32_MAX` and
`OT::worst_label`. -/
structure Node where
  feature : Option Nat
  label : Option Nat
  sol : Int
  nl : Nat
  nr : Nat
  deriving DecidableEq, Repr

namespace Node

/-- `Node()` (node.h:14): infeasible node with value `OT::worst = w`. -/
def empty (w : Int) : Node := ⟨none, none, w, int32Max, int32Max⟩

/-- `Node(solution)` (node.h:17): a bare value without feature or label. -/
def value (c : Int) : Node := ⟨none, none, c, int32Max, int32Max⟩

/-- `Node(label, solution)` (node.h:20-21). -/
def leaf (k : Nat) (c : Int) : Node := ⟨none, some k, c, 0, 0⟩

/-- `Node(feature, solution, left, right)` (node.h:24-26). -/
def branch (f : Nat) (c : Int) (nl nr : Nat) : Node := ⟨some f, none, c, nl, nr⟩

/-- `NumNodes` (node.h:34). -/
def numNodes (v : Node) : Nat := if v.feature.isNone then 0 else v.nl + v.nr + 1

/-- `CheckEmptySol` (optimization_utils.h:71-77). -/
def isEmpty (v : Node) : Bool := v.feature.isNone && v.label.isNone

/-- `AddSol`/`AddSols` for total orders (optimization_utils.h:93-99, 122-128): replace if strictly
smaller. `addMin c v` adds `v` to `c`. -/
def addMin (c v : Node) : Node := if v.sol < c.sol then v else c

/-- `AddSolsInv` (optimization_utils.h:152-158): replace if strictly larger. -/
def addMax (c v : Node) : Node := if v.sol > c.sol then v else c

/-- `CombineSols` (optimization_utils.h:182-188). Tasks without branching costs have `bc = 0`. -/
def combine (f : Nat) (l r : Node) (bc : Int) : Node :=
  branch f (bc + (l.sol + r.sol)) l.numNodes r.numNodes

end Node

/-- A path: its decision codes (branch.h:40-44). -/
abbrev Branch := List Nat

/-- `GetCode` (branch.h:40): `2 * feature + present`. -/
def code (f : Nat) (present : Bool) : Nat := 2 * f + (if present then 1 else 0)

/-- Sorted insertion; `push_back` followed by `std::sort` of an already sorted vector
(branch.cpp:12-17, 55-57) puts the code at its place. -/
def insertCode (c : Nat) : List Nat → List Nat
  | [] => [c]
  | x :: xs => if c ≤ x then c :: x :: xs else x :: insertCode c xs

/-- `Branch::LeftChildBranch` / `RightChildBranch` (branch.cpp:20-43). -/
def Branch.child (b : Branch) (f : Nat) (present : Bool) : Branch := insertCode (code f present) b

/-- `Branch::HasBranchedOnFeature` (branch.cpp:60-67). -/
def Branch.has (b : Branch) (f : Nat) : Bool := b.any (fun c => c == code f true || c == code f false)

/-- `OT::Subtract` for `int` (optimization_task.h:81): clamped at zero. -/
def subtract (a b : Int) : Int := max 0 (a - b)

/-- Arrays indexed by small numbers, as finite tables (newest assignment first). -/
abbrev Tbl (α : Type) := List (Nat × α)

/-- Read index `k`; `x` if it was never written. -/
def Tbl.get {α : Type} (t : Tbl α) (k : Nat) (x : α) : α :=
  match t with
  | [] => x
  | p :: rest => if p.1 = k then p.2 else Tbl.get rest k x

/-- Write index `k`. -/
def Tbl.set {α : Type} (t : Tbl α) (k : Nat) (v : α) : Tbl α :=
  match t with
  | [] => [(k, v)]
  | p :: rest => if p.1 = k then (k, v) :: rest else p :: Tbl.set rest k v

theorem Tbl.get_set {α : Type} (t : Tbl α) (k j : Nat) (v x : α) :
    (t.set k v).get j x = if j = k then v else t.get j x := by
  induction t with
  | nil => simp [Tbl.set, Tbl.get, eq_comm]
  | cons p rest ih =>
    by_cases h : p.1 = k
    · simp only [Tbl.set, h, if_true, Tbl.get]
      by_cases hj : j = k
      · simp [hj]
      · simp [hj, Ne.symm hj]
    · simp only [Tbl.set, h, if_false, Tbl.get, ih]
      by_cases hj : j = k
      · subst hj; simp [h]
      · simp [hj]

end Streed
