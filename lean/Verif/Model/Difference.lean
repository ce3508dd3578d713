import Verif.Spec

/-!
# Model of the difference computation

`src/solver/difference_computer.cpp`. A view keeps its instances per label, sorted by id
(data.h); `byLabel` is `GetInstancesForLabel`.
-/

namespace Streed

/-- `GetInstancesForLabel`. -/
def byLabel (D : Data) (k : Nat) : Data := D.filter (fun i => i.label = k)

/-- The merge loop of `ComputeDifference` while the old index stays at `o` (`old = o :: os`); `next`
continues with `os`. -/
def mergeDiffAt (o : Inst) (old : Data) (next : Data → Data × Data) : Data → Data × Data
  | [] => ([], old)
  | n :: ns =>
    if n.id < o.id then let r := mergeDiffAt o old next ns; (n :: r.1, r.2)
    else if n.id > o.id then let r := next (n :: ns); (r.1, o :: r.2)
    else next ns

/-- The merge loop of `ComputeDifference` for one label (difference_computer.cpp:50-91): returns
the instances to add and the instances to remove. -/
def mergeDiff : (old new : Data) → Data × Data
  | [] => fun new => (new, [])
  | o :: os => mergeDiffAt o (o :: os) (mergeDiff os)

/-- `ComputeDifference` (difference_computer.cpp:48-92). -/
def computeDifference (nL : Nat) (old new : Data) : Data × Data :=
  ((List.range nL).flatMap fun k => (mergeDiff (byLabel old k) (byLabel new k)).1,
   (List.range nL).flatMap fun k => (mergeDiff (byLabel old k) (byLabel new k)).2)

/-- The counting variant while the old index stays at `o`. -/
def mergeCountAt (o : Inst) (old : Data) (next : Data → Nat × Nat) : Data → Nat × Nat
  | [] => (old.length, old.length)
  | n :: ns =>
    if n.id < o.id then let r := mergeCountAt o old next ns; (r.1 + 1, r.2)
    else if n.id > o.id then let r := next (n :: ns); (r.1 + 1, r.2 + 1)
    else next ns

/-- The counting variant of the merge loop (difference_computer.cpp:18-45): total difference and
number of removals for one label. -/
def mergeCount : (old new : Data) → Nat × Nat
  | [] => fun new => (new.length, 0)
  | o :: os => mergeCountAt o (o :: os) (mergeCount os)

/-- `ComputeDifferenceMetrics(...).num_removals[k]`. -/
def numRemovals (old new : Data) (k : Nat) : Nat := (mergeCount (byLabel old k) (byLabel new k)).2

/-- `ComputeDifferenceMetrics(...).total_difference`. -/
def totalDifference (nL : Nat) (old new : Data) : Nat :=
  ((List.range nL).map fun k => (mergeCount (byLabel old k) (byLabel new k)).1).sum

/-- `DifferenceMetrics::GetNumRemovals` (difference_computer.cpp:10-16). -/
def totalRemovals (nL : Nat) (old new : Data) : Nat :=
  ((List.range nL).map fun k => numRemovals old new k).sum

end Streed
