import Mathlib.Data.List.Sort
import Verif.Spec

/-!
# Model of the equivalent-points bound

`src/tasks/accuracy/cost_complex_accuracy.cpp:5-150`: instances are grouped by their feature vector when the
training data is preprocessed, and the lower bound of a data view merges the per-label lists by instance id and
adds, for every run of instances of one group, the number of instances outside the largest class of the run.

An iterator is the list of the instances from its position on. Dereferencing an end iterator and reading the last
element of an empty vector are undefined behaviour (`none`).
-/

namespace Streed

/-- An instance with `CCAccExtraData` (cost_complex_accuracy.h:6-10). -/
structure EInst where
  inst : Inst
  gid : Nat

/-- `FeatureVector::operator>` (feature_vector.h:42-55) on the features from `i` on, `n` of them. -/
def featGtFrom (a b : Nat → Bool) : Nat → Nat → Bool
  | _, 0 => false
  | i, n + 1 =>
    if a i && !b i then true
    else if !a i && b i then false
    else featGtFrom a b (i + 1) n

/-- `FeatureVector::operator>` (feature_vector.h:42-55). -/
def featGt (nF : Nat) (a b : Inst) : Bool := featGtFrom a.feat b.feat 0 nF

/-- The present features, in increasing order (feature_vector.cpp:11-24). -/
def presentList (nF : Nat) (a : Inst) : List Nat := (List.range nF).filter a.feat

/-- `HasEqualFeatures` (feature_vector.h:32-40): the lists of present features are compared. -/
def hasEqualFeatures (nF : Nat) (a b : Inst) : Bool := presentList nF a == presentList nF b

/-- The loop of `PreprocessData` after the sort (cost_complex_accuracy.cpp:19-29). `prev` is the first instance of the
current group, `g` its number. -/
def assignLoop (nF : Nat) : Inst → Nat → Nat → List Inst → List EInst
  | _, _, _, [] => []
  | prev, g, id, i :: is =>
    if hasEqualFeatures nF prev i then ⟨{ i with id := id }, g⟩ :: assignLoop nF prev g (id + 1) is
    else ⟨{ i with id := id }, g + 1⟩ :: assignLoop nF i (g + 1) (id + 1) is

/-- `PreprocessData` (cost_complex_accuracy.cpp:5-31) on the sorted instances: ids are positions, groups are
numbered from 0. Reading `instances[0]` of no instances is undefined, but the value is not used. -/
def assignGroups (nF : Nat) : List Inst → List EInst
  | [] => []
  | i :: is => ⟨{ i with id := 0 }, 0⟩ :: assignLoop nF i 0 1 is

/-- What `std::sort` (cost_complex_accuracy.cpp:14-16) may leave behind: some order of the instances in which no
instance is greater than an earlier one. -/
def SortedByFeatures (nF : Nat) (T S : List Inst) : Prop :=
  S.Perm T ∧ S.Pairwise (fun a b => featGt nF b a = false)

/-- Local variables of `ComputeLowerBound` (cost_complex_accuracy.cpp:61-96). -/
structure EqSt where
  its : Nat → List EInst
  labels : List Nat
  counts : Nat → Nat
  prev : EInst
  n : Nat
  lb : Nat

/-- `comp_with_check_end` (cost_complex_accuracy.cpp:74-78). -/
def compEnd (its : Nat → List EInst) (k1 k2 : Nat) : Bool :=
  match its k1, its k2 with
  | [], _ => false
  | _, [] => true
  | a :: _, b :: _ => a.inst.id < b.inst.id

/-- The smallest number of errors in the current run (cost_complex_accuracy.cpp:105-115, 137-147). -/
def runErrors (nL n : Nat) (counts : Nat → Nat) : Nat :=
  if n > 1 then n - ((List.range' 1 (nL - 1)).map counts).foldl max (counts 0) else 0

/-- Popping the empty labels from the end of the sorted labels (cost_complex_accuracy.cpp:85-86), on the reversed list:
`labels[labels.size() - 1]` does not exist if none is left. -/
def popEmptyRev (its : Nat → List EInst) : List Nat → Option (List Nat)
  | [] => none
  | k :: ks => if (its k).isEmpty then popEmptyRev its ks else some (k :: ks)

/-- The loop at cost_complex_accuracy.cpp:127-133: `cur` moves behind the labels whose next instance has a smaller id. -/
def bubble (its : Nat → List EInst) (cur : Nat) : List Nat → Option (List Nat)
  | [] => some [cur]
  | k :: ks =>
    match its k, its cur with
    | a :: _, b :: _ =>
      if a.inst.id < b.inst.id then (bubble its cur ks).map (k :: ·) else some (cur :: k :: ks)
    | _, _ => none

/-- One round of the main loop (cost_complex_accuracy.cpp:99-134) for the label `cur` in front, with next instance `x`
and further instances `xs`. -/
def eqStep (nL : Nat) (s : EqSt) (cur : Nat) (rest : List Nat) (x : EInst) (xs : List EInst) : Option EqSt :=
  let its := fun k => if k = cur then xs else s.its k
  let same := s.prev.gid == x.gid
  let counts := fun k => (if same then s.counts k else 0) + (if k = cur then 1 else 0)
  let n := if same then s.n + 1 else 1
  let lb := if same then s.lb else s.lb + runErrors nL s.n s.counts
  if xs.isEmpty then some ⟨its, rest, counts, x, n, lb⟩
  else (bubble its cur rest).map fun ls => ⟨its, ls, counts, x, n, lb⟩

/-- The main loop (cost_complex_accuracy.cpp:97-134); every round consumes one instance, so that the number of
instances suffices as fuel. -/
def eqLoop (nL : Nat) : Nat → EqSt → Option EqSt
  | 0, s => some s
  | fuel + 1, s =>
    match s.labels with
    | [] => some s
    | cur :: rest =>
      match s.its cur with
      | [] => some s
      | x :: xs =>
        match eqStep nL s cur rest x xs with
        | none => none
        | some s' => eqLoop nL fuel s'

/-- `CostComplexAccuracy::ComputeLowerBound` (cost_complex_accuracy.cpp:51-150) when the branch is not in
`lower_bound_cache`. -/
def equivBound (nL : Nat) (D : List EInst) : Option Nat :=
  let its := fun k => D.filter (fun e => e.inst.label == k)
  match popEmptyRev its ((List.range nL).insertionSort (fun a b => compEnd its b a = false)).reverse with
  | none => none
  | some rev =>
    match rev.reverse with
    | [] => none
    | cur :: rest =>
      match its cur with
      | [] => none
      | x :: xs =>
        let s : EqSt := ⟨fun k => if k = cur then xs else its k, cur :: rest, fun k => if k = cur then 1 else 0, x, 1, 0⟩
        (eqLoop nL D.length s).map fun s => s.lb + runErrors nL s.n s.counts

/-- `ComputeLowerBound` with `lower_bound_cache` (cost_complex_accuracy.cpp:54-59, 148): one table entry per branch,
never removed. The branch is given by an arbitrary key. -/
def equivBoundCached {κ : Type} [DecidableEq κ] (nL : Nat) (cache : List (κ × Nat)) (b : κ) (D : List EInst) :
    Option (Nat × List (κ × Nat)) :=
  match cache.lookup b with
  | some v => some (v, cache)
  | none => (equivBound nL D).map fun v => (v, (b, v) :: cache)

end Streed
