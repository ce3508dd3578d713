import Verif.Model.Cache

/-!
# The dataset cache with its remembered iterators

`src/solver/dataset_cache.cpp`, with `FindIterator` and `InvalidateStoredIterators`. Every dataset size has its own hash
map and its own deque of at most two remembered lookups. An insertion may rehash the map, after which an old iterator must
not be used; here an iterator carries the number of insertions of its map at the time it was obtained, and using one with
an outdated number is undefined behaviour (`none`).
-/

namespace Streed

/-- An iterator: the age of its map, and the key it points to, or none for `end()`. -/
structure Iter where
  age : Nat
  key : Option (List Nat)
  deriving DecidableEq

/-- The cache (dataset_cache.h:36-54). The maps of all sizes are kept in one association list, since a key determines its
size. -/
structure MemoCache where
  map : Store (List Nat)
  /-- insertions so far into the map of a size -/
  age : Nat → Nat
  /-- `stored_iterators` -/
  memo : Nat → List (Branch × Iter)

/-- A new cache (dataset_cache.cpp:10-14). -/
def MemoCache.init : MemoCache := ⟨[], fun _ => 0, fun _ => []⟩

/-- Change a function at one point. -/
def setAt {α : Type} (f : Nat → α) (i : Nat) (a : α) : Nat → α := fun j => if j = i then a else f j

/-- `FindIterator` (dataset_cache.cpp:209-227); the first remembered lookup of the same branch among those for
datasets of this size answers. -/
def MemoCache.findIter (S : MemoCache) (k : List Nat) (b : Branch) : Iter × MemoCache :=
  match (S.memo k.length).find? fun p => p.1 == b with
  | some p => (p.2, S)
  | none =>
    let it : Iter := ⟨S.age k.length, if (S.map.find k).isSome then some k else none⟩
    let l := S.memo k.length
    let l := if l.length = 2 then l.dropLast else l
    (it, { S with memo := setAt S.memo k.length ((b, it) :: l) })

/-- The entries an iterator refers to: undefined if it is outdated, none for `end()`. -/
def MemoCache.deref (S : MemoCache) (k : List Nat) (it : Iter) : Option (Option (List Entry)) :=
  if it.age = S.age k.length then some (it.key.bind fun k' => S.map.find k') else none

/-- `insert`, which leaves an existing key alone, followed by `InvalidateStoredIterators`
(dataset_cache.cpp:55-56, 147-148). -/
def MemoCache.insert (S : MemoCache) (k : List Nat) (es : List Entry) : MemoCache :=
  { map := if (S.map.find k).isSome then S.map else S.map.set k es
    age := setAt S.age k.length (S.age k.length + 1)
    memo := setAt S.memo k.length [] }

/-- A call on the dataset cache. -/
inductive DsOp where
  /-- `IsOptimalAssignmentCached` -/
  | isOpt (k : List Nat) (b : Branch) (d n : Nat)
  /-- `RetrieveOptimalAssignment` -/
  | getOpt (k : List Nat) (b : Branch) (d n : Nat)
  /-- `RetrieveLowerBound` -/
  | getLB (k : List Nat) (b : Branch) (d n : Nat)
  /-- `StoreOptimalBranchAssignment` -/
  | store (k : List Nat) (b : Branch) (s : Node) (d n : Nat)
  /-- `UpdateLowerBound` -/
  | lower (k : List Nat) (b : Branch) (v : Node) (d n : Nat)

/-- What a call returns. -/
inductive DsAns where
  | flag (x : Bool)
  | sol (v : Node)
  | done
  deriving DecidableEq

/-- The dataset and branch of a call. -/
def DsOp.key : DsOp → List Nat
  | .isOpt k _ _ _ | .getOpt k _ _ _ | .getLB k _ _ _ | .store k _ _ _ _ | .lower k _ _ _ _ => k
/-- See `DsOp.key`. -/
def DsOp.branch : DsOp → Branch
  | .isOpt _ b _ _ | .getOpt _ b _ _ | .getLB _ b _ _ | .store _ b _ _ _ | .lower _ b _ _ _ => b

/-- The answer to a call, given the entries that were found (dataset_cache.cpp:17-32, 35-107, 115-193). -/
def DsOp.answer (w : Int) (es : Option (List Entry)) : DsOp → DsAns
  | .isOpt _ _ d n => .flag (isOptEntries (es.getD []) d n)
  | .getOpt _ _ d n => .sol (retrieveOptEntries w (es.getD []) d n)
  | .getLB _ _ d n => .sol (retrieveLBEntries (es.getD []) d n)
  | _ => .done

/-- The entries after a call, if the call writes. -/
def DsOp.written (w : Int) (es : Option (List Entry)) : DsOp → Option (List Entry)
  | .store _ _ s d n => some (storeEntries es s (min d s.numNodes) d n)
  | .lower _ _ v d n => some (updateLBEntries w false es v d n)
  | _ => none

/-- One call on the cache with remembered iterators. -/
def MemoCache.call (w : Int) (S : MemoCache) (o : DsOp) : Option (DsAns × MemoCache) :=
  let r := S.findIter o.key o.branch
  (r.2.deref o.key r.1).map fun es =>
    (o.answer w es,
      match o.written w es with
      | none => r.2
      | some es' => match r.1.key with
        | none => r.2.insert o.key es'
        | some k' => { r.2 with map := r.2.map.set k' es' })

/-- A sequence of calls. -/
def MemoCache.run (w : Int) : MemoCache → List DsOp → Option (List DsAns)
  | _, [] => some []
  | S, o :: os => (S.call w o).bind fun r => (run w r.2 os).map fun as => r.1 :: as

/-- One call on a plain map. -/
def plainCall (w : Int) (m : Store (List Nat)) (o : DsOp) : DsAns × Store (List Nat) :=
  (o.answer w (m.find o.key),
    match o.written w (m.find o.key) with
    | none => m
    | some es => m.set o.key es)

/-- A sequence of calls on a plain map. -/
def plainRun (w : Int) : Store (List Nat) → List DsOp → List DsAns
  | _, [] => []
  | m, o :: os => (plainCall w m o).1 :: plainRun w (plainCall w m o).2 os

end Streed
