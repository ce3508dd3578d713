import Verif.Model.BitSet

/-!
# Model of hash codes and hash maps

The caches are `std::unordered_map` with the hash functions of branch.h, data_splitter.h and dynamic_bitset.h. Elsewhere in the model they
are association lists. Here a hash map has buckets: a lookup sees only the bucket of the hash code. Where the standard library is free, so
is the model: a new entry goes to any place of its bucket, and the map may be rehashed to any number of buckets in any order at any time.
-/

namespace Streed

namespace Hash

/-- One step of `BranchHashFunction` (branch.h:50-60) with 32-bit wrapping `int`. -/
def branchStep (seed : BitVec 32) (code : Nat) : BitVec 32 :=
  seed ^^^ (BitVec.ofNat 32 code + 0x9e3779b9#32 + (seed <<< 6) + seed.sshiftRight 2)

/-- `BranchHashFunction` (branch.h:50-60) on the codes of a branch, as compilers with wrapping shifts compute it. -/
def branchHash (codes : List Nat) : BitVec 32 := codes.foldl branchStep (BitVec.ofNat 32 codes.length)

/-- `seed << 6` for `int` in C++17, the standard of this project (CMakeLists.txt:8, setup.py:17): undefined for a negative number, and for
one whose product with 64 does not fit into `unsigned`. -/
def shl17 (seed : BitVec 32) : Option (BitVec 32) := if seed.msb then none else if seed.toNat * 64 < 2 ^ 32 then some (seed <<< 6) else none

/-- One step of `BranchHashFunction` (branch.h:50-60) under the rules of C++17. -/
def branchStep17 (seed : BitVec 32) (code : Nat) : Option (BitVec 32) :=
  (shl17 seed).map fun s => seed ^^^ (BitVec.ofNat 32 code + 0x9e3779b9#32 + s + seed.sshiftRight 2)

/-- `BranchHashFunction` (branch.h:50-60) under the rules of C++17; `none` is undefined behaviour. -/
def branchHash17 (codes : List Nat) : Option (BitVec 32) := codes.foldlM branchStep17 (BitVec.ofNat 32 codes.length)

/-- The `size_t` a hash map gets from an `int` (branch_cache.h:40). -/
def toSizeT (h : BitVec 32) : Nat := (h.signExtend 64).toNat

/-- `BranchFeatureHashFunction` (data_splitter.h:12-19): one more step for the feature. -/
def branchFeatureHash (k : List Nat × Nat) : BitVec 32 := branchStep (branchHash k.1) k.2

/-- `std::hash<DynamicBitSet>` (dynamic_bitset.h:80-92); `g` is `std::hash<unsigned long>`. -/
def bitsHash (g : Nat → BitVec 64) (b : BitSet) : BitVec 64 :=
  b.words.foldl (fun seed w => seed ^^^ (g w + 0x9e3779b9#64 + (seed <<< 6) + (seed >>> 2))) 0#64

/-- `ADataViewBitSet` (data.h:162-177) with its stored hash, -1 if there is none. -/
structure DKey where
  bits : BitSet
  size : Nat
  hash : BitVec 64
  deriving DecidableEq

/-- A new key (data.h:165, data.cpp:360-366). -/
def DKey.fresh (b : BitSet) (n : Nat) : DKey := ⟨b, n, BitVec.allOnes 64⟩

/-- `IsHashSet` (data.h:172). -/
def DKey.isSet (k : DKey) : Bool := k.hash != BitVec.allOnes 64

/-- `std::hash<ADataViewBitSet>` (data.h:253-259). -/
def DKey.code (g : Nat → BitVec 64) (k : DKey) : BitVec 64 := if k.isSet then k.hash else bitsHash g k.bits

/-- What `FindIterator` does before the lookup (dataset_cache.cpp:216). -/
def DKey.remember (g : Nat → BitVec 64) (k : DKey) : DKey := if k.isSet then k else { k with hash := k.code g }

/-- `operator==` (data.h:169, dynamic_bitset.h:40-46) of keys of one dataset, whose sets have the same number of words. -/
def DKey.same (a b : DKey) : Bool := a.size == b.size && a.bits.words == b.bits.words

end Hash

/-- A hash map with `n` buckets; `slot b` is bucket `b`. -/
structure HMap (K V : Type) where
  n : Nat
  slot : Nat → List (K × V)

namespace HMap
variable {K V : Type}

/-- `find`: look through the bucket of the hash code, comparing hash codes and then keys (branch_cache.cpp:14, dataset_cache.cpp:219). -/
def find (h : K → Nat) (eq : K → K → Bool) (m : HMap K V) (k : K) : Option V :=
  ((m.slot (h k % m.n)).find? fun p => h p.1 == h k && eq p.1 k).map (·.2)

/-- All entries. -/
def entries (m : HMap K V) : List (K × V) := (List.range m.n).flatMap m.slot

/-- Replace one bucket. -/
def withSlot (m : HMap K V) (b : Nat) (l : List (K × V)) : HMap K V := ⟨m.n, fun j => if j = b then l else m.slot j⟩

/-- The empty map with `n` buckets. -/
def empty (n : Nat) : HMap K V := ⟨n, fun _ => []⟩

/-- What can happen to a map: a lookup that fails followed by an insertion (branch_cache.cpp:41-51, 154-157; dataset_cache.cpp:49-60, 141-145),
a change of the value of the entry found (branch_cache.cpp:52-88, 158-180), and a rehash. The last component is what is now stored under
which key, if anything. -/
inductive Step (h : K → Nat) (eq : K → K → Bool) : HMap K V → Option (K × V) → HMap K V → Prop
  | insert (m : HMap K V) (k : K) (v : V) (l1 l2 : List (K × V)) (hno : m.find h eq k = none) (hs : m.slot (h k % m.n) = l1 ++ l2) :
      Step h eq m (some (k, v)) (m.withSlot (h k % m.n) (l1 ++ (k, v) :: l2))
  | assign (m : HMap K V) (k k0 : K) (v v0 : V) (l1 l2 : List (K × V)) (hs : m.slot (h k % m.n) = l1 ++ (k0, v0) :: l2)
      (he : eq k0 k = true) : Step h eq m (some (k, v)) (m.withSlot (h k % m.n) (l1 ++ (k0, v) :: l2))
  | rehash (m m' : HMap K V) (hn : 0 < m'.n)
      (hs : ∀ b, (m'.slot b).Perm (m.entries.filter fun p => h p.1 % m'.n == b)) : Step h eq m none m'

/-- A history: what was stored, last first. -/
inductive Reach (h : K → Nat) (eq : K → K → Bool) : List (K × V) → HMap K V → Prop
  | start (n : Nat) (hn : 0 < n) : Reach h eq [] (empty n)
  | step {hist : List (K × V)} {m m' : HMap K V} {e : Option (K × V)} (r : Reach h eq hist m) (s : Step h eq m e m') :
      Reach h eq (e.toList ++ hist) m'

end HMap

end Streed
