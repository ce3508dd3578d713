import Verif.Model.View

/-!
# Model of the bit sets that identify a data view

`include/utils/dynamic_bitset.h`, `ADataViewBitSet` (data.h:162-179, data.cpp:360-367). `sizeof(unsigned long)` is 8,
so each 64-bit word holds eight bits. An access outside the array is undefined behaviour: `none`.
-/

namespace Streed

/-- `DynamicBitSet` (dynamic_bitset.h:6-10): the words. -/
structure BitSet where
  words : List Nat
  deriving DecidableEq, Repr

namespace BitSet

/-- `sizeof(BaseType)`. -/
def wordSize : Nat := 8

/-- `DynamicBitSet(size)` (dynamic_bitset.h:12-16). `size - 1` wraps around for size 0, which would ask for an
enormous array; this is not modelled and `none`. -/
def new (size : Nat) : Option BitSet :=
  if size = 0 then none else some ⟨List.replicate ((size - 1) / wordSize + 1) 0⟩

/-- Change the word that holds bit `index`. -/
def modify (b : BitSet) (index : Nat) (g : Nat → Nat) : Option BitSet :=
  if index / wordSize < b.words.length then some ⟨b.words.modify (index / wordSize) g⟩ else none

/-- `SetBit` (dynamic_bitset.h:52-57). -/
def setBit (b : BitSet) (index : Nat) : Option BitSet := b.modify index (· ||| 2 ^ (index % wordSize))

/-- `ClearBit` (dynamic_bitset.h:59-64): the mask is not complemented. -/
def clearBit (b : BitSet) (index : Nat) : Option BitSet := b.modify index (· &&& 2 ^ (index % wordSize))

/-- `ToggleBit` (dynamic_bitset.h:66-71). -/
def toggleBit (b : BitSet) (index : Nat) : Option BitSet := b.modify index (· ^^^ 2 ^ (index % wordSize))

/-- The bit at `index`. -/
def get (b : BitSet) (index : Nat) : Bool := (b.words.getD (index / wordSize) 0).testBit (index % wordSize)

/-- `operator==` (dynamic_bitset.h:40-46): reads as many words of the other set as this one has. -/
def eq (a b : BitSet) : Option Bool :=
  if a.words.length ≤ b.words.length then some (a.words == b.words.take a.words.length) else none

end BitSet

/-- `ADataViewBitSet` (data.h:162-179) without the stored hash. -/
structure ViewKey where
  bits : BitSet
  size : Nat

/-- `ADataViewBitSet(data)` (data.cpp:360-367): one bit per instance; `total` is the size of the whole dataset. -/
def ViewKey.of (total : Nat) (v : View) : Option ViewKey := do
  let b ← BitSet.new total
  let b ← v.groups.flatten.foldlM (fun (b : BitSet) (i : Inst) => b.setBit i.id) b
  pure ⟨b, v.size⟩

/-- `operator==` (data.h:169). -/
def ViewKey.eq (a b : ViewKey) : Option Bool := if a.size = b.size then a.bits.eq b.bits else some false

end Streed
