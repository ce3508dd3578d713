import Verif.Model.HashMap
import Verif.Model.Cache
import Verif.Lemmas.CacheInv
import Mathlib.Data.List.Basic
import Mathlib.Data.List.Nodup
import Mathlib.Data.List.Pairwise

/-!
# C98: hash codes never change a result
-/

namespace Streed

/-- What is stored under a key after a history (last first): the last value stored under an equal key. -/
def lastStored {K V : Type} (eq : K → K → Bool) (hist : List (K × V)) (k : K) : Option V := (hist.find? fun p => eq p.1 k).map (·.2)

/-- What C++ asks of hash and equality: equality is an equivalence, and equal keys have equal hash codes. -/
structure HashOk {K : Type} (h : K → Nat) (eq : K → K → Bool) : Prop where
  refl : ∀ a, eq a a = true
  symm : ∀ a b, eq a b = true → eq b a = true
  trans : ∀ a b c, eq a b = true → eq b c = true → eq a c = true
  code : ∀ a b, eq a b = true → h a = h b

namespace HMap
variable {K V : Type} {h : K → Nat} {eq : K → K → Bool}

/-- Every entry is in the bucket of its hash code, and no two entries of a bucket have equal keys. -/
structure Inv (h : K → Nat) (eq : K → K → Bool) (m : HMap K V) : Prop where
  pos : 0 < m.n
  place : ∀ b, ∀ p ∈ m.slot b, h p.1 % m.n = b
  uniq : ∀ b, (m.slot b).Pairwise fun p q => eq p.1 q.1 = false

theorem find_none {m : HMap K V} (ok : HashOk h eq) (k : K) :
    m.find h eq k = none ↔ ∀ p ∈ m.slot (h k % m.n), eq p.1 k = false := by
  unfold find
  rw [Option.map_eq_none_iff, List.find?_eq_none]
  constructor
  · intro hn p hp
    cases e : eq p.1 k with
    | false => rfl
    | true => exact absurd (by rw [e, ok.code _ _ e]; simp) (hn p hp)
  · intro hn p hp hb
    rw [hn p hp] at hb
    simp at hb

theorem find_some {m : HMap K V} (ok : HashOk h eq) (i : Inv h eq m) (k : K) (v : V) :
    m.find h eq k = some v ↔ ∃ p ∈ m.slot (h k % m.n), eq p.1 k = true ∧ p.2 = v := by
  unfold find
  rw [Option.map_eq_some_iff]
  constructor
  · rintro ⟨p, hp, rfl⟩
    have h1 := List.find?_some hp
    simp only [Bool.and_eq_true] at h1
    exact ⟨p, List.mem_of_find?_eq_some hp, h1.2, rfl⟩
  · rintro ⟨p, hp, he, rfl⟩
    have hu := i.uniq (h k % m.n)
    generalize m.slot (h k % m.n) = l at hp hu
    clear i
    induction l with
    | nil => cases hp
    | cons q l ih =>
      rw [List.pairwise_cons] at hu
      rcases List.mem_cons.1 hp with rfl | hp
      · exact ⟨p, by rw [List.find?_cons_of_pos]; simp [he, ok.code _ _ he], rfl⟩
      · obtain ⟨r, hr, er⟩ := ih hp hu.2
        refine ⟨r, ?_, er⟩
        rw [List.find?_cons_of_neg, hr]
        intro hq
        simp only [Bool.and_eq_true] at hq
        have := hu.1 p hp
        rw [ok.trans _ _ _ hq.2 (ok.symm _ _ he)] at this
        cases this

theorem mem_entries {m : HMap K V} (i : Inv h eq m) {p : K × V} : p ∈ m.entries ↔ p ∈ m.slot (h p.1 % m.n) := by
  unfold entries
  rw [List.mem_flatMap]
  constructor
  · rintro ⟨b, _, hp⟩
    rw [i.place b p hp]
    exact hp
  · intro hp
    exact ⟨_, List.mem_range.2 (Nat.mod_lt _ i.pos), hp⟩

theorem entries_uniq {m : HMap K V} (ok : HashOk h eq) (i : Inv h eq m) : m.entries.Pairwise fun p q => eq p.1 q.1 = false := by
  unfold entries
  rw [List.pairwise_flatMap]
  refine ⟨fun b _ => i.uniq b, ?_⟩
  refine List.Pairwise.imp ?_ List.nodup_range
  intro a b hab p hp q hq
  cases e : eq p.1 q.1 with
  | false => rfl
  | true =>
    have h1 := i.place a p hp
    have h2 := i.place b q hq
    rw [ok.code _ _ e] at h1
    exact absurd (h1.symm.trans h2) hab

theorem inv_empty {n : Nat} (hn : 0 < n) : Inv h eq (empty n : HMap K V) := ⟨hn, fun _ _ hp => absurd hp List.not_mem_nil, fun _ => List.Pairwise.nil⟩

theorem step_inv {m m' : HMap K V} {e : Option (K × V)} (ok : HashOk h eq) (i : Inv h eq m) (s : Step h eq m e m') : Inv h eq m' := by
  cases s with
  | insert k v l1 l2 hno hs =>
    have hno := (find_none ok k).1 hno
    refine ⟨i.pos, fun b p hp => ?_, fun b => ?_⟩
    · unfold withSlot at hp ⊢
      dsimp only at hp ⊢
      split at hp
      · rename_i hb
        subst hb
        rcases List.mem_append.1 hp with hp | hp
        · exact i.place _ p (by rw [hs]; exact List.mem_append_left _ hp)
        · rcases List.mem_cons.1 hp with rfl | hp
          · rfl
          · exact i.place _ p (by rw [hs]; exact List.mem_append_right _ hp)
      · exact i.place b p hp
    · unfold withSlot
      dsimp only
      split
      · have hu := i.uniq (h k % m.n)
        rw [hs] at hu hno
        rw [List.pairwise_append] at hu ⊢
        refine ⟨hu.1, List.pairwise_cons.2 ⟨fun q hq => ?_, hu.2.1⟩, fun p hp q hq => ?_⟩
        · have := hno q (List.mem_append_right _ hq)
          cases e : eq k q.1 with
          | false => rfl
          | true => rw [ok.symm _ _ e] at this; cases this
        · rcases List.mem_cons.1 hq with rfl | hq
          · exact hno p (List.mem_append_left _ hp)
          · exact hu.2.2 p hp q hq
      · exact i.uniq b
  | assign k k0 v v0 l1 l2 hs he =>
    have hp0 : (k0, v0) ∈ m.slot (h k % m.n) := by rw [hs]; simp
    refine ⟨i.pos, fun b p hp => ?_, fun b => ?_⟩
    · unfold withSlot at hp ⊢
      dsimp only at hp ⊢
      split at hp
      · rename_i hb
        subst hb
        rcases List.mem_append.1 hp with hp | hp
        · exact i.place _ p (by rw [hs]; exact List.mem_append_left _ hp)
        · rcases List.mem_cons.1 hp with rfl | hp
          · exact i.place _ (k0, v0) hp0
          · exact i.place _ p (by rw [hs]; exact List.mem_append_right _ (List.mem_cons_of_mem _ hp))
      · exact i.place b p hp
    · unfold withSlot
      dsimp only
      split
      · have hu := i.uniq (h k % m.n)
        rw [hs] at hu
        rw [List.pairwise_append] at hu ⊢
        obtain ⟨u1, u2, u3⟩ := hu
        rw [List.pairwise_cons] at u2
        refine ⟨u1, List.pairwise_cons.2 ⟨u2.1, u2.2⟩, fun p hp q hq => ?_⟩
        rcases List.mem_cons.1 hq with rfl | hq
        · exact u3 p hp (k0, v0) (by simp)
        · exact u3 p hp q (List.mem_cons_of_mem _ hq)
      · exact i.uniq b
  | rehash _ hn hs =>
    refine ⟨hn, fun b p hp => ?_, fun b => ?_⟩
    · have := List.mem_filter.1 ((hs b).mem_iff.1 hp)
      simpa using this.2
    · refine ((hs b).pairwise_iff ?_).2 ((entries_uniq ok i).filter _)
      intro p q hpq
      cases e : eq q.1 p.1 with
      | false => rfl
      | true => rw [ok.symm _ _ e] at hpq; cases hpq

/-- What a step does to later lookups. -/
theorem step_find {m m' : HMap K V} {e : Option (K × V)} (ok : HashOk h eq) (i : Inv h eq m) (s : Step h eq m e m') (q : K) :
    m'.find h eq q = match e with
      | some (k, v) => if eq k q = true then some v else m.find h eq q
      | none => m.find h eq q := by
  have i' := step_inv ok i s
  have key : ∀ (x y : Option V), (∀ v, x = some v ↔ y = some v) → x = y := fun x y hxy => Option.ext hxy
  cases s with
  | insert k v l1 l2 hno hs =>
    have hno' := (find_none ok k).1 hno
    dsimp only
    apply key
    intro u
    rw [find_some ok i']
    unfold withSlot
    dsimp only
    by_cases hkq : eq k q = true
    · rw [if_pos hkq, ← ok.code _ _ hkq, if_pos rfl]
      constructor
      · rintro ⟨p, hp, h1, rfl⟩
        rcases List.mem_append.1 hp with hp | hp
        · have := hno' p (by rw [hs]; exact List.mem_append_left _ hp)
          rw [ok.trans _ _ _ h1 (ok.symm _ _ hkq)] at this; cases this
        · rcases List.mem_cons.1 hp with rfl | hp
          · rfl
          · have := hno' p (by rw [hs]; exact List.mem_append_right _ hp)
            rw [ok.trans _ _ _ h1 (ok.symm _ _ hkq)] at this; cases this
      · intro e
        exact ⟨(k, v), by simp, hkq, by simpa using e⟩
    · rw [if_neg hkq, find_some ok i]
      by_cases hb : h q % m.n = h k % m.n
      · rw [if_pos hb, hb, hs]
        constructor
        · rintro ⟨p, hp, h1, rfl⟩
          rcases List.mem_append.1 hp with hp | hp
          · exact ⟨p, List.mem_append_left _ hp, h1, rfl⟩
          · rcases List.mem_cons.1 hp with rfl | hp
            · exact absurd h1 hkq
            · exact ⟨p, List.mem_append_right _ hp, h1, rfl⟩
        · rintro ⟨p, hp, h1, rfl⟩
          rcases List.mem_append.1 hp with hp | hp
          · exact ⟨p, List.mem_append_left _ hp, h1, rfl⟩
          · exact ⟨p, List.mem_append_right _ (List.mem_cons_of_mem _ hp), h1, rfl⟩
      · rw [if_neg hb]
  | assign k k0 v v0 l1 l2 hs he =>
    dsimp only
    apply key
    intro u
    rw [find_some ok i']
    unfold withSlot
    dsimp only
    have hu := i.uniq (h k % m.n)
    rw [hs, List.pairwise_append] at hu
    obtain ⟨_, u2, u3⟩ := hu
    rw [List.pairwise_cons] at u2
    by_cases hkq : eq k q = true
    · rw [if_pos hkq, ← ok.code _ _ hkq, if_pos rfl]
      have h0q := ok.trans _ _ _ he hkq
      constructor
      · rintro ⟨p, hp, h1, rfl⟩
        rcases List.mem_append.1 hp with hp | hp
        · have := u3 p hp (k0, v0) (by simp)
          rw [ok.trans _ _ _ h1 (ok.symm _ _ h0q)] at this; cases this
        · rcases List.mem_cons.1 hp with rfl | hp
          · rfl
          · have := u2.1 p hp
            rw [ok.trans _ _ _ h0q (ok.symm _ _ h1)] at this; cases this
      · intro e
        exact ⟨(k0, v), by simp, h0q, by simpa using e⟩
    · have h0q : ¬ eq k0 q = true := fun h0 => hkq (ok.trans _ _ _ (ok.symm _ _ he) h0)
      rw [if_neg hkq, find_some ok i]
      by_cases hb : h q % m.n = h k % m.n
      · rw [if_pos hb, hb, hs]
        constructor
        · rintro ⟨p, hp, h1, rfl⟩
          rcases List.mem_append.1 hp with hp | hp
          · exact ⟨p, List.mem_append_left _ hp, h1, rfl⟩
          · rcases List.mem_cons.1 hp with rfl | hp
            · exact absurd h1 h0q
            · exact ⟨p, List.mem_append_right _ (List.mem_cons_of_mem _ hp), h1, rfl⟩
        · rintro ⟨p, hp, h1, rfl⟩
          rcases List.mem_append.1 hp with hp | hp
          · exact ⟨p, List.mem_append_left _ hp, h1, rfl⟩
          · rcases List.mem_cons.1 hp with rfl | hp
            · exact absurd h1 h0q
            · exact ⟨p, List.mem_append_right _ (List.mem_cons_of_mem _ hp), h1, rfl⟩
      · rw [if_neg hb]
  | rehash _ hn hs =>
    dsimp only
    apply key
    intro u
    rw [find_some ok i', find_some ok i]
    constructor
    · rintro ⟨p, hp, h1, rfl⟩
      have := (List.mem_filter.1 ((hs _).mem_iff.1 hp)).1
      rw [mem_entries i, ok.code _ _ h1] at this
      exact ⟨p, this, h1, rfl⟩
    · rintro ⟨p, hp, h1, rfl⟩
      refine ⟨p, (hs _).mem_iff.2 (List.mem_filter.2 ⟨(mem_entries i).2 (by rw [ok.code _ _ h1]; exact hp), ?_⟩), h1, rfl⟩
      simp [ok.code _ _ h1]

/-- C98: whatever the hash codes, the number of buckets, the order in a bucket and the moments of rehashing, a lookup gives the last value
stored under an equal key. -/
theorem find_eq_last {hist : List (K × V)} {m : HMap K V} (ok : HashOk h eq) (r : Reach h eq hist m) :
    Inv h eq m ∧ ∀ k, m.find h eq k = lastStored eq hist k := by
  induction r with
  | start n hn => exact ⟨inv_empty hn, fun k => by unfold find lastStored empty; simp⟩
  | step r s ih =>
    rename_i hist m m' e
    obtain ⟨i, ih⟩ := ih
    refine ⟨step_inv ok i s, fun k => ?_⟩
    rw [step_find ok i s k]
    cases e with
    | none => exact ih k
    | some e =>
      obtain ⟨k', v⟩ := e
      show (if eq k' k = true then some v else m.find h eq k) = lastStored eq ((k', v) :: hist) k
      unfold lastStored
      by_cases hk : eq k' k = true
      · rw [if_pos hk, List.find?_cons_of_pos (by exact hk)]; rfl
      · rw [if_neg hk, List.find?_cons_of_neg (by exact hk), ih k]; rfl

end HMap

/-! ### The hash functions of the code -/

namespace Hash

theorem ok_of_decEq {K : Type} [DecidableEq K] (h : K → Nat) : HashOk h (fun a b => decide (a = b)) :=
  ⟨fun a => by simp, fun a b hab => by simpa using (of_decide_eq_true hab).symm,
    fun a b c hab hbc => decide_eq_true ((of_decide_eq_true hab).trans (of_decide_eq_true hbc)),
    fun a b hab => by rw [of_decide_eq_true hab]⟩

/-- The branch cache: keys are the sorted codes of a branch. -/
theorem branch_cache_lookup {V : Type} {hist : List (List Nat × V)} {m : HMap (List Nat) V}
    (r : HMap.Reach (fun k => toSizeT (branchHash k)) (fun a b => decide (a = b)) hist m) (k : List Nat) :
    m.find (fun k => toSizeT (branchHash k)) (fun a b => decide (a = b)) k = lastStored (fun a b => decide (a = b)) hist k :=
  (HMap.find_eq_last (ok_of_decEq _) r).2 k

/-- The remembered splits: keys are a branch and a feature. -/
theorem split_cache_lookup {V : Type} {hist : List ((List Nat × Nat) × V)} {m : HMap (List Nat × Nat) V}
    (r : HMap.Reach (fun k => toSizeT (branchFeatureHash k)) (fun a b => decide (a = b)) hist m) (k : List Nat × Nat) :
    m.find (fun k => toSizeT (branchFeatureHash k)) (fun a b => decide (a = b)) k = lastStored (fun a b => decide (a = b)) hist k :=
  (HMap.find_eq_last (ok_of_decEq _) r).2 k

/-- A key whose stored hash, if any, is that of its bits. -/
def DKey.Valid (g : Nat → BitVec 64) (k : DKey) : Prop := k.isSet = true → k.hash = bitsHash g k.bits

theorem fresh_valid (g : Nat → BitVec 64) (b : BitSet) (n : Nat) : (DKey.fresh b n).Valid g := by
  intro h
  simp [DKey.isSet, DKey.fresh] at h

/-- The hash code of a valid key, remembered or not, is that of its bits. Also if it is -1, which counts as not remembered. -/
theorem code_eq {g : Nat → BitVec 64} {k : DKey} (h : k.Valid g) : k.code g = bitsHash g k.bits := by
  unfold DKey.code
  split
  · rename_i hs
    exact h hs
  · rfl

theorem remember_valid {g : Nat → BitVec 64} {k : DKey} (h : k.Valid g) :
    (k.remember g).Valid g ∧ (k.remember g).bits = k.bits ∧ (k.remember g).size = k.size ∧ (k.remember g).code g = k.code g := by
  unfold DKey.remember
  split
  · exact ⟨h, rfl, rfl, rfl⟩
  · have hv : DKey.Valid g { k with hash := k.code g } := fun _ => code_eq h
    exact ⟨hv, rfl, rfl, by rw [code_eq hv, code_eq h]⟩

theorem dataset_ok (g : Nat → BitVec 64) :
    HashOk (fun k : { k : DKey // k.Valid g } => (k.1.code g).toNat) (fun a b => a.1.same b.1) where
  refl := fun a => by simp [DKey.same]
  symm := fun a b h => by
    simp only [DKey.same, Bool.and_eq_true, beq_iff_eq] at h ⊢
    exact ⟨h.1.symm, h.2.symm⟩
  trans := fun a b c h1 h2 => by
    simp only [DKey.same, Bool.and_eq_true, beq_iff_eq] at h1 h2 ⊢
    exact ⟨h1.1.trans h2.1, h1.2.trans h2.2⟩
  code := fun a b h => by
    simp only [DKey.same, Bool.and_eq_true, beq_iff_eq] at h
    rw [code_eq a.2, code_eq b.2]
    unfold bitsHash
    rw [h.2]

/-- The dataset cache: keys are bit sets, with or without their remembered hash, for every hash function of words. -/
theorem dataset_cache_lookup {V : Type} (g : Nat → BitVec 64) {hist : List ({ k : DKey // k.Valid g } × V)}
    {m : HMap { k : DKey // k.Valid g } V} (r : HMap.Reach (fun k => (k.1.code g).toNat) (fun a b => a.1.same b.1) hist m)
    (k : { k : DKey // k.Valid g }) :
    m.find (fun k => (k.1.code g).toNat) (fun a b => a.1.same b.1) k = lastStored (fun a b => a.1.same b.1) hist k :=
  (HMap.find_eq_last (dataset_ok g) r).2 k

/-- The comparison of keys is that of the model of bit sets (C35) for sets with the same number of words. -/
theorem same_eq {a b : DKey} (h : a.bits.words.length = b.bits.words.length) :
    ViewKey.eq ⟨a.bits, a.size⟩ ⟨b.bits, b.size⟩ = some (a.same b) := by
  unfold ViewKey.eq DKey.same BitSet.eq
  dsimp only
  by_cases hs : a.size = b.size
  · rw [if_pos hs, if_pos (by omega), h, List.take_length, hs]
    simp
  · rw [if_neg hs]
    simp [hs]

/-- The caches of the search model are these hash maps: the association list with the same history answers every lookup in the same way. -/
theorem store_lookup {K : Type} [DecidableEq K] {h : K → Nat} {hist : List (K × List Entry)} {m : HMap K (List Entry)}
    (r : HMap.Reach h (fun a b => decide (a = b)) hist m) (k : K) :
    m.find h (fun a b => decide (a = b)) k = Store.find (hist.foldr (fun p s => Store.set s p.1 p.2) []) k := by
  rw [(HMap.find_eq_last (ok_of_decEq h) r).2 k]
  clear r
  induction hist with
  | nil => rfl
  | cons p hist ih =>
    rw [List.foldr_cons, Store.find_set, ← ih]
    unfold lastStored
    by_cases hk : p.1 = k
    · rw [List.find?_cons_of_pos (by simpa using hk)]
      simp [hk]
    · rw [List.find?_cons_of_neg (by simpa using hk)]
      simp [Ne.symm hk]

/-! ### Undefined behaviour in the hash of a branch -/

/-- A shift is defined exactly for numbers that are not negative and whose product with 64 fits into `unsigned`, and gives that product. -/
theorem shl17_some_iff (s v : BitVec 32) :
    shl17 s = some v ↔ 0 ≤ s.toInt ∧ s.toInt * 64 < 4294967296 ∧ (v.toNat : Int) = s.toInt * 64 := by
  unfold shl17
  have hlt := s.isLt
  have hv := v.isLt
  rw [BitVec.toInt_eq_msb_cond]
  cases hm : s.msb with
  | true => simp only [if_true]; constructor
            · intro h; cases h
            · intro h; omega
  | false =>
    simp only [Bool.false_eq_true, if_false]
    have e : (s <<< 6).toNat = s.toNat * 64 % 4294967296 := by simp [Nat.shiftLeft_eq]
    by_cases h : s.toNat * 64 < 2 ^ 32
    · rw [if_pos h, Option.some.injEq, ← BitVec.toNat_inj, e]; omega
    · rw [if_neg h]; constructor
      · intro h'; cases h'
      · intro h'; omega

/-- Where C++17 defines the hash of a branch, it is the wrapping one. -/
theorem branchHash17_eq {codes : List Nat} {v : BitVec 32} (h : branchHash17 codes = some v) : v = branchHash codes := by
  unfold branchHash17 branchHash at *
  generalize BitVec.ofNat 32 codes.length = s at *
  induction codes generalizing s with
  | nil => simpa using h.symm
  | cons c cs ih =>
    rw [List.foldlM_cons] at h
    have e : ∀ r, branchStep17 s c = some r → r = branchStep s c := by
      intro r hr
      unfold branchStep17 shl17 at hr
      split at hr
      · cases hr
      · split at hr
        · simp only [Option.map_some, Option.some.injEq] at hr
          rw [← hr]; rfl
        · cases hr
    cases hb : branchStep17 s c with
    | none => rw [hb] at h; cases h
    | some r =>
      rw [hb] at h
      rw [e r hb] at h
      exact ih _ h

/-- Branches with at most one decision are fine. -/
theorem branchHash17_short (c : Nat) : branchHash17 [] = some (branchHash []) ∧ branchHash17 [c] = some (branchHash [c]) :=
  ⟨rfl, by
    unfold branchHash17
    rw [List.foldlM_cons]
    have e : branchStep17 (BitVec.ofNat 32 [c].length) c = some (branchStep (BitVec.ofNat 32 [c].length) c) := by
      unfold branchStep17
      rw [show shl17 (BitVec.ofNat 32 [c].length) = some (BitVec.ofNat 32 [c].length <<< 6) from
        show shl17 (BitVec.ofNat 32 1) = some (BitVec.ofNat 32 1 <<< 6) by decide]
      rfl
    rw [e]
    rfl⟩

private theorem mods_drop {a b c e : Nat} (h : a + b + c + e < 4294967296) : (((a + b) % 4294967296 + c) % 4294967296 + e) % 4294967296 = a + b + c + e := by
  omega

private theorem sum_negative {d c : Nat} {K : BitVec 32} (hk : K.toNat = 2654435769) (hd : d < 2 ^ 20) (hc : c < 10 ^ 9) : (BitVec.ofNat 32 c + K + (BitVec.ofNat 32 d <<< 6) + (BitVec.ofNat 32 d >>> 2)).msb = true := by
  have e1 : d % 4294967296 = d := by omega
  have e2 : c % 4294967296 = c := by omega
  have e3 : d * 64 % 4294967296 = d * 64 := by omega
  rw [BitVec.msb_eq_decide]
  simp only [BitVec.toNat_add, BitVec.toNat_ofNat, BitVec.toNat_shiftLeft, BitVec.toNat_ushiftRight, Nat.shiftLeft_eq, Nat.shiftRight_eq_div_pow]
  simp only [Nat.reducePow, Nat.reduceSub, e1, e2, e3]
  generalize K.toNat = n at *
  rw [mods_drop (by omega)]
  exact decide_eq_true (by omega)

/-- The first step makes the seed negative, for all numbers of features and depths that occur. -/
theorem branchStep_negative {d c : Nat} (hd : d < 2 ^ 20) (hc : c < 10 ^ 9) : (branchStep (BitVec.ofNat 32 d) c).msb = true := by
  unfold branchStep
  have hm : (BitVec.ofNat 32 d).msb = false := by
    rw [BitVec.msb_eq_decide, BitVec.toNat_ofNat]
    simp only [decide_eq_false_iff_not]
    omega
  rw [BitVec.msb_xor, hm, BitVec.sshiftRight_eq_of_msb_false hm, Bool.false_xor]
  exact sum_negative (by decide) hd hc

/-- Under the rules of C++17 the hash of every branch with two or more decisions is undefined: the second step shifts a negative number. -/
theorem branch_hash_undefined {c1 c2 : Nat} {cs : List Nat} (hl : cs.length + 2 < 2 ^ 20) (hc : c1 < 10 ^ 9) :
    branchHash17 (c1 :: c2 :: cs) = none := by
  unfold branchHash17
  rw [List.foldlM_cons]
  cases h1 : branchStep17 (BitVec.ofNat 32 (c1 :: c2 :: cs).length) c1 with
  | none => rfl
  | some r =>
    have hr : r = branchStep (BitVec.ofNat 32 (c1 :: c2 :: cs).length) c1 := by
      unfold branchStep17 shl17 at h1
      split at h1
      · cases h1
      · split at h1
        · simp only [Option.map_some, Option.some.injEq] at h1
          rw [← h1]; rfl
        · cases h1
    have hm : r.msb = true := by rw [hr]; exact branchStep_negative (by simpa using hl) hc
    show (c2 :: cs).foldlM branchStep17 r = none
    rw [List.foldlM_cons]
    have : branchStep17 r c2 = none := by unfold branchStep17 shl17; rw [if_pos hm]; rfl
    rw [this]
    rfl

/-! ### Cases -/

example : branchHash17 [0, 3] = none := by decide
example : branchHash [0, 3] ≠ branchHash [1, 3] := by decide

/-- Two branches in one bucket: both are found. -/
example : ∃ m : HMap (List Nat) Nat, HMap.Reach (fun k => toSizeT (branchHash k)) (fun a b => decide (a = b)) [([3], 8), ([2], 7)] m ∧
    m.n = 1 := by
  refine ⟨_, .step (e := some ([3], 8)) (.step (e := some ([2], 7)) (.start 1 (by decide)) (.insert _ [2] 7 [] [] ?_ rfl))
    (.insert _ [3] 8 [] [([2], 7)] ?_ ?_), rfl⟩ <;> decide

end Hash

end Streed
