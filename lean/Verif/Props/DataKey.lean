import Verif.Model.BitSet
import Verif.Props.Split

/-!
# C35: the dataset cache key identifies the data
-/

namespace Streed

/-- A bit set large enough for indices below `total`. -/
def BitSet.Fits (b : BitSet) (total : Nat) : Prop := b.words.length = (total - 1) / BitSet.wordSize + 1

theorem BitSet.new_spec {total : Nat} (h : total ≠ 0) : ∃ b, BitSet.new total = some b ∧ b.Fits total ∧
    (∀ j, b.get j = false) ∧ ∀ w ∈ b.words, w < 2 ^ wordSize := by
  unfold new
  rw [if_neg h]
  refine ⟨_, rfl, by simp [Fits], fun j => ?_, fun w hw => ?_⟩
  · unfold get
    have : ∀ n m : Nat, (List.replicate n 0).getD m 0 = 0 := fun n m => by
      rw [List.getD_eq_getElem?_getD, List.getElem?_replicate]; split <;> rfl
    rw [this]
    exact Nat.zero_testBit _
  · rw [List.eq_of_mem_replicate hw]
    decide

theorem BitSet.setBit_spec {b : BitSet} {total index : Nat} (hf : b.Fits total) (hi : index < total)
    (hw : ∀ w ∈ b.words, w < 2 ^ wordSize) : ∃ b', b.setBit index = some b' ∧ b'.Fits total ∧
    (∀ j, b'.get j = (b.get j || decide (j = index))) ∧ ∀ w ∈ b'.words, w < 2 ^ wordSize := by
  have hlt : index / wordSize < b.words.length := by
    rw [hf]
    have : index / wordSize ≤ (total - 1) / wordSize := Nat.div_le_div_right (by omega)
    omega
  unfold setBit modify
  rw [if_pos hlt]
  refine ⟨_, rfl, by simpa [Fits] using hf, fun j => ?_, fun w hm => ?_⟩
  · unfold get
    simp only [List.getD_eq_getElem?_getD, List.getElem?_modify]
    by_cases hd : index / wordSize = j / wordSize
    · have hj : j / wordSize < b.words.length := hd ▸ hlt
      rw [List.getElem?_eq_getElem hj]
      simp only [if_pos hd, Option.map_eq_map, Option.map_some, Option.getD_some, Nat.testBit_or, Nat.testBit_two_pow]
      congr 1
      by_cases hm : index % wordSize = j % wordSize
      · have : index = j := by
          rw [← Nat.div_add_mod index wordSize, ← Nat.div_add_mod j wordSize, hd, hm]
        simp [this]
      · have : ¬ j = index := fun e => hm (by rw [e])
        simp [hm, this]
    · have : ¬ j = index := fun e => hd (by rw [e])
      simp [hd, this]
  · obtain ⟨n, hn, rfl⟩ := List.getElem_of_mem hm
    rw [List.getElem_modify]
    have hn' : n < b.words.length := by simpa using hn
    have h1 := hw _ (List.getElem_mem hn')
    split
    · refine Nat.or_lt_two_pow h1 ?_
      exact Nat.pow_lt_pow_right (by omega) (Nat.mod_lt _ (by decide))
    · exact h1

theorem BitSet.ext_get {a b : BitSet} {total : Nat} (ha : a.Fits total) (hb : b.Fits total)
    (hwa : ∀ w ∈ a.words, w < 2 ^ wordSize) (hwb : ∀ w ∈ b.words, w < 2 ^ wordSize)
    (h : ∀ j, a.get j = b.get j) : a.words = b.words := by
  refine List.ext_getElem (ha.trans hb.symm) fun n h1 h2 => ?_
  refine Nat.eq_of_testBit_eq fun k => ?_
  by_cases hk : k < wordSize
  · have := h (n * wordSize + k)
    unfold get at this
    have e1 : (n * wordSize + k) / wordSize = n := by
      unfold wordSize at *; omega
    have e2 : (n * wordSize + k) % wordSize = k := by
      unfold wordSize at *; omega
    rw [e1, e2] at this
    simpa [List.getD_eq_getElem?_getD, List.getElem?_eq_getElem h1, List.getElem?_eq_getElem h2] using this
  · have hp : 2 ^ wordSize ≤ 2 ^ k := Nat.pow_le_pow_right (by omega) (by omega)
    rw [Nat.testBit_lt_two_pow (Nat.lt_of_lt_of_le (hwa _ (List.getElem_mem h1)) hp),
      Nat.testBit_lt_two_pow (Nat.lt_of_lt_of_le (hwb _ (List.getElem_mem h2)) hp)]

/-- The view holds only instances of a dataset of `total` instances with ids `0 … total-1`. -/
structure View.InData (v : View) (total : Nat) : Prop where
  ids : ∀ i ∈ v.groups.flatten, i.id < total
  nodup : (v.groups.flatten.map (·.id)).Nodup
  ok : v.OK

theorem ViewKey.of_spec {total : Nat} (h0 : total ≠ 0) {v : View} (h : v.InData total) :
    ∃ k, ViewKey.of total v = some k ∧ k.size = v.size ∧ k.bits.Fits total ∧
      (∀ w ∈ k.bits.words, w < 2 ^ BitSet.wordSize) ∧
      ∀ j, k.bits.get j = decide (j ∈ v.groups.flatten.map (·.id)) := by
  obtain ⟨b0, hb0, hf0, hg0, hw0⟩ := BitSet.new_spec h0
  have key : ∀ (L : Data) (b : BitSet), (∀ i ∈ L, i.id < total) → b.Fits total → (∀ w ∈ b.words, w < 2 ^ BitSet.wordSize) →
      ∃ b', L.foldlM (fun (b : BitSet) (i : Inst) => b.setBit i.id) b = some b' ∧ b'.Fits total ∧
        (∀ w ∈ b'.words, w < 2 ^ BitSet.wordSize) ∧
        ∀ j, b'.get j = (b.get j || decide (j ∈ L.map (·.id))) := by
    intro L
    induction L with
    | nil => intro b _ hf hw; exact ⟨b, rfl, hf, hw, fun j => by simp⟩
    | cons i L ih =>
      intro b hi hf hw
      obtain ⟨b1, e1, f1, g1, w1⟩ := BitSet.setBit_spec hf (hi i (List.mem_cons_self ..)) hw
      obtain ⟨b2, e2, f2, w2, g2⟩ := ih b1 (fun x hx => hi x (List.mem_cons_of_mem _ hx)) f1 w1
      refine ⟨b2, ?_, f2, w2, fun j => ?_⟩
      · rw [List.foldlM_cons, e1]; exact e2
      · rw [g2, g1]
        simp [Bool.or_assoc, Bool.decide_or]
  obtain ⟨b, e, f, w, g⟩ := key v.groups.flatten b0 h.ids hf0 hw0
  refine ⟨⟨b, v.size⟩, ?_, rfl, f, w, fun j => ?_⟩
  · unfold ViewKey.of
    rw [hb0]
    simp only [Option.bind_eq_bind, Option.bind_some]
    rw [e]
    rfl
  · rw [g, hg0, Bool.false_or]

/-- C35: making the key never leaves the array, comparing two keys of views of one dataset is defined, and the keys
are equal exactly when the views hold the same set of instances (by id). -/
theorem key_identifies (total : Nat) (h0 : total ≠ 0) (v w : View) (hv : v.InData total) (hw : w.InData total) :
    ∃ kv kw r, ViewKey.of total v = some kv ∧ ViewKey.of total w = some kw ∧ kv.eq kw = some r ∧
      (r = true ↔ ∀ j, j ∈ v.groups.flatten.map (·.id) ↔ j ∈ w.groups.flatten.map (·.id)) := by
  obtain ⟨kv, e1, s1, f1, b1, g1⟩ := ViewKey.of_spec h0 hv
  obtain ⟨kw, e2, s2, f2, b2, g2⟩ := ViewKey.of_spec h0 hw
  have hlen : ∀ u : View, u.OK → u.size = (u.groups.flatten.map (·.id)).length := fun u hu => by
    rw [hu, List.length_map, List.length_flatten]
  by_cases hs : kv.size = kw.size
  · refine ⟨kv, kw, kv.bits.words == kw.bits.words, e1, e2, ?_, ?_⟩
    · unfold ViewKey.eq BitSet.eq
      have : kw.bits.words.length = kv.bits.words.length := f2.trans f1.symm
      rw [if_pos hs, if_pos (by omega), ← this, List.take_length]
    · rw [beq_iff_eq]
      constructor
      · intro h j
        have h1 := g1 j
        have h2 := g2 j
        unfold BitSet.get at h1 h2
        rw [h, h2] at h1
        exact (decide_eq_decide.1 h1).symm
      · intro h
        refine BitSet.ext_get f1 f2 b1 b2 fun j => ?_
        rw [g1, g2]
        exact decide_eq_decide.2 (h j)
  · refine ⟨kv, kw, false, e1, e2, if_neg hs, ?_⟩
    simp only [Bool.false_eq_true, false_iff]
    intro h
    refine hs ?_
    rw [s1, s2, hlen v hv.ok, hlen w hw.ok]
    exact ((List.perm_ext_iff_of_nodup hv.nodup hw.nodup).2 h).length_eq

/-- The plain keys used in the model of the search (`dataKey`, the sorted list of ids) carry the same information: for
views of one sorted dataset they are equal exactly when the ids are the same. -/
theorem key_plain {T D E : Data} (hT : IdSorted T) (hD : ViewOf T D) (hE : ViewOf T E) :
    dataKey D = dataKey E ↔ ∀ j, j ∈ D.map (·.id) ↔ j ∈ E.map (·.id) := by
  constructor
  · intro h j
    unfold dataKey at h
    rw [h]
  · intro h
    have : D = E := sorted_ext (hD.sorted hT) (hE.sorted hT) fun i => by
      constructor
      · intro hi
        obtain ⟨e, he, hid⟩ := List.mem_map.1 ((h i.id).1 (List.mem_map_of_mem hi))
        rwa [← sorted_unique hT (hE.subset he) (hD.subset hi) hid]
      · intro hi
        obtain ⟨e, he, hid⟩ := List.mem_map.1 ((h i.id).2 (List.mem_map_of_mem hi))
        rwa [← sorted_unique hT (hD.subset he) (hE.subset hi) hid]
    rw [this]

/-- What clearing a bit should do. -/
def ClearBitClears : Prop := ∀ (total index : Nat) (b b' : BitSet), b.Fits total → index < total →
  b.clearBit index = some b' → ∀ j, b'.get j = (b.get j && decide (j ≠ index))

/-- `ClearBit` keeps only the bit it should clear. (Nothing in the code calls it.) -/
theorem clearBit_wrong : ¬ ClearBitClears := by
  intro h
  have := h 2 0 ⟨[3]⟩ ⟨[1]⟩ (by unfold BitSet.Fits; decide) (by decide) (by decide) 0
  revert this
  decide

example : exView.InData 3 := ⟨by decide, by decide, View.ofGroups_size _⟩
example : (ViewKey.of 3 exView).map (fun k => (k.bits.words, k.size)) = some ([7], 3) := by decide

end Streed
