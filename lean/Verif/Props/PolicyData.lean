import Verif.Model.PolicyData
import Mathlib.Data.Finset.Card
import Mathlib.Data.Finset.Range
import Mathlib.Data.List.GetD
import Mathlib.Data.Finset.Dedup

/-!
# C96: policy data given as an array are read as documented
-/

namespace Streed

/-- The documented columns for `K` treatments (prescriptive_policy_generation.py:138-146): treatment, outcome, propensity, `K` predicted
outcomes and, for tests, the best treatment and `K` outcomes. -/
def ppgColumns (full : Bool) (p : PPG) : List Rat := [(p.k : Rat), p.y, p.mu] ++ p.yhat ++ (if full then (p.kOpt : Rat) :: p.cf else [])

/-- The record without the columns for tests. -/
def PPG.short (p : PPG) : PPG := { p with kOpt := 0, cf := List.replicate p.yhat.length 0 }

/-- The width of the array. -/
def ppgWidth (full : Bool) (K : Nat) : Nat := if full then 4 + K * 2 else 3 + K

/-- Records for `K` treatments, numbered from 0. -/
def ForTreatments (K : Nat) (ps : List PPG) : Prop := ∀ p ∈ ps, 0 ≤ p.k ∧ p.k < K ∧ p.yhat.length = K ∧ p.cf.length = K

/-- A treatment that is not an integer is cut towards zero. -/
theorem pyInt_cut (x : Rat) : (0 ≤ x → (pyInt x : Rat) ≤ x ∧ x < pyInt x + 1) ∧ (x < 0 → x ≤ pyInt x ∧ (pyInt x : Rat) < x + 1) := by
  unfold pyInt
  constructor
  · intro h
    rw [if_pos h]
    exact ⟨Rat.floor_le .., by have := Rat.lt_floor_add_one x; exact_mod_cast this⟩
  · intro h
    rw [if_neg (not_le.2 h)]
    have h1 := Rat.floor_le (a := -x)
    have h2 := Rat.lt_floor_add_one (-x)
    push_cast at h2 ⊢
    constructor <;> linarith

theorem pyInt_int (z : Int) : pyInt (z : Rat) = z := by
  unfold pyInt
  split
  · exact Rat.floor_intCast z
  · rw [← Int.cast_neg, Rat.floor_intCast]; omega

private theorem range_getD (l l' : List Rat) : (List.range l.length).map (fun i => (l ++ l').getD i 0) = l := by
  apply List.ext_getElem
  · simp
  · intro i h1 h2
    simp only [List.getElem_map, List.getElem_range]
    rw [List.getD_append _ _ _ _ h2, List.getD_eq_getElem _ _ h2]

private theorem yhat_read (p : PPG) (full : Bool) : (List.range p.yhat.length).map (fun i => (ppgColumns full p).getD (3 + i) 0) = p.yhat := by
  have : ∀ i, (ppgColumns full p).getD (3 + i) 0 = (p.yhat ++ (if full then (p.kOpt : Rat) :: p.cf else [])).getD i 0 := by
    intro i
    unfold ppgColumns
    rw [List.append_assoc, List.getD_append_right _ _ _ _ (by simp)]
    congr 1
    simp
  simp only [this]
  exact range_getD _ _

private theorem tail_read (p : PPG) (j : Nat) : (ppgColumns true p).getD (3 + p.yhat.length + j) 0 = ((p.kOpt : Rat) :: p.cf).getD j 0 := by
  unfold ppgColumns
  rw [List.append_assoc, List.getD_append_right _ _ _ _ (by simp; omega), List.getD_append_right _ _ _ _ (by simp; omega)]
  simp only [List.length_cons, List.length_nil, if_true]
  congr 1
  omega

/-- One documented row is read back. -/
theorem ppg_row_read {K : Nat} (p : PPG) (full : Bool) (h1 : p.yhat.length = K) (h2 : p.cf.length = K) :
    ppgRow (ppgWidth full K) K (ppgColumns full p) = some (if full then p else p.short) := by
  subst h1
  have e0 : (ppgColumns full p).getD 0 0 = (p.k : Rat) := rfl
  have e1 : (ppgColumns full p).getD 1 0 = p.y := rfl
  have e2 : (ppgColumns full p).getD 2 0 = p.mu := rfl
  unfold ppgRow
  cases full with
  | true =>
    rw [if_pos (by simp [ppgWidth]), e0, e1, e2, yhat_read p true, pyInt_int]
    have e3 : (ppgColumns true p).getD (3 + p.yhat.length) 0 = (p.kOpt : Rat) := tail_read p 0
    have e4 : (List.range p.yhat.length).map (fun i => (ppgColumns true p).getD (4 + p.yhat.length + i) 0) = p.cf := by
      have : ∀ i, (ppgColumns true p).getD (4 + p.yhat.length + i) 0 = (p.cf ++ []).getD i 0 := by
        intro i
        rw [show 4 + p.yhat.length + i = 3 + p.yhat.length + (i + 1) by omega, tail_read p (i + 1), List.append_nil]
        rfl
      simp only [this]
      rw [← h2]
      exact range_getD _ _
    rw [e3, e4, pyInt_int]
    rfl
  | false =>
    rw [if_neg (by simp [ppgWidth]; omega), if_pos (by simp [ppgWidth]), e0, e1, e2, yhat_read p false, pyInt_int]
    rfl

private theorem rows_fail {w n : Nat} {rows : List (List Rat)} {r : List Rat} (hr : r ∈ rows) (h : ppgRow w n r = none) :
    ppgRows w n rows = none := by
  induction rows with
  | nil => cases hr
  | cons a rs ih =>
    unfold ppgRows
    rcases List.mem_cons.1 hr with rfl | hr
    · rw [h]
    · rw [ih hr]
      cases ppgRow w n a <;> rfl

/-- The number of different treatments in the array is that in the records. -/
theorem distinct_column (ps : List PPG) (full : Bool) :
    ((ps.map (ppgColumns full)).map fun r => r.getD 0 0).dedup.length = (ps.map (·.k)).dedup.length := by
  have e : ((ps.map (ppgColumns full)).map fun r => r.getD 0 0) = (ps.map (·.k)).map (Int.cast : Int → Rat) := by
    rw [List.map_map, List.map_map]; rfl
  rw [e, List.dedup_map_of_injective Int.cast_injective, List.length_map]

/-- All treatments occur: there are `K` different ones. -/
theorem all_occur {K : Nat} {ps : List PPG} (h : ∀ p ∈ ps, 0 ≤ p.k ∧ p.k < K) (hall : ∀ k < K, ∃ p ∈ ps, p.k = (k : Int)) :
    (ps.map (·.k)).dedup.length = K := by
  rw [← List.card_toFinset]
  have : (ps.map (·.k)).toFinset = (Finset.range K).image (fun k : Nat => (k : Int)) := by
    ext z
    simp only [List.mem_toFinset, List.mem_map, Finset.mem_image, Finset.mem_range]
    constructor
    · rintro ⟨p, hp, rfl⟩
      have := h p hp
      exact ⟨p.k.toNat, by omega, by omega⟩
    · rintro ⟨k, hk, rfl⟩
      obtain ⟨p, hp, e⟩ := hall k hk
      exact ⟨p, hp, e⟩
  have inj : Function.Injective (fun k : Nat => (k : Int)) := fun a b h => Int.ofNat.inj h
  rw [this, Finset.card_image_of_injective _ inj, Finset.card_range]

theorem numLabels_le {K : Nat} {ps : List PPG} (h : ∀ p ∈ ps, p.k < K) (hK : 0 < K) : ppgNumLabels ps ≤ K := by
  have key : ∀ (l : List PPG) (a : Nat), a ≤ K → (∀ p ∈ l, p.k < K) → l.foldl (fun m p => max m (p.k.toNat + 1)) a ≤ K := by
    intro l
    induction l with
    | nil => intro a ha _; exact ha
    | cons p l ih =>
      intro a ha hl
      have := hl p (by simp)
      exact ih _ (by show max a (p.k.toNat + 1) ≤ K; omega) fun x hx => hl x (List.mem_cons_of_mem _ hx)
  exact key ps 0 (Nat.zero_le _) h

theorem le_numLabels {ps : List PPG} {p : PPG} (hp : p ∈ ps) : p.k.toNat + 1 ≤ ppgNumLabels ps := by
  have mono : ∀ (l : List PPG) (a : Nat), a ≤ l.foldl (fun m p => max m (p.k.toNat + 1)) a := by
    intro l
    induction l with
    | nil => intro a; exact le_refl _
    | cons q l ih => intro a; exact le_trans (le_max_left _ _) (ih _)
  have key : ∀ (l : List PPG) (a : Nat), p ∈ l → p.k.toNat + 1 ≤ l.foldl (fun m p => max m (p.k.toNat + 1)) a := by
    intro l
    induction l with
    | nil => intro a h; cases h
    | cons q l ih =>
      intro a h
      rcases List.mem_cons.1 h with rfl | h
      · exact le_trans (le_max_right _ _) (mono l _)
      · exact ih _ h
  exact key ps 0 hp

/-- Documented rows are read back, all of them. -/
theorem ppg_rows_read {K : Nat} (full : Bool) {ps : List PPG} (h : ∀ p ∈ ps, p.yhat.length = K ∧ p.cf.length = K) :
    ppgRows (ppgWidth full K) K (ps.map (ppgColumns full)) = some (ps.map fun p => if full then p else p.short) := by
  induction ps with
  | nil => rfl
  | cons p l ih =>
    rw [List.map_cons, List.map_cons]
    unfold ppgRows
    rw [ppg_row_read p full (h p (by simp)).1 (h p (by simp)).2, ih fun x hx => h x (List.mem_cons_of_mem _ hx)]

/-- C96 for new data after a fit with `K` treatments: a documented array is read as documented, whichever treatments occur in it. -/
theorem policy_score_array_read {K : Nat} (full : Bool) (ps : List PPG) (h : ∀ p ∈ ps, p.yhat.length = K ∧ p.cf.length = K)
    (hw : 5 ≤ ppgWidth full K) :
    ppgCheck (ppgWidth full K) (some K) false (ps.map (ppgColumns full)) = some (ps.map fun p => if full then p else p.short, K) := by
  unfold ppgCheck
  rw [if_neg (by omega), show ppgTreatments (some K) false (ps.map (ppgColumns full)) = K from rfl, ppg_rows_read full h]
  rfl

/-- C96: if every one of the `K` treatments occurs in the first column, a documented array is read as documented, with or without the
columns for tests, and the task reads no score out of range. -/
theorem policy_array_read {K : Nat} (full : Bool) (ps : List PPG) (stored : Option Nat) (h : ForTreatments K ps)
    (hall : ∀ k < K, ∃ p ∈ ps, p.k = (k : Int)) (hw : 5 ≤ ppgWidth full K) :
    ppgCheck (ppgWidth full K) stored true (ps.map (ppgColumns full)) = some (ps.map fun p => if full then p else p.short, K) ∧
      ppgInRange (ps.map fun p => if full then p else p.short) = true := by
  have hd := all_occur (fun p hp => ⟨(h p hp).1, (h p hp).2.1⟩) hall
  have ht : ppgTreatments stored true (ps.map (ppgColumns full)) = K := by
    unfold ppgTreatments
    cases stored <;> simp only [if_true] <;> rw [distinct_column, hd]
  have hk : (ps.map fun p => if full then p else p.short).map (·.k) = ps.map (·.k) := by
    rw [List.map_map]
    apply List.map_congr_left
    intro p _
    cases full <;> rfl
  have hr := ppg_rows_read full (ps := ps) (K := K) fun p hp => (h p hp).2.2
  constructor
  · unfold ppgCheck
    rw [if_neg (by omega), ht, hr]
    dsimp only
    rw [hk, hd]
    cases stored <;> simp
  · unfold ppgInRange
    rw [List.all_eq_true]
    intro p hp
    obtain ⟨p, hin, rfl⟩ := List.mem_map.1 hp
    have hK : 0 < K := by have := h p hin; omega
    have := numLabels_le (ps := ps.map fun p => if full then p else p.short) (K := K) (by
      intro q hq
      obtain ⟨q, hin, rfl⟩ := List.mem_map.1 hq
      have := h q hin
      cases full <;> exact this.2.1) hK
    have e : (if full then p else p.short).yhat.length = K := by cases full <;> exact (h p hin).2.2.1
    exact decide_eq_true (by rw [e]; exact this)

/-- C96 fails if a treatment does not occur: with `n < K` treatments in the data a documented array is refused, unless its width happens to
be that of the other layout for `n`. -/
theorem policy_array_refused {K : Nat} (full : Bool) (ps : List PPG) (hne : ps ≠ []) (n : Nat) (hn : (ps.map (·.k)).dedup.length = n)
    (h3 : ppgWidth full K ≠ 3 + n) (h4 : ppgWidth full K ≠ 4 + n * 2) :
    ppgCheck (ppgWidth full K) none true (ps.map (ppgColumns full)) = none := by
  unfold ppgCheck
  split
  · rfl
  · have ht : ppgTreatments none true (ps.map (ppgColumns full)) = n := by
      unfold ppgTreatments; dsimp only; rw [distinct_column, hn]
    rw [ht]
    obtain ⟨p, ps, rfl⟩ := List.exists_cons_of_ne_nil hne
    rw [rows_fail (r := ppgColumns full p) (by simp) (by unfold ppgRow; rw [if_neg h4, if_neg h3])]

/-- C96 fails if `n` of `2 n + 1` treatments occur: the array is accepted, but the predicted outcome of treatment `n` is taken for the best
treatment, and those of the treatments after it for the true outcomes of the first ones. -/
theorem policy_array_misread (n : Nat) (ps : List PPG) (_h : ∀ p ∈ ps, p.yhat.length = 2 * n + 1) (hn1 : 1 ≤ n)
    (hn : (ps.map (·.k)).dedup.length = n) :
    ∃ qs, ppgCheck (ppgWidth false (2 * n + 1)) none true (ps.map (ppgColumns false)) = some (qs, n) ∧
      qs = ps.map fun p => ⟨p.k, p.y, p.mu, (List.range n).map (fun i => p.yhat.getD i 0), pyInt (p.yhat.getD n 0),
        (List.range n).map (fun i => p.yhat.getD (n + 1 + i) 0)⟩ := by
  refine ⟨_, ?_, rfl⟩
  have col : ∀ (p : PPG) (i : Nat), (ppgColumns false p).getD (3 + i) 0 = p.yhat.getD i 0 := by
    intro p i
    unfold ppgColumns
    simp only [Bool.false_eq_true, if_false, List.append_nil]
    rw [List.getD_append_right _ _ _ _ (by simp)]
    congr 1
    simp
  have hrow : ∀ p : PPG, ppgRow (ppgWidth false (2 * n + 1)) n (ppgColumns false p) = some ⟨p.k, p.y, p.mu,
      (List.range n).map (fun i => p.yhat.getD i 0), pyInt (p.yhat.getD n 0), (List.range n).map (fun i => p.yhat.getD (n + 1 + i) 0)⟩ := by
    intro p
    have e0 : (ppgColumns false p).getD 0 0 = (p.k : Rat) := rfl
    have e1 : (ppgColumns false p).getD 1 0 = p.y := rfl
    have e2 : (ppgColumns false p).getD 2 0 = p.mu := rfl
    unfold ppgRow
    rw [if_pos (by simp [ppgWidth]; omega), e0, e1, e2, pyInt_int]
    have e4 : ∀ i, (ppgColumns false p).getD (4 + n + i) 0 = p.yhat.getD (n + 1 + i) 0 := by
      intro i
      rw [show 4 + n + i = 3 + (n + 1 + i) by omega]
      exact col p _
    simp only [col, e4]
  have hr : ∀ l : List PPG, ppgRows (ppgWidth false (2 * n + 1)) n (l.map (ppgColumns false)) = some (l.map fun p => ⟨p.k, p.y, p.mu,
      (List.range n).map (fun i => p.yhat.getD i 0), pyInt (p.yhat.getD n 0), (List.range n).map (fun i => p.yhat.getD (n + 1 + i) 0)⟩) := by
    intro l
    induction l with
    | nil => rfl
    | cons p l ih =>
      rw [List.map_cons, List.map_cons]
      unfold ppgRows
      rw [hrow p, ih]
  unfold ppgCheck
  rw [if_neg (by simp [ppgWidth]; omega)]
  have ht : ppgTreatments none true (ps.map (ppgColumns false)) = n := by
    unfold ppgTreatments; dsimp only; rw [distinct_column, hn]
  rw [ht, hr ps]
  dsimp only
  rw [List.map_map]
  have : ((fun p : PPG => p.k) ∘ fun p : PPG => (⟨p.k, p.y, p.mu, (List.range n).map (fun i => p.yhat.getD i 0), pyInt (p.yhat.getD n 0),
      (List.range n).map (fun i => p.yhat.getD (n + 1 + i) 0)⟩ : PPG)) = fun p => p.k := rfl
  rw [this, hn]

/-- If treatments are not numbered from 0 without gaps, scores are read out of range: some treatment is at least the number of predicted
outcomes of some record. -/
theorem policy_gap_undefined {ps : List PPG} {p q : PPG} (hp : p ∈ ps) (hq : q ∈ ps) (h : (q.yhat.length : Int) ≤ p.k) :
    ppgInRange ps = false := by
  unfold ppgInRange
  rw [List.all_eq_false]
  refine ⟨q, hq, ?_⟩
  have := le_numLabels hp
  simp only [decide_eq_true_eq]
  omega

/-! ### Cases -/

/-- Three records for two treatments. -/
def trialRecords : List PPG := [⟨0, 1, 1 / 2, [1, 2], 1, [3, 4]⟩, ⟨1, 2, 1 / 3, [0, 1], 0, [5, 6]⟩, ⟨1, 2, 1 / 3, [2, 1], 1, [7, 8]⟩]

example : ForTreatments 2 trialRecords ∧ ∀ k : Nat, k < 2 → ∃ p ∈ trialRecords, p.k = (k : Int) := by
  constructor
  · unfold ForTreatments; decide
  · decide

example : (ppgCheck 8 none true (trialRecords.map (ppgColumns true))).map (·.1) = some trialRecords := by decide +kernel

/-- Two of five treatments occur: eight columns are also those of two treatments with test data. -/
theorem policy_misread_case : ppgCheck 8 none true [[0, 1, 1 / 2, 10, 20, 1, 40, 50], [1, 2, 1 / 2, 11, 21, 0, 41, 51]] =
    some ([⟨0, 1, 1 / 2, [10, 20], 1, [40, 50]⟩, ⟨1, 2, 1 / 2, [11, 21], 0, [41, 51]⟩], 2) := by decide +kernel

/-- Two of three treatments occur: refused. -/
example : ppgCheck 6 none true [[0, 1, 1 / 2, 10, 20, 30], [1, 2, 1 / 2, 11, 21, 31]] = none := by decide +kernel

/-- Treatments numbered from 1. -/
example : (ppgCheck 5 none true [[1, 1, 1 / 2, 10, 20], [2, 2, 1 / 2, 11, 21]]).map (fun r => ppgInRange r.1) = some false := by decide +kernel

end Streed
