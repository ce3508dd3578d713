import Verif.Model.Survival
import Mathlib.Data.List.Dedup
import Mathlib.Tactic.Linarith
import Mathlib.Tactic.Ring
import Mathlib.Tactic.FieldSimp
import Mathlib.Tactic.Positivity
import Mathlib.Algebra.Order.Field.Rat
import Mathlib.Algebra.Order.BigOperators.Group.List

/-! The times of the observations, the loop over them, and the binary search. -/

namespace Streed.SurvLemmas

theorem seen_aux (D : List Obs) (ts : List Rat) (h : ts.Nodup) :
    (D.foldl (fun ts i => if i.time ∈ ts then ts else ts ++ [i.time]) ts).Nodup ∧
    ∀ t, t ∈ D.foldl (fun ts i => if i.time ∈ ts then ts else ts ++ [i.time]) ts ↔ t ∈ ts ∨ t ∈ D.map Obs.time := by
  induction D generalizing ts with
  | nil => exact ⟨h, by simp⟩
  | cons i D ih =>
    rw [List.foldl_cons]
    by_cases hi : i.time ∈ ts
    · rw [if_pos hi]
      obtain ⟨h1, h2⟩ := ih ts h
      refine ⟨h1, fun t => ?_⟩
      rw [h2, List.map_cons, List.mem_cons]
      constructor
      · tauto
      · rintro (h | rfl | h)
        · exact Or.inl h
        · exact Or.inl hi
        · exact Or.inr h
    · rw [if_neg hi]
      obtain ⟨h1, h2⟩ := ih (ts ++ [i.time]) (List.nodup_append.2 ⟨h, by simp, by
        intro a ha b hb; rw [List.mem_singleton] at hb; rintro rfl; exact hi (hb ▸ ha)⟩)
      refine ⟨h1, fun t => ?_⟩
      rw [h2, List.map_cons, List.mem_cons, List.mem_append, List.mem_singleton]
      tauto

/-- The sorted times are the distinct times. -/
theorem sorted_perm (D : List Obs) : ((seenTimes D).insertionSort (· ≤ ·)).Perm (D.map Obs.time).dedup := by
  refine (List.perm_insertionSort ..).trans ?_
  obtain ⟨h1, h2⟩ := seen_aux D [] List.nodup_nil
  refine (List.perm_ext_iff_of_nodup h1 (List.nodup_dedup _)).2 fun t => ?_
  rw [List.mem_dedup]
  have := h2 t
  simpa using this

theorem sorted_lt (D : List Obs) : ((seenTimes D).insertionSort (· ≤ ·)).Pairwise (· < ·) := by
  have h1 : ((seenTimes D).insertionSort (· ≤ ·)).Pairwise (· ≤ ·) := List.pairwise_insertionSort ..
  have h2 : ((seenTimes D).insertionSort (· ≤ ·)).Pairwise (· ≠ ·) :=
    ((List.perm_insertionSort ..).nodup_iff).2 (seen_aux D [] List.nodup_nil).1
  exact (h1.and h2).imp fun h => lt_of_le_of_ne h.1 h.2

/-- Observations that end at `t` or later. -/
def atRiskAt (D : List Obs) (t : Rat) : Nat := (D.filter fun i => t ≤ i.time).length

/-- The increment of the hazard at one time. -/
def incr (D : List Obs) (t : Rat) : Rat := diedAt D t / atRiskAt D t

theorem incr_nonneg (D : List Obs) (t : Rat) : 0 ≤ incr D t := by unfold incr; positivity

/-- The hazard up to and including `t`, over the times in `L`. -/
def upTo (D : List Obs) (L : List Rat) (t : Rat) : Rat := ((L.filter fun s => s ≤ t).map (incr D)).sum

theorem died_cens (D : List Obs) (t : Rat) : diedAt D t + censoredAt D t = (D.filter fun i => i.time = t).length := by
  unfold diedAt censoredAt
  induction D with
  | nil => rfl
  | cons i D ih =>
    by_cases h : i.time = t <;> by_cases e : i.ev = 0 <;> simp [h, e] <;> simp at ih <;> omega

theorem loop_eq (D : List Obs) (pre ts : List Rat) (hs : (pre ++ ts).Pairwise (· < ·))
    (hm : ∀ i ∈ D, i.time ∈ pre ++ ts) (sum : Rat) (ar : Int) (hsum : sum = (pre.map (incr D)).sum)
    (har : ar = (D.filter fun i => i.time ∈ ts).length) :
    hazardLoop D ts sum ar = (ts.filter fun t => diedAt D t ≠ 0).map fun t => (t, upTo D (pre ++ ts) t) := by
  induction ts generalizing pre sum ar with
  | nil => rfl
  | cons t ts ih =>
    have hs2 := List.pairwise_append.1 hs
    have htl := List.pairwise_cons.1 hs2.2.1
    have hr : (D.filter fun i => i.time ∈ t :: ts).length = atRiskAt D t := by
      unfold atRiskAt
      congr 1
      apply List.filter_congr
      intro i hi
      rw [Bool.eq_iff_iff, decide_eq_true_eq, decide_eq_true_eq]
      constructor
      · intro h
        rcases List.mem_cons.1 h with e | e
        · exact le_of_eq e.symm
        · exact (htl.1 _ e).le
      · intro h
        rcases List.mem_append.1 (hm i hi) with e | e
        · exact absurd (hs2.2.2 _ e t (by simp)) (not_lt.2 h)
        · exact e
    have hsum' : sum + diedAt D t / ar = ((pre ++ [t]).map (incr D)).sum := by
      rw [hsum, har, hr]
      simp [incr]
    have hup : upTo D (pre ++ t :: ts) t = ((pre ++ [t]).map (incr D)).sum := by
      unfold upTo
      congr 2
      rw [List.filter_append, List.filter_cons]
      rw [if_pos (by simp)]
      have e1 : pre.filter (fun s => s ≤ t) = pre := by
        rw [List.filter_eq_self]
        intro a ha
        simpa using (hs2.2.2 a ha t (by simp)).le
      have e2 : ts.filter (fun s => s ≤ t) = [] := by
        rw [List.filter_eq_nil_iff]
        intro a ha
        simpa using htl.1 a ha
      rw [e1, e2]
    have har' : ar - ((diedAt D t : Int) + censoredAt D t) = ((D.filter fun i => i.time ∈ ts).length : Int) := by
      have hd := died_cens D t
      have hnt : t ∉ ts := fun h => lt_irrefl _ (htl.1 t h)
      have : (D.filter fun i => i.time ∈ t :: ts).length =
          (D.filter fun i => i.time = t).length + (D.filter fun i => i.time ∈ ts).length := by
        clear hm hr har ih hsum hsum' hup hd hs hs2
        induction D with
        | nil => rfl
        | cons i D ih =>
          by_cases h : i.time = t
          · have : i.time ∉ ts := by rw [h]; exact hnt
            simp only [List.filter_cons, List.mem_cons, h, true_or, decide_true, if_true, List.length_cons]
            rw [h] at this
            simp only [this, decide_false, Bool.false_eq_true, if_false]
            simp only [List.mem_cons] at ih
            omega
          · by_cases h' : i.time ∈ ts
            · simp only [List.filter_cons, List.mem_cons, h, h', or_true, decide_true, if_true, List.length_cons,
                decide_false, Bool.false_eq_true, if_false]
              simp only [List.mem_cons] at ih
              omega
            · simp only [List.filter_cons, List.mem_cons, h, h', or_false, decide_false, Bool.false_eq_true, if_false]
              simp only [List.mem_cons] at ih
              exact ih
      rw [har]
      omega
    have step := ih (pre ++ [t]) (by rw [List.append_assoc]; exact hs)
      (by intro i hi; rw [List.append_assoc]; exact hm i hi) (sum + diedAt D t / ar) (ar - (diedAt D t + censoredAt D t))
      hsum' har'
    have ea : (pre ++ [t]) ++ ts = pre ++ t :: ts := by simp
    rw [ea] at step
    rw [hazardLoop, step]
    by_cases hd : diedAt D t = 0
    · simp [hd]
    · rw [if_neg hd, List.filter_cons, if_pos (by simpa using hd), List.map_cons, hup, hsum']

/-- What the binary search returns. -/
theorem search_spec (tab : List (Rat × Rat)) (t : Rat)
    (hs : ∀ j k, 1 ≤ j → j ≤ k → k < tab.length → (tab.getD j (0, 0)).1 ≤ (tab.getD k (0, 0)).1) :
    ∀ fuel a b, a ≤ b → b < tab.length → b - a ≤ fuel → (a = 0 ∨ (tab.getD a (0, 0)).1 ≤ t + 1 / 1000000) →
      (∀ j, b < j → j < tab.length → t + 1 / 1000000 < (tab.getD j (0, 0)).1) →
      ∃ r, hazardSearch tab t fuel a b = some r ∧ r < tab.length ∧ (r = 0 ∨ (tab.getD r (0, 0)).1 ≤ t + 1 / 1000000) ∧
        ∀ j, r < j → j < tab.length → t + 1 / 1000000 < (tab.getD j (0, 0)).1 := by
  intro fuel
  induction fuel with
  | zero =>
    intro a b hab hb hf ha hbig
    have : a = b := by omega
    subst this
    refine ⟨a, ?_, hb, ha, hbig⟩
    unfold hazardSearch
    simp
  | succ fuel ih =>
    intro a b hab hb hf ha hbig
    unfold hazardSearch
    by_cases e : a = b
    · subst e
      exact ⟨a, by simp, hb, ha, hbig⟩
    · rw [if_neg e]
      dsimp only
      generalize hmid : (a + b + 1) / 2 = mid
      have h1 : a < mid := by omega
      have h2 : mid ≤ b := by omega
      by_cases c : (tab.getD mid (0, 0)).1 > t + 1 / 1000000
      · rw [if_pos c]
        refine ih a (mid - 1) (by omega) (by omega) (by omega) ha ?_
        intro j hj hjl
        exact lt_of_lt_of_le c (hs mid j (by omega) (by omega) hjl)
      · rw [if_neg c]
        exact ih mid b h2 hb (by omega) (Or.inr (not_lt.1 c)) hbig

/-- The values at the events. -/
def events (D : List Obs) : List Rat := ((seenTimes D).insertionSort (· ≤ ·)).filter fun t => diedAt D t ≠ 0

theorem table_eq (D : List Obs) : hazardTable D = (0, 1 / ((D.length : Rat) + 1)) ::
    (events D).map fun t => (t, upTo D ((seenTimes D).insertionSort (· ≤ ·)) t) := by
  unfold hazardTable events
  congr 1
  have hmem : ∀ i ∈ D, i.time ∈ (seenTimes D).insertionSort (· ≤ ·) := by
    intro i hi
    rw [(sorted_perm D).mem_iff, List.mem_dedup]
    exact List.mem_map.2 ⟨i, hi, rfl⟩
  have hc : ((D.length : Nat) : Int) =
      ((D.filter fun i => i.time ∈ (seenTimes D).insertionSort (· ≤ ·)).length : Nat) := by
    rw [List.filter_eq_self.2 fun i hi => decide_eq_true (hmem i hi)]
  exact loop_eq D [] ((seenTimes D).insertionSort (· ≤ ·)) (sorted_lt D) hmem 0 D.length rfl hc

end Streed.SurvLemmas
