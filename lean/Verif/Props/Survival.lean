import Verif.Lemmas.Survival

/-!
# Survival analysis (C45, C56)
-/

namespace Streed
open SurvLemmas

/-- The Nelson-Aalen estimate at `t`: over the distinct observed times up to `t`, the fraction of those still at risk
that have an event at that time. -/
def nelsonAalen (D : List Obs) (t : Rat) : Rat :=
  (((D.map Obs.time).dedup.filter fun s => s ≤ t).map fun s =>
    ((D.filter fun i => i.time = s ∧ i.ev ≠ 0).length : Rat) / (D.filter fun i => s ≤ i.time).length).sum

private theorem upTo_eq (D : List Obs) (t : Rat) :
    upTo D ((seenTimes D).insertionSort (· ≤ ·)) t = nelsonAalen D t := by
  unfold upTo nelsonAalen
  exact ((((sorted_perm D).filter _).map _).sum_eq)

private theorem mem_events (D : List Obs) (t : Rat) : t ∈ events D ↔ ∃ i ∈ D, i.ev ≠ 0 ∧ i.time = t := by
  unfold events
  rw [List.mem_filter, (sorted_perm D).mem_iff, List.mem_dedup, List.mem_map]
  simp only [diedAt, ne_eq, decide_not, Bool.not_eq_true', decide_eq_false_iff_not, List.length_eq_zero_iff,
    List.filter_eq_nil_iff]
  constructor
  · rintro ⟨_, h⟩
    simp only [not_forall, not_not] at h
    obtain ⟨i, hi, h⟩ := h
    simp at h
    exact ⟨i, hi, h.2, h.1⟩
  · rintro ⟨i, hi, he, ht⟩
    refine ⟨⟨i, hi, ht⟩, fun h => ?_⟩
    have := h i hi
    simp [ht, he] at this

/-- **C45**: the estimated hazard at `t` is the Nelson-Aalen estimate at `t`, up to the tolerance of a millionth, and
one over the number of observations plus one when no event is that early. -/
theorem hazard_nelson_aalen (D : List Obs) (t : Rat) :
    ((∃ i ∈ D, i.ev ≠ 0 ∧ i.time ≤ t + 1 / 1000000) → hazardFn D t = some (nelsonAalen D (t + 1 / 1000000))) ∧
    ((¬ ∃ i ∈ D, i.ev ≠ 0 ∧ i.time ≤ t + 1 / 1000000) → hazardFn D t = some (1 / ((D.length : Rat) + 1))) := by
  have hlt : (events D).Pairwise (· < ·) := (sorted_lt D).filter _
  have htab := table_eq D
  have hlen : (hazardTable D).length = (events D).length + 1 := by rw [htab]; simp
  have hget : ∀ j (hj : j < (events D).length), (hazardTable D).getD (j + 1) (0, 0) =
      ((events D)[j], nelsonAalen D (events D)[j]) := by
    intro j hj
    rw [htab, List.getD_eq_getElem?_getD, List.getElem?_cons_succ, List.getElem?_map, List.getElem?_eq_getElem hj]
    simp only [Option.map_some, Option.getD_some, upTo_eq]
  have hsort : ∀ j k, 1 ≤ j → j ≤ k → k < (hazardTable D).length →
      ((hazardTable D).getD j (0, 0)).1 ≤ ((hazardTable D).getD k (0, 0)).1 := by
    intro j k h1 h2 h3
    obtain ⟨j, rfl⟩ : ∃ i, j = i + 1 := ⟨j - 1, by omega⟩
    obtain ⟨k, rfl⟩ : ∃ i, k = i + 1 := ⟨k - 1, by omega⟩
    rw [hget j (by omega), hget k (by omega)]
    rcases Nat.lt_or_eq_of_le h2 with h | h
    · exact (List.pairwise_iff_getElem.1 hlt j k (by omega) (by omega) (by omega)).le
    · have : j = k := by omega
      subst this; exact le_refl _
  obtain ⟨r, hr, hrl, hr0, hbig⟩ := search_spec (hazardTable D) t hsort (hazardTable D).length 0
    ((hazardTable D).length - 1) (by omega) (by omega) (by omega) (Or.inl rfl) (by intro j h1 h2; omega)
  have hfn : hazardFn D t = some ((hazardTable D).getD r (0, 0)).2 := by
    unfold hazardFn; dsimp only; rw [hr]; rfl
  constructor
  · rintro ⟨i, hi, he, ht⟩
    obtain ⟨k, hk, hke⟩ := List.mem_iff_getElem.1 ((mem_events D i.time).2 ⟨i, hi, he, rfl⟩)
    have hrk : k + 1 ≤ r := by
      by_contra hc
      have := hbig (k + 1) (by omega) (by omega)
      rw [hget k hk, hke] at this
      exact absurd ht (not_le.2 this)
    obtain ⟨r, rfl⟩ : ∃ s, r = s + 1 := ⟨r - 1, by omega⟩
    have hre : r < (events D).length := by omega
    rw [hfn, hget r hre]
    have hle : (events D)[r] ≤ t + 1 / 1000000 := by
      have := hr0.resolve_left (by omega)
      rwa [hget r hre] at this
    have hnext : ∀ s ∈ events D, s ≤ t + 1 / 1000000 → s ≤ (events D)[r] := by
      intro s hs hst
      obtain ⟨j, hj, rfl⟩ := List.mem_iff_getElem.1 hs
      by_contra hc
      have hjr : r < j := by
        by_contra hjr
        rcases Nat.lt_or_eq_of_le (Nat.le_of_not_lt hjr) with h | h
        · exact hc (List.pairwise_iff_getElem.1 hlt j r hj hre h).le
        · subst h; exact hc (le_refl _)
      have := hbig (j + 1) (by omega) (by omega)
      rw [hget j hj] at this
      exact absurd hst (not_le.2 this)
    congr 1
    simp only
    unfold nelsonAalen
    have key : ∀ L : List Rat, (∀ s ∈ L, s ∈ (D.map Obs.time).dedup) →
        ((L.filter fun s => s ≤ (events D)[r]).map fun s =>
          ((D.filter fun i => i.time = s ∧ i.ev ≠ 0).length : Rat) / (D.filter fun i => s ≤ i.time).length).sum =
        ((L.filter fun s => s ≤ t + 1 / 1000000).map fun s =>
          ((D.filter fun i => i.time = s ∧ i.ev ≠ 0).length : Rat) / (D.filter fun i => s ≤ i.time).length).sum := by
      intro L
      induction L with
      | nil => intro _; rfl
      | cons s L ih =>
        intro h
        have ih := ih fun x hx => h x (List.mem_cons_of_mem _ hx)
        by_cases a : s ≤ (events D)[r]
        · rw [List.filter_cons, if_pos (by simpa using a), List.filter_cons, if_pos (by simpa using le_trans a hle),
            List.map_cons, List.map_cons, List.sum_cons, List.sum_cons, ih]
        · by_cases b : s ≤ t + 1 / 1000000
          · rw [List.filter_cons, if_neg (by simpa using a), List.filter_cons, if_pos (by simpa using b),
              List.map_cons, List.sum_cons, ih]
            have hd : (D.filter fun i => i.time = s ∧ i.ev ≠ 0).length = 0 := by
              by_contra hd
              refine a (hnext s ?_ b)
              have hm := List.mem_dedup.1 (h s (List.mem_cons_self ..))
              unfold events
              rw [List.mem_filter, (sorted_perm D).mem_iff]
              exact ⟨h s (List.mem_cons_self ..), by simpa [diedAt] using hd⟩
            rw [hd]
            simp
          · rw [List.filter_cons, if_neg (by simpa using a), List.filter_cons, if_neg (by simpa using b), ih]
    exact key _ fun s hs => hs
  · intro hno
    have : r = 0 := by
      by_contra hc
      obtain ⟨r, rfl⟩ : ∃ s, r = s + 1 := ⟨r - 1, by omega⟩
      have hre : r < (events D).length := by omega
      have h := hr0.resolve_left (by omega)
      rw [hget r hre] at h
      obtain ⟨i, hi, he, ht⟩ := (mem_events D (events D)[r]).1 (List.getElem_mem hre)
      exact hno ⟨i, hi, he, by rw [ht]; exact h⟩
    rw [hfn, this, htab]
    rfl

private theorem na_nonneg (D : List Obs) (t : Rat) : 0 ≤ nelsonAalen D t := by
  unfold nelsonAalen
  apply List.sum_nonneg
  intro x hx
  obtain ⟨s, _, rfl⟩ := List.mem_map.1 hx
  positivity

private theorem na_mono (D : List Obs) {t u : Rat} (h : t ≤ u) : nelsonAalen D t ≤ nelsonAalen D u := by
  unfold nelsonAalen
  apply List.Sublist.sum_le_sum
  · apply List.Sublist.map
    exact List.monotone_filter_right _ (by intro s hs; simp only [decide_eq_true_eq] at *; exact le_trans hs h)
  · intro x hx
    obtain ⟨s, _, rfl⟩ := List.mem_map.1 hx
    positivity

private theorem na_large (D : List Obs) (t : Rat) (h : ∃ i ∈ D, i.ev ≠ 0 ∧ i.time ≤ t) :
    1 / ((D.length : Rat) + 1) ≤ nelsonAalen D t := by
  obtain ⟨i, hi, he, ht⟩ := h
  have hpos : (0 : Rat) < D.length := by
    have : 0 < D.length := List.length_pos_of_mem hi
    exact_mod_cast this
  have h1 : 1 ≤ (D.filter fun j => j.time = i.time ∧ j.ev ≠ 0).length := by
    apply List.length_pos_of_mem (a := i)
    rw [List.mem_filter]; simp [hi, he]
  have h2 : 1 ≤ (D.filter fun j => i.time ≤ j.time).length := by
    apply List.length_pos_of_mem (a := i)
    rw [List.mem_filter]; simp [hi]
  have h3 : (D.filter fun j => i.time ≤ j.time).length ≤ D.length := List.length_filter_le ..
  have term : 1 / ((D.length : Rat) + 1) ≤ ((D.filter fun j => j.time = i.time ∧ j.ev ≠ 0).length : Rat) /
      (D.filter fun j => i.time ≤ j.time).length := by
    have a1 : (1 : Rat) ≤ (D.filter fun j => j.time = i.time ∧ j.ev ≠ 0).length := by exact_mod_cast h1
    have a2 : (1 : Rat) ≤ (D.filter fun j => i.time ≤ j.time).length := by exact_mod_cast h2
    have a3 : ((D.filter fun j => i.time ≤ j.time).length : Rat) ≤ D.length := by exact_mod_cast h3
    rw [div_le_div_iff₀ (by linarith) (by linarith)]
    nlinarith
  refine le_trans term ?_
  unfold nelsonAalen
  apply List.single_le_sum
  · intro x hx
    obtain ⟨s, _, rfl⟩ := List.mem_map.1 hx
    positivity
  · apply List.mem_map.2
    refine ⟨i.time, ?_, rfl⟩
    rw [List.mem_filter, List.mem_dedup]
    exact ⟨List.mem_map.2 ⟨i, hi, rfl⟩, by simpa using ht⟩

/-- **C45**: the hazard is defined, positive and non-decreasing in time. -/
theorem hazard_positive_mono (D : List Obs) : (∀ t, ∃ v, hazardFn D t = some v ∧ 0 < v) ∧
    ∀ t u v w, t ≤ u → hazardFn D t = some v → hazardFn D u = some w → v ≤ w := by
  have hn : (0 : Rat) < 1 / ((D.length : Rat) + 1) := by positivity
  constructor
  · intro t
    obtain ⟨h1, h2⟩ := hazard_nelson_aalen D t
    by_cases e : ∃ i ∈ D, i.ev ≠ 0 ∧ i.time ≤ t + 1 / 1000000
    · exact ⟨_, h1 e, lt_of_lt_of_le hn (na_large D _ e)⟩
    · exact ⟨_, h2 e, hn⟩
  · intro t u v w htu hv hw
    obtain ⟨t1, t2⟩ := hazard_nelson_aalen D t
    obtain ⟨u1, u2⟩ := hazard_nelson_aalen D u
    by_cases e : ∃ i ∈ D, i.ev ≠ 0 ∧ i.time ≤ t + 1 / 1000000
    · have e' : ∃ i ∈ D, i.ev ≠ 0 ∧ i.time ≤ u + 1 / 1000000 := by
        obtain ⟨i, hi, a, b⟩ := e
        exact ⟨i, hi, a, by linarith⟩
      rw [t1 e] at hv; rw [u1 e'] at hw
      cases hv; cases hw
      exact na_mono D (by linarith)
    · rw [t2 e] at hv; cases hv
      by_cases e' : ∃ i ∈ D, i.ev ≠ 0 ∧ i.time ≤ u + 1 / 1000000
      · rw [u1 e'] at hw; cases hw
        exact na_large D _ e'
      · rw [u2 e'] at hw; cases hw
        exact le_refl _

/-- **C45**, negation of the exact statement: an event less than a millionth after the query is counted. -/
theorem hazard_tolerance : ∃ (D : List Obs) (t : Rat), (∀ i ∈ D, i.ev ≠ 0 → t < i.time) ∧
    hazardFn D t = some (nelsonAalen D (t + 1 / 1000000)) ∧ hazardFn D t ≠ some (1 / ((D.length : Rat) + 1)) := by
  refine ⟨[⟨1 / 2000000, 1⟩], 0, by decide +kernel, by decide +kernel, by decide +kernel⟩

example : hazardFn [⟨2, 1⟩, ⟨1, 0⟩, ⟨3, 1⟩, ⟨2, 1⟩] 2 = some (2 / 3) := by decide +kernel
example : nelsonAalen [⟨2, 1⟩, ⟨1, 0⟩, ⟨3, 1⟩, ⟨2, 1⟩] 3 = 5 / 3 := by decide +kernel

/-! ### C56: the leaf -/

/-- The negative log-likelihood loss of one instance under hazard ratio `theta`, compared with the best fit for that
instance alone: `theta h - 1 - log (theta h)` with an event, `theta h` without. -/
noncomputable def survLoss (theta : ℝ) (i : SurvInst) : ℝ :=
  if i.ev then theta * i.hazard - 1 - Real.log (theta * i.hazard) else theta * i.hazard

private theorem sums_eq (D : List SurvInst) (s : SurvSums) :
    D.foldl (fun s i => if i.ev then (⟨s.hazard + i.hazard, s.events + 1, s.neglog + -Real.log i.hazard⟩ : SurvSums)
      else ⟨s.hazard + i.hazard, s.events, s.neglog⟩) s =
    ⟨s.hazard + (D.map SurvInst.hazard).sum, s.events + (D.filter SurvInst.ev).length,
      s.neglog + ((D.filter SurvInst.ev).map fun i => -Real.log i.hazard).sum⟩ := by
  induction D generalizing s with
  | nil => simp
  | cons i D ih =>
    rw [List.foldl_cons, ih]
    cases h : i.ev
    · simp [h, add_assoc]
    · simp only [if_true, List.map_cons, List.sum_cons, List.filter_cons, h, List.length_cons, SurvSums.mk.injEq]
      refine ⟨by ring, by ring, by ring⟩

private theorem loss_sum (D : List SurvInst) (hh : ∀ i ∈ D, 0 < i.hazard) (theta : ℝ) (ht : 0 < theta) :
    (D.map (survLoss theta)).sum = (survSums D).neglog - (survSums D).events * (Real.log theta + 1) +
      theta * (survSums D).hazard := by
  unfold survSums
  rw [sums_eq]
  simp only [zero_add]
  induction D with
  | nil => simp
  | cons i D ih =>
    rw [List.map_cons, List.sum_cons, ih fun j hj => hh j (List.mem_cons_of_mem _ hj)]
    have hi := hh i (List.mem_cons_self ..)
    cases h : i.ev
    · simp only [survLoss, h, List.filter_cons, List.map_cons, List.sum_cons]
      simp only [Bool.false_eq_true, if_false]; ring
    · simp only [survLoss, h, List.filter_cons, List.map_cons, List.sum_cons, if_true, List.length_cons]
      rw [Real.log_mul ht.ne' hi.ne']
      push_cast; ring

private theorem loss_nonneg (theta : ℝ) (ht : 0 < theta) (i : SurvInst) (hi : 0 < i.hazard) : 0 ≤ survLoss theta i := by
  unfold survLoss
  split
  · have := Real.log_le_sub_one_of_pos (mul_pos ht hi)
    linarith
  · exact (mul_pos ht hi).le

private theorem loss_sum_nonneg (theta : ℝ) (ht : 0 < theta) (D : List SurvInst) (hh : ∀ i ∈ D, 0 < i.hazard) :
    0 ≤ (D.map (survLoss theta)).sum := by
  apply List.sum_nonneg
  intro x hx
  obtain ⟨i, hi, rfl⟩ := List.mem_map.1 hx
  exact loss_nonneg theta ht i (hh i hi)

/-- **C56**: evaluating a leaf gives the sum of the losses of its instances, for every positive hazard ratio. -/
theorem survival_evaluate (D : List SurvInst) (hh : ∀ i ∈ D, 0 < i.hazard) (theta : ℝ) (ht : 0 < theta) :
    survLeafCosts D theta = (D.map (survLoss theta)).sum := by
  unfold survLeafCosts
  dsimp only
  rw [← loss_sum D hh theta ht]
  exact max_eq_right (loss_sum_nonneg theta ht D hh)

private theorem hazard_pos (D : List SurvInst) (hh : ∀ i ∈ D, 0 < i.hazard) (hne : D ≠ []) : 0 < (survSums D).hazard := by
  unfold survSums
  rw [sums_eq]
  simp only [zero_add]
  cases D with
  | nil => exact absurd rfl hne
  | cons i D =>
    rw [List.map_cons, List.sum_cons]
    have h1 := hh i (List.mem_cons_self ..)
    have h2 : 0 ≤ (D.map SurvInst.hazard).sum := by
      apply List.sum_nonneg
      intro x hx
      obtain ⟨j, hj, rfl⟩ := List.mem_map.1 hx
      exact (hh j (List.mem_cons_of_mem _ hj)).le
    linarith

private theorem ev_pos (D : List SurvInst) (h : ∃ i ∈ D, i.ev = true) : 0 < (survSums D).events := by
  unfold survSums
  rw [sums_eq]
  obtain ⟨i, hi, he⟩ := h
  have : 0 < (D.filter SurvInst.ev).length := List.length_pos_of_mem (a := i) (List.mem_filter.2 ⟨hi, he⟩)
  simpa using this

/-- **C56**: a leaf with at least one event gets the hazard ratio with the smallest loss, and its cost is that loss. -/
theorem survival_leaf (D : List SurvInst) (hh : ∀ i ∈ D, 0 < i.hazard) (he : ∃ i ∈ D, i.ev = true) :
    0 < (survLeaf D).1 ∧ (survLeaf D).2 = survLeafCosts D (survLeaf D).1 ∧
    ∀ theta, 0 < theta → (survLeaf D).2 ≤ survLeafCosts D theta := by
  have hne : D ≠ [] := by rintro rfl; obtain ⟨i, hi, _⟩ := he; cases hi
  have hH := hazard_pos D hh hne
  have hE := ev_pos D he
  have hEr : (0 : ℝ) < (survSums D).events := by exact_mod_cast hE
  have h1 : (survLeaf D).1 = (survSums D).events / (survSums D).hazard := by
    unfold survLeaf; dsimp only; rw [if_neg (by omega)]
  have hp : 0 < (survLeaf D).1 := by rw [h1]; positivity
  have h2 : (survLeaf D).2 = survLeafCosts D (survLeaf D).1 := by
    have e : (survLeaf D).2 = max 0 ((survSums D).neglog - (survSums D).events * Real.log (survLeaf D).1) := rfl
    rw [e]
    unfold survLeafCosts
    dsimp only
    congr 1
    rw [h1]
    field_simp
    ring
  refine ⟨hp, h2, fun theta ht => ?_⟩
  rw [h2, survival_evaluate D hh _ hp, survival_evaluate D hh _ ht, loss_sum D hh _ hp, loss_sum D hh _ ht]
  have key := Real.log_le_sub_one_of_pos (div_pos ht hp)
  rw [Real.log_div ht.ne' hp.ne'] at key
  have e1 : (survLeaf D).1 * (survSums D).hazard = (survSums D).events := by rw [h1]; field_simp
  have e2 : (survSums D).events * (theta / (survLeaf D).1) = theta * (survSums D).hazard := by
    rw [h1]; field_simp
  have := mul_le_mul_of_nonneg_left key hEr.le
  rw [mul_sub, mul_sub, e2] at this
  rw [e1]
  linarith

/-- **C56**: the depth-two solver's sums give the same hazard ratio and the same cost. -/
theorem survival_pairwise (D : List SurvInst) :
    D.foldl (fun s i => s.add (survD2 i)) ⟨0, 0, 0⟩ = survSums D ∧
    survLabel (survSums D) = (survLeaf D).1 ∧ survCompute (survSums D) = (survLeaf D).2 := by
  have hl : survLabel (survSums D) = (survLeaf D).1 := by
    unfold survLabel survLeaf
    dsimp only
    by_cases h : (survSums D).events = 0
    · rw [if_pos h, h]; norm_num
    · have : (1 : ℝ) ≤ (survSums D).events := by exact_mod_cast Nat.one_le_iff_ne_zero.2 h
      rw [if_neg h, max_eq_right (by linarith)]
  refine ⟨?_, hl, ?_⟩
  · unfold survSums
    congr 1
    funext s i
    cases h : i.ev <;> simp [SurvSums.add, survD2, h]
  · have : survCompute (survSums D) =
        max 0 ((survSums D).neglog - (survSums D).events * Real.log (survLabel (survSums D))) := rfl
    rw [this, hl]
    rfl

/-- **C56**, negation for leaves without events: training counts such a leaf as free, evaluating the same leaf on the
same data gives one half. -/
theorem survival_leaf_no_event (D : List SurvInst) (hne : D ≠ []) (hh : ∀ i ∈ D, 0 < i.hazard)
    (h : ∀ i ∈ D, i.ev = false) : (survLeaf D).2 = 0 ∧ survLeafCosts D (survLeaf D).1 = 1 / 2 := by
  have hH := hazard_pos D hh hne
  have e : (D.filter SurvInst.ev) = [] := by
    rw [List.filter_eq_nil_iff]; intro i hi; simp [h i hi]
  have hE : (survSums D).events = 0 := by unfold survSums; rw [sums_eq, e]; rfl
  have hN : (survSums D).neglog = 0 := by unfold survSums; rw [sums_eq, e]; simp
  constructor
  · show max 0 ((survSums D).neglog - (survSums D).events * _) = 0
    rw [hE, hN]; simp
  · have h1 : (survLeaf D).1 = (1 / 2) / (survSums D).hazard := by
      unfold survLeaf; dsimp only; rw [if_pos hE]
    unfold survLeafCosts
    dsimp only
    rw [hE, hN, h1]
    have : (1 / 2 : ℝ) / (survSums D).hazard * (survSums D).hazard = 1 / 2 := by field_simp
    simp only [Nat.cast_zero, zero_mul, sub_zero, zero_add]
    rw [this]; norm_num

/-- A leaf with two censored observations, and one with an event. -/
example : (survLeaf [⟨false, 1⟩, ⟨false, 2⟩]).2 = 0 ∧ survLeafCosts [⟨false, 1⟩, ⟨false, 2⟩] (survLeaf [⟨false, 1⟩, ⟨false, 2⟩]).1 = 1 / 2 :=
  survival_leaf_no_event _ (by simp) (by simp) (by simp)
example : ∃ i ∈ [(⟨true, 1⟩ : SurvInst), ⟨false, 2⟩], i.ev = true := ⟨⟨true, 1⟩, by simp, rfl⟩

end Streed
