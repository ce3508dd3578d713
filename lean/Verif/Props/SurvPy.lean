import Verif.Model.SurvPy
import Verif.Props.Survival

/-!
# C74: survival predictions

The hazards, survival functions and risk scores that Python computes from the hazard ratio of a leaf.
-/

namespace Streed
open SurvLemmas

namespace SurvPy

/-- The keys of a dictionary increase. -/
def Increasing (d : List (Rat × Rat)) : Prop := d.Pairwise fun p q => p.1 < q.1

theorem dictSet_new {d : List (Rat × Rat)} {k v : Rat} (h : ∀ p ∈ d, p.1 < k) : dictSet d k v = d ++ [(k, v)] := by
  unfold dictSet
  rw [if_neg]
  rw [List.any_eq_true]
  rintro ⟨p, hp, he⟩
  have := h p hp
  rw [beq_iff_eq] at he
  rw [he] at this
  exact lt_irrefl _ this

theorem foldl_dictSet (E d : List (Rat × Rat)) (hE : Increasing E) (h : ∀ p ∈ d, ∀ q ∈ E, p.1 < q.1) :
    E.foldl (fun d p => dictSet d p.1 p.2) d = d ++ E := by
  induction E generalizing d with
  | nil => simp
  | cons q E ih =>
    unfold Increasing at hE
    rw [List.pairwise_cons] at hE
    rw [List.foldl_cons, dictSet_new (fun p hp => h p hp q (List.mem_cons_self ..)), ih _ hE.2, List.append_assoc]
    · rfl
    · intro p hp r hr
      rcases List.mem_append.1 hp with hp | hp
      · exact h p hp r (List.mem_cons_of_mem _ hr)
      · rw [List.mem_singleton.1 hp]; exact hE.1 r hr

theorem loop_foldl (D : List Obs) (ts : List Rat) (sum : Rat) (ar : Int) (d : List (Rat × Rat)) :
    pyHazardLoop D ts sum ar d = (hazardLoop D ts sum ar).foldl (fun d p => dictSet d p.1 p.2) d := by
  induction ts generalizing sum ar d with
  | nil => rfl
  | cons t ts ih =>
    unfold pyHazardLoop hazardLoop
    dsimp only
    rw [ih]
    by_cases h : diedAt D t = 0
    · rw [if_pos h, if_neg (by omega)]
    · rw [if_neg h, if_pos (by omega)]; rfl

theorem upTo_eq (D : List Obs) (t : Rat) : upTo D ((seenTimes D).insertionSort (· ≤ ·)) t = nelsonAalen D t := by
  unfold upTo nelsonAalen
  exact ((((sorted_perm D).filter _).map _).sum_eq)

theorem mem_events (D : List Obs) (t : Rat) : t ∈ events D ↔ ∃ i ∈ D, i.ev ≠ 0 ∧ i.time = t := by
  unfold events
  rw [List.mem_filter, (sorted_perm D).mem_iff, List.mem_dedup, List.mem_map]
  simp only [diedAt, ne_eq, decide_not, Bool.not_eq_true', decide_eq_false_iff_not, List.length_eq_zero_iff,
    List.filter_eq_nil_iff]
  constructor
  · rintro ⟨_, h⟩
    simp only [not_forall, not_not] at h
    obtain ⟨i, hi, h⟩ := h
    simp at h
    exact ⟨i, hi, h.2, h.1⟩
  · rintro ⟨i, hi, he, ht⟩
    refine ⟨⟨i, hi, ht⟩, fun h => ?_⟩
    have := h i hi
    simp [ht, he] at this

/-- The entries of the dictionary: the Nelson-Aalen estimates at the times with an event, and the value before them. -/
theorem dict_eq (D : List Obs) (h0 : ∀ i ∈ D, 0 ≤ i.time) : Increasing (pyHazardDict D) ∧ (∃ v l, pyHazardDict D = (0, v) :: l) ∧
    (∀ p ∈ pyHazardDict D, (p.1 ∈ events D ∧ p.2 = nelsonAalen D p.1) ∨ (p.1 = 0 ∧ 0 ∉ events D ∧ p.2 = 1 / ((D.length : Rat) + 1))) ∧
    ∀ t ∈ events D, ∃ p ∈ pyHazardDict D, p.1 = t := by
  have hE : hazardLoop D ((seenTimes D).insertionSort (· ≤ ·)) 0 D.length = (events D).map fun t => (t, nelsonAalen D t) := by
    have := table_eq D
    unfold hazardTable at this
    rw [(List.cons.inj this).2]
    simp only [upTo_eq]
  have hlt : (events D).Pairwise (· < ·) := (sorted_lt D).filter _
  have hpos : ∀ t ∈ events D, 0 ≤ t := by
    intro t ht
    obtain ⟨i, hi, _, rfl⟩ := (mem_events D t).1 ht
    exact h0 i hi
  have hd : pyHazardDict D = ((events D).map fun t => (t, nelsonAalen D t)).foldl (fun d p => dictSet d p.1 p.2)
      [(0, 1 / ((D.length : Rat) + 1))] := by
    unfold pyHazardDict
    rw [loop_foldl, hE]
  have hinc : ∀ L : List Rat, L.Pairwise (· < ·) → Increasing (L.map fun t => (t, nelsonAalen D t)) := by
    intro L hL
    unfold Increasing
    rw [List.pairwise_map]
    exact hL
  cases hev : events D with
  | nil =>
    rw [hd, hev]
    refine ⟨by simp [Increasing], ⟨_, _, rfl⟩, ?_, by simp⟩
    intro p hp
    simp only [List.map_nil, List.foldl_nil, List.mem_singleton] at hp
    exact Or.inr ⟨by rw [hp], by simp, by rw [hp]⟩
  | cons e es =>
    rw [hev] at hlt
    rw [List.pairwise_cons] at hlt
    have he0 : 0 ≤ e := hpos e (by rw [hev]; exact List.mem_cons_self ..)
    by_cases hz : e = 0
    · have hdict : pyHazardDict D = (e :: es).map fun t => (t, nelsonAalen D t) := by
        rw [hd, hev, List.map_cons, List.foldl_cons]
        have : dictSet [(0, 1 / ((D.length : Rat) + 1))] e (nelsonAalen D e) = [(e, nelsonAalen D e)] := by
          rw [hz]; simp [dictSet]
        rw [this, foldl_dictSet _ _ (hinc es hlt.2)]
        · rfl
        · intro p hp q hq
          rw [List.mem_singleton.1 hp]
          obtain ⟨t, ht, rfl⟩ := List.mem_map.1 hq
          exact hlt.1 t ht
      rw [hdict]
      refine ⟨hinc _ (List.pairwise_cons.2 hlt), ⟨_, _, by rw [List.map_cons, hz]⟩, ?_, ?_⟩
      · intro p hp
        obtain ⟨t, ht, rfl⟩ := List.mem_map.1 hp
        exact Or.inl ⟨ht, rfl⟩
      · intro t ht
        exact ⟨_, List.mem_map_of_mem ht, rfl⟩
    · have hpos' : ∀ t ∈ e :: es, 0 < t := by
        intro t ht
        have : 0 < e := lt_of_le_of_ne he0 (Ne.symm hz)
        rcases List.mem_cons.1 ht with rfl | ht
        · exact this
        · exact lt_trans this (hlt.1 t ht)
      have hdict : pyHazardDict D = (0, 1 / ((D.length : Rat) + 1)) :: (e :: es).map fun t => (t, nelsonAalen D t) := by
        rw [hd, hev, foldl_dictSet _ _ (hinc (e :: es) (List.pairwise_cons.2 hlt))]
        · rfl
        · intro p hp q hq
          rw [List.mem_singleton.1 hp]
          obtain ⟨t, ht, rfl⟩ := List.mem_map.1 hq
          exact hpos' t ht
      rw [hdict]
      refine ⟨?_, ⟨_, _, rfl⟩, ?_, ?_⟩
      · unfold Increasing
        rw [List.pairwise_cons]
        refine ⟨fun q hq => ?_, hinc _ (List.pairwise_cons.2 hlt)⟩
        obtain ⟨t, ht, rfl⟩ := List.mem_map.1 hq
        exact hpos' t ht
      · intro p hp
        rcases List.mem_cons.1 hp with rfl | hp
        · exact Or.inr ⟨rfl, fun hm => lt_irrefl _ (hpos' 0 hm), rfl⟩
        · obtain ⟨t, ht, rfl⟩ := List.mem_map.1 hp
          exact Or.inl ⟨ht, rfl⟩
      · intro t ht
        exact ⟨(t, nelsonAalen D t), List.mem_cons_of_mem _ (List.mem_map_of_mem ht), rfl⟩

theorem pySearch_eq (d : List (Rat × Rat)) (x : Rat) (fuel a b : Nat) : pySearch d x fuel a b = hazardSearch d (x - 1 / 1000000) fuel a b := by
  induction fuel generalizing a b with
  | zero => unfold pySearch hazardSearch; rfl
  | succ fuel ih =>
    unfold pySearch hazardSearch
    dsimp only
    rw [ih, ih, sub_add_cancel]

/-- The function returns the entry of the last key up to `x`. -/
theorem baseline_last (D : List Obs) (h0 : ∀ i ∈ D, 0 ≤ i.time) (x : Rat) (hx : 0 ≤ x) : ∃ p ∈ pyHazardDict D, pyBaseline D x = some p.2 ∧
    p.1 ≤ x ∧ ∀ q ∈ pyHazardDict D, q.1 ≤ x → q.1 ≤ p.1 := by
  obtain ⟨hinc, ⟨v, l, hd⟩, _, _⟩ := dict_eq D h0
  unfold pyBaseline
  dsimp only
  cases hf : (pyHazardDict D).find? fun p => p.1 == x with
  | some p =>
    have h1 := List.mem_of_find?_eq_some hf
    have h2 : p.1 = x := by simpa using List.find?_some hf
    exact ⟨p, h1, rfl, le_of_eq h2, fun q _ hq => by rw [h2]; exact hq⟩
  | none =>
    have hlen : 0 < (pyHazardDict D).length := by rw [hd]; simp
    have hget : ∀ j, (hj : j < (pyHazardDict D).length) → (pyHazardDict D).getD j (0, 0) = (pyHazardDict D)[j] := fun j hj => by
      rw [List.getD_eq_getElem?_getD, List.getElem?_eq_getElem hj]; rfl
    have hmono : ∀ j k, (hjk : j < k) → (hk : k < (pyHazardDict D).length) → ((pyHazardDict D)[j]'(by omega)).1 < (pyHazardDict D)[k].1 := fun j k hjk hk =>
      List.pairwise_iff_getElem.1 hinc j k (by omega) hk hjk
    obtain ⟨r, h1, h2, h3, h4⟩ := search_spec (pyHazardDict D) (x - 1 / 1000000) (by
      intro j k _ hjk hk
      rw [hget j (by omega), hget k hk]
      rcases Nat.lt_or_eq_of_le hjk with h | h
      · exact (hmono j k h hk).le
      · subst h; exact le_refl _) (pyHazardDict D).length 0 ((pyHazardDict D).length - 1) (by omega) (by omega) (by omega) (Or.inl rfl)
      (by intro j a b; omega)
    rw [sub_add_cancel] at h3 h4
    rw [hget r h2] at h3
    have hle : (pyHazardDict D)[r].1 ≤ x := by
      rcases h3 with rfl | h3
      · have : (pyHazardDict D)[0] = (0, v) := by simp [hd]
        rw [this]; exact hx
      · exact h3
    refine ⟨(pyHazardDict D)[r], List.getElem_mem h2, ?_, hle, fun q hq hqx => ?_⟩
    · rw [pySearch_eq, h1]
      simp only [Option.map_some]
      rw [hget r h2]
    · obtain ⟨j, hj, rfl⟩ := List.mem_iff_getElem.1 hq
      by_cases hjr : r < j
      · have := h4 j hjr hj
        rw [hget j hj] at this
        exact absurd hqx (not_le.2 this)
      · rcases Nat.lt_or_eq_of_le (Nat.le_of_not_lt hjr) with h | h
        · exact (hmono j r h h2).le
        · subst h; exact le_refl _

/-- The estimate does not change where there is no event. -/
theorem na_const (D : List Obs) {a x : Rat} (hax : a ≤ x) (h : ∀ t ∈ events D, t ≤ x → t ≤ a) : nelsonAalen D a = nelsonAalen D x := by
  unfold nelsonAalen
  have key : ∀ L : List Rat, (∀ s ∈ L, s ∈ (D.map Obs.time).dedup) →
      ((L.filter fun s => s ≤ a).map fun s =>
        ((D.filter fun i => i.time = s ∧ i.ev ≠ 0).length : Rat) / (D.filter fun i => s ≤ i.time).length).sum =
      ((L.filter fun s => s ≤ x).map fun s =>
        ((D.filter fun i => i.time = s ∧ i.ev ≠ 0).length : Rat) / (D.filter fun i => s ≤ i.time).length).sum := by
    intro L
    induction L with
    | nil => intro _; rfl
    | cons s L ih =>
      intro hL
      have ih := ih fun x hx => hL x (List.mem_cons_of_mem _ hx)
      by_cases ha : s ≤ a
      · rw [List.filter_cons, if_pos (by simpa using ha), List.filter_cons, if_pos (by simpa using le_trans ha hax),
          List.map_cons, List.map_cons, List.sum_cons, List.sum_cons, ih]
      · by_cases hb : s ≤ x
        · rw [List.filter_cons, if_neg (by simpa using ha), List.filter_cons, if_pos (by simpa using hb), List.map_cons, List.sum_cons, ih]
          have hd : (D.filter fun i => i.time = s ∧ i.ev ≠ 0).length = 0 := by
            by_contra hd
            refine ha (h s ?_ hb)
            unfold events
            rw [List.mem_filter, (sorted_perm D).mem_iff]
            exact ⟨hL s (List.mem_cons_self ..), by simpa [diedAt] using hd⟩
          rw [hd]
          simp
        · rw [List.filter_cons, if_neg (by simpa using ha), List.filter_cons, if_neg (by simpa using hb), ih]
  exact key _ fun s hs => hs

end SurvPy

open SurvPy

/-- C74: at every time from zero on, the baseline hazard used for predictions is the Nelson-Aalen estimate of the training data, or one over the
number of observations plus one when no event is that early. -/
theorem baseline_nelson_aalen {D : List Obs} (h0 : ∀ i ∈ D, 0 ≤ i.time) {x : Rat} (hx : 0 ≤ x) :
    ((∃ i ∈ D, i.ev ≠ 0 ∧ i.time ≤ x) → pyBaseline D x = some (nelsonAalen D x)) ∧
    ((¬ ∃ i ∈ D, i.ev ≠ 0 ∧ i.time ≤ x) → pyBaseline D x = some (1 / ((D.length : Rat) + 1))) := by
  obtain ⟨_, _, hmem, hall⟩ := dict_eq D h0
  obtain ⟨p, hp, hv, hle, hlast⟩ := baseline_last D h0 x hx
  constructor
  · rintro ⟨i, hi, he, ht⟩
    obtain ⟨q, hq, hqt⟩ := hall i.time ((mem_events D i.time).2 ⟨i, hi, he, rfl⟩)
    rcases hmem p hp with ⟨_, h2⟩ | ⟨h1, h2, _⟩
    · rw [hv, h2]
      congr 1
      refine na_const D hle fun t ht hle => ?_
      obtain ⟨r, hr, hrt⟩ := hall t ht
      have := hlast r hr (by rw [hrt]; exact hle)
      rwa [hrt] at this
    · exfalso
      have := hlast q hq (by rw [hqt]; exact ht)
      rw [hqt, h1] at this
      have hz : i.time = 0 := le_antisymm this (h0 i hi)
      exact h2 (by rw [← hz]; exact (mem_events D i.time).2 ⟨i, hi, he, rfl⟩)
  · intro hno
    rcases hmem p hp with ⟨h1, _⟩ | ⟨_, _, h3⟩
    · obtain ⟨i, hi, he, ht⟩ := (mem_events D p.1).1 h1
      exact absurd ⟨i, hi, he, by rw [ht]; exact hle⟩ hno
    · rw [hv, h3]

/-- Training and prediction use the same baseline hazard at a time that no event follows within a millionth. -/
theorem baselines_agree {D : List Obs} (h0 : ∀ i ∈ D, 0 ≤ i.time) {x : Rat} (hx : 0 ≤ x)
    (hgap : ∀ i ∈ D, i.ev ≠ 0 → i.time ≤ x + 1 / 1000000 → i.time ≤ x) : pyBaseline D x = hazardFn D x := by
  obtain ⟨h1, h2⟩ := baseline_nelson_aalen h0 hx
  obtain ⟨g1, g2⟩ := hazard_nelson_aalen D x
  have hle : x ≤ x + 1 / 1000000 := by linarith
  by_cases e : ∃ i ∈ D, i.ev ≠ 0 ∧ i.time ≤ x
  · rw [h1 e, g1 (by obtain ⟨i, a, b, c⟩ := e; exact ⟨i, a, b, le_trans c hle⟩)]
    congr 1
    refine na_const D hle fun t ht htx => ?_
    obtain ⟨i, hi, he, rfl⟩ := (mem_events D t).1 ht
    exact hgap i hi he htx
  · rw [h2 e, g2]
    rintro ⟨i, hi, he, ht⟩
    exact e ⟨i, hi, he, hgap i hi he ht⟩

/-- Negation without the gap: an event follows a censored observation by less than a millionth. The tree was trained with the hazard 1 for
the censored one, the predictions use 1/3. -/
theorem baselines_differ : ∃ (D : List Obs) (x : Rat), (∀ i ∈ D, 0 ≤ i.time) ∧ (∃ i ∈ D, i.time = x) ∧
    pyBaseline D x = some (1 / 3) ∧ hazardFn D x = some 1 :=
  ⟨[⟨1 / 10000000, 0⟩, ⟨5 / 10000000, 1⟩], 1 / 10000000, by decide +kernel, ⟨_, List.mem_cons_self .., rfl⟩, by decide +kernel, by decide +kernel⟩

/-- The baseline is defined, positive and does not decrease. -/
theorem baseline_positive_mono {D : List Obs} (h0 : ∀ i ∈ D, 0 ≤ i.time) : (∀ x, 0 ≤ x → 0 < (pyBaseline D x).getD 0) ∧
    ∀ x y, 0 ≤ x → x ≤ y → (pyBaseline D x).getD 0 ≤ (pyBaseline D y).getD 0 := by
  have hn : (0 : Rat) < 1 / ((D.length : Rat) + 1) := by positivity
  have hlarge : ∀ t, (∃ i ∈ D, i.ev ≠ 0 ∧ i.time ≤ t) → 1 / ((D.length : Rat) + 1) ≤ nelsonAalen D t := fun t h => by
    have a := (hazard_nelson_aalen D (t - 1 / 1000000)).1
    rw [sub_add_cancel] at a
    by_contra hc
    -- the hazard before all times is the least one
    obtain ⟨s, hs⟩ : ∃ s : Rat, ∀ i ∈ D, s + 1 / 1000000 < i.time := by
      refine ⟨-1, fun i hi => ?_⟩
      have := h0 i hi
      linarith
    have b := (hazard_nelson_aalen D s).2 (by rintro ⟨i, hi, _, ht⟩; exact absurd ht (not_le.2 (hs i hi)))
    have hst : s ≤ t - 1 / 1000000 := by
      obtain ⟨i, hi, _, ht⟩ := h
      have := hs i hi
      linarith
    exact hc ((hazard_positive_mono D).2 s _ _ _ hst b (a h))
  have hmono : ∀ x y, x ≤ y → nelsonAalen D x ≤ nelsonAalen D y := by
    intro x y hxy
    unfold nelsonAalen
    apply List.Sublist.sum_le_sum
    · apply List.Sublist.map
      exact List.monotone_filter_right _ (by intro s hs; simp only [decide_eq_true_eq] at *; exact le_trans hs hxy)
    · intro x hx
      obtain ⟨s, _, rfl⟩ := List.mem_map.1 hx
      positivity
  constructor
  · intro x hx
    obtain ⟨h1, h2⟩ := baseline_nelson_aalen h0 hx
    by_cases e : ∃ i ∈ D, i.ev ≠ 0 ∧ i.time ≤ x
    · rw [h1 e]; exact lt_of_lt_of_le hn (hlarge x e)
    · rw [h2 e]; exact hn
  · intro x y hx hxy
    obtain ⟨h1, h2⟩ := baseline_nelson_aalen h0 hx
    obtain ⟨g1, g2⟩ := baseline_nelson_aalen h0 (le_trans hx hxy)
    by_cases e : ∃ i ∈ D, i.ev ≠ 0 ∧ i.time ≤ x
    · rw [h1 e, g1 (by obtain ⟨i, a, b, c⟩ := e; exact ⟨i, a, b, le_trans c hxy⟩)]
      exact hmono x y hxy
    · rw [h2 e]
      by_cases e' : ∃ i ∈ D, i.ev ≠ 0 ∧ i.time ≤ y
      · rw [g1 e']; exact hlarge y e'
      · rw [g2 e']

theorem uniqueTimes_spec (D : List Obs) : (uniqueTimes D).Pairwise (· < ·) ∧ ∀ t, t ∈ uniqueTimes D ↔ ∃ i ∈ D, i.time = t := by
  refine ⟨sorted_lt D, fun t => ?_⟩
  unfold uniqueTimes
  rw [(sorted_perm D).mem_iff, List.mem_dedup, List.mem_map]

theorem uniqueTimes_nonneg {D : List Obs} (h0 : ∀ i ∈ D, 0 ≤ i.time) {t : Rat} (h : t ∈ uniqueTimes D) : 0 ≤ t := by
  obtain ⟨i, hi, rfl⟩ := ((uniqueTimes_spec D).2 t).1 h
  exact h0 i hi

/-- C74: a predicted cumulative hazard function is positive and does not decrease. -/
theorem hazard_prediction {D : List Obs} (h0 : ∀ i ∈ D, 0 ≤ i.time) {theta : ℝ} (ht : 0 < theta) :
    (chfRow D theta).length = (uniqueTimes D).length ∧ (∀ v ∈ chfRow D theta, 0 < v) ∧ (chfRow D theta).Pairwise (· ≤ ·) := by
  obtain ⟨hp, hm⟩ := baseline_positive_mono h0
  refine ⟨by simp [chfRow], ?_, ?_⟩
  · intro v hv
    obtain ⟨t, htm, rfl⟩ := List.mem_map.1 hv
    exact mul_pos ht (by exact_mod_cast hp t (uniqueTimes_nonneg h0 htm))
  · unfold chfRow
    rw [List.pairwise_map]
    refine (List.Pairwise.and_mem.1 (uniqueTimes_spec D).1).imp ?_
    rintro a b ⟨ha, _, hab⟩
    exact mul_le_mul_of_nonneg_left (by exact_mod_cast hm a b (uniqueTimes_nonneg h0 ha) hab.le) ht.le

/-- C74: a predicted survival function lies strictly between zero and one and does not increase; it is the exponential of the negated
cumulative hazard. -/
theorem survival_prediction {D : List Obs} (h0 : ∀ i ∈ D, 0 ≤ i.time) {theta : ℝ} (ht : 0 < theta) :
    survRow D theta = (chfRow D theta).map (fun v => Real.exp (-v)) ∧ (∀ v ∈ survRow D theta, 0 < v ∧ v < 1) ∧
      (survRow D theta).Pairwise (· ≥ ·) := by
  obtain ⟨_, h2, h3⟩ := hazard_prediction h0 ht
  have e : survRow D theta = (chfRow D theta).map (fun v => Real.exp (-v)) := by
    unfold survRow chfRow
    rw [List.map_map]
    apply List.map_congr_left
    intro t _
    simp
  refine ⟨e, ?_, ?_⟩
  · intro v hv
    rw [e] at hv
    obtain ⟨u, hu, rfl⟩ := List.mem_map.1 hv
    exact ⟨Real.exp_pos _, by rw [Real.exp_lt_one_iff]; have := h2 u hu; linarith⟩
  · rw [e, List.pairwise_map]
    refine h3.imp ?_
    intro a b hab
    exact Real.exp_le_exp.2 (by linarith)

/-- C74: if some training row has an event, risk scores are positive and ordered as the hazard ratios of the leaves. -/
theorem risk_order {D : List Obs} (h0 : ∀ i ∈ D, 0 ≤ i.time) (he : ∃ i ∈ D, i.ev ≠ 0) {a b : ℝ} (ha : 0 < a) :
    0 < riskScore D a ∧ (riskScore D a < riskScore D b ↔ a < b) := by
  have hs : ∀ c : ℝ, riskScore D c = c * (((events D).map fun t => (((pyBaseline D t).getD 0 : Rat) : ℝ)).sum) := by
    intro c
    have : ∀ L : List Rat, (L.map fun t => c * (((pyBaseline D t).getD 0 : Rat) : ℝ)).sum =
        c * ((L.map fun t => (((pyBaseline D t).getD 0 : Rat) : ℝ)).sum) := by
      intro L
      induction L with
      | nil => simp
      | cons t L ih => simp only [List.map_cons, List.sum_cons, ih]; ring
    exact this _
  have hpos : 0 < ((events D).map fun t => (((pyBaseline D t).getD 0 : Rat) : ℝ)).sum := by
    apply List.sum_pos
    · intro v hv
      obtain ⟨t, htm, rfl⟩ := List.mem_map.1 hv
      obtain ⟨i, hi, _, rfl⟩ := (mem_events D t).1 htm
      exact_mod_cast (baseline_positive_mono h0).1 i.time (h0 i hi)
    · obtain ⟨i, hi, hei⟩ := he
      have := (mem_events D i.time).2 ⟨i, hi, hei, rfl⟩
      intro hn
      rw [List.map_eq_nil_iff] at hn
      rw [hn] at this
      cases this
  rw [hs, hs]
  exact ⟨mul_pos ha hpos, mul_lt_mul_iff_left₀ hpos⟩

/-! ### The hypotheses are met -/

/-- Five observations, two of them censored, two at the same time. -/
def survDemo : List Obs := [⟨2, 1⟩, ⟨1, 0⟩, ⟨3, 1⟩, ⟨2, 1⟩, ⟨5, 0⟩]

example : (∀ i ∈ survDemo, 0 ≤ i.time) ∧ (∃ i ∈ survDemo, i.ev ≠ 0) := by decide +kernel
example : pyHazardDict survDemo = [(0, 1 / 6), (2, 1 / 2), (3, 1)] ∧ uniqueTimes survDemo = [1, 2, 3, 5] := by decide +kernel
example : pyBaseline survDemo 1 = some (1 / 6) ∧ pyBaseline survDemo 5 = some 1 := by decide +kernel
example : ∀ i ∈ survDemo, i.ev ≠ 0 → i.time ≤ 2 + 1 / 1000000 → i.time ≤ 2 := by decide +kernel

end Streed
