import Verif.Lemmas.PwTop
import Verif.Lemmas.PwSingle
import Verif.Props.SimpleLinear

/-! The search with lines in the leaves is an instance of the search with fitted leaves. -/

namespace Streed.Pw
open Apx (tol tol_pos tol_one)

/-- The sums of the rows that were merged into an instance. -/
def stats (rows : Nat → List LinRow) (i : Nat) : LinStat := linTotal ((rows i).map LinStat.ofRow)

/-- All rows of these instances. -/
def rowsOf (rows : Nat → List LinRow) (D : Data) : List LinRow := (D.map fun i => rows i.id).flatten

theorem map_stats (rows : Nat → List LinRow) (D : Data) : (D.map fun i => stats rows i.id) = merged (D.map fun i => rows i.id) := by
  rw [merged, List.map_map]; rfl

theorem total_stats (rows : Nat → List LinRow) (D : Data) :
    linTotal (D.map fun i => stats rows i.id) = linTotal ((rowsOf rows D).map LinStat.ofRow) := by
  rw [map_stats, linTotal_merged]; rfl

/-- The best line on these instances. -/
def bestLine (n mls : Nat) (ridge : Rat) (rows : Nat → List LinRow) (T D : Data) : Option LineLeaf :=
  lineLeaf n mls ridge (lineVariance (T.map fun i => stats rows i.id)) (D.map fun i => stats rows i.id)

/-- Sum of the squared targets. -/
def sumSq (rows : Nat → List LinRow) (D : Data) : Rat := ((rowsOf rows D).map fun i => i.y * i.y).sum

theorem sumSq_nonneg (rows : Nat → List LinRow) (D : Data) : 0 ≤ sumSq rows D := by
  apply List.sum_nonneg
  intro x hx
  obtain ⟨i, _, rfl⟩ := List.mem_map.1 hx
  exact mul_self_nonneg _

theorem rowsOf_sublist (rows : Nat → List LinRow) {T D : Data} (h : ViewOf T D) : (rowsOf rows D).Sublist (rowsOf rows T) := by
  replace h : D.Sublist T := h
  unfold rowsOf
  induction h with
  | slnil => exact List.Sublist.refl _
  | cons a _ ih =>
    simp only [List.map_cons, List.flatten_cons]
    exact ih.trans (List.sublist_append_right _ _)
  | cons_cons a _ ih =>
    simp only [List.map_cons, List.flatten_cons]
    exact List.Sublist.append (List.Sublist.refl _) ih

theorem sumSq_mono (rows : Nat → List LinRow) {T D : Data} (h : ViewOf T D) : sumSq rows D ≤ sumSq rows T := by
  apply List.Sublist.sum_le_sum ((rowsOf_sublist rows h).map _)
  intro x hx
  obtain ⟨i, _, rfl⟩ := List.mem_map.1 hx
  exact mul_self_nonneg _

/-- The fit of a line costs at most the sum of squares. -/
theorem lineFit_le (rs : List LinRow) (hne : rs ≠ []) (r : Rat) (v : Nat → Rat) (hr : 0 ≤ r) (f : Nat) (hv : 0 ≤ v f) :
    (lineFit (linTotal (rs.map LinStat.ofRow)) r (v f) f).2.2 ≤ (rs.map fun i => i.y * i.y).sum := by
  have hw : (0 : Rat) < (linTotal (rs.map LinStat.ofRow)).w := by
    rw [linTotal_rows]; dsimp only; exact_mod_cast List.length_pos_iff.2 hne
  have hysq : (linTotal (rs.map LinStat.ofRow)).ysq = (rs.map fun i => i.y * i.y).sum := by rw [linTotal_rows]
  have hd : 0 ≤ (linTotal (rs.map LinStat.ofRow)).w * (linTotal (rs.map LinStat.ofRow)).xsq f -
      (linTotal (rs.map LinStat.ofRow)).x f * (linTotal (rs.map LinStat.ofRow)).x f := by
    have h := line_variance_nonneg [rs] f
    unfold lineVariance at h
    rw [linTotal_merged] at h
    have e : [rs].flatten = rs := by simp
    rw [e] at h
    dsimp only at h
    generalize linTotal (rs.map LinStat.ofRow) = s at hw h
    have h2 : s.w * s.xsq f - s.x f * s.x f = s.w * s.w * ((s.xsq f - s.x f * s.x f / s.w) / s.w) := by
      field_simp
    rw [h2]; exact mul_nonneg (mul_self_nonneg _) h
  rw [← hysq]
  generalize linTotal (rs.map LinStat.ofRow) = s at hw hd
  have hd2 : 0 ≤ s.w * s.xsq f - s.x f * s.x f + s.w * v f * r := by
    have : 0 ≤ s.w * v f * r := mul_nonneg (mul_nonneg hw.le hv) hr
    linarith
  by_cases hsm : |s.w * s.xsq f - s.x f * s.x f + s.w * v f * r| < 1 / 1000
  · rw [lineFit, if_pos hsm]
    dsimp only
    have : 0 ≤ s.y * s.y / s.w := div_nonneg (mul_self_nonneg _) hw.le
    linarith
  · rw [abs_of_nonneg hd2] at hsm
    have := lineFit_best s hw r v f (.inr (not_lt.1 hsm)) 0 0
    refine this.trans (le_of_eq ?_)
    rw [statError]; ring

section
variable {nF n mls q : Nat} {ridge ccp : Rat} {Y : List Rat} {rows : Nat → List LinRow} {T : Data} {o : Options} {red : Nat → Bool}

/-- The leaf exists with enough rows, and its cost is bounded. -/
theorem lineLeaf_spec (hmls : 1 ≤ mls) (hr : 0 ≤ ridge) (gs : List (List LinRow)) (v : Nat → Rat) (hv : ∀ f, 0 ≤ v f) (l : LineLeaf)
    (hl : lineLeaf n mls ridge v (merged gs) = some l) : 0 ≤ l.cost ∧ l.cost ≤ (gs.flatten.map fun i => i.y * i.y).sum := by
  have hsz := (line_leaf_exists gs n mls hmls ridge v hr fun f _ => hv f).1 (by rw [hl]; rfl)
  have hne : gs.flatten ≠ [] := fun h => by have := hsz.1; rw [h] at this; simp at this; omega
  have hb := lineLoop_best (linTotal (merged gs)) ridge v (List.range n) []
    (fun f _ => fit_nonneg gs hne ridge v hr f (hv f)) none rfl
  unfold lineLeaf at hl
  dsimp only at hl
  split at hl
  · cases hl
  rw [hl, List.nil_append] at hb
  obtain ⟨h1, h2, h3⟩ := hb
  constructor
  · have h4 := fit_nonneg gs hne ridge v hr l.f (hv _)
    rw [← h2] at h4
    exact h4
  · refine (h3 0 (List.mem_range.2 hsz.2)).trans ?_
    rw [linTotal_merged]
    exact lineFit_le _ hne ridge v hr 0 (hv 0)

theorem bestLine_spec (hmls : 1 ≤ mls) (hr : 0 ≤ ridge) {D : Data} :
    ((bestLine n mls ridge rows T D).isSome ↔ mls ≤ (rowsOf rows D).length ∧ 0 < n) ∧
    ∀ l, bestLine n mls ridge rows T D = some l → 0 ≤ l.cost ∧ l.cost ≤ sumSq rows D := by
  unfold bestLine sumSq rowsOf
  rw [map_stats rows D]
  have hv : ∀ f, 0 ≤ lineVariance (T.map fun i => stats rows i.id) f := fun f => by
    rw [map_stats]; exact line_variance_nonneg _ f
  generalize lineVariance (T.map fun i => stats rows i.id) = v at hv
  exact ⟨line_leaf_exists _ n mls hmls ridge v hr fun f _ => hv f, fun l hl => lineLeaf_spec hmls hr _ v hv l hl⟩

/-- The task on these rows. -/
abbrev lines (nF n mls q : Nat) (ridge ccp : Rat) (Y : List Rat) (rows : Nat → List LinRow) (T : Data) (o : Options) (red : Nat → Bool) : Task :=
  lineTask nF n mls q ridge ccp Y (stats rows) T o red

theorem lines_leaf (D : Data) : (lines nF n mls q ridge ccp Y rows T o red).leaf D =
    (bestLine n mls ridge rows T D).map fun l => (q * l.cost : Rat).floor := rfl

theorem lines_weight (D : Data) : (lines nF n mls q ridge ccp Y rows T o red).weight D = (rowsOf rows D).length := by
  show (D.map fun i => (stats rows i.id).w.floor.toNat).sum = _
  unfold rowsOf
  rw [List.length_flatten, List.map_map]
  congr 1
  apply List.map_congr_left
  intro i _
  dsimp only [Function.comp, stats]
  rw [linTotal_rows]
  dsimp only
  rw [show ((rows i.id).length : Rat) = (((rows i.id).length : Int) : Rat) from rfl, Rat.floor_intCast]
  rfl

/-- Price of a branching node. -/
def price (ccp : Rat) (rows : Nat → List LinRow) (T : Data) : Rat := linePrice ccp (linTotal (T.map fun i => stats rows i.id))

theorem lines_bc : (lines nF n mls q ridge ccp Y rows T o red).c.P.bc = (q * price ccp rows T).floor := rfl

theorem price_bounds (hc : 0 ≤ ccp) : 0 ≤ price ccp rows T ∧ price ccp rows T ≤ ccp * sumSq rows T := by
  unfold price linePrice
  rw [total_stats]
  have hs := sumSq_nonneg rows T
  by_cases hne : rowsOf rows T = []
  · unfold sumSq at *
    rw [hne]
    simp [linTotal, LinStat.zero]
  have hw : (0 : Rat) < (linTotal ((rowsOf rows T).map LinStat.ofRow)).w := by
    rw [linTotal_rows]; dsimp only; exact_mod_cast List.length_pos_iff.2 hne
  have hysq : (linTotal ((rowsOf rows T).map LinStat.ofRow)).ysq = sumSq rows T := by rw [linTotal_rows]; rfl
  have h1 := lineError_nonneg (rowsOf rows T) 0 (fun _ => 0) (le_refl _) 0 (le_refl _) 0
    ((linTotal ((rowsOf rows T).map LinStat.ofRow)).y / (linTotal ((rowsOf rows T).map LinStat.ofRow)).w)
  rw [lineError_eq, statError, hysq] at h1
  rw [hysq]
  generalize linTotal ((rowsOf rows T).map LinStat.ofRow) = s at hw h1 ⊢
  have e : sumSq rows T - s.y * s.y / s.w = sumSq rows T - 2 * 0 * s.yx 0 - 2 * (s.y / s.w) * s.y + 0 * 0 * s.xsq 0 + 2 * 0 * (s.y / s.w) * s.x 0 +
      s.w * (s.y / s.w) * (s.y / s.w) + 0 * 0 * 0 * 0 := by field_simp; ring
  rw [← e] at h1
  have h2 : 0 ≤ s.y * s.y / s.w := div_nonneg (mul_self_nonneg _) hw.le
  exact ⟨mul_nonneg hc h1, mul_le_mul_of_nonneg_left (by linarith) hc⟩

theorem rowsOf_split (rows : Nat → List LinRow) (f : Nat) (D : Data) :
    (rowsOf rows D).length = (rowsOf rows (without f D)).length + (rowsOf rows (having f D)).length := by
  induction D with
  | nil => rfl
  | cons i D ih =>
    have e : ∀ D : Data, rowsOf rows (i :: D) = rows i.id ++ rowsOf rows D := fun D => by
      unfold rowsOf; rw [List.map_cons, List.flatten_cons]
    rw [e, List.length_append]
    unfold without having at *
    cases h : i.feat f
    · rw [List.filter_cons_of_pos (by rw [h]; rfl), List.filter_cons_of_neg (by rw [h]; simp), e, List.length_append]; omega
    · rw [List.filter_cons_of_neg (by rw [h]; simp), List.filter_cons_of_pos (by simpa using h), e, List.length_append]; omega

/-- A legal tree has at most as many leaves as rows. -/
theorem cost_bound {p : Task} (hbc : 0 ≤ p.c.P.bc) (hmls : 1 ≤ p.c.mls) {M : Int} (hM : 0 ≤ M)
    (hsp : ∀ f D, ViewOf T D → p.weight D = p.weight (without f D) + p.weight (having f D))
    (hl : ∀ D, ViewOf T D → ∀ v, p.leaf D = some v → v ≤ M) (t : Tree) {D : Data} (hD : ViewOf T D) (h : p.fitting.Legal t D) :
    p.fitting.cost t D ≤ p.weight D * (p.c.P.bc + M) - p.c.P.bc ∧ 1 ≤ p.weight D := by
  induction t generalizing D with
  | leaf k =>
    obtain ⟨h1, h2⟩ := h
    have h1 : p.c.mls ≤ p.weight D := h1
    obtain ⟨v, hv⟩ := Option.isSome_iff_exists.1 h2
    have hv : p.leaf D = some v := hv
    rw [leaf_cost hv]
    have h3 := hl D hD v hv
    have hw : 1 ≤ p.weight D := by omega
    have h4 : 1 * (p.c.P.bc + M) ≤ p.weight D * (p.c.P.bc + M) :=
      Int.mul_le_mul_of_nonneg_right (by exact_mod_cast hw) (by omega)
    exact ⟨by omega, hw⟩
  | node f l r ihl ihr =>
    obtain ⟨h1, _⟩ := ihl ((without_sublist f D).trans hD) h.2.1
    obtain ⟨h2, h3⟩ := ihr ((having_sublist f D).trans hD) h.2.2
    have e : p.fitting.bc = p.c.P.bc := rfl
    rw [hsp f D hD]
    simp only [Fitting.cost, e]
    push_cast
    constructor
    · rw [Int.add_mul]; omega
    · omega

theorem floor_bounds {x : Rat} (hx : 0 ≤ x) : 0 ≤ x.floor ∧ (x.floor : Rat) ≤ x := ⟨Rat.le_floor_iff.2 (by simpa using hx), Rat.floor_le x⟩

theorem lines_fair (hs : IdSorted T) (hl : ∀ i ∈ T, i.label = 0) (ho : ∀ D f, f ∈ o.order D → f < nF) :
    Fair (lines nF n mls q ridge ccp Y rows T o red) T :=
  ⟨hs, fun i hi => by rw [hl i hi]; exact Nat.one_pos, ho⟩

theorem lines_worst : (((lines nF n mls q ridge ccp Y rows T o red).c.worst : Int) : Rat) = q * largestDouble := by
  show (((q * largestDouble : Nat) : Int) : Rat) = _
  push_cast; rfl

theorem lines_split (f : Nat) (D : Data) : (lines nF n mls q ridge ccp Y rows T o red).weight D =
    (lines nF n mls q ridge ccp Y rows T o red).weight (without f D) + (lines nF n mls q ridge ccp Y rows T o red).weight (having f D) := by
  rw [lines_weight, lines_weight, lines_weight, rowsOf_split rows f D]

theorem lines_price (hc : 0 ≤ ccp) : 0 ≤ (lines nF n mls q ridge ccp Y rows T o red).c.P.bc := by
  rw [lines_bc]
  exact (floor_bounds (mul_nonneg (by exact_mod_cast Nat.zero_le _) (price_bounds (rows := rows) (T := T) hc).1)).1

theorem lines_leaf_nonneg (hmls : 1 ≤ mls) (hr : 0 ≤ ridge) {D : Data} {v : Int}
    (h : (lines nF n mls q ridge ccp Y rows T o red).leaf D = some v) : 0 ≤ v := by
  rw [lines_leaf] at h
  obtain ⟨l, hl, rfl⟩ := Option.map_eq_some_iff.1 h
  have h1 := ((bestLine_spec (n := n) (mls := mls) (rows := rows) (T := T) hmls hr (D := D)).2 l hl).1
  exact (floor_bounds (mul_nonneg (by exact_mod_cast Nat.zero_le _) h1)).1

theorem lines_leaf_isSome (hn : 0 < n) (hmls : 1 ≤ mls) (hr : 0 ≤ ridge) {D : Data}
    (hw : mls ≤ (lines nF n mls q ridge ccp Y rows T o red).weight D) :
    ((lines nF n mls q ridge ccp Y rows T o red).leaf D).isSome = true := by
  rw [lines_weight] at hw
  rw [lines_leaf, Option.isSome_map]
  exact (bestLine_spec (n := n) (mls := mls) (rows := rows) (T := T) hmls hr (D := D)).1.2 ⟨hw, hn⟩

/-- The cost of a legal tree. -/
theorem lines_cost (hmls : 1 ≤ mls) (hr : 0 ≤ ridge) (hc : 0 ≤ ccp) {D : Data} (hD : ViewOf T D) {t : Tree}
    (ht : (lines nF n mls q ridge ccp Y rows T o red).fitting.Legal t D) :
    ((lines nF n mls q ridge ccp Y rows T o red).fitting.cost t D : Rat) ≤ q * ((rowsOf rows T).length * ((ccp + 1) * sumSq rows T)) := by
  have hq' : (0 : Rat) ≤ q := by exact_mod_cast Nat.zero_le _
  obtain ⟨pr0, pr1⟩ := price_bounds (rows := rows) (T := T) hc
  obtain ⟨bc0, bc1⟩ := floor_bounds (mul_nonneg hq' pr0)
  have sq0 := sumSq_nonneg rows T
  obtain ⟨M0, M1⟩ := floor_bounds (mul_nonneg hq' sq0)
  obtain ⟨h1, h2⟩ := cost_bound (T := T) (p := lines nF n mls q ridge ccp Y rows T o red) (M := (q * sumSq rows T : Rat).floor) bc0 hmls M0
    (fun f D _ => lines_split f D)
    (fun D hD v hv => by
      rw [lines_leaf] at hv
      obtain ⟨l, hl, rfl⟩ := Option.map_eq_some_iff.1 hv
      have h3 := ((bestLine_spec (n := n) (mls := mls) (rows := rows) (T := T) hmls hr (D := D)).2 l hl).2
      exact Rat.floor_monotone (mul_le_mul_of_nonneg_left (h3.trans (sumSq_mono rows hD)) hq')) t hD ht
  rw [lines_bc, lines_weight] at h1
  generalize (lines nF n mls q ridge ccp Y rows T o red).fitting.cost t D = C at h1
  have h1 : (C : Rat) ≤ (rowsOf rows D).length * ((q * price ccp rows T).floor + (q * sumSq rows T : Rat).floor) := by
    have h5 : C ≤ (rowsOf rows D).length * ((q * price ccp rows T).floor + (q * sumSq rows T : Rat).floor) := by omega
    exact_mod_cast h5
  have h3 : ((rowsOf rows D).length : Rat) ≤ (rowsOf rows T).length := by exact_mod_cast (rowsOf_sublist rows hD).length_le
  have h4 : (((q * price ccp rows T).floor : Int) : Rat) + (((q * sumSq rows T : Rat).floor : Int) : Rat) ≤ q * ((ccp + 1) * sumSq rows T) := by
    have : (q : Rat) * price ccp rows T ≤ q * (ccp * sumSq rows T) := mul_le_mul_of_nonneg_left pr1 hq'
    nlinarith
  have h0 : (0 : Rat) ≤ (rowsOf rows D).length := by exact_mod_cast Nat.zero_le _
  have h6 : (0 : Rat) ≤ q * ((ccp + 1) * sumSq rows T) := mul_nonneg hq' (mul_nonneg (by linarith) sq0)
  calc (C : Rat) ≤ _ := h1
    _ ≤ (rowsOf rows D).length * (q * ((ccp + 1) * sumSq rows T)) := mul_le_mul_of_nonneg_left h4 h0
    _ ≤ (rowsOf rows T).length * (q * ((ccp + 1) * sumSq rows T)) := mul_le_mul_of_nonneg_right h3 h6
    _ = _ := by ring

theorem lines_open (hn : 0 < n) (hmls : 1 ≤ mls) (hq : 0 < q) (hr : 0 ≤ ridge) (hc : 0 ≤ ccp)
    (hlb : o.useLB = false) (hub : o.useUB = true) (hall : ∀ D f, f < nF → f ∈ o.order D)
    (hred : ∀ f, red f = true → without f T = [] ∨ having f T = [])
    (hbig : tol ^ (nF + 1) * ((rowsOf rows T).length * ((ccp + 1) * sumSq rows T)) < largestDouble) :
    Open (lines nF n mls q ridge ccp Y rows T o red) T := by
  have hq' : (0 : Rat) < q := by exact_mod_cast hq
  refine ⟨hlb, hub, rfl, lines_price hc, hmls, Nat.zero_le _, rfl, fun f D _ => lines_split f D, fun D _ hw => ?_, hall, hred,
    fun D hD t ht => ?_⟩
  · obtain ⟨v, hv⟩ := Option.isSome_iff_exists.1 (lines_leaf_isSome hn hmls hr hw)
    exact ⟨v, hv, lines_leaf_nonneg hmls hr hv⟩
  · rw [lines_worst]
    have h7 : (0 : Rat) ≤ tol ^ (nF + 1) := pow_nonneg tol_pos.le _
    calc tol ^ (nF + 1) * _ ≤ tol ^ (nF + 1) * (q * ((rowsOf rows T).length * ((ccp + 1) * sumSq rows T))) :=
          mul_le_mul_of_nonneg_left (lines_cost hmls hr hc hD ht) h7
      _ = q * (tol ^ (nF + 1) * ((rowsOf rows T).length * ((ccp + 1) * sumSq rows T))) := by ring
      _ < q * largestDouble := mul_lt_mul_of_pos_left hbig hq'

/-- The unit divides all prices and costs. -/
def Exact (q : Nat) (pr : Rat) (leaf : Data → Option LineLeaf) (T : Data) : Prop :=
  (∃ z : Int, q * pr = z) ∧ ∀ D, ViewOf T D → ∀ l, leaf D = some l → ∃ z : Int, (q : Rat) * l.cost = z

theorem exact_floor {x : Rat} (h : ∃ z : Int, x = z) : (x.floor : Rat) = x := by
  obtain ⟨z, rfl⟩ := h
  rw [Rat.floor_intCast]

end
end Streed.Pw
