import Verif.Model.SurvFit
import Verif.SurvSpec
import Verif.Props.RealTree
import Verif.Props.Survival
import Verif.Lemmas.PlainReg

/-!
The cost of a survival leaf is the least over the hazard ratios of all parts.
-/

namespace Streed

/-- What a row contributes to a leaf with hazard ratio `theta`. -/
def rowLoss (lg : Rat → Rat) (theta : Rat) (r : SRow) : Rat :=
  if r.ev then -lg r.hz - (lg theta + 1) + theta * r.hz else theta * r.hz

theorem sSums_aux (lg : Rat → Rat) (D : List SRow) (a : Rat) (b : Nat) (c : Rat) :
    D.foldl (fun s i => if i.ev then (s.1 + i.hz, s.2.1 + 1, s.2.2 + -lg i.hz) else (s.1 + i.hz, s.2.1, s.2.2)) (a, b, c) =
      (a + (D.map (·.hz)).sum, b + D.countP (·.ev), c + ((D.filter (·.ev)).map fun i => -lg i.hz).sum) := by
  induction D generalizing a b c with
  | nil => simp
  | cons i D ih =>
    rw [List.foldl_cons]
    cases h : i.ev
    · rw [if_neg (by simp), ih, List.filter_cons_of_neg (by simp [h]), List.countP_cons_of_neg (by simp [h])]
      simp [add_assoc]
    · rw [if_pos rfl, ih, List.filter_cons_of_pos (by simpa using h), List.countP_cons_of_pos (by simpa using h)]
      simp only [List.map_cons, List.sum_cons, Prod.mk.injEq]
      refine ⟨by ring, by omega, by ring⟩

theorem sSums_eq (lg : Rat → Rat) (D : List SRow) :
    sSums lg D = ((D.map (·.hz)).sum, D.countP (·.ev), ((D.filter (·.ev)).map fun i => -lg i.hz).sum) := by
  unfold sSums; rw [sSums_aux]; simp

theorem rowLoss_sum (lg : Rat → Rat) (theta : Rat) (D : List SRow) :
    (D.map (rowLoss lg theta)).sum = (sSums lg D).2.2 - (sSums lg D).2.1 * (lg theta + 1) + theta * (sSums lg D).1 := by
  rw [sSums_eq]
  induction D with
  | nil => simp
  | cons i D ih =>
    rw [List.map_cons, List.sum_cons, ih]
    cases h : i.ev
    · rw [List.filter_cons_of_neg (by simp [h]), List.countP_cons_of_neg (by simp [h])]
      simp only [rowLoss, h, List.map_cons, List.sum_cons]
      simp; ring
    · rw [List.filter_cons_of_pos (by simpa using h), List.countP_cons_of_pos (by simpa using h)]
      simp only [rowLoss, h, List.map_cons, List.sum_cons]
      push_cast
      ring

theorem hazard_sum_pos {D : List SRow} (hD : D ≠ []) (h : ∀ r ∈ D, 0 < r.hz) : 0 < (D.map (·.hz)).sum := by
  refine List.sum_pos _ (fun x hx => ?_) (by simpa using hD)
  obtain ⟨r, hr, rfl⟩ := List.mem_map.1 hx
  exact h r hr

/-- The hazard ratio of a part. -/
def ratioOf (lg : Rat → Rat) (R : Nat → SRow) (D : Data) : Rat := (sLeaf lg (D.map fun i => R i.id)).1

/-- Number of events of a part. -/
def eventsOf (lg : Rat → Rat) (R : Nat → SRow) (D : Data) : Nat := (sSums lg (D.map fun i => R i.id)).2.1

/-- The numbers whose logarithm is taken: hazards of rows, and hazard ratios of parts with an event. -/
def SurvArg (lg : Rat → Rat) (R : Nat → SRow) (T : Data) (x : Rat) : Prop :=
  (∃ i ∈ T, x = (R i.id).hz) ∨ ∃ D, ViewOf T D ∧ D ≠ [] ∧ eventsOf lg R D ≠ 0 ∧ x = ratioOf lg R D

/-- `lg` is on these numbers below the tangents of the logarithm. -/
def LogOn (lg : Rat → Rat) (X : Rat → Prop) : Prop :=
  ∀ a b, X a → X b → lg a - lg b ≤ a / b - 1 ∧ lg a + lg b ≤ a * b - 1

/-- Hazards are positive, `lg` behaves like a logarithm, and costs are multiples of `1 / q`. -/
structure SurvOK (q : Nat) (lg : Rat → Rat) (R : Nat → SRow) (T : Data) : Prop where
  pos : 0 < q
  hz : ∀ i ∈ T, 0 < (R i.id).hz
  log : LogOn lg (SurvArg lg R T)
  unit : ∀ i ∈ T, ∀ S ∈ survParts T, (q * survLossOf lg R T S i.id).den = 1

theorem mem_parts {T D : Data} : D ∈ survParts T ↔ ViewOf T D ∧ D ≠ [] := by
  unfold survParts
  rw [List.mem_filter, List.mem_sublists]
  simp [ViewOf]

section
variable {nF q mls : Nat} {lg : Rat → Rat} {R : Nat → SRow} {T : Data}

theorem survLossOf_eq (S : Data) (i : Nat) : survLossOf lg R T S i =
    if eventsOf lg R S = 0 then if (R i).ev then survTop lg R T else 0 else rowLoss lg (ratioOf lg R S) (R i) := rfl

theorem survCost_nonneg (D : Data) : 0 ≤ survCost lg R D := le_max_left _ _

theorem foldl_max_ge (l : List Rat) (a : Rat) : a ≤ l.foldl max a ∧ ∀ x ∈ l, x ≤ l.foldl max a := by
  induction l generalizing a with
  | nil => simp
  | cons y l ih =>
    rw [List.foldl_cons]
    refine ⟨(le_max_left _ _).trans (ih _).1, fun x hx => ?_⟩
    rcases List.mem_cons.1 hx with rfl | hx
    · exact (le_max_right _ _).trans (ih _).1
    · exact (ih _).2 x hx

theorem survTop_nonneg : 0 ≤ survTop lg R T := (foldl_max_ge _ 0).1

theorem survTop_ge {D : Data} (h : ViewOf T D) (hD : D ≠ []) : survCost lg R D ≤ survTop lg R T :=
  (foldl_max_ge _ 0).2 _ (List.mem_map.2 ⟨D, mem_parts.2 ⟨h, hD⟩, rfl⟩)

theorem ratio_events {D : Data} (h : eventsOf lg R D ≠ 0) :
    ratioOf lg R D = eventsOf lg R D / (sSums lg (D.map fun i => R i.id)).1 := by
  unfold ratioOf sLeaf
  exact if_neg h

theorem ratio_pos (hz : ∀ i ∈ T, 0 < (R i.id).hz) {D : Data} (hD : ViewOf T D) (h : eventsOf lg R D ≠ 0) :
    0 < (sSums lg (D.map fun i => R i.id)).1 ∧ 0 < ratioOf lg R D := by
  have hne : (D.map fun i => R i.id) ≠ [] := by
    intro e; apply h; unfold eventsOf; rw [e]; rfl
  have h1 : 0 < (sSums lg (D.map fun i => R i.id)).1 := by
    rw [sSums_eq]
    refine hazard_sum_pos hne fun r hr => ?_
    obtain ⟨i, hi, rfl⟩ := List.mem_map.1 hr
    exact hz i (hD.subset hi)
  refine ⟨h1, ?_⟩
  rw [ratio_events h]
  have : (0 : Rat) < eventsOf lg R D := by exact_mod_cast Nat.pos_of_ne_zero h
  exact div_pos this h1

/-- The contribution of a row is not negative. -/
theorem loss_of_nonneg (H : SurvOK q lg R T) {S : Data} (hS : S ∈ survParts T) {i : Inst} (hi : i ∈ T) : 0 ≤ survLossOf lg R T S i.id := by
  rw [survLossOf_eq]
  split
  · split
    · exact survTop_nonneg
    · exact le_refl _
  · rename_i he
    obtain ⟨hv, hne⟩ := mem_parts.1 hS
    have h1 := (ratio_pos H.hz hv he).2
    have h2 := H.hz i hi
    unfold rowLoss
    split
    · have := (H.log (R i.id).hz (ratioOf lg R S) (.inl ⟨i, hi, rfl⟩) (.inr ⟨S, hv, hne, he, rfl⟩)).2
      rw [mul_comm] at this
      linarith
    · exact (mul_pos h1 h2).le

theorem surv_cost (H : SurvOK q lg R T) {i : Inst} (hi : i ∈ T) {k : Nat} (hk : k < (survParts T).length) :
    ((survProblem nF q lg R T).cost i k : Rat) = q * survLossOf lg R T ((survParts T).getD k []) i.id := by
  show (((q * max 0 (survLossOf lg R T ((survParts T).getD k []) i.id) : Rat).num : Int) : Rat) = _
  have hS : (survParts T).getD k [] ∈ survParts T := by rw [List.getD_eq_getElem _ _ hk]; exact List.getElem_mem hk
  rw [max_eq_right (loss_of_nonneg H hS hi)]
  exact (Rat.den_eq_one_iff _).1 (H.unit i hi _ hS)

theorem surv_leafCost (H : SurvOK q lg R T) {D : Data} (hD : ViewOf T D) {k : Nat} (hk : k < (survParts T).length) :
    ((leafCost (survProblem nF q lg R T) D k : Int) : Rat) =
      q * (D.map fun i => survLossOf lg R T ((survParts T).getD k []) i.id).sum := by
  have h : ∀ i ∈ D, i ∈ T := fun i hi => hD.subset hi
  unfold leafCost
  clear hD
  induction D with
  | nil => simp
  | cons i D ih =>
    rw [List.map_cons, List.sum_cons, List.map_cons, List.sum_cons]
    push_cast
    have := ih fun j hj => h j (List.mem_cons_of_mem _ hj)
    push_cast at this
    rw [this, surv_cost H (h i (List.mem_cons_self ..)) hk]
    ring

/-- Without an event in the part: the rows with an event cost the most, the others nothing. -/
theorem loss_sum_none {S : Data} (he : eventsOf lg R S = 0) (D : Data) :
    (D.map fun i => survLossOf lg R T S i.id).sum = eventsOf lg R D * survTop lg R T := by
  have hd : eventsOf lg R D = (D.map fun i => R i.id).countP (·.ev) := by unfold eventsOf; rw [sSums_eq]
  rw [hd]; clear hd
  induction D with
  | nil => simp
  | cons i D ih =>
    rw [List.map_cons, List.sum_cons, ih, List.map_cons, survLossOf_eq, if_pos he]
    cases h : (R i.id).ev
    · rw [List.countP_cons_of_neg (by simp [h])]; simp
    · rw [List.countP_cons_of_pos (by simpa using h)]; push_cast; simp; ring

theorem loss_sum_some {S : Data} (he : eventsOf lg R S ≠ 0) (D : Data) :
    (D.map fun i => survLossOf lg R T S i.id).sum = (sSums lg (D.map fun i => R i.id)).2.2 -
      eventsOf lg R D * (lg (ratioOf lg R S) + 1) + ratioOf lg R S * (sSums lg (D.map fun i => R i.id)).1 := by
  have : (D.map fun i => survLossOf lg R T S i.id) = (D.map fun i => R i.id).map (rowLoss lg (ratioOf lg R S)) := by
    rw [List.map_map]
    refine List.map_congr_left fun i _ => ?_
    rw [survLossOf_eq, if_neg he]; rfl
  rw [this, rowLoss_sum]; rfl

/-- The rows of a part, with its own hazard ratio, cost what `SolveLeafNode` says. -/
theorem loss_sum_own (H : SurvOK q lg R T) {D : Data} (hD : ViewOf T D) (hne : D ≠ []) :
    (D.map fun i => survLossOf lg R T D i.id).sum = survCost lg R D := by
  have h0 : 0 ≤ (D.map fun i => survLossOf lg R T D i.id).sum := by
    refine List.sum_nonneg fun x hx => ?_
    obtain ⟨i, hi, rfl⟩ := List.mem_map.1 hx
    exact loss_of_nonneg H (mem_parts.2 ⟨hD, hne⟩) (hD.subset hi)
  have h1 : survCost lg R D = max 0 ((sSums lg (D.map fun i => R i.id)).2.2 - eventsOf lg R D * lg (ratioOf lg R D)) := rfl
  by_cases he : eventsOf lg R D = 0
  · rw [loss_sum_none he, he, h1, he]
    have : (sSums lg (D.map fun i => R i.id)).2.2 = 0 := by
      have he' : (D.map fun i => R i.id).countP (·.ev) = 0 := by
        have := he; unfold eventsOf at this; rwa [sSums_eq] at this
      rw [sSums_eq]
      have : (D.map fun i => R i.id).filter (·.ev) = [] := by
        rw [List.filter_eq_nil_iff]
        exact List.countP_eq_zero.1 he'
      simp only [this, List.map_nil, List.sum_nil]
    rw [this]; simp
  · obtain ⟨h2, h3⟩ := ratio_pos H.hz hD he
    rw [loss_sum_some he] at h0 ⊢
    have h4 : ratioOf lg R D * (sSums lg (D.map fun i => R i.id)).1 = eventsOf lg R D := by
      rw [ratio_events he]; field_simp
    rw [h4] at h0 ⊢
    rw [h1, max_eq_right (by linarith)]
    ring

/-- No other hazard ratio is better. -/
theorem loss_sum_ge (H : SurvOK q lg R T) {D : Data} (hD : ViewOf T D) (hne : D ≠ []) {S : Data} (hS : S ∈ survParts T) :
    survCost lg R D ≤ (D.map fun i => survLossOf lg R T S i.id).sum := by
  obtain ⟨hv, hSne⟩ := mem_parts.1 hS
  have h0 : 0 ≤ (D.map fun i => survLossOf lg R T S i.id).sum := by
    refine List.sum_nonneg fun x hx => ?_
    obtain ⟨i, hi, rfl⟩ := List.mem_map.1 hx
    exact loss_of_nonneg H hS (hD.subset hi)
  rw [← loss_sum_own H hD hne]
  by_cases he : eventsOf lg R D = 0
  · rw [loss_sum_none he, he]; simpa using h0
  · by_cases hs : eventsOf lg R S = 0
    · rw [loss_sum_own H hD hne, loss_sum_none hs]
      have h1 : (1 : Rat) ≤ eventsOf lg R D := by exact_mod_cast Nat.one_le_iff_ne_zero.2 he
      exact (survTop_ge hD hne).trans (le_mul_of_one_le_left survTop_nonneg h1)
    · obtain ⟨h2, h3⟩ := ratio_pos H.hz hD he
      have h5 := (H.log (ratioOf lg R S) (ratioOf lg R D) (.inr ⟨S, hv, hSne, hs, rfl⟩) (.inr ⟨D, hD, hne, he, rfl⟩)).1
      rw [loss_sum_some he, loss_sum_some hs]
      have h4 : ratioOf lg R D * (sSums lg (D.map fun i => R i.id)).1 = eventsOf lg R D := by
        rw [ratio_events he]; field_simp
      have h6 : (eventsOf lg R D : Rat) * (ratioOf lg R S / ratioOf lg R D) = ratioOf lg R S * (sSums lg (D.map fun i => R i.id)).1 := by
        rw [← h4]; field_simp
      have h7 : (0 : Rat) ≤ eventsOf lg R D := Nat.cast_nonneg _
      have h8 := mul_le_mul_of_nonneg_left h5 h7
      rw [mul_sub, mul_sub, h6] at h8
      rw [h4]
      linarith

/-! ### Trees -/

theorem surv_nonneg (i : Inst) (k : Nat) : 0 ≤ (survProblem nF q lg R T).cost i k := by
  show 0 ≤ (q * max 0 (survLossOf lg R T ((survParts T).getD k []) i.id) : Rat).num
  exact Rat.num_nonneg.2 (mul_nonneg (Nat.cast_nonneg _) (le_max_left _ _))

theorem surv_featureFree : FeatureFree (survProblem nF q lg R T) := fun _ _ _ => rfl

theorem parts_pos (hT : T ≠ []) : 0 < (survParts T).length := List.length_pos_of_mem (mem_parts.2 ⟨List.Sublist.refl T, hT⟩)

theorem grouped_of_legal {t : Tree} {D : Data} (h : t.Legal (survProblem nF q lg R T) mls D) : Grouped nF mls t D := by
  induction t generalizing D with
  | leaf k => exact h.2
  | node f l r ihl ihr => exact ⟨h.1, ihl h.2.2.1, ihr h.2.2.2⟩

theorem groupCost_le (H : SurvOK q lg R T) (hmls : 1 ≤ mls) {t : Tree} {D : Data} (hD : ViewOf T D)
    (h : t.Legal (survProblem nF q lg R T) mls D) :
    q * groupCost (survCost lg R) t D ≤ ((t.cost (survProblem nF q lg R T) D : Int) : Rat) := by
  have hq : (0 : Rat) ≤ q := Nat.cast_nonneg _
  induction t generalizing D with
  | leaf k =>
    have hk : k < (survParts T).length := h.1
    have hl : mls ≤ D.length := h.2
    have hne : D ≠ [] := by rintro rfl; simp at hl; omega
    simp only [Tree.cost, groupCost]
    rw [surv_leafCost H hD hk]
    refine mul_le_mul_of_nonneg_left (loss_sum_ge H hD hne ?_) hq
    rw [List.getD_eq_getElem _ _ hk]; exact List.getElem_mem hk
  | node f l r ihl ihr =>
    have h1 := ihl (D := without f D) (List.filter_sublist.trans hD) h.2.2.1
    have h2 := ihr (D := having f D) (List.filter_sublist.trans hD) h.2.2.2
    simp only [Tree.cost, groupCost]
    have hb : (survProblem nF q lg R T).bc = 0 := rfl
    rw [hb]; push_cast; rw [mul_add]
    linarith

/-- With the best labels the cost is that of the groups. -/
theorem groupCost_eq (H : SurvOK q lg R T) (hmls : 1 ≤ mls) {t : Tree} {D : Data} (hD : ViewOf T D)
    (h : t.Legal (survProblem nF q lg R T) mls D) (hb : BestLeaves (survProblem nF q lg R T) t D) :
    ((t.cost (survProblem nF q lg R T) D : Int) : Rat) = q * groupCost (survCost lg R) t D := by
  refine le_antisymm ?_ (groupCost_le H hmls hD h)
  induction t generalizing D with
  | leaf k =>
    have hl : mls ≤ D.length := h.2
    have hne : D ≠ [] := by rintro rfl; simp at hl; omega
    obtain ⟨j, hj, e⟩ := List.getElem_of_mem (mem_parts.2 ⟨hD, hne⟩)
    have h1 := hb j hj
    have h2 : ((leafCost (survProblem nF q lg R T) D k : Int) : Rat) ≤ (leafCost (survProblem nF q lg R T) D j : Int) := by exact_mod_cast h1
    rw [surv_leafCost H hD hj, List.getD_eq_getElem _ _ hj, e, loss_sum_own H hD hne] at h2
    exact h2
  | node f l r ihl ihr =>
    have h1 := ihl (D := without f D) (List.filter_sublist.trans hD) h.2.2.1 hb.1
    have h2 := ihr (D := having f D) (List.filter_sublist.trans hD) h.2.2.2 hb.2
    simp only [Tree.cost, groupCost]
    have hbc : (survProblem nF q lg R T).bc = 0 := rfl
    rw [hbc]; push_cast; rw [mul_add]
    linarith

/-- Every tree of groups is matched by a tree of the search. -/
theorem snap_group (H : SurvOK q lg R T) (hmls : 1 ≤ mls) (t : Tree) {D : Data} (hD : ViewOf T D) (h : Grouped nF mls t D) :
    ∃ x : Tree, x.Legal (survProblem nF q lg R T) mls D ∧ x.depth = t.depth ∧ x.nodes = t.nodes ∧
      ((x.cost (survProblem nF q lg R T) D : Int) : Rat) = q * groupCost (survCost lg R) t D := by
  induction t generalizing D with
  | leaf k =>
    have hl : mls ≤ D.length := h
    have hne : D ≠ [] := by rintro rfl; simp at hl; omega
    obtain ⟨j, hj, e⟩ := List.getElem_of_mem (mem_parts.2 ⟨hD, hne⟩)
    refine ⟨.leaf j, ⟨hj, hl⟩, rfl, rfl, ?_⟩
    simp only [Tree.cost, groupCost]
    rw [surv_leafCost H hD hj, List.getD_eq_getElem _ _ hj, e, loss_sum_own H hD hne]
  | node f l r ihl ihr =>
    obtain ⟨x, a1, a2, a3, a4⟩ := ihl (D := without f D) (List.filter_sublist.trans hD) h.2.1
    obtain ⟨y, b1, b2, b3, b4⟩ := ihr (D := having f D) (List.filter_sublist.trans hD) h.2.2
    refine ⟨.node f x y, ⟨h.1, rfl, a1, b1⟩, by simp only [Tree.depth, a2, b2], by simp only [Tree.nodes, a3, b3], ?_⟩
    have hbc : (survProblem nF q lg R T).bc = 0 := rfl
    simp only [Tree.cost, groupCost, hbc]
    push_cast
    rw [a4, b4]; ring

theorem leastGroup_of_isOpt (H : SurvOK q lg R T) (hmls : 1 ≤ mls) {d n : Nat} {v : Int}
    (h : IsOpt (survProblem nF q lg R T) mls d n T v) : LeastGroup nF mls d n (survCost lg R) T (v / q) := by
  have hq : (0 : Rat) < q := by exact_mod_cast H.pos
  obtain ⟨⟨t, ⟨h1, h2, h3⟩, h4⟩, h5⟩ := h
  have key : ∀ t : Tree, t.depth ≤ d → t.nodes ≤ n → Grouped nF mls t T → (v : Rat) / q ≤ groupCost (survCost lg R) t T := by
    intro x hd hn hx
    obtain ⟨y, b1, b2, b3, b4⟩ := snap_group H hmls x (List.Sublist.refl T) hx
    have h6 := h5 y ⟨by omega, by omega, b1⟩
    have h7 : (v : Rat) ≤ ((y.cost (survProblem nF q lg R T) T : Int) : Rat) := by exact_mod_cast h6
    rw [div_le_iff₀ hq]
    linarith
  refine ⟨⟨t, h1, h2, grouped_of_legal h3, le_antisymm ?_ (key t h1 h2 (grouped_of_legal h3))⟩, key⟩
  have := groupCost_le H hmls (List.Sublist.refl T) h3
  rw [h4] at this
  rw [le_div_iff₀ hq]
  linarith

/-- Groups do not depend on features, so undoing flips does not change the total. -/
theorem prep_group {P : Problem} {g : Data → Rat} (fl red : Nat → Bool) (hg : ∀ D : Data, g (D.map (prepInst fl red)) = g D)
    (hmls : 1 ≤ mls) (t : Tree) (D : Data) (ht : t.Legal P mls (D.map (prepInst fl red))) :
    groupCost g t (D.map (prepInst fl red)) = groupCost g (unflip fl t) D := by
  induction t generalizing D with
  | leaf k => exact hg D
  | node f l r ihl ihr =>
    obtain ⟨hf, hm, hl, hr⟩ := ht
    have hred : red f = false := by
      cases h : red f with
      | false => rfl
      | true =>
        have h1 := hr.length
        have h2 : having f (D.map (prepInst fl red)) = [] := by
          unfold having
          apply List.filter_eq_nil_iff.2
          intro i hi
          obtain ⟨j, _, rfl⟩ := List.mem_map.1 hi
          simp [prepInst, h]
        rw [h2] at h1; simp at h1; omega
    unfold unflip
    cases hfl : fl f with
    | false =>
      have e0 : without f (D.map (prepInst fl red)) = (without f D).map (prepInst fl red) := by
        rw [← side_false, ← side_false]
        exact side_prep _ _ _ _ _ _ _ fun i hi => by simp [prepInst, hred, hfl]
      have e1 : having f (D.map (prepInst fl red)) = (having f D).map (prepInst fl red) := by
        rw [← side_true, ← side_true]
        exact side_prep _ _ _ _ _ _ _ fun i hi => by simp [prepInst, hred, hfl]
      rw [e0] at hl; rw [e1] at hr
      simp only [Bool.false_eq_true, if_false, groupCost, e0, e1, ihl _ hl, ihr _ hr]
    | true =>
      have e0 : without f (D.map (prepInst fl red)) = (having f D).map (prepInst fl red) := by
        rw [← side_false, ← side_true]
        exact side_prep _ _ _ _ _ _ _ fun i hi => by simp only [prepInst, hred, hfl]; cases i.feat f <;> rfl
      have e1 : having f (D.map (prepInst fl red)) = (without f D).map (prepInst fl red) := by
        rw [← side_false, ← side_true]
        exact side_prep _ _ _ _ _ _ _ fun i hi => by simp only [prepInst, hred, hfl]; cases i.feat f <;> rfl
      rw [e0] at hl; rw [e1] at hr
      simp only [if_true, groupCost, e0, e1, ihl _ hl, ihr _ hr]
      ring

/-! ### The configuration -/

section
variable {M : Rat} (H : SurvOK q lg R T) (hs : IdSorted T) (hM : ∀ i ∈ T, ∀ S ∈ survParts T, survLossOf lg R T S i.id ≤ M)
include H hM

theorem surv_each {i : Inst} (hi : i ∈ preprocess (survProblem nF q lg R T) mls T) {k : Nat} (hk : k < (survParts T).length) :
    ((survProblem nF q lg R T).cost i k : Rat) ≤ q * M := by
  obtain ⟨j, hj, rfl⟩ := List.mem_map.1 hi
  have : (survProblem nF q lg R T).cost (prepInst (flipped (survProblem nF q lg R T) T) (isRedundant (survProblem nF q lg R T) mls T) j) k =
    (survProblem nF q lg R T).cost j k := rfl
  rw [this, surv_cost H hj hk]
  refine mul_le_mul_of_nonneg_left (hM j hj _ ?_) (Nat.cast_nonneg _)
  rw [List.getD_eq_getElem _ _ hk]; exact List.getElem_mem hk

theorem survM_nonneg (hT : T ≠ []) : 0 ≤ M := by
  obtain ⟨i, hi⟩ := List.exists_mem_of_ne_nil T hT
  have hS := mem_parts.2 ⟨List.Sublist.refl T, hT⟩
  exact (loss_of_nonneg H hS hi).trans (hM i hi T hS)

/-- What a tree costs at most. -/
theorem surv_le (hT : T ≠ []) {D : Data} (hD : ViewOf (preprocess (survProblem nF q lg R T) mls T) D) {t : Tree}
    (ht : t.Legal (survProblem nF q lg R T) mls D) :
    ((t.cost (survProblem nF q lg R T) D : Int) : Rat) ≤ q * (T.length * M) := by
  have hq : (0 : Rat) ≤ q := Nat.cast_nonneg _
  have h1 := cost_le_each (P := survProblem nF q lg R T) rfl (M := q * M) (D := D) t (legal_over_of ht)
    fun i hi k hk => surv_each H hM (hD.subset hi) hk
  have h2 : D.length ≤ T.length := by
    have := hD.length_le
    rwa [preprocess_length] at this
  have h3 : (D.length : Rat) ≤ T.length := by exact_mod_cast h2
  have := mul_le_mul_of_nonneg_right h3 (mul_nonneg hq (survM_nonneg H hM hT))
  linarith

theorem surv_small (hF : T.length * M < largestDouble) (hT : T ≠ []) {D : Data}
    (hD : ViewOf (preprocess (survProblem nF q lg R T) mls T) D) {t : Tree}
    (ht : t.Legal (survProblem nF q lg R T) mls D) : t.cost (survProblem nF q lg R T) D < ((q * largestDouble : Nat) : Int) := by
  have hq : (0 : Rat) < q := by exact_mod_cast H.pos
  have h3 := lt_of_le_of_lt (surv_le H hM hT hD ht) (mul_lt_mul_of_pos_left hF hq)
  have h4 : ((t.cost (survProblem nF q lg R T) D : Int) : Rat) < (((q * largestDouble : Nat) : Int) : Rat) := by
    push_cast; exact h3
  exact_mod_cast h4

theorem survCfg_base (hs : IdSorted T) (hl : ∀ i ∈ T, i.label = 0) (hF : T.length * M < largestDouble) (hT : T ≠ []) {o : Options}
    (ho : ∀ D f, f ∈ o.order D → f < nF) :
    Base (survCfg nF q lg R mls o (isRedundant (survProblem nF q lg R T) mls T) T) (preprocess (survProblem nF q lg R T) mls T) where
  labels := parts_pos hT
  bc := Int.le_refl 0
  nonneg := fun i _ k => surv_nonneg i k
  worst := Int.natCast_nonneg _
  small := fun D hD t ht => surv_small H hM hF hT hD ht
  custom := fun D _ => Int.natCast_nonneg _
  md := Int.le_refl 0
  sorted := preprocess_sorted hs
  inRange := fun i hi => by
    obtain ⟨j, hj, rfl⟩ := List.mem_map.1 hi
    show j.label < _
    rw [hl j hj]; exact parts_pos hT
  order := ho
  worstPer := fun _ => .inl (Int.natCast_nonneg _)
  simInst := fun v hv => by
    have h : (none : Option (Inst → Int)) = some v := hv
    cases h

theorem survCfg_good (hs : IdSorted T) (hl : ∀ i ∈ T, i.label = 0) (hF : T.length * M < largestDouble) (hT : T ≠ []) (hmls : 1 ≤ mls)
    {o : Options} (ho : ∀ D f, f ∈ o.order D ↔ f < nF) (hterm : o.useTerm = true → mls = 1 ∧ o.useUB = true) :
    Good (survCfg nF q lg R mls o (isRedundant (survProblem nF q lg R T) mls T) T) (preprocess (survProblem nF q lg R T) mls T) where
  labels := parts_pos hT
  bc := Int.le_refl 0
  bcLB := fun _ => rfl
  nonneg := fun i _ k => surv_nonneg i k
  small := fun D hD t ht => surv_small H hM hF hT hD ht
  mls := hmls
  term := hterm
  sim := fun h => Bool.noConfusion (show false = true from h)
  sparse := fun h => Bool.noConfusion (show false = true from h)
  custom := fun D _ t _ => Tree.cost_nonneg _ t D (fun i _ k => surv_nonneg i k) (Int.le_refl 0)
  md := ⟨by show (0 : Int) ≤ 0; decide, by show (0 : Int) ≤ 1; decide⟩
  sorted := preprocess_sorted hs
  inRange := fun i hi => by
    obtain ⟨j, hj, rfl⟩ := List.mem_map.1 hi
    show j.label < _
    rw [hl j hj]; exact parts_pos hT
  order := ho
  redundant := fun f hf => .inr (preprocess_redundant hf)
  worstPer := fun h => Bool.noConfusion (show false = true from h)
  simInst := fun h => Bool.noConfusion (show false = true from h)

end

end

end Streed
