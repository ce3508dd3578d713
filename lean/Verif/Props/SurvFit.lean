import Verif.Lemmas.SurvFit
import Verif.Props.PolicyFit
import Verif.Props.SurvPy
import Mathlib.Analysis.SpecialFunctions.Log.Deriv
import Mathlib.Analysis.Complex.ExponentialBounds

/-!
# C86: survival trees

What fitting a survival tree returns, for every dataset, limits and options.
-/

namespace Streed

/-- The number of leaves that receive no row with an event. -/
def quietLeaves (R : Nat → SRow) : Tree → Data → Nat
  | .leaf _, D => if D.any fun i => (R i.id).ev then 0 else 1
  | .node f l r, D => quietLeaves R l (without f D) + quietLeaves R r (having f D)

theorem survRows_hz (O : Nat → Obs) (T : Data) (i : Nat) : 0 < (survRows O T i).hz := by
  obtain ⟨v, h1, h2⟩ := (hazard_positive_mono (T.map fun j => O j.id)).1 (O i).time
  show 0 < (hazardFn (T.map fun j => O j.id) (O i).time).getD 0
  rw [h1]; exact h2

/-! ### Leaves -/

theorem events_any {lg : Rat → Rat} {R : Nat → SRow} {D : Data} : eventsOf lg R D = 0 ↔ (D.any fun i => (R i.id).ev) = false := by
  unfold eventsOf
  rw [sSums_eq]
  dsimp only
  rw [List.countP_eq_zero]
  simp

/-- **C86**, leaves: the cost of a leaf is not above the loss of any hazard ratio of a part with an event, the depth-two solver gets
the same from the sums, and evaluating the leaf gives the same, or one half more if it has no event. -/
theorem surv_leaf {q : Nat} {lg : Rat → Rat} {R : Nat → SRow} {T : Data} (H : SurvOK q lg R T) {D : Data} (hD : ViewOf T D) (hne : D ≠ []) :
    (∀ S, ViewOf T S → (∃ i ∈ S, (R i.id).ev = true) →
      survCost lg R D ≤ (D.map fun i => rowLoss lg (ratioOf lg R S) (R i.id)).sum) ∧
    sD2 lg (sSums lg (D.map fun i => R i.id)) = sLeaf lg (D.map fun i => R i.id) ∧
    sLeafCosts lg (D.map fun i => R i.id) (sLeaf lg (D.map fun i => R i.id)).1 =
      survCost lg R D + if D.any fun i => (R i.id).ev then 0 else 1 / 2 := by
  refine ⟨fun S hS he => ?_, ?_, ?_⟩
  · obtain ⟨i, hi, he⟩ := he
    have h1 : eventsOf lg R S ≠ 0 := by
      intro h
      have := events_any.1 h
      rw [List.any_eq_false] at this
      exact this i hi he
    have h2 := loss_sum_ge H hD hne (mem_parts.2 ⟨hS, List.ne_nil_of_mem hi⟩)
    refine h2.trans (le_of_eq ?_)
    congr 1
    refine List.map_congr_left fun j _ => ?_
    rw [survLossOf_eq, if_neg h1]
  · unfold sD2 sLeaf
    dsimp only
    have : max (1 / 2) ((sSums lg (D.map fun i => R i.id)).2.1 : Rat) / (sSums lg (D.map fun i => R i.id)).1 =
        if (sSums lg (D.map fun i => R i.id)).2.1 = 0 then 1 / 2 / (sSums lg (D.map fun i => R i.id)).1
        else (sSums lg (D.map fun i => R i.id)).2.1 / (sSums lg (D.map fun i => R i.id)).1 := by
      split
      · rename_i h; rw [h]; simp
      · rename_i h
        have h1 : (1 : Rat) ≤ ((sSums lg (D.map fun i => R i.id)).2.1 : Rat) := by exact_mod_cast Nat.one_le_iff_ne_zero.2 h
        rw [max_eq_right (by linarith)]
    rw [this]
  · have hown := loss_sum_own H hD hne
    by_cases he : eventsOf lg R D = 0
    · rw [events_any.1 he]
      have h1 : survCost lg R D = 0 := by rw [← hown, loss_sum_none he, he]; simp
      have h3 : (sSums lg (D.map fun i => R i.id)).2.1 = 0 := he
      have h4 : (sSums lg (D.map fun i => R i.id)).2.2 = 0 := by
        have he' : (D.map fun i => R i.id).countP (·.ev) = 0 := by rw [sSums_eq] at h3; exact h3
        rw [sSums_eq]
        have : (D.map fun i => R i.id).filter (·.ev) = [] := by
          rw [List.filter_eq_nil_iff]; exact List.countP_eq_zero.1 he'
        simp only [this, List.map_nil, List.sum_nil]
      have h5 : 0 < (sSums lg (D.map fun i => R i.id)).1 := by
        rw [sSums_eq]
        refine hazard_sum_pos (by simpa using hne) fun r hr => ?_
        obtain ⟨i, hi, rfl⟩ := List.mem_map.1 hr
        exact H.hz i (hD.subset hi)
      rw [h1]
      unfold sLeafCosts sLeaf
      dsimp only
      rw [h3, h4, if_pos rfl, div_mul_cancel₀ _ h5.ne']
      norm_num
    · have ha : (D.any fun i => (R i.id).ev) = true := by
        cases h : D.any fun i => (R i.id).ev
        · exact absurd (events_any.2 h) he
        · rfl
      rw [ha, if_pos rfl, add_zero, ← hown, loss_sum_some he]
      refine max_eq_right ?_
      have h2 : 0 ≤ (D.map fun i => survLossOf lg R T D i.id).sum := by rw [hown]; exact survCost_nonneg D
      rw [loss_sum_some he] at h2
      exact h2

theorem survScore_eq {q : Nat} {lg : Rat → Rat} {R : Nat → SRow} {T : Data} (H : SurvOK q lg R T) {nF mls : Nat} (hmls : 1 ≤ mls) (t : Tree)
    {D : Data} (hD : ViewOf T D) (h : Grouped nF mls t D) :
    survScore lg R t D = groupCost (survCost lg R) t D + quietLeaves R t D / 2 := by
  induction t generalizing D with
  | leaf k =>
    have hl : mls ≤ D.length := h
    have hne : D ≠ [] := by rintro rfl; simp at hl; omega
    simp only [survScore, groupCost, quietLeaves]
    rw [(surv_leaf H hD hne).2.2]
    split <;> simp
  | node f l r ihl ihr =>
    simp only [survScore, groupCost, quietLeaves]
    rw [ihl (D := without f D) (List.filter_sublist.trans hD) h.2.1, ihr (D := having f D) (List.filter_sublist.trans hD) h.2.2]
    push_cast; ring

/-- The score of a tree of groups is itself a total over groups. -/
theorem survScore_group (lg : Rat → Rat) (R : Nat → SRow) (t : Tree) (D : Data) :
    survScore lg R t D = groupCost (fun D => sLeafCosts lg (D.map fun i => R i.id) (sLeaf lg (D.map fun i => R i.id)).1) t D := by
  induction t generalizing D with
  | leaf k => rfl
  | node f l r ihl ihr => simp only [survScore, groupCost, ihl, ihr]

/-! ### The returned tree -/

section
variable {nF q mls : Nat} {M : Rat} {lg : Rat → Rat} {O : Nat → Obs} {o : Options} {T : Data}

/-- **C86.** For every dataset with increasing ids, every leaf size, limit, option, feature order, initial upper bound and clock: what is returned
is a tree within the depth whose leaves receive enough rows. The reported loss is the least loss of its leaves plus one half for
every leaf without an event, divided by the number of rows. -/
theorem surv_returned (H : SurvOK q lg (survRows O T) T) (t : Top) (ho : ∀ D f, f ∈ o.order D → f < nF) (hT : T ≠ []) (hs : IdSorted T)
    (hl : ∀ i ∈ T, i.label = 0) (hM : ∀ i ∈ T, ∀ S ∈ survParts T, survLossOf lg (survRows O T) T S i.id ≤ M)
    (hF : T.length * M < largestDouble) (hmls : 1 ≤ mls) (hfit : t.maxNodes + 1 ≤ 2 ^ t.maxDepth) (y : Option (Tree × Rat))
    (h : fitSurvTree nF q lg O mls o t T = some y) :
    ∃ x v, y = some (x, v) ∧ x.depth ≤ t.maxDepth ∧ Grouped nF mls x T ∧
      v = (groupCost (survCost lg (survRows O T)) x T + quietLeaves (survRows O T) x T / 2) / T.length := by
  have G := survCfg_base (mls := mls) H hM hs hl hF hT ho
  unfold fitSurvTree fitSurv at h
  dsimp only at h
  obtain ⟨y', h1, rfl⟩ := Option.map_eq_some_iff.1 h
  obtain ⟨tr, rfl, h2, h3, -⟩ := tol_returned G t hfit (fun _ _ _ => rfl) h1
  have h3 : tr.Legal (survProblem nF q lg (survRows O T) T) mls (T.map (prepInst (flipped (survProblem nF q lg (survRows O T) T) T)
    (isRedundant (survProblem nF q lg (survRows O T) T) mls T))) := h3
  have hg := grouped_of_legal (prep_backward surv_featureFree hmls _ _ tr T h3).1
  refine ⟨_, _, rfl, by rw [unflip_depth]; exact h2, hg, ?_⟩
  rw [← survScore_eq H hmls _ (List.Sublist.refl T) hg, survScore_group, survScore_group, preprocess_length]
  congr 1
  refine prep_group _ _ (fun D => ?_) hmls tr T h3
  rw [List.map_map]; rfl

/-- A tree is returned if there are enough rows for a leaf and no initial upper bound. -/
theorem surv_returns (H : SurvOK q lg (survRows O T) T) (t : Top) (ho : ∀ D f, f ∈ o.order D → f < nF) (hT : T ≠ []) (hs : IdSorted T)
    (hl : ∀ i ∈ T, i.label = 0) (hM : ∀ i ∈ T, ∀ S ∈ survParts T, survLossOf lg (survRows O T) T S i.id ≤ M)
    (hF : T.length * M < largestDouble) (hm : mls ≤ T.length) (hfit : t.maxNodes + 1 ≤ 2 ^ t.maxDepth)
    (hub : ((q * largestDouble : Nat) : Int) ≤ t.ub) :
    ∃ r, fitSurvTree nF q lg O mls o t T = some (some r) := by
  have G := survCfg_base (mls := mls) H hM hs hl hF hT ho
  obtain ⟨tr, h1⟩ := tol_returns G t hfit (fun _ _ _ => rfl) hub (by rw [preprocess_length]; exact hm)
  exact ⟨⟨_, _⟩, by unfold fitSurvTree fitSurv; dsimp only; rw [h1]; rfl⟩

/-- **C86**: a run that reports `is_optimal` found a loss within the tolerance of the least one, where a leaf without events counts as free;
for every leaf size, depth and node limit, feature order, clock and option, and the depth-two solver only with a leaf size of one,
upper bounding and the default node limit (which are the defaults). -/
theorem surv_within_partial (H : SurvOK q lg (survRows O T) T) (t : Top) (hw : World nF o) (hT : T ≠ []) (hs : IdSorted T)
    (hl : ∀ i ∈ T, i.label = 0) (hM : ∀ i ∈ T, ∀ S ∈ survParts T, survLossOf lg (survRows O T) T S i.id ≤ M)
    (hF : (1 + 1 / 10000 : Rat) ^ lossCount nF t.maxDepth t.maxNodes o * (T.length * M) < largestDouble) (hmls : 1 ≤ mls)
    (hm : mls ≤ T.length)
    (hterm : o.useTerm = true → mls = 1 ∧ o.useUB = true ∧ t.maxNodes + 1 = 2 ^ t.maxDepth ∧ (t.allTrees = true → t.maxNodes ≤ 1))
    (hfit : t.maxNodes + 1 ≤ 2 ^ t.maxDepth) (hub : ((q * largestDouble : Nat) : Int) ≤ t.ub)
    (hopt : (fitSurv nF q lg O mls o t T).2 = true) :
    ∃ v, LeastGroup nF mls t.maxDepth t.maxNodes (survCost lg (survRows O T)) T v ∧
      CloseTo (lossCount nF t.maxDepth t.maxNodes o) v ((fitSurv nF q lg O mls o t T).1.result.sol / q) := by
  have hq : (0 : Rat) < q := by exact_mod_cast H.pos
  have hone : (1 : Rat) ≤ (1 + 1 / 10000) ^ lossCount nF t.maxDepth t.maxNodes o := one_le_pow₀ (by norm_num)
  have hM0 := survM_nonneg H hM hT
  have hF' : T.length * M < largestDouble := lt_of_scaled hone (mul_nonneg (Nat.cast_nonneg _) hM0) hF
  have G := survCfg_good (mls := mls) H hM hs hl hF' hT hmls hw.order (fun a => ⟨(hterm a).1, (hterm a).2.1⟩)
  obtain ⟨_, v, h3, h4⟩ := search_within G rfl rfl t (by rw [preprocess_length]; exact hm) hw.clock hfit
    (fun a => ⟨(hterm a).2.2.1, (hterm a).2.2.2⟩) (by
    intro D hD x hx
    have h5 := surv_le H hM hT hD hx
    rw [tol_eq]
    show (1 + 1 / 10000 : Rat) ^ lossCount nF t.maxDepth t.maxNodes o * _ < (((q * largestDouble : Nat) : Int) : Rat)
    refine lt_of_le_of_lt (mul_le_mul_of_nonneg_left h5 (le_trans zero_le_one hone)) ?_
    have h7 := mul_lt_mul_of_pos_left hF hq
    push_cast
    calc _ = _ := by ring
      _ < _ := h7) hub hopt
  have h5 := (preprocess_optimum surv_featureFree (fun _ _ => rfl) hmls T _ _ _).1 h3
  refine ⟨v / q, leastGroup_of_isOpt H hmls h5, div_le_div_of_nonneg_right h4.1 hq.le, ?_⟩
  have := div_le_div_of_nonneg_right h4.2 hq.le
  rw [mul_div_assoc] at this
  exact this

end

/-! ### Rational logarithms -/

/-- The arguments of the logarithm, as a list. -/
def survArgs (lg : Rat → Rat) (R : Nat → SRow) (T : Data) : List Rat :=
  (T.map fun i => (R i.id).hz) ++ ((survParts T).filter fun D => eventsOf lg R D ≠ 0).map (ratioOf lg R)

theorem mem_survArgs {lg : Rat → Rat} {R : Nat → SRow} {T : Data} {x : Rat} : x ∈ survArgs lg R T ↔ SurvArg lg R T x := by
  unfold survArgs SurvArg
  simp only [List.mem_append, List.mem_map, List.mem_filter, mem_parts, decide_eq_true_eq]
  constructor
  · rintro (⟨i, hi, rfl⟩ | ⟨D, ⟨⟨h1, h2⟩, h3⟩, rfl⟩)
    · exact Or.inl ⟨i, hi, rfl⟩
    · exact Or.inr ⟨D, h1, h2, h3, rfl⟩
  · rintro (⟨i, hi, rfl⟩ | ⟨D, h1, h2, h3, rfl⟩)
    · exact Or.inl ⟨i, hi, rfl⟩
    · exact Or.inr ⟨D, ⟨⟨h1, h2⟩, h3⟩, rfl⟩

theorem survArgs_free (lg lg' : Rat → Rat) (R : Nat → SRow) (T : Data) : survArgs lg R T = survArgs lg' R T := by
  have h1 : eventsOf lg R = eventsOf lg' R := by
    funext D; unfold eventsOf; rw [sSums_eq, sSums_eq]
  have h2 : ratioOf lg R = ratioOf lg' R := by
    funext D; unfold ratioOf sLeaf; rw [sSums_eq, sSums_eq]
  unfold survArgs; rw [h1, h2]

theorem common_slack {α : Type} (l : List α) (P : α → ℝ → Prop) (hm : ∀ x a b, a ≤ b → P x b → P x a)
    (h : ∀ x ∈ l, ∃ d > 0, P x d) : ∃ d > 0, ∀ x ∈ l, P x d := by
  induction l with
  | nil => exact ⟨1, one_pos, fun _ h => absurd h List.not_mem_nil⟩
  | cons x l ih =>
    obtain ⟨d, h1, h2⟩ := h x List.mem_cons_self
    obtain ⟨e, h3, h4⟩ := ih fun y hy => h y (List.mem_cons_of_mem _ hy)
    refine ⟨min d e, lt_min h1 h3, fun y hy => ?_⟩
    rcases List.mem_cons.1 hy with rfl | hy
    · exact hm _ _ _ (min_le_left _ _) h2
    · exact hm _ _ _ (min_le_right _ _) (h4 y hy)

theorem common_unit (l : List Rat) : ∃ q : Nat, 0 < q ∧ ∀ x ∈ l, (q * x : Rat).den = 1 := by
  induction l with
  | nil => exact ⟨1, Nat.one_pos, fun _ h => absurd h List.not_mem_nil⟩
  | cons x l ih =>
    obtain ⟨q, h1, h2⟩ := ih
    refine ⟨q * x.den, Nat.mul_pos h1 x.den_pos, fun y hy => ?_⟩
    rcases List.mem_cons.1 hy with rfl | hy
    · have : ((q * y.den : Nat) * y : Rat) = ((q * y.num : Int) : Rat) := by
        push_cast
        rw [mul_assoc, mul_comm (y.den : Rat) y, Rat.mul_den_eq_num]
      rw [this]; rfl
    · have h3 : ((q * x.den : Nat) * y : Rat) = (((q * y : Rat).num * x.den : Int) : Rat) := by
        have := (Rat.den_eq_one_iff _).1 (h2 y hy)
        push_cast
        rw [this]; ring
      rw [h3]; rfl

/-- A rational function as close to the logarithm as one likes, with all that the theorems above ask of it: for every dataset and all
observations. -/
theorem surv_log_exists (O : Nat → Obs) (T : Data) {eps : ℝ} (he : 0 < eps) :
    ∃ q lg, SurvOK q lg (survRows O T) T ∧ ∀ x, SurvArg lg (survRows O T) T x → |(lg x : ℝ) - Real.log x| ≤ eps := by
  classical
  set A := survArgs (fun _ => 0) (survRows O T) T with hA
  have hpos : ∀ a ∈ A, 0 < a := by
    intro a ha
    rcases mem_survArgs.1 ha with ⟨i, hi, rfl⟩ | ⟨D, h1, h2, h3, rfl⟩
    · exact survRows_hz O T _
    · exact (ratio_pos (fun i _ => survRows_hz O T i.id) h1 h3).2
  obtain ⟨d, hd, hs⟩ := common_slack (A.product A)
    (fun p d => p.1 ≠ p.2 → Real.log p.1 - Real.log p.2 + d ≤ p.1 / p.2 - 1) (fun x a b h1 h2 h3 => by have := h2 h3; linarith) (by
      rintro ⟨a, b⟩ hp
      obtain ⟨ha, hb⟩ := List.mem_product.1 hp
      by_cases hab : a = b
      · exact ⟨1, one_pos, fun h => absurd hab h⟩
      have ha' : (0 : ℝ) < a := by exact_mod_cast hpos a ha
      have hb' : (0 : ℝ) < b := by exact_mod_cast hpos b hb
      have hne : (a : ℝ) / b ≠ 1 := by
        intro h; rw [div_eq_one_iff_eq hb'.ne'] at h; exact hab (by exact_mod_cast h)
      have := Real.log_lt_sub_one_of_pos (div_pos ha' hb') hne
      rw [Real.log_div ha'.ne' hb'.ne'] at this
      exact ⟨a / b - 1 - (Real.log a - Real.log b), by linarith, fun _ => by linarith⟩)
  have hch : ∀ x : Rat, ∃ y : Rat, Real.log x - min eps d < y ∧ (y : ℝ) < Real.log x := fun x =>
    exists_rat_btwn (by have := lt_min he hd; linarith)
  choose lg h1 h2 using hch
  obtain ⟨q, hq, hu⟩ := common_unit ((T.product (survParts T)).map fun p => survLossOf lg (survRows O T) T p.2 p.1.id)
  have hin : ∀ {x}, SurvArg lg (survRows O T) T x → x ∈ A := fun h => by
    rw [hA, survArgs_free _ lg]; exact mem_survArgs.2 h
  refine ⟨q, lg, ⟨hq, fun i _ => survRows_hz O T _, fun a b ha hb => ?_, fun i hi S hS => ?_⟩, fun x hx => ?_⟩
  · have ha := hin ha
    have hb := hin hb
    have ha' : (0 : ℝ) < a := by exact_mod_cast hpos a ha
    have hb' : (0 : ℝ) < b := by exact_mod_cast hpos b hb
    constructor
    · by_cases hab : a = b
      · subst hab
        rw [sub_self, div_self (hpos a ha).ne', sub_self]
      · have h3 := hs (a, b) (List.mem_product.2 ⟨ha, hb⟩) hab
        dsimp only at h3
        have h4 := h2 a
        have h5 := h1 b
        have h6 := min_le_right eps d
        have h7 : ((lg a - lg b : Rat) : ℝ) ≤ ((a / b - 1 : Rat) : ℝ) := by push_cast; linarith
        exact_mod_cast h7
    · have h3 := Real.log_le_sub_one_of_pos (mul_pos ha' hb')
      rw [Real.log_mul ha'.ne' hb'.ne'] at h3
      have h4 := h2 a
      have h5 := h2 b
      have h7 : ((lg a + lg b : Rat) : ℝ) ≤ ((a * b - 1 : Rat) : ℝ) := by push_cast; linarith
      exact_mod_cast h7
  · exact hu _ (List.mem_map.2 ⟨(i, S), List.mem_product.2 ⟨hi, hS⟩, rfl⟩)
  · have h4 := h2 x
    have h5 := h1 x
    have h6 := min_le_left eps d
    rw [abs_le]; constructor <;> linarith

/-! ### A split that makes the reported loss worse -/

/-- Two rows. -/
def survPair : Data := [⟨0, fun _ => false, 0⟩, ⟨1, fun _ => true, 0⟩]

/-- The first is censored at time 1, the second has an event at time 2. -/
def survPairObs (i : Nat) : Obs := if i = 0 then ⟨1, 0⟩ else ⟨2, 1⟩

/-- Logarithms of 3/4 and 1/3, rounded down. -/
def survPairLog (x : Rat) : Rat := if x = 3 / 4 then -36 / 125 else if x = 1 / 3 then -11 / 10 else 0

set_option maxRecDepth 100000 in
theorem survPair_ok : SurvOK 3000 survPairLog (survRows survPairObs survPair) survPair where
  pos := by decide
  hz := by decide +kernel
  log := by
    have : ∀ a ∈ survArgs survPairLog (survRows survPairObs survPair) survPair, ∀ b ∈ survArgs survPairLog (survRows survPairObs survPair) survPair,
      survPairLog a - survPairLog b ≤ a / b - 1 ∧ survPairLog a + survPairLog b ≤ a * b - 1 := by decide +kernel
    exact fun a b ha hb => this a (mem_survArgs.2 ha) b (mem_survArgs.2 hb)
  unit := by decide +kernel

set_option maxRecDepth 100000 in
/-- **C86**, violated for the reported loss: with the default options the tree that is returned is a split that is reported with a loss of one
quarter, although a single leaf would be reported with less. -/
theorem surv_score_worse : ∃ (lg : Rat → Rat) (O : Nat → Obs) (T : Data) (q : Nat), SurvOK q lg (survRows O T) T ∧ IdSorted T ∧
    ∃ x v, fitSurvTree 1 q lg O 1 (defaultOptions 1) ⟨1, 1, false, (q * largestDouble : Nat)⟩ T = some (some (x, v)) ∧
      Grouped 1 1 (.leaf 0) T ∧ survScore lg (survRows O T) (.leaf 0) T / T.length < v := by
  refine ⟨survPairLog, survPairObs, survPair, 3000, survPair_ok, by unfold IdSorted; decide, .node 0 (.leaf 0) (.leaf 1), 1 / 4,
    by decide +kernel, by show 1 ≤ survPair.length; decide, by decide +kernel⟩

/-- The same with the real logarithm: the two leaves cost nothing in the search and the single leaf costs log (4 / 3), but they are
evaluated as one half and log (4 / 3), which is less. -/
theorem surv_score_worse_real :
    let a : SurvInst := ⟨false, 1 / 3⟩
    let b : SurvInst := ⟨true, 1⟩
    (survLeaf [a]).2 + (survLeaf [b]).2 < (survLeaf [a, b]).2 ∧
    survLeafCosts [a, b] (survLeaf [a, b]).1 < survLeafCosts [a] (survLeaf [a]).1 + survLeafCosts [b] (survLeaf [b]).1 := by
  have h3 : Real.log (3 / 4) = -Real.log (4 / 3) := by rw [← Real.log_inv]; norm_num
  have h1 : 0 < Real.log (4 / 3) := Real.log_pos (by norm_num)
  have h2 : Real.log (4 / 3) < 1 / 2 := by
    have := Real.log_lt_sub_one_of_pos (show (0 : ℝ) < 4 / 3 by norm_num) (by norm_num)
    linarith
  dsimp only
  have e1 : survSums [⟨false, 1 / 3⟩] = ⟨1 / 3, 0, 0⟩ := by simp [survSums]
  have e2 : survSums [⟨true, 1⟩] = ⟨1, 1, 0⟩ := by simp [survSums]
  have e3 : survSums [⟨false, 1 / 3⟩, ⟨true, 1⟩] = ⟨4 / 3, 1, 0⟩ := by simp [survSums]; norm_num
  unfold survLeafCosts survLeaf
  simp only [e1, e2, e3]
  norm_num [h3]
  constructor
  · exact h1
  · exact h2

/-! ### The hypotheses are met -/

set_option maxRecDepth 100000 in
/-- The pair with the default options: the search finds a loss of zero. -/
example : let o := defaultOptions 1
    World 1 o ∧ survPair ≠ [] ∧ IdSorted survPair ∧ (∀ i ∈ survPair, i.label = 0) ∧
    (∀ i ∈ survPair, ∀ S ∈ survParts survPair, survLossOf survPairLog (survRows survPairObs survPair) survPair S i.id ≤ 3) ∧
    (1 + 1 / 10000 : Rat) ^ lossCount 1 1 1 o * (survPair.length * 3) < largestDouble ∧
    (fitSurv 1 3000 survPairLog survPairObs 1 o ⟨1, 1, false, (3000 * largestDouble : Nat)⟩ survPair).2 = true ∧
    fitSurvTree 1 3000 survPairLog survPairObs 1 o ⟨1, 1, false, (3000 * largestDouble : Nat)⟩ survPair =
      some (some (.node 0 (.leaf 0) (.leaf 1), 1 / 4)) :=
  ⟨⟨(defaultOptions_world 1).order, fun _ _ _ _ => rfl⟩, by decide, by unfold IdSorted; decide, by decide, by decide +kernel, by decide +kernel,
    by decide +kernel, by decide +kernel⟩

/-- Leaves. -/
example : sLeaf survPairLog [⟨false, 1 / 3⟩, ⟨true, 1⟩] = (3 / 4, 36 / 125) ∧
    sD2 survPairLog (sSums survPairLog [⟨false, 1 / 3⟩, ⟨true, 1⟩]) = (3 / 4, 36 / 125) ∧
    sLeafCosts survPairLog [⟨false, 1 / 3⟩] (3 / 2) = 1 / 2 := by decide +kernel

end Streed
