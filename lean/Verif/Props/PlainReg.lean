import Verif.Lemmas.PlainReg
import Verif.Props.PolicyFit

/-!
# C79: plain regression

The tree and value that the `regression` task returns, for every dataset, limits and options.
-/

namespace Streed

/-! ### Leaves -/

theorem foldl_add_eq {α : Type} (g : α → Rat) (l : List α) (a : Rat) : l.foldl (fun s y => s + g y) a = a + (l.map g).sum := by
  induction l generalizing a with
  | nil => simp
  | cons x l ih => rw [List.foldl_cons, ih, List.map_cons, List.sum_cons, add_assoc]

/-- **C79**, leaves: on every non-empty list of targets the leaf predicts their mean and costs their squared error around it, no constant
has a smaller error, and the depth-two solver gets the same from the sums. -/
theorem plain_leaf (ys : List Rat) (h : ys ≠ []) :
    plainLeaf ys = (meanOf ys, (ys.map fun y => (y - meanOf ys) ^ 2).sum) ∧
    (∀ c, (plainLeaf ys).2 ≤ (ys.map fun y => (y - c) ^ 2).sum) ∧
    plainD2 ys.sum (ys.map fun y => y * y).sum ys.length = plainLeaf ys := by
  have hl : (ys.length : Rat) ≠ 0 := by exact_mod_cast (List.length_pos_of_ne_nil h).ne'
  have h1 : plainLeaf ys = (meanOf ys, (ys.map fun y => (y - meanOf ys) ^ 2).sum) := by
    have e1 : ys.foldl (fun s y => s + y) 0 = ys.sum := by
      have := foldl_add_eq (fun y => y) ys 0
      rw [List.map_id', zero_add] at this
      exact this
    unfold plainLeaf
    dsimp only
    rw [foldl_add_eq (fun y => y * y), e1, sum_map_sq, meanOf]
    refine Prod.ext rfl ?_
    dsimp only
    field_simp
    ring
  refine ⟨h1, fun c => by rw [h1]; exact sq_mean_best h c, ?_⟩
  have h2 : 0 ≤ (plainLeaf ys).2 := by
    rw [h1]
    refine List.sum_nonneg fun z hz => ?_
    obtain ⟨y, _, rfl⟩ := List.mem_map.1 hz
    positivity
  have e1 : ys.foldl (fun s y => s + y) 0 = ys.sum := by
    have := foldl_add_eq (fun y => y) ys 0
    rw [List.map_id', zero_add] at this
    exact this
  have h3 : plainLeaf ys = (ys.sum / ys.length, (ys.map fun y => y * y).sum - ys.sum * ys.sum / ys.length) := by
    unfold plainLeaf
    dsimp only
    rw [foldl_add_eq (fun y => y * y), e1, zero_add]
  rw [h3] at h2 ⊢
  unfold plainD2
  rw [if_neg (List.length_pos_of_ne_nil h).ne']
  dsimp only
  rw [if_neg (not_lt.2 h2)]

/-! ### The returned tree -/

/-- **C79.** For every dataset with distinct, increasing ids, every leaf size, limit, option, feature order, initial upper bound and clock:
what is returned is a tree within the depth whose leaves receive enough rows, the reported value is its squared error on
the training data, and every leaf predicts the mean of the targets that it receives. -/
theorem plain_returned {nF q mls : Nat} {B : Rat} {tg : Nat → Rat} {o : Options} {T : Data} (t : Top)
    (ho : ∀ D f, f ∈ o.order D → f < nF) (hT : T ≠ []) (hs : IdSorted T) (hU : Units q 0 tg T)
    (hB : ∀ i ∈ T, ∀ j ∈ T, (tg i.label - tg j.label) ^ 2 ≤ B) (hF : T.length * B < largestDouble) (hmls : 1 ≤ mls)
    (hfit : t.maxNodes + 1 ≤ 2 ^ t.maxDepth) (y : Option Fitted) (h : fitPlainTree nF q tg mls o t T = some y) :
    ∃ r, y = some r ∧ ∃ rt, rt = valueTree (leafValues tg T) r.tree ∧ rt.depth ≤ t.maxDepth ∧ rt.Over nF ∧ RegHolds mls rt T ∧
    (r.value : Rat) / q = totalError tg T rt ∧
    ∀ x : Inst, mls ≤ (leafRows r.tree T x).length ∧ rt.predict x.feat = meanOf ((leafRows r.tree T x).map fun i => tg i.label) := by
  have G := plainCfg_base (mls := mls) hU hs hB hF hT ho
  unfold fitPlainTree fitPlain at h
  dsimp only at h
  obtain ⟨y', h1, rfl⟩ := Option.map_eq_some_iff.1 h
  obtain ⟨tr, rfl, h2, h3, h4⟩ := tol_returned G t hfit (fun _ _ _ => rfl) h1
  have hP := plain_featureFree nF q tg T
  obtain ⟨b1, b2⟩ := prep_backward hP hmls _ _ tr (oneLabel T) h3
  have b3 := plain_bestLeaves hs _ (fun i hi => hi) (prep_best hP hmls _ _ tr (oneLabel T) h3 h4)
  have b1 := (plain_legal _ T).1 b1
  have b2' := b2
  rw [plain_cost hs _ fun i hi => hi] at b2'
  have hq : (0 : Rat) < q := by exact_mod_cast hU.pos
  generalize hx : unflip (flipped (plainProblem nF q tg T) (oneLabel T)) tr = z at b1 b2 b2' b3
  have hover : z.Over nF (leafValues tg T).length := legal_over_of b1
  obtain ⟨v1, v2, v3⟩ := valueTree_shape (leafValues tg T) _ hover
  refine ⟨⟨z, _⟩, by rw [← hx]; rfl, _, rfl, ?_, v1, valueTree_holds _ z (legal_leavesHold b1), ?_, fun x => ?_⟩
  · rw [v2, ← hx, unflip_depth]; exact h2
  · show ((trainValue _ tr _ 0 : Int) : Rat) / q = _
    rw [trainValue_eq, Int.zero_add]
    have b4 : tr.cost (plainProblem nF q tg T) (preprocess (plainProblem nF q tg T) mls (oneLabel T)) = z.cost (userProblem nF q 0 tg T) T :=
      b2'.symm
    rw [b4, user_treeCost hU _ (fun i hi => ⟨i, hi, rfl⟩) hover, regPrice_zero]
    field_simp
    ring
  · have hlen := leavesHold_rows (legal_leavesHold b1) x
    refine ⟨hlen, ?_⟩
    have hsub : (leafRows z T x).Sublist T := List.filter_sublist
    generalize hD : leafRows z T x = D at hlen hsub
    have hne : (D.map fun i => tg i.label) ≠ [] := by
      rintro e
      rw [List.map_eq_nil_iff.1 e] at hlen
      simp only [List.length_nil] at hlen
      omega
    obtain ⟨k, hk, e⟩ := List.getElem_of_mem (mean_mem (T := T) hne (hsub.map _).subperm)
    have h5 := bestLeaves_rows b3 x (j := k) hk
    rw [hD] at h5
    have hin : LabelsIn T D := fun i hi => ⟨i, hsub.subset hi, rfl⟩
    have h6 : ((leafCost (userProblem nF q 0 tg T) D (z.predict x) : Int) : Rat) ≤ (leafCost (userProblem nF q 0 tg T) D k : Int) := by
      exact_mod_cast h5
    rw [user_leafCost hU hin (over_predict_lt hover x), user_leafCost hU hin hk, List.getD_eq_getElem _ _ hk, e] at h6
    have h7 := le_of_mul_le_mul_left h6 hq
    rw [valueTree_predict]
    generalize (leafValues tg T).getD (z.predict x) 0 = c at h7 ⊢
    have h8 := sq_split hne c
    rw [List.map_map, List.map_map] at h8
    have h9 : totalError tg D (.leaf c) = totalError tg D (.leaf (meanOf (D.map fun i => tg i.label))) +
      (D.map fun i => tg i.label).length * (meanOf (D.map fun i => tg i.label) - c) ^ 2 := h8
    have hl : (0 : Rat) < (D.map fun i => tg i.label).length := by exact_mod_cast List.length_pos_of_ne_nil hne
    have h10 : ((D.map fun i => tg i.label).length : Rat) * (meanOf (D.map fun i => tg i.label) - c) ^ 2 ≤ 0 := by linarith
    have h11 : (meanOf (D.map fun i => tg i.label) - c) ^ 2 ≤ 0 := by
      by_contra hc
      have := mul_pos hl (not_le.1 hc)
      linarith
    have h12 := pow_eq_zero_iff (two_ne_zero) |>.1 (le_antisymm h11 (sq_nonneg _))
    linarith

/-- A tree is returned if there are enough rows for a leaf and no initial upper bound. -/
theorem plain_returns {nF q mls : Nat} {B : Rat} {tg : Nat → Rat} {o : Options} {T : Data} (t : Top)
    (ho : ∀ D f, f ∈ o.order D → f < nF) (hT : T ≠ []) (hs : IdSorted T) (hU : Units q 0 tg T)
    (hB : ∀ i ∈ T, ∀ j ∈ T, (tg i.label - tg j.label) ^ 2 ≤ B) (hF : T.length * B < largestDouble) (hm : mls ≤ T.length)
    (hfit : t.maxNodes + 1 ≤ 2 ^ t.maxDepth) (hub : ((q * largestDouble : Nat) : Int) ≤ t.ub) :
    ∃ r, fitPlainTree nF q tg mls o t T = some (some r) := by
  have G := plainCfg_base (mls := mls) hU hs hB hF hT ho
  obtain ⟨tr, h1⟩ := tol_returns G t hfit (fun _ _ _ => rfl) hub (by rw [preprocess_length, oneLabel_length]; exact hm)
  exact ⟨⟨_, _⟩, by unfold fitPlainTree fitPlain; dsimp only; rw [h1]; rfl⟩

/-! ### How good it is -/

/-- **C79**: a run that reports `is_optimal` found a squared error within the tolerance of the least one, for every leaf size, depth and node
limit, feature order, clock and option except the similarity bound, and the depth-two solver only with a leaf size of one, upper
bounding and the default node limit. -/
theorem plain_within_partial {nF q mls : Nat} {B : Rat} {tg : Nat → Rat} {o : Options} {T : Data} (t : Top) (hw : World nF o)
    (hT : T ≠ []) (hs : IdSorted T) (hU : Units q 0 tg T) (hB : ∀ i ∈ T, ∀ j ∈ T, (tg i.label - tg j.label) ^ 2 ≤ B)
    (hF : (1 + 1 / 10000 : Rat) ^ lossCount nF t.maxDepth t.maxNodes o * (T.length * B) < largestDouble) (hmls : 1 ≤ mls)
    (hm : mls ≤ T.length)
    (hterm : o.useTerm = true → mls = 1 ∧ o.useUB = true ∧ t.maxNodes + 1 = 2 ^ t.maxDepth ∧ (t.allTrees = true → t.maxNodes ≤ 1))
    (hsim : o.simLB = false) (hfit : t.maxNodes + 1 ≤ 2 ^ t.maxDepth) (hub : ((q * largestDouble : Nat) : Int) ≤ t.ub)
    (hopt : (fitPlain nF q tg mls o t T).2 = true) :
    ∃ v, RegBestWithin nF mls t.maxDepth t.maxNodes tg T v ∧
      CloseTo (lossCount nF t.maxDepth t.maxNodes o) v ((fitPlain nF q tg mls o t T).1.result.sol / q) := by
  have hq : (0 : Rat) < q := by exact_mod_cast hU.pos
  have hone : (1 : Rat) ≤ (1 + 1 / 10000) ^ lossCount nF t.maxDepth t.maxNodes o := one_le_pow₀ (by norm_num)
  have hB0 : 0 ≤ B := by
    obtain ⟨i, hi⟩ := List.exists_mem_of_ne_nil T hT
    exact le_trans (sq_nonneg _) (hB i hi i hi)
  have hF' : T.length * B < largestDouble := lt_of_scaled hone (mul_nonneg (Nat.cast_nonneg _) hB0) hF
  have G := plainCfg_good (mls := mls) hU hs hB hF' hT hmls hw.order (fun a => ⟨(hterm a).1, (hterm a).2.1⟩)
    (fun a => by rw [hsim] at a; simp at a)
  obtain ⟨_, v, h3, h4⟩ := search_within G hsim rfl t (by rw [preprocess_length, oneLabel_length]; exact hm) hw.clock hfit
    (fun a => ⟨(hterm a).2.2.1, (hterm a).2.2.2⟩) (by
    intro D hD x hx
    have h5 := plain_le hU hs hB hD hx
    rw [tol_eq]
    show (1 + 1 / 10000 : Rat) ^ lossCount nF t.maxDepth t.maxNodes o * _ < (((q * largestDouble : Nat) : Int) : Rat)
    refine lt_of_le_of_lt (mul_le_mul_of_nonneg_left h5 (le_trans zero_le_one hone)) ?_
    have h7 := mul_lt_mul_of_pos_left hF hq
    push_cast
    calc _ = _ := by ring
      _ < _ := h7) hub hopt
  have h5 := plain_isOpt hs ((preprocess_optimum (plain_featureFree nF q tg T) (fun _ _ => rfl) hmls (oneLabel T) _ _ _).1 h3)
  refine ⟨v / q, regBestWithin_of_isOpt hU hmls h5, div_le_div_of_nonneg_right h4.1 hq.le, ?_⟩
  have := div_le_div_of_nonneg_right h4.2 hq.le
  rw [mul_div_assoc] at this
  exact this

/-- **C79** for targets that are few multiples of a unit: the least squared error, exactly, also with the similarity bound (but not together
with the branch cache). Missing: finer targets, for which the tolerance of the comparisons matters. -/
theorem plain_exact_partial {nF q mls : Nat} {B : Rat} {tg : Nat → Rat} {o : Options} {T : Data} (t : Top) (hw : World nF o)
    (hT : T ≠ []) (hs : IdSorted T) (hU : Units q 0 tg T) (hB : ∀ i ∈ T, ∀ j ∈ T, (tg i.label - tg j.label) ^ 2 ≤ B)
    (hfine : q * (T.length * B) < 10000) (hmls : 1 ≤ mls) (hm : mls ≤ T.length)
    (hterm : o.useTerm = true → mls = 1 ∧ o.useUB = true ∧ t.maxNodes + 1 = 2 ^ t.maxDepth ∧ (t.allTrees = true → t.maxNodes ≤ 1))
    (hsim : o.simLB = true → mls = 1) (hcopy : o.useBr = false ∨ o.simLB = false)
    (hfit : t.maxNodes + 1 ≤ 2 ^ t.maxDepth) (hub : ((q * largestDouble : Nat) : Int) ≤ t.ub)
    (hopt : (fitPlain nF q tg mls o t T).2 = true) :
    RegBestWithin nF mls t.maxDepth t.maxNodes tg T ((fitPlain nF q tg mls o t T).1.result.sol / q) := by
  have hq : (0 : Rat) < q := by exact_mod_cast hU.pos
  have hq1 : (1 : Rat) ≤ q := by exact_mod_cast hU.pos
  have hB0 : 0 ≤ B := by
    obtain ⟨i, hi⟩ := List.exists_mem_of_ne_nil T hT
    exact le_trans (sq_nonneg _) (hB i hi i hi)
  have hbig : (10000 : Rat) ≤ largestDouble := by
    have := largestDouble_large
    exact_mod_cast (show 10000 ≤ largestDouble by omega)
  have hF : T.length * B < largestDouble := by
    have := le_mul_of_one_le_left (mul_nonneg (Nat.cast_nonneg T.length) hB0) hq1
    linarith
  have F : Fine (plainCfg nF q tg mls o (isRedundant (plainProblem nF q tg T) mls (oneLabel T)) T)
      (preprocess (plainProblem nF q tg T) mls (oneLabel T)) :=
    { good := plainCfg_good hU hs hB hF hT hmls hw.order (fun a => ⟨(hterm a).1, (hterm a).2.1⟩) hsim
      clock := hw.clock
      cost := fun D hD x hx => by
        have h1 := lt_of_le_of_lt (plain_le hU hs hB hD hx) hfine
        exact_mod_cast h1
      worst := by
        have h1 := largestDouble_large
        have h2 : 1 * largestDouble ≤ q * largestDouble := Nat.mul_le_mul_right _ hU.pos
        show (20000 : Int) ≤ ((q * largestDouble : Nat) : Int)
        omega
      copy := hcopy }
  have h3 := search_exact F t (by rw [preprocess_length, oneLabel_length]; exact hm) hfit
    (fun a => ⟨(hterm a).2.2.1, (hterm a).2.2.2⟩) hub hopt
  exact regBestWithin_of_isOpt hU hmls
    (plain_isOpt hs ((preprocess_optimum (plain_featureFree nF q tg T) (fun _ _ => rfl) hmls (oneLabel T) _ _ _).1 h3))

/-! ### The hypotheses are met -/

set_option maxRecDepth 100000 in
/-- Five rows with targets 0, 2, 10, 30 and 34, the default options and a leaf size of one: the leaves of the returned tree predict 1, 10, 30 and 34. -/
example : let o := defaultOptions 2
    (∀ D f, f ∈ o.order D → f < 2) ∧ IdSorted regData2 ∧ Units 3600 0 regTargets2 regData2 ∧
    (∀ i ∈ regData2, ∀ j ∈ regData2, (regTargets2 i.label - regTargets2 j.label) ^ 2 ≤ 1156) ∧ (regData2.length : Rat) * 1156 < largestDouble ∧
    fitPlainTree 2 3600 regTargets2 1 o ⟨2, 2 ^ 2 - 1, false, (3600 * largestDouble : Nat)⟩ regData2 =
      some (some ⟨.node 0 (.node 1 (.leaf 2) (.leaf 7)) (.node 1 (.leaf 3) (.leaf 15)), 7200⟩) :=
  ⟨fun _ f h => by simpa [defaultOptions] using h, by unfold IdSorted; decide, ⟨by decide, by decide +kernel, by decide +kernel⟩,
    by decide +kernel, by decide +kernel, by decide +kernel⟩

set_option maxRecDepth 100000 in
/-- A leaf size of two and no depth-two solver: within the tolerance. -/
example : let o : Options := { defaultOptions 2 with useTerm := false, simLB := false }
    World 2 o ∧ (1 + 1 / 10000 : Rat) ^ lossCount 2 2 3 o * (regData2.length * 1156) < largestDouble ∧
    (fitPlain 2 3600 regTargets2 2 o ⟨2, 3, false, (3600 * largestDouble : Nat)⟩ regData2).2 = true ∧
    (fitPlain 2 3600 regTargets2 2 o ⟨2, 3, false, (3600 * largestDouble : Nat)⟩ regData2).1.result.sol = 230400 :=
  ⟨⟨(defaultOptions_world 2).order, fun _ _ _ _ => rfl⟩, by decide +kernel, by decide +kernel, by decide +kernel⟩

/-- Targets of which few units make up the total. -/
def fewTargets (k : Nat) : Rat := [0, 0, 1, 0].getD k 0

set_option maxRecDepth 100000 in
example : let o : Options := { defaultOptions 1 with useBr := false }
    World 1 o ∧ IdSorted regData ∧ Units 144 0 fewTargets regData ∧
    (∀ i ∈ regData, ∀ j ∈ regData, (fewTargets i.label - fewTargets j.label) ^ 2 ≤ 1) ∧ (144 : Rat) * (regData.length * 1) < 10000 ∧
    (fitPlain 1 144 fewTargets 1 o ⟨2, 2 ^ 2 - 1, false, (144 * largestDouble : Nat)⟩ regData).2 = true ∧
    (fitPlain 1 144 fewTargets 1 o ⟨2, 2 ^ 2 - 1, false, (144 * largestDouble : Nat)⟩ regData).1.result.sol = 72 :=
  ⟨⟨(defaultOptions_world 1).order, fun _ _ _ _ => rfl⟩, by unfold IdSorted; decide, ⟨by decide, by decide +kernel, by decide +kernel⟩,
    by decide +kernel, by decide +kernel, by decide +kernel, by decide +kernel⟩

/-- Leaves. -/
example : plainLeaf [1, 2, 6] = (3, 14) ∧ plainD2 9 41 3 = (3, 14) := by decide +kernel

end Streed
