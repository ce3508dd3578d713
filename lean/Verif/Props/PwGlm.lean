import Verif.Props.PwTree
import Verif.Props.Glm
import Verif.Lemmas.PwRat

/-!
# Regression with a penalised linear model in every leaf

What `PieceWiseLinearRegression` returns. A group of rows may have no model (`glm_refuses_constant`), so there may be no tree even
though there are enough rows: always if all targets are equal. Where there is a tree it is within the limits and has the reported cost.
-/

namespace Streed.Pw
open Apx (tol tol_pos tol_one)

/-- The trees a user asks for: `R i` is the row of instance `i`, `T` the training data, `n` the number of continuous features. A
branching node costs `ccp` times the squared error of the mean. -/
def models (nF n mls : Nat) (lasso ridge ccp : Rat) (R : Nat → GlmInst) (T : Data) : Lines :=
  ⟨nF, ccp * glmSpread (T.map fun i => R i.id), mls, glmFit n lasso ridge R, List.length⟩

section
variable {nF n mls q : Nat} {lasso ridge ccp m : Rat} {R : Nat → GlmInst} {T : Data} {o : Options} {red : Nat → Bool}

/-- **The returned tree is within the limits and has the reported cost**, for all options and also when the time runs out. -/
theorem glm_sound (hx : Whole q (models nF n mls lasso ridge ccp R T) T)
    (hs : IdSorted T) (hl : ∀ i ∈ T, i.label = 0) (ho : ∀ D f, f ∈ o.order D → f < nF)
    (t : Top) (hfit : t.maxNodes + 1 ≤ 2 ^ t.maxDepth) :
    let v := (solve (glmTask nF n mls q lasso ridge ccp m R T o red) t T).1.result
    v.isEmpty = true ∨ ∃ x, Rep v x ∧ (models nF n mls lasso ridge ccp R T).Allowed t.maxDepth t.maxNodes T x ∧
      (models nF n mls lasso ridge ccp R T).Fitted x T ∧
      (v.sol : Rat) = q * (models nF n mls lasso ridge ccp R T).cost x T := by
  intro v
  rcases (solve_spec (p := glmTask nF n mls q lasso ridge ccp m R T o red) (rat_fair hs hl ho) t hfit).1 with h | ⟨⟨x, h1, h2, h3, h4⟩, h5⟩
  · left; show Node.isEmpty (solve _ t T).1.result = true
    rw [h]; rfl
  · right
    have h6 := (rat_legal x T).1 h3
    refine ⟨x, h1, ⟨h2, ?_, h6.1⟩, h6.2, ?_⟩
    · have := h1.nodes; omega
    · rw [← h4]
      exact rat_cost hx x (List.Sublist.refl T)

/-- A tree whose leaves all have models has a leaf on which the targets differ. -/
theorem fitted_varies (hl : 0 ≤ lasso) (hmls : 1 ≤ mls) (x : Tree) (D : Data) (h1 : (models nF n mls lasso ridge ccp R T).Legal x D)
    (h2 : (models nF n mls lasso ridge ccp R T).Fitted x D) (c : Rat) : ¬ ∀ i ∈ D, (R i.id).y = c := by
  induction x generalizing D with
  | leaf k =>
    intro h
    have h1 : mls ≤ D.length := h1
    have h2 : (glmFit n lasso ridge R D).isSome = true := h2
    have hne : (D.map fun i => R i.id) ≠ [] := by
      intro h3; rw [List.map_eq_nil_iff] at h3; rw [h3] at h1; simp at h1; omega
    have := (glm_refuses_constant (D.map fun i => R i.id) hne n lasso ridge hl c
      (fun i hi => by obtain ⟨j, hj, rfl⟩ := List.mem_map.1 hi; exact h j hj)).1
    unfold glmFit at h2
    rw [this] at h2
    cases h2
  | node f l r ihl ihr =>
    exact fun h => ihl (without f D) h1.2.1 h2.1 fun i hi => h i ((without_sublist f D).subset hi)

/-- **Equal targets: no tree.** If all targets are equal no tree is returned, whatever the options and limits, although a single
leaf with that constant would fit every row. -/
theorem glm_equal_targets_none (hla : 0 ≤ lasso) (hmls : 1 ≤ mls) (c : Rat) (hc : ∀ i ∈ T, (R i.id).y = c)
    (hs : IdSorted T) (hl : ∀ i ∈ T, i.label = 0) (ho : ∀ D f, f ∈ o.order D → f < nF)
    (t : Top) (hfit : t.maxNodes + 1 ≤ 2 ^ t.maxDepth) :
    let p := glmTask nF n mls q lasso ridge ccp m R T o red
    (solve p t T).1.result.isEmpty = true ∧ returned p T (solve p t T).1 = none ∧
      glmError (T.map fun i => R i.id) n lasso ridge (fun _ => 0) c = 0 := by
  intro p
  have h0 : (solve p t T).1.result = Node.empty p.c.worst := by
    rcases (solve_spec (p := p) (rat_fair hs hl ho) t hfit).1 with h | ⟨⟨x, h1, h2, h3, h4⟩, h5⟩
    · exact h
    · exfalso
      have h6 := (rat_legal x T).1 h3
      exact fitted_varies (nF := nF) (n := n) (ridge := ridge) (ccp := ccp) (T := T) hla hmls x T h6.1 h6.2 c hc
  refine ⟨by rw [h0]; rfl, by unfold returned; rw [h0]; exact if_pos rfl, ?_⟩
  rw [glmError, List.map_congr_left (g := fun _ => 0) fun i hi => by
    obtain ⟨j, hj, rfl⟩ := List.mem_map.1 hi
    rw [hc j hj]; simp]
  simp [Function.comp_def]

/-- **The returned tree exists, is legal and within the depth limit**, if every group of at least `mls` rows has a model, of cost
between `0` and `M`; for all options, also when the time runs out. -/
theorem glm_returned_partial {M : Rat} (F : Fits mls (glmFit n lasso ridge R) M T) (hq : 0 < q)
    (hp : 0 ≤ ccp * glmSpread (T.map fun i => R i.id))
    (hs : IdSorted T) (hl : ∀ i ∈ T, i.label = 0) (ho : ∀ D f, f ∈ o.order D → f < nF)
    (hbig : T.length * (ccp * glmSpread (T.map fun i => R i.id) + M) < largestDouble)
    (t : Top) (hfit : t.maxNodes + 1 ≤ 2 ^ t.maxDepth) :
    let p := glmTask nF n mls q lasso ridge ccp m R T o red
    let r := (solve p t T).1
    (returned p T r = none ∧ r.result.sol = p.c.worst ∧ (T.length < mls ∨ (t.ub : Rat) < q * largestDouble)) ∨
    ∃ x, returned p T r = some (some x) ∧ x.depth ≤ t.maxDepth ∧ (models nF n mls lasso ridge ccp R T).Legal x T ∧
      (models nF n mls lasso ridge ccp R T).Fitted x T := by
  intro p r
  have G : Feas.Base p T := rat_base F hq hp (fun _ => mul_self_nonneg _) hs hl ho hbig
  obtain ⟨e, h⟩ := Feas.solve_sound G t hfit
  rcases Feas.returned_spec G t h False False.elim with ⟨h1, h2⟩ | ⟨x, h1, h2, h3, _⟩
  · left
    refine ⟨h1, h2, ?_⟩
    by_contra hcon
    rw [not_or, not_lt, not_lt] at hcon
    have hw : ((p.c.worst : Int) : Rat) = q * largestDouble := rat_worst
    rw [← hw] at hcon
    have := h.ne (by exact_mod_cast hcon.2) hcon.1
    omega
  · have h6 := (rat_legal x T).1 h3
    exact .inr ⟨x, h1, h2, h6.1, h6.2⟩

/-- **Without lower bounds the tree is close to the best one**, under the conditions of `glm_returned_partial`: the reported cost and
that of the tree that is built. Missing: lower bounds (see `glm_default_not_optimal`), groups without a model, and the factor. -/
theorem glm_near_optimal_partial {M : Rat} (F : Fits mls (glmFit n lasso ridge R) M T) (hq : 0 < q)
    (hp : 0 ≤ ccp * glmSpread (T.map fun i => R i.id)) (hx : Whole q (models nF n mls lasso ridge ccp R T) T)
    (hs : IdSorted T) (hl : ∀ i ∈ T, i.label = 0) (ho : ∀ D f, f ∈ o.order D ↔ f < nF) (hclk : Monotone o.clock)
    (hlb : o.useLB = false) (hub : o.useUB = true) (hred : ∀ f, red f = true → without f T = [] ∨ having f T = [])
    (hbig : tol ^ (nF + 1) * (T.length * (ccp * glmSpread (T.map fun i => R i.id) + M)) < largestDouble)
    (t : Top) (hfit : t.maxNodes + 1 ≤ 2 ^ t.maxDepth)
    (hfin : (solve (glmTask nF n mls q lasso ridge ccp m R T o red) t T).2 = true)
    (y : Tree) (hya : (models nF n mls lasso ridge ccp R T).Allowed t.maxDepth t.maxNodes T y)
    (hyf : (models nF n mls lasso ridge ccp R T).Fitted y T)
    (hyu : tol ^ (nF + 1) * (q * (models nF n mls lasso ridge ccp R T).cost y T) ≤ t.ub) :
    let p := glmTask nF n mls q lasso ridge ccp m R T o red
    ((solve p t T).1.result.sol : Rat) ≤ tol ^ (nF + 1) * (q * (models nF n mls lasso ridge ccp R T).cost y T) ∧
    ∃ x, returned p T (solve p t T).1 = some (some x) ∧ x.depth ≤ t.maxDepth ∧ (models nF n mls lasso ridge ccp R T).Legal x T ∧
      (models nF n mls lasso ridge ccp R T).cost x T ≤
        tol ^ ((nF + 1) * (t.maxDepth + 1)) * (models nF n mls lasso ridge ccp R T).cost y T := by
  intro p
  have hv : ViewOf T T := List.Sublist.refl T
  have hq' : (0 : Rat) < q := by exact_mod_cast hq
  have h1 : (1 : Rat) ≤ tol ^ (nF + 1) := one_le_pow₀ tol_one
  have hz : (0 : Rat) ≤ T.length * (ccp * glmSpread (T.map fun i => R i.id) + M) :=
    mul_nonneg (by exact_mod_cast Nat.zero_le _) (add_nonneg hp F.pos)
  have G : Feas.Base p T := rat_base F hq hp (fun _ => mul_self_nonneg _) hs hl (fun D f => (ho D f).1)
    (lt_of_le_of_lt (by nlinarith) hbig)
  have O : Open p T := rat_open F hq hp hlb hub (fun D f => (ho D f).2) hred hbig
  have hcy : (p.fitting.cost y T : Rat) = q * (models nF n mls lasso ridge ccp R T).cost y T := rat_cost hx y hv
  obtain ⟨n1, n2⟩ := (solve_spec G.fair t hfit).2 O hclk hfin y ⟨hya.1, hya.2.1, (rat_legal y T).2 ⟨hya.2.2, hyf⟩⟩
    (by rw [hcy]; exact hyu)
  rw [hcy] at n2
  obtain ⟨e, h⟩ := Feas.solve_sound G t hfit
  have hall : AllOK p.c (solve p t T).1.st.tick := hclk.allOK (c := p.c) hfin
  refine ⟨n2, ?_⟩
  rcases Feas.returned_spec G t h True (fun _ => ⟨O, hall⟩) with ⟨_, h2⟩ | ⟨x, h2, h3, h4, h5⟩
  · have := (G.ne_iff hv h.sound).1 n1
    omega
  · refine ⟨x, h2, h3, ((rat_legal x T).1 h4).1, ?_⟩
    have h5 := h5 trivial
    have hcx : (p.fitting.cost x T : Rat) = q * (models nF n mls lasso ridge ccp R T).cost x T := rat_cost hx x hv
    rw [hcx] at h5
    have h6 : (0 : Rat) ≤ (tol ^ (nF + 1)) ^ t.maxDepth := pow_nonneg (le_trans zero_le_one h1) _
    have h7 := le_trans h5 (mul_le_mul_of_nonneg_left n2 h6)
    have h8 : (tol ^ (nF + 1)) ^ t.maxDepth * (tol ^ (nF + 1) * (q * (models nF n mls lasso ridge ccp R T).cost y T)) =
        q * (tol ^ ((nF + 1) * (t.maxDepth + 1)) * (models nF n mls lasso ridge ccp R T).cost y T) := by
      rw [pow_mul tol (nF + 1) (t.maxDepth + 1), pow_succ (tol ^ (nF + 1)) t.maxDepth]; ring
    change _ ≤ (tol ^ (nF + 1)) ^ t.maxDepth * (tol ^ (nF + 1) * _) at h7
    rw [h8] at h7
    exact le_of_mul_le_mul_left h7 hq'

/-- **With the default bounds a single model ends the search.** If `1.0001` times the cost of the model on all rows is less than three
times the price of a branching node, no tree with a split is returned, whatever the data and the limits. -/
theorem glm_single_leaf (hmls : 1 ≤ mls) (hq : 0 < q) (hp : 0 ≤ ccp * glmSpread (T.map fun i => R i.id))
    (hx : Whole q (models nF n mls lasso ridge ccp R T) T)
    (hs : IdSorted T) (hl : ∀ i ∈ T, i.label = 0) (hlb : o.useLB = true) (hub : o.useUB = true)
    (hrows : mls ≤ T.length) (hbig : ccp * glmSpread (T.map fun i => R i.id) ≤ largestDouble) (L : Rat) (hL0 : 0 ≤ L)
    (hL : (models nF n mls lasso ridge ccp R T).fit T = some L)
    (hcheap : tol * L < 3 * (models nF n mls lasso ridge ccp R T).price) (t : Top) :
    let v := (solve (glmTask nF n mls q lasso ridge ccp m R T o red) t T).1.result
    v.isEmpty = true ∨ Rep v (.leaf 0) ∧ (v.sol : Rat) = q * L := by
  intro v
  have hq' : (0 : Rat) < q := by exact_mod_cast hq
  have hbl : glmFit n lasso ridge R T = some L := hL
  have ht : tol = 10001 / 10000 := by unfold tol; norm_num
  have hpr : (models nF n mls lasso ridge ccp R T).price = ccp * glmSpread (T.map fun i => R i.id) := rfl
  have e1 : (((q * (ccp * glmSpread (T.map fun i => R i.id)) : Rat).floor : Int) : Rat) = q * (ccp * glmSpread (T.map fun i => R i.id)) :=
    exact_floor hx.1
  have e2 : (((q * L : Rat).floor : Int) : Rat) = q * L := exact_floor (hx.2 T (List.Sublist.refl T) L hL)
  have eb : (glmTask nF n mls q lasso ridge ccp m R T o red).c.P.bc = (q * (ccp * glmSpread (T.map fun i => R i.id)) : Rat).floor := rfl
  have ew : (((glmTask nF n mls q lasso ridge ccp m R T o red).c.worst : Int) : Rat) = q * largestDouble := rat_worst
  have H : Cheap (glmTask nF n mls q lasso ridge ccp m R T o red) T (q * L : Rat).floor := by
    refine ⟨hs, fun i hi => by rw [hl i hi]; exact Nat.one_pos, hlb, hub, le_refl _, hmls, rfl, hrows, ?_,
      (floor_bounds (mul_nonneg hq'.le hL0)).1, (floor_bounds (mul_nonneg hq'.le hp)).1, ?_, ?_⟩
    · show (glmFit n lasso ridge R T).map _ = _
      rw [hbl]; rfl
    · rw [← Rat.intCast_le_intCast, eb, e1, ew]
      exact mul_le_mul_of_nonneg_left hbig hq'.le
    · rw [← Rat.intCast_lt_intCast, eb]
      push_cast
      rw [e1, e2]
      rw [ht, hpr] at hcheap
      have := mul_lt_mul_of_pos_left hcheap hq'
      linarith
  rcases (H.solve t).1 with h | h
  · right
    have h : v = Node.leaf 0 (q * L : Rat).floor := h
    rw [h]
    exact ⟨⟨rfl, rfl⟩, e2⟩
  · left
    have h : v = _ := h
    rw [h]; rfl

/-! ### The similarity bound -/

theorem glmError_const (D : List GlmInst) (c : Rat) :
    glmError D n lasso ridge (fun _ => 0) c = (D.map fun i => (i.y - c) * (i.y - c)).sum := by
  rw [glmError]; simp

theorem spread_mean (D : List GlmInst) (hD : D ≠ []) :
    glmSpread D = (D.map fun i => (i.y - glmMean (·.y) D) * (i.y - glmMean (·.y) D)).sum := by
  have hw : (D.length : Rat) ≠ 0 := by exact_mod_cast (List.length_pos_iff.2 hD).ne'
  have key : ∀ (L : List GlmInst) (c : Rat), (L.map fun i => (i.y - c) * (i.y - c)).sum =
      (L.map fun i => i.y * i.y).sum - 2 * c * (L.map (·.y)).sum + L.length * (c * c) := by
    intro L c
    induction L with
    | nil => simp
    | cons i L ih => simp only [List.map_cons, List.sum_cons, List.length_cons, ih]; push_cast; ring
  rw [key, glmMean, glmSpread]
  field_simp
  ring

/-- The cost of a group is that of its model, and not above the squared error of the mean of all rows. -/
theorem glm_cost_spread (hmls : 1 ≤ mls) (hla : 0 ≤ lasso) (hri : 0 ≤ ridge) {D : Data} (hD : ViewOf T D) (hw : mls ≤ D.length)
    (hcov : CovariancesBig (D.map fun i => R i.id)) {l : GlmLeaf} (h : solveGlm (D.map fun i => R i.id) n lasso ridge = some l)
    (hb : ∀ k, k < n → l.b k = 0 ∨ 1 / 10000 ≤ |l.b k|) : 0 ≤ l.cost ∧ l.cost ≤ glmSpread (T.map fun i => R i.id) := by
  have hne : (D.map fun i => R i.id) ≠ [] := by
    intro h3; rw [List.map_eq_nil_iff] at h3; rw [h3] at hw; simp at hw; omega
  have hT : (T.map fun i => R i.id) ≠ [] := by
    intro h3
    have h4 : ViewOf ([] : Data) D := List.map_eq_nil_iff.1 h3 ▸ hD
    exact hne (by rw [List.sublist_nil.1 h4]; rfl)
  have hn : (0 : Rat) ≤ (D.map fun i => R i.id).length := Nat.cast_nonneg _
  rw [glm_cost_exact_partial _ hne n lasso ridge hla hri hcov l h hb]
  constructor
  · unfold glmError
    refine add_nonneg (add_nonneg (List.sum_nonneg fun x hx => ?_) ?_) ?_
    · obtain ⟨i, _, rfl⟩ := List.mem_map.1 hx
      exact mul_self_nonneg _
    · exact mul_nonneg (mul_nonneg (by norm_num) (mul_nonneg hn hla)) (Finset.sum_nonneg fun k _ => abs_nonneg _)
    · exact mul_nonneg (mul_nonneg hn hri) (Finset.sum_nonneg fun k _ => mul_self_nonneg _)
  · refine (glm_not_worse_than_constant_partial _ hne n lasso ridge hla hri hcov l h (glmMean (·.y) (T.map fun i => R i.id))).trans ?_
    rw [glmError_const, spread_mean _ hT]
    apply List.Sublist.sum_le_sum ((List.Sublist.map _ hD).map _)
    intro x hx
    obtain ⟨i, _, rfl⟩ := List.mem_map.1 hx
    exact mul_self_nonneg _

/-- **The similarity bound is safe here.** What the similarity bound subtracts for a single row `i` is `(m - |y i|)²`, where `m` is
the largest target plus the root `s` of the squared error of the mean. That is at least the cost of any leaf on any of the rows, so
one row of difference is enough for the bound to say nothing. Missing: covariances and coefficients strictly between 0 and 1e-4, and
trees of more than one leaf. -/
theorem glm_similarity_allowance_partial (hmls : 1 ≤ mls) (hla : 0 ≤ lasso) (hri : 0 ≤ ridge) {D : Data} (hD : ViewOf T D)
    (hw : mls ≤ D.length) (hcov : CovariancesBig (D.map fun i => R i.id)) {l : GlmLeaf}
    (h : solveGlm (D.map fun i => R i.id) n lasso ridge = some l) (hb : ∀ k, k < n → l.b k = 0 ∨ 1 / 10000 ≤ |l.b k|)
    (s : Rat) (hs0 : 0 ≤ s) (hs : glmSpread (T.map fun i => R i.id) ≤ s * s) (hm : ∀ i ∈ T, |(R i.id).y| + s ≤ m) (i : Inst) (hi : i ∈ T) :
    l.cost ≤ (m - |(R i.id).y|) * (m - |(R i.id).y|) := by
  have h1 := (glm_cost_spread hmls hla hri hD hw hcov h hb).2
  have h2 : s ≤ m - |(R i.id).y| := by have := hm i hi; linarith
  exact h1.trans (hs.trans (mul_le_mul h2 h2 hs0 (hs0.trans h2)))

end

/-! ### Ten rows -/

/-- Values of the continuous feature, with mean 0 and variance 1, so that standardisation changes nothing. -/
def tenX (i : Nat) : Rat := [-9/6, -8/6, -5/6, -3/6, -1/6, 1/6, 3/6, 5/6, 8/6, 9/6].getD i 0

/-- The binary feature: the last five. -/
def tenData : Data := (List.range 10).map fun i => ⟨i, fun _ => decide (5 ≤ i), 0⟩

/-- A line with a step of 3/5. -/
def tenStep (i : Nat) : GlmInst := ⟨fun _ => tenX i, if i < 5 then tenX i else tenX i + 3 / 5⟩

/-- Two constants. -/
def tenConst (i : Nat) : GlmInst := ⟨fun _ => tenX i, if i < 5 then 0 else 1⟩

/-- The run with one continuous feature, at least five rows per leaf, depth three, without penalties. -/
def tenRun (ccp : Rat) (R : Nat → GlmInst) (o : Options) : Run × Bool :=
  solve (glmTask 1 1 5 9000 0 0 ccp 10 R tenData o fun _ => false) ⟨3, 7, false, (9000 * largestDouble : Nat)⟩ tenData

set_option maxRecDepth 100000 in
/-- **The default options miss the best tree.** The run finishes and returns one model of cost 2016; an allowed tree with a model in
each of its two leaves costs 1449. -/
theorem glm_default_not_optimal :
    (tenRun (1 / 100) tenStep stepOpt).2 = true ∧ (tenRun (1 / 100) tenStep stepOpt).1.result = Node.leaf 0 2016 ∧
    (models 1 1 5 0 0 (1 / 100) tenStep tenData).Allowed 3 7 tenData (.node 0 (.leaf 0) (.leaf 0)) ∧
    (models 1 1 5 0 0 (1 / 100) tenStep tenData).Fitted (.node 0 (.leaf 0) (.leaf 0)) tenData ∧
    9000 * (models 1 1 5 0 0 (1 / 100) tenStep tenData).cost (.node 0 (.leaf 0) (.leaf 0)) tenData = 1449 := by
  refine ⟨by decide +kernel, by decide +kernel, ⟨by decide, by decide, by decide, ?_, ?_⟩, ⟨?_, ?_⟩, by decide +kernel⟩
  · show 5 ≤ (without 0 tenData).length; decide +kernel
  · show 5 ≤ (having 0 tenData).length; decide +kernel
  · show (glmFit 1 0 0 tenStep (without 0 tenData)).isSome = true; decide +kernel
  · show (glmFit 1 0 0 tenStep (having 0 tenData)).isSome = true; decide +kernel

set_option maxRecDepth 100000 in
/-- **Groups with equal targets cannot be leaves.** The feature splits the rows into five with target 0 and five with target 1, so
with two constants every row would be fitted, and nodes are free; the run finishes with one model of cost 5600 / 9000. -/
theorem glm_constant_sides :
    (tenRun 0 tenConst stepOpt).2 = true ∧ (tenRun 0 tenConst stepOpt).1.result = Node.leaf 0 5600 ∧
    glmError ((without 0 tenData).map fun i => tenConst i.id) 1 0 0 (fun _ => 0) 0 = 0 ∧
    glmError ((having 0 tenData).map fun i => tenConst i.id) 1 0 0 (fun _ => 0) 1 = 0 := by
  refine ⟨by decide +kernel, by decide +kernel, by decide +kernel, by decide +kernel⟩

/-- Non-vacuity of `glm_equal_targets_none`: ten rows with target 7. -/
example : returned (glmTask 1 1 5 9000 0 0 (1 / 100) 10 (fun i => ⟨fun _ => tenX i, 7⟩) tenData stepOpt fun _ => false) tenData
    (tenRun (1 / 100) (fun i => ⟨fun _ => tenX i, 7⟩) stepOpt).1 = none :=
  (glm_equal_targets_none (le_refl _) (by decide) 7 (fun _ _ => rfl) (by unfold IdSorted; decide) (by decide)
    (fun D f h => by rw [List.mem_singleton.1 h]; decide) ⟨3, 7, false, (9000 * largestDouble : Nat)⟩ (by decide)).2.1

/-! ### Four rows -/

def fourX (i : Nat) : Rat := [-7/5, -1/5, 1/5, 7/5].getD i 0

def fourData : Data := (List.range 4).map fun i => ⟨i, fun _ => decide (2 ≤ i), 0⟩

/-- A line with a step. -/
def fourRow (i : Nat) : GlmInst := ⟨fun _ => fourX i, if i < 2 then fourX i else fourX i + 3 / 5⟩

/-- The run with price 1/100 and at least two rows per leaf. -/
def fourRun (o : Options) : Run × Bool :=
  solve (glmTask 1 1 2 1202500 0 0 (1 / 100) 10 fourRow fourData o fun _ => false) ⟨3, 7, false, (1202500 * largestDouble : Nat)⟩ fourData

set_option maxRecDepth 100000 in
theorem four_whole : Whole 1202500 (models 1 1 2 0 0 (1 / 100) fourRow fourData) fourData := by
  refine ⟨⟨75517, by decide +kernel⟩, fun D hD x hx => ?_⟩
  have h : ∀ D ∈ fourData.sublists, ((glmFit 1 0 0 fourRow D).all fun x => decide (((1202500 : Rat) * x).den = 1)) = true := by
    decide +kernel
  have h := h D (List.mem_sublists.2 hD)
  have hx : glmFit 1 0 0 fourRow D = some x := hx
  rw [hx] at h
  have h1 : ((1202500 : Rat) * x).den = 1 := by simpa using h
  exact ⟨((1202500 : Rat) * x).num, ((Rat.den_eq_one_iff _).1 h1).symm⟩

set_option maxRecDepth 100000 in
theorem four_fits : Fits 2 (glmFit 1 0 0 fourRow) 1 fourData := by
  refine ⟨by decide, fun D hD hw => ?_, fun D hD x hx => ?_, by decide⟩
  · have h : ∀ D ∈ fourData.sublists, 2 ≤ D.length → (glmFit 1 0 0 fourRow D).isSome = true := by decide +kernel
    exact h D (List.mem_sublists.2 hD) hw
  · have h : ∀ D ∈ fourData.sublists, ((glmFit 1 0 0 fourRow D).all fun x => decide (0 ≤ x ∧ x ≤ 1)) = true := by decide +kernel
    have h := h D (List.mem_sublists.2 hD)
    rw [hx] at h
    simpa using h

set_option maxRecDepth 100000 in
/-- Non-vacuity of `glm_similarity_allowance_partial`, with `max_lb` rounded up. -/
example : ∃ l, solveGlm (fourData.map fun i => fourRow i.id) 1 0 0 = some l ∧ l.cost ≤ (5 - |(fourRow 3).y|) * (5 - |(fourRow 3).y|) := by
  have h : (solveGlm (fourData.map fun i => fourRow i.id) 1 0 0).isSome = true := by decide +kernel
  obtain ⟨l, hl⟩ := Option.isSome_iff_exists.1 h
  refine ⟨l, hl, ?_⟩
  have hb : ∀ k, k < 1 → l.b k = 0 ∨ 1 / 10000 ≤ |l.b k| := by
    have h2 : ((solveGlm (fourData.map fun i => fourRow i.id) 1 0 0).all fun l => decide (1 / 10000 ≤ |l.b 0|)) = true := by decide +kernel
    rw [hl] at h2
    intro k hk
    obtain rfl : k = 0 := by omega
    right; simpa using h2
  have hc : CovariancesBig (fourData.map fun i => fourRow i.id) := by
    intro j k
    right
    have : GlmLemmas.cv (fourData.map fun i => fourRow i.id) j k = GlmLemmas.cv (fourData.map fun i => fourRow i.id) 0 0 := rfl
    rw [this]; decide +kernel
  exact glm_similarity_allowance_partial (mls := 2) (m := 5) (T := fourData) (by decide) (by decide) (by decide) (List.Sublist.refl _)
    (by decide) hc hl hb 3 (by decide) (by decide +kernel) (by decide +kernel) ⟨3, fun _ => decide (2 ≤ 3), 0⟩
    (List.mem_map.2 ⟨3, by decide, rfl⟩)

/-- Non-vacuity of `glm_sound`. -/
example : (fourRun stepOpt).1.result.isEmpty = true ∨ ∃ x, Rep (fourRun stepOpt).1.result x ∧
    (models 1 1 2 0 0 (1 / 100) fourRow fourData).Allowed 3 7 fourData x ∧
    (models 1 1 2 0 0 (1 / 100) fourRow fourData).Fitted x fourData ∧
    ((fourRun stepOpt).1.result.sol : Rat) = (1202500 : Nat) * (models 1 1 2 0 0 (1 / 100) fourRow fourData).cost x fourData :=
  glm_sound four_whole (by unfold IdSorted; decide) (by decide) (fun D f h => by rw [List.mem_singleton.1 h]; decide) _ (by decide)

set_option maxRecDepth 100000 in
/-- Non-vacuity of `glm_single_leaf`. -/
example : (fourRun stepOpt).1.result.isEmpty = true ∨ Rep (fourRun stepOpt).1.result (.leaf 0) ∧
    ((fourRun stepOpt).1.result.sol : Rat) = (1202500 : Nat) * (81 / 625 : Rat) :=
  glm_single_leaf (by decide) (by decide) (by decide +kernel) four_whole (by unfold IdSorted; decide) (by decide) rfl rfl
    (by decide) (by decide +kernel) (81 / 625) (by decide +kernel) (by decide +kernel) (by decide +kernel) _

set_option maxRecDepth 100000 in
/-- Non-vacuity of `glm_returned_partial`, for a run that is cut off. -/
example : (fourRun stepTimed).2 = false ∧ ∃ x, returned (glmTask 1 1 2 1202500 0 0 (1 / 100) 10 fourRow fourData stepTimed fun _ => false)
      fourData (fourRun stepTimed).1 = some (some x) ∧ x.depth ≤ 3 ∧
    (models 1 1 2 0 0 (1 / 100) fourRow fourData).Legal x fourData ∧ (models 1 1 2 0 0 (1 / 100) fourRow fourData).Fitted x fourData := by
  refine ⟨by decide +kernel, ?_⟩
  rcases glm_returned_partial (m := 10) (red := fun _ => false) (o := stepTimed) (nF := 1) (q := 1202500) (ccp := 1 / 100)
    four_fits (by decide) (by decide +kernel) (by unfold IdSorted; decide) (by decide)
    (fun D f h => by rw [List.mem_singleton.1 h]; decide) (by decide +kernel) ⟨3, 7, false, (1202500 * largestDouble : Nat)⟩ (by decide)
    with ⟨_, _, h | h⟩ | h
  · exact absurd h (by decide +kernel)
  · exact absurd h (by decide +kernel)
  · exact h

set_option maxRecDepth 100000 in
/-- Non-vacuity of `glm_near_optimal_partial`: here the split is found. -/
example : ((fourRun stepOpen).1.result.sol : Rat) ≤
    tol ^ (1 + 1) * ((1202500 : Nat) * (models 1 1 2 0 0 (1 / 100) fourRow fourData).cost (.node 0 (.leaf 0) (.leaf 0)) fourData) := by
  have ha : (models 1 1 2 0 0 (1 / 100) fourRow fourData).Allowed 3 7 fourData (.node 0 (.leaf 0) (.leaf 0)) := by
    refine ⟨by decide, by decide, by decide, ?_, ?_⟩
    · show 2 ≤ (without 0 fourData).length; decide +kernel
    · show 2 ≤ (having 0 fourData).length; decide +kernel
  have hf : (models 1 1 2 0 0 (1 / 100) fourRow fourData).Fitted (.node 0 (.leaf 0) (.leaf 0)) fourData := by
    refine ⟨?_, ?_⟩
    · show (glmFit 1 0 0 fourRow (without 0 fourData)).isSome = true; decide +kernel
    · show (glmFit 1 0 0 fourRow (having 0 fourData)).isSome = true; decide +kernel
  exact (glm_near_optimal_partial (m := 10) (red := fun _ => false) (o := stepOpen) four_fits (by decide) (by decide +kernel) four_whole
    (by unfold IdSorted; decide) (by decide) (fun D f => by show f ∈ [0] ↔ f < 1; simp) (fun _ _ _ _ => rfl) rfl rfl
    (fun f h => Bool.noConfusion h) (by decide +kernel) ⟨3, 7, false, (1202500 * largestDouble : Nat)⟩ (by decide) (by decide +kernel) _
    ha hf (by decide +kernel)).1

end Streed.Pw
