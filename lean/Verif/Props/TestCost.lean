import Verif.Lemmas.TestCost
import Verif.Props.Regression
import Mathlib.Tactic.Linarith
import Mathlib.Tactic.FieldSimp

/-!
# C90: the score of new data with costs, treatments and numbers
-/

namespace Streed

open TaskLemmas TestLemmas

/-! ### Cost-sensitive classification -/

/-- What a row costs: the misclassification cost if the prediction is wrong, and the cost of the features that were asked for. -/
def rowCost (C : Costs) (t : Tree) (i : Inst) : Rat :=
  (if t.predict i = i.label then 0 else C.matrix i.label (t.predict i)) + testsCost C.attrs [] (t.tests i)

private theorem cs_value (fl : List Nat) (C : Costs) (hc : CostsOK C.attrs) {nF n : Nat} (t : Tree) (ht : t.Over nF n) (D : Data)
    (hD : ∀ i ∈ D, i.label < n) :
    (Obj.ofTree t).costWalk fl C.branchCost (csLeafV C n) [] (preprocessTest fl (loadRows D)) 0 = some (D.map (rowCost C t)).sum := by
  have hlen : (preprocessTest fl (loadRows D)).groups.length ≤ n := by
    by_contra h
    obtain ⟨i, hi, hk⟩ := (seen_groups fl D n).1 (by omega)
    have := hD i hi
    omega
  rw [cost_walk_eq fl C (csLeafV C n) (preprocessTest fl (loadRows D)).groups.length (· < n)
    (fun v k _ hg hn hk => by rw [csLeafV_eq C hg (by rw [hn]; exact hlen) hk, hn]) t (over_leaves ht) [] _ (seen_ok fl D)
    (seen_grouped fl D) rfl, zero_add, ← offDiagonal_eval,
    costs_tree (offDiagonal C) hc _ (fun k => if_pos rfl) (unflip (flipSet fl) t) _
      (seen_labels fl D _ fun i hi => (seen_groups fl D _).2 ⟨i, hi, Nat.le_refl _⟩)]
  congr 1
  refine seen_sum fl D _ _ fun i => ?_
  rw [unflip_predict, unflip_tests]
  unfold rowCost offDiagonal
  by_cases h : t.predict i = i.label
  · simp only [flipInst, h, if_true]
  · have h' : ¬ i.label = t.predict i := fun e => h e.symm
    simp only [flipInst, h, h', if_false]

private theorem cs_biggest (fl : List Nat) (D : Data) (hD : D ≠ []) (big : Nat) (h1 : ∀ k, numLabel D k ≤ big)
    (h2 : ∃ k, numLabel D k = big) : (((preprocessTest fl (loadRows D)).groups).map List.length).foldl max 0 = big := by
  have hnum : ∀ k, numLabel (preprocessTest fl (loadRows D)).rows k = numLabel D k := by
    intro k
    unfold numLabel
    rw [← List.countP_eq_length_filter, ← List.countP_eq_length_filter]
    exact seen_count fl D _ _ fun i => rfl
  obtain ⟨a, b⟩ := biggest_spec (preprocessTest fl (loadRows D)).groups
  obtain ⟨k, hk⟩ := h2
  have ak := a k
  rw [group_length (seen_grouped fl D), hnum, hk] at ak
  rcases b with b | ⟨j, _, e⟩
  · exfalso
    have := seen_length fl D
    unfold View.rows at this
    rw [b] at this
    exact hD (List.length_eq_zero_iff.1 this.symm)
  · rw [group_length (seen_grouped fl D), hnum] at e
    have := h1 j
    omega

/-- C90 for cost-sensitive classification: the score is the average cost of a row, divided by the standard cost: that of measuring all
features plus, for the fraction of rows outside the largest class, the largest entry of the matrix. For every tree, all flips, and all
rows of classes that the matrix covers, if the standard cost is not zero. -/
theorem score_costs_partial (fl : List Nat) (C : Costs) (hc : CostsOK C.attrs) {nF n : Nat} (t : Tree) (ht : t.Over nF n) (D : Data)
    (hD : D ≠ []) (hl : ∀ i ∈ D, i.label < n) (big : Nat) (h1 : ∀ k, numLabel D k ≤ big) (h2 : ∃ k, numLabel D k = big)
    (standard : Rat) (hs : standard = testsCost C.attrs [] (List.range C.numFeatures) + (1 - (big : Rat) / D.length) * C.maxMis n)
    (hne : standard ≠ 0) :
    csTest fl C n (Obj.ofTree t) D = some ((D.map (rowCost C t)).sum / D.length / standard) := by
  have hpos : D.length ≠ 0 := fun h => hD (List.length_eq_zero_iff.1 h)
  unfold csTest
  simp only [cs_value fl C hc t ht D hl, Option.bind_eq_bind, Option.bind_some]
  unfold csScore
  rw [if_neg (by rw [seen_size]; exact hpos)]
  dsimp only
  rw [cs_biggest fl D hD big h1 h2, seen_size, costs_total C hc, ← hs, if_neg hne]

/-- C90 fails for cost-sensitive classification: when measuring is free and all new rows have the same class, the score is a division
by zero, for every tree. -/
theorem score_costs_one_class (fl : List Nat) (C : Costs) (hc : CostsOK C.attrs) (hfree : ∀ a ∈ C.attrs, a.cost = 0 ∧ a.disc = 0)
    (n : Nat) (t : Obj) (D : Data) (y : Nat) (hy : ∀ i ∈ D, i.label = y) : csTest fl C n t D = none := by
  have h0 : ∀ fs seen, testsCost C.attrs seen fs = 0 := by
    intro fs
    induction fs with
    | nil => intro seen; rfl
    | cons f fs ih =>
      intro seen
      unfold testsCost
      rw [ih, add_zero]
      unfold testCost
      cases ha : attrOf C.attrs f with
      | none => rfl
      | some a =>
        have := hfree a (List.mem_of_find?_eq_some ha)
        dsimp only
        rw [this.1, this.2]
        split
        · rfl
        · split <;> rfl
  unfold csTest
  dsimp only
  cases t.costWalk fl C.branchCost (csLeafV C n) [] (preprocessTest fl (loadRows D)) 0 with
  | none => rfl
  | some r =>
    rw [Option.bind_eq_bind, Option.bind_some]
    unfold csScore
    by_cases hz : (preprocessTest fl (loadRows D)).size = 0
    · exact if_pos hz
    · rw [if_neg hz]
      rw [seen_size] at hz
      have hD : D ≠ [] := fun h => hz (by rw [h]; rfl)
      have hnum : numLabel D y = D.length := by
        unfold numLabel
        rw [List.filter_eq_self.2 fun i hi => decide_eq_true (hy i hi)]
      have hb := cs_biggest fl D hD D.length (fun k => List.length_filter_le _ _) ⟨y, hnum⟩
      dsimp only
      have hq : (D.length : Rat) ≠ 0 := by exact_mod_cast hz
      rw [hb, seen_size, costs_total C hc, h0, div_self hq, sub_self, zero_mul, add_zero, if_pos rfl]

/-- C90 fails for cost-sensitive classification: a new row of a class beyond the matrix is looked up beyond its end, for every tree. -/
theorem score_costs_new_class (fl : List Nat) (C : Costs) {nF n : Nat} (t : Tree) (ht : t.Over nF n) (D : Data)
    (h : ∃ i ∈ D, n ≤ i.label) : csTest fl C n (Obj.ofTree t) D = none := by
  have hlen := (seen_groups fl D n).2 h
  unfold csTest
  dsimp only
  rw [cost_walk_none fl C.branchCost (csLeafV C n) _ (· < n) (fun v k hv hk => csLeafV_none C (by rw [hv]; exact hlen) hk) t
    (over_leaves ht) [] _ rfl 0]
  rfl

/-- Two free attributes; wrong predictions cost 1. -/
def freeCosts : Costs := ⟨fun i j => if i = j then 0 else 1, [⟨0, 0, 0, 0, 0⟩, ⟨0, 0, 1, 1, 1⟩]⟩

private theorem twoAttrs_fine : CostsOK twoAttrs.attrs := by
  constructor
  · decide
  · simp only [twoAttrs, List.pairwise_cons, List.mem_cons, List.not_mem_nil, or_false, forall_eq, AttrCost.has,
      Bool.and_eq_true, decide_eq_true_eq]
    exact ⟨fun f h => by omega, by simp⟩

/-- Three rows; the first feature tells the classes apart except for the last row. -/
def pricedRows : Data := [⟨0, fun _ => false, 0⟩, ⟨1, fun _ => true, 1⟩, ⟨2, fun f => f == 1, 1⟩]

/-- Asks for the second attribute first. -/
def pricedTree : Tree := .node 1 (.leaf 0) (.node 0 (.leaf 0) (.leaf 1))

example : csTest [] twoAttrs 2 (Obj.ofTree pricedTree) pricedRows = some ((20 + 21 + 22) / 3 / (11 + 1 / 3)) := by
  have hbig : ∀ k, numLabel pricedRows k ≤ 2 := by
    intro k
    match k with
    | 0 => decide
    | 1 => decide
    | k + 2 =>
      have : numLabel pricedRows (k + 2) = 0 := by
        unfold numLabel
        rw [List.length_eq_zero_iff, List.filter_eq_nil_iff]
        intro i hi
        simp only [pricedRows, List.mem_cons, List.not_mem_nil, or_false] at hi
        rcases hi with rfl | rfl | rfl <;> simp
      omega
  have h := score_costs_partial [] twoAttrs twoAttrs_fine (nF := 2) (n := 2) pricedTree
    ⟨by decide, Nat.two_pos, by decide, Nat.two_pos, Nat.one_lt_two⟩ pricedRows (by decide) (by decide) 2 hbig ⟨1, by decide⟩ _ rfl
    (by decide +kernel)
  rw [h]
  decide +kernel

example : CostsOK freeCosts.attrs ∧ (∀ a ∈ freeCosts.attrs, a.cost = 0 ∧ a.disc = 0) ∧
    csTest [] freeCosts 2 (Obj.ofTree pricedTree) pricedRows ≠ none ∧
    csTest [] freeCosts 2 (Obj.ofTree pricedTree) (pricedRows.drop 1) = none := by
  refine ⟨⟨by decide, ?_⟩, by decide, by decide +kernel, by decide +kernel⟩
  simp only [freeCosts, List.pairwise_cons, List.mem_cons, List.not_mem_nil, or_false, forall_eq, AttrCost.has,
    Bool.and_eq_true, decide_eq_true_eq]
  exact ⟨fun f h => by omega, by simp⟩

example : csTest [] twoAttrs 2 (Obj.ofTree pricedTree) (⟨3, fun _ => true, 2⟩ :: pricedRows) = none :=
  score_costs_new_class [] twoAttrs (nF := 2) pricedTree ⟨by decide, Nat.two_pos, by decide, Nat.two_pos, Nat.one_lt_two⟩ _
    ⟨_, List.mem_cons_self .., by decide⟩

/-! ### Instance-specific costs -/

private theorem pad_rows (n : Nat) (v : View) : (padGroups n v).rows = v.rows := by
  unfold padGroups View.rows
  split
  · exact flatten_pad _ _
  · rfl

private theorem pad_ok {n : Nat} {v : View} (h : v.OK) : (padGroups n v).OK := by
  unfold padGroups
  split
  · unfold View.OK at *
    rw [h]
    simp
  · exact h

private theorem pad_grouped {n : Nat} {v : View} (h : GroupedBy v.groups) : GroupedBy (padGroups n v).groups := by
  unfold padGroups
  split
  · intro k i hi
    exact h k i (by rwa [getD_pad] at hi)
  · exact h

private theorem foldl_sum {S : Type} [AddCommMonoid S] (c : Inst → S) (D : Data) (x : S) :
    D.foldl (fun e i => e + c i) x = x + (D.map c).sum := by
  induction D generalizing x with
  | nil => simp
  | cons i D ih => rw [List.foldl_cons, ih, List.map_cons, List.sum_cons, add_assoc]

/-- C90 for instance-specific costs: the score is the total, over the new rows, of the cost that the row states for its prediction. -/
theorem score_instance (fl : List Nat) {nF n : Nat} (w : Nat → List Rat) (t : Tree) (ht : t.Over nF n) (D : Data)
    (hw : ∀ i ∈ D, (w i.id).length = n) :
    icTest fl n w (Obj.ofTree t) D = some (D.map fun i => (w i.id).getD (t.predict i) 0).sum := by
  unfold icTest
  dsimp only
  rw [walk_eq_on fl (· + ·) (fun a b c => add_assoc a b c) (icLeafV w) (fun D k => (D.map fun i => (w i.id).getD k 0).sum) _ (· < n)
    (fun i => (w i.id).length = n) ?_ t (over_leaves ht) _ (pad_ok (seen_ok fl D)) (pad_grouped (seen_grouped fl D)) rfl ?_]
  · simp only [Option.bind_eq_bind, Option.bind_some, zero_add, pad_rows]
    rw [evalTree_sum (fun i k => (w i.id).getD k 0) _ (fun _ => True) (fun _ _ _ => rfl) _ _ (fun _ _ => trivial),
      seen_sum fl D _ (fun i => (w i.id).getD (t.predict i) 0) fun i => by rw [unflip_predict]; rfl]
    rfl
  · intro v k _ _ _ hq hk
    unfold icLeafV
    rw [foldlM_some _ (fun (c : Rat) (i : Inst) => c + (w i.id).getD k 0)]
    · rw [foldl_sum (fun i => (w i.id).getD k 0), zero_add]; rfl
    · intro i hi c
      have : k < (w i.id).length := by rw [hq i hi]; exact hk
      rw [List.getElem?_eq_getElem this, Option.map_some, List.getD_eq_getElem?_getD, List.getElem?_eq_getElem this]
      rfl
  · intro i hi
    rw [pad_rows] at hi
    obtain ⟨j, hj, rfl⟩ := List.mem_map.1 ((seen_perm fl D).mem_iff.1 hi)
    exact hw j hj

/-- C90 fails for instance-specific costs: the score is not an average. Giving the same rows twice doubles it. -/
theorem score_instance_twice (fl : List Nat) {nF n : Nat} (w : Nat → List Rat) (t : Tree) (ht : t.Over nF n) (D : Data)
    (hw : ∀ i ∈ D, (w i.id).length = n) :
    ∃ s, icTest fl n w (Obj.ofTree t) D = some s ∧ icTest fl n w (Obj.ofTree t) (D ++ D) = some (2 * s) := by
  refine ⟨_, score_instance fl w t ht D hw, ?_⟩
  rw [score_instance fl w t ht (D ++ D) fun i hi => by rcases List.mem_append.1 hi with h | h <;> exact hw i h, List.map_append,
    List.sum_append, two_mul]

example : icTest [] 2 (fun i => if i = 0 then [1, 5] else [7, 2]) (Obj.ofTree pricedTree) pricedRows = some (1 + 2 + 7) ∧
    Tree.Over 2 2 pricedTree := ⟨by decide +kernel, by decide, Nat.two_pos, by decide, Nat.two_pos, Nat.one_lt_two⟩

/-! ### Policies -/

/-- C90 for policies: when every new row states its best treatment, the score is the fraction of rows for which the tree recommends
it. -/
theorem score_policy_partial (fl : List Nat) (best : Nat → Nat) (given : Nat → Option Nat) (t : Tree) (D : Data) (hD : D ≠ [])
    (h : ∀ i, given i = some (best i)) :
    ppTest fl given (Obj.ofTree t) D = some ((D.countP fun i => t.predict i == best i.id : Nat) / (D.length : Rat)) := by
  have hb : ∀ i, storedBest (given i) = best i := fun i => by rw [h]; rfl
  have hpos : D.length ≠ 0 := fun h => hD (List.length_eq_zero_iff.1 h)
  have hall : t.LeafAll fun _ => True := by
    clear hb
    induction t with
    | leaf k => trivial
    | node f l r ihl ihr => exact ⟨ihl, ihr⟩
  unfold ppTest
  dsimp only
  rw [walk_eq fl (· + ·) (fun a b c => add_assoc a b c) (ppLeafV given)
    (fun D k => (D.map fun i => if best i.id = k then (0 : Int) else 1).sum) _ (fun _ => True) ?_ t hall _ (seen_ok fl D)
    (seen_grouped fl D) rfl]
  · simp only [Option.bind_eq_bind, Option.bind_some, zero_add]
    rw [evalTree_sum (fun i k => if best i.id = k then (0 : Int) else 1) _ (fun _ => True) (fun _ _ _ => rfl) _ _ (fun _ _ => trivial),
      seen_sum fl D _ (fun i => if best i.id = t.predict i then (0 : Int) else 1) fun i => by rw [unflip_predict]; rfl, seen_size]
    unfold accScore
    rw [if_neg hpos]
    have : ∀ D : Data, (D.length : Int) - (D.map fun i => if best i.id = t.predict i then (0 : Int) else 1).sum =
        (D.countP fun i => t.predict i == best i.id : Nat) := by
      intro D
      induction D with
      | nil => rfl
      | cons i D ih =>
        rw [List.length_cons, List.map_cons, List.sum_cons, List.countP_cons]
        by_cases e : best i.id = t.predict i
        · simp only [e, if_true, beq_self_eq_true]; push_cast; omega
        · have : ¬ (t.predict i == best i.id) = true := fun h => e (beq_iff_eq.1 h).symm
          simp only [e, if_false, this]; push_cast; omega
    rw [this]
    rfl
  · intro v k _ _ _ _
    unfold ppLeafV
    simp only [hb]
    rw [foldl_sum (fun i => if best i.id = k then (0 : Int) else 1), zero_add]
    rfl

/-- C90 fails for policies: rows without a best treatment are accepted, and the score is the fraction of rows that get treatment 0. -/
theorem score_policy_unknown (fl : List Nat) (t : Tree) (D : Data) (hD : D ≠ []) :
    ppTest fl (fun _ => none) (Obj.ofTree t) D = some ((D.countP fun i => t.predict i == 0 : Nat) / (D.length : Rat)) := by
  have : ppTest fl (fun _ => none) (Obj.ofTree t) D = ppTest fl (fun _ => some 0) (Obj.ofTree t) D := rfl
  rw [this]
  exact score_policy_partial fl (fun _ => 0) (fun _ => some 0) t D hD fun _ => rfl

example : ppTest [] (fun i => some (if i = 1 then 1 else 0)) (Obj.ofTree pricedTree) pricedRows = some 1 ∧
    ppTest [] (fun _ => none) (Obj.ofTree pricedTree) pricedRows = some (2 / 3) := by decide +kernel

/-! ### Regression -/

theorem num_rows (fl : List Nat) (D : Data) :
    (preprocessTest fl (loadNumbers D)).rows = D.map fun i => flipInst (flipSet fl) { i with label := 0 } := by
  rw [preprocessTest_rows]
  unfold loadNumbers View.ofGroups View.rows
  rw [List.flatten_cons, List.flatten_nil, List.append_nil, List.map_map]
  rfl

theorem num_ok (fl : List Nat) (D : Data) : (preprocessTest fl (loadNumbers D)).OK :=
  flip_ok fl (View.ofGroups_size _)

theorem num_grouped (fl : List Nat) (D : Data) : GroupedBy (preprocessTest fl (loadNumbers D)).groups := by
  refine flip_grouped fl fun k i hi => ?_
  cases k with
  | zero =>
    obtain ⟨j, _, rfl⟩ := List.mem_map.1 (show i ∈ D.map fun i => { i with label := 0 } from hi)
    rfl
  | succ k => simp [loadNumbers, View.ofGroups] at hi

theorem predict_label (t : Tree) (i : Inst) (y : Nat) : t.predict { i with label := y } = t.predict i := by
  induction t with
  | leaf k => rfl
  | node f l r ihl ihr => unfold Tree.predict; rw [ihl, ihr]

private theorem rg_score (fl : List Nat) (leaf : View → Nat → Option Rat) (tg val : Nat → Rat)
    (hleaf : ∀ v k, v.groups.length = 1 → leaf v k = some (v.rows.map fun i => (tg i.id - val k) ^ 2).sum) (t : Tree) (D : Data)
    (hD : D ≠ []) :
    rgTest fl leaf (Obj.ofTree t) D = some ((D.map fun i => (tg i.id - val (t.predict i)) ^ 2).sum / D.length) := by
  have hpos : D.length ≠ 0 := fun h => hD (List.length_eq_zero_iff.1 h)
  have hall : t.LeafAll fun _ => True := by
    induction t with
    | leaf k => trivial
    | node f l r ihl ihr => exact ⟨ihl, ihr⟩
  have hsize : (preprocessTest fl (loadNumbers D)).size = D.length := by
    rw [size_rows (num_ok fl D), num_rows, List.length_map]
  unfold rgTest
  dsimp only
  rw [walk_eq fl (· + ·) (fun a b c => add_assoc a b c) leaf (fun D k => (D.map fun i => (tg i.id - val k) ^ 2).sum) 1 (fun _ => True)
    (fun v k _ _ hn _ => hleaf v k hn) t hall _ (num_ok fl D) (num_grouped fl D) rfl]
  simp only [Option.bind_eq_bind, Option.bind_some, zero_add]
  rw [evalTree_sum (fun i k => (tg i.id - val k) ^ 2) _ (fun _ => True) (fun _ _ _ => rfl) _ _ (fun _ _ => trivial), hsize,
    if_neg hpos, num_rows, List.map_map]
  congr 3
  refine List.map_congr_left fun i _ => ?_
  simp only [Function.comp, unflip_predict, predict_label]
  rfl

private theorem one_group {v : View} (h : v.groups.length = 1) : v.groups[0]? = some v.rows := by
  obtain ⟨g, hg⟩ := List.length_eq_one_iff.1 h
  unfold View.rows
  rw [hg]
  simp

/-- C90 for regression: the score is the mean squared error of the predictions, for every tree, all flips and all new rows. -/
theorem score_regression (fl : List Nat) (tg val : Nat → Rat) (t : Tree) (D : Data) (hD : D ≠ []) :
    rgTest fl (rgLeafV tg val) (Obj.ofTree t) D =
      some ((D.map fun i => (tg i.id - val (t.predict i)) ^ 2).sum / D.length) := by
  refine rg_score fl _ tg val (fun v k hv => ?_) t D hD
  unfold rgLeafV regLeafCosts
  rw [one_group hv, Option.map_some, List.foldl_map, foldl_sum (fun i => (tg i.id - val k) * (tg i.id - val k)), zero_add]
  congr 2
  exact List.map_congr_left fun i _ => (sq _).symm

/-- C90 for regression with a price for nodes: the score is the mean squared error too, without the price. -/
theorem score_regression_penalised (fl : List Nat) (tg val : Nat → Rat) (t : Tree) (D : Data) (hD : D ≠ []) :
    rgTest fl (ccLeafV tg val) (Obj.ofTree t) D =
      some ((D.map fun i => (tg i.id - val (t.predict i)) ^ 2).sum / D.length) := by
  refine rg_score fl _ tg val (fun v k hv => ?_) t D hD
  have sums : ∀ (D : Data) (a b : Rat) (n : Nat),
      (D.map fun i => (⟨i.id, 0, tg i.id, tg i.id * tg i.id, 1⟩ : RInst)).foldl
        (fun s i => (s.1 + i.ysq, s.2.1 + i.y, s.2.2 + i.w)) (a, b, n) =
      (a + (D.map fun i => tg i.id * tg i.id).sum, b + (D.map fun i => tg i.id).sum, n + D.length) := by
    intro D
    induction D with
    | nil => intro a b n; simp
    | cons i D ih => intro a b n; simp only [List.map_cons, List.foldl_cons, ih, List.sum_cons, List.length_cons]; ext <;> simp <;> ring
  have sq : ∀ D : Data, (D.map fun i => tg i.id * tg i.id).sum - 2 * val k * (D.map fun i => tg i.id).sum +
      (D.length : Rat) * val k * val k = (D.map fun i => (tg i.id - val k) ^ 2).sum := by
    intro D
    induction D with
    | nil => simp
    | cons i D ih => simp only [List.map_cons, List.sum_cons, List.length_cons, ← ih]; push_cast; ring
  have nonneg : ∀ D : Data, 0 ≤ (D.map fun i => (tg i.id - val k) ^ 2).sum := by
    intro D
    induction D with
    | nil => simp
    | cons i D ih => rw [List.map_cons, List.sum_cons]; have := sq_nonneg (tg i.id - val k); linarith
  unfold ccLeafV
  rw [one_group hv, Option.map_some]
  unfold ccrLeafCosts ccrSums
  rw [sums]
  simp only [zero_add]
  rw [sq, max_eq_right (nonneg _)]

example : rgTest [] (rgLeafV (fun i => i) (fun k => 2 * k)) (Obj.ofTree pricedTree) pricedRows = some ((0 + 1 + 4) / 3) ∧
    rgTest [1] (ccLeafV (fun i => i) (fun k => 2 * k)) (Obj.ofTree pricedTree) pricedRows = some ((0 + 1 + 4) / 3) := by
  decide +kernel

end Streed
