import Verif.Model.TestLine
import Verif.Props.TestCost
import Verif.Props.SimpleLinear
import Verif.Props.Survival

/-!
# C92: the score of new data with lines, linear models and survival times
-/

namespace Streed

open TaskLemmas TestLemmas

/-- What every leaf adds, summed over the leaves of a tree. -/
def Tree.leafSum (g : Nat → Rat) : Tree → Rat
  | .leaf k => g k
  | .node _ l r => l.leafSum g + r.leafSum g

private theorem all_true (t : Tree) : t.LeafAll fun _ => True := by
  induction t with
  | leaf k => trivial
  | node f l r ihl ihr => exact ⟨ihl, ihr⟩

private theorem unflip_all {P : Nat → Prop} (fl : Nat → Bool) (t : Tree) (h : t.LeafAll P) : (unflip fl t).LeafAll P := by
  induction t with
  | leaf k => exact h
  | node f l r ihl ihr =>
    unfold unflip
    split
    · exact ⟨ihr h.2, ihl h.1⟩
    · exact ⟨ihl h.1, ihr h.2⟩

private theorem unflip_leafSum (fl : Nat → Bool) (g : Nat → Rat) (t : Tree) : (unflip fl t).leafSum g = t.leafSum g := by
  induction t with
  | leaf k => rfl
  | node f l r ihl ihr =>
    unfold unflip
    split
    · simp only [Tree.leafSum, ihl, ihr, add_comm]
    · simp only [Tree.leafSum, ihl, ihr]

private theorem eval_split (leaf : Data → Nat → Rat) (g : Nat → Rat) (t : Tree) (D : Data) :
    evalTree (· + ·) (fun D k => leaf D k + g k) t D = evalTree (· + ·) leaf t D + t.leafSum g := by
  induction t generalizing D with
  | leaf k => rfl
  | node f l r ihl ihr =>
    simp only [evalTree, Tree.leafSum, ihl, ihr]
    ring

private theorem first_group {v : View} (h : v.groups.length = 1) : v.groups[0]? = some v.rows := by
  obtain ⟨g, hg⟩ := List.length_eq_one_iff.1 h
  unfold View.rows
  rw [hg]
  simp

/-! ### Lines -/

/-- The penalty of the slope of a leaf. -/
def slopePenalty (p : Rat) (fv : Nat → Rat) (l : LineLeaf) : Rat := p * l.a ^ 2 * fv l.f

/-- The squared error of the prediction of a line. -/
def lineSquare (i : LinRow) (l : LineLeaf) : Rat := (i.y - (l.a * i.x l.f + l.b)) ^ 2

private theorem line_costs (n : Nat) (p : Rat) (fv : Nat → Rat) (l : LineLeaf) (hl : l.f < n) (rows : List LinRow) :
    lineLeafCosts n p fv (rows.map LinStat.ofRow) (l.coefs n) l.b = (rows.map fun i => lineSquare i l).sum + slopePenalty p fv l := by
  simp only [lineLeafCosts]
  have key : (rows.map fun i => lineSquare i l).sum + slopePenalty p fv l = lineError rows p fv l.f l.a l.b := by
    unfold lineError slopePenalty
    congr 1
    · congr 1
      exact List.map_congr_left fun i _ => sq _
    · ring
  rw [leafCosts_fold, key, lineError_eq, coefs_get]
  by_cases ha : l.a = 0
  · rw [ha]; simp [statError]
  · rw [usedFeature_coefs l n hl ha, if_pos ⟨rfl, hl⟩]

/-- What `score` gives with lines in the leaves: the squared errors of the predictions, and for every leaf of the tree the penalty of its
slope, divided by the number of rows. For every tree, all flips and all new rows. -/
theorem score_lines (fl : List Nat) (row : Nat → LinRow) (n : Nat) (p : Rat) (fv : Nat → Rat) (m : Nat → LineLeaf)
    (t : Tree) (hm : t.LeafAll fun k => (m k).f < n) (D : Data) (hD : D ≠ []) :
    lnTest fl row n p fv m (Obj.ofTree t) D =
      some (((D.map fun i => lineSquare (row i.id) (m (t.predict i))).sum + t.leafSum fun k => slopePenalty p fv (m k)) / D.length) := by
  have hpos : D.length ≠ 0 := fun h => hD (List.length_eq_zero_iff.1 h)
  have hsize : (preprocessTest fl (loadNumbers D)).size = D.length := by
    rw [size_rows (num_ok fl D), num_rows, List.length_map]
  unfold lnTest rgTest
  dsimp only
  rw [walk_eq fl (· + ·) (fun a b c => add_assoc a b c) (lnLeafV row n p fv m)
    (fun D k => (D.map fun i => lineSquare (row i.id) (m k)).sum + slopePenalty p fv (m k)) 1 (fun k => (m k).f < n)
    (fun v k _ _ hn hk => by
      unfold lnLeafV
      have e : (v.rows.map fun i => LinStat.ofRow (row i.id)) = (v.rows.map fun i => row i.id).map LinStat.ofRow := by
        rw [List.map_map]; rfl
      rw [first_group hn, Option.map_some, e, line_costs n p fv (m k) hk, List.map_map]
      rfl) t hm _ (num_ok fl D) (num_grouped fl D) rfl]
  simp only [Option.bind_eq_bind, Option.bind_some, zero_add]
  rw [eval_split (fun D k => (D.map fun i => lineSquare (row i.id) (m k)).sum), unflip_leafSum,
    evalTree_sum (fun i k => lineSquare (row i.id) (m k)) _ (fun _ => True) (fun _ _ _ => rfl) _ _ (fun _ _ => trivial), hsize,
    if_neg hpos, num_rows, List.map_map]
  congr 4
  refine List.map_congr_left fun i _ => ?_
  simp only [Function.comp, unflip_predict, predict_label]
  rfl

private theorem leafSum_zero (g : Nat → Rat) (t : Tree) (h : t.LeafAll fun k => g k = 0) : t.leafSum g = 0 := by
  induction t with
  | leaf k => exact h
  | node f l r ihl ihr => rw [Tree.leafSum, ihl h.1, ihr h.2, add_zero]

/-- C92 with lines: without ridge penalty the score is the mean squared error of the predictions. -/
theorem score_lines_partial (fl : List Nat) (row : Nat → LinRow) (n : Nat) (fv : Nat → Rat) (m : Nat → LineLeaf)
    (t : Tree) (hm : t.LeafAll fun k => (m k).f < n) (D : Data) (hD : D ≠ []) :
    lnTest fl row n 0 fv m (Obj.ofTree t) D = some ((D.map fun i => lineSquare (row i.id) (m (t.predict i))).sum / D.length) := by
  rw [score_lines fl row n 0 fv m t hm D hD, leafSum_zero, add_zero]
  induction t with
  | leaf k => simp [Tree.LeafAll, slopePenalty]
  | node f l r ihl ihr => exact ⟨ihl hm.1, ihr hm.2⟩

private theorem leafSum_nonneg (g : Nat → Rat) (t : Tree) (h : t.LeafAll fun k => 0 ≤ g k) : 0 ≤ t.leafSum g := by
  induction t with
  | leaf k => exact h
  | node f l r ihl ihr => exact add_nonneg (ihl h.1) (ihr h.2)

private theorem leafSum_pos (g : Nat → Rat) (t : Tree) (h : t.LeafAll fun k => 0 ≤ g k) (hp : ¬ t.LeafAll fun k => g k = 0) :
    0 < t.leafSum g := by
  induction t with
  | leaf k => exact lt_of_le_of_ne h fun e => hp e.symm
  | node f l r ihl ihr =>
    by_cases hl : l.LeafAll fun k => g k = 0
    · exact add_pos_of_nonneg_of_pos (leafSum_nonneg g l h.1) (ihr h.2 fun hr => hp ⟨hl, hr⟩)
    · exact add_pos_of_pos_of_nonneg (ihl h.1 hl) (leafSum_nonneg g r h.2)

/-- C92 fails with lines and a ridge penalty: if some leaf has a slope in a feature that varies, the score is larger than the mean squared
error of the predictions, on all new rows. -/
theorem score_lines_penalty (fl : List Nat) (row : Nat → LinRow) (n : Nat) (p : Rat) (hp : 0 < p) (fv : Nat → Rat)
    (hfv : ∀ f, 0 ≤ fv f) (m : Nat → LineLeaf) (t : Tree) (hm : t.LeafAll fun k => (m k).f < n)
    (hs : ¬ t.LeafAll fun k => (m k).a = 0 ∨ fv (m k).f = 0) (D : Data) (hD : D ≠ []) :
    ∃ s, lnTest fl row n p fv m (Obj.ofTree t) D = some s ∧
      (D.map fun i => lineSquare (row i.id) (m (t.predict i))).sum / D.length < s := by
  refine ⟨_, score_lines fl row n p fv m t hm D hD, ?_⟩
  have hpos : (0 : Rat) < D.length := by
    have : 0 < D.length := List.length_pos_iff.2 hD
    exact_mod_cast this
  rw [div_lt_div_iff_of_pos_right hpos]
  have h := leafSum_pos (fun k => slopePenalty p fv (m k)) t (by
    clear hs hm
    induction t with
    | leaf k => exact mul_nonneg (mul_nonneg hp.le (sq_nonneg _)) (hfv _)
    | node f l r ihl ihr => exact ⟨ihl, ihr⟩) (by
    intro hz
    refine hs ?_
    clear hs hm
    induction t with
    | leaf k =>
      have hz : p * (m k).a ^ 2 * fv (m k).f = 0 := hz
      rcases mul_eq_zero.1 hz with h | h
      · rcases mul_eq_zero.1 h with h | h
        · exact absurd h (ne_of_gt hp)
        · exact Or.inl (pow_eq_zero_iff (two_ne_zero)|>.1 h)
      · exact Or.inr h
    | node f l r ihl ihr => exact ⟨ihl hz.1, ihr hz.2⟩)
  linarith

/-- Two rows on the line `y = x`, one leaf with that line, training variance 1, ridge penalty 2: the predictions are exact, but the score
is one instead of zero. -/
theorem score_lines_perfect : ∃ (row : Nat → LinRow) (m : Nat → LineLeaf) (D : Data),
    (∀ i ∈ D, lineSquare (row i.id) (m 0) = 0) ∧ lnTest [] row 1 2 (fun _ => 1) m (Obj.ofTree (.leaf 0)) D = some 1 :=
  ⟨fun i => ⟨fun _ => i, i⟩, fun _ => ⟨0, 1, 0, 0⟩, [⟨0, fun _ => true, 0⟩, ⟨1, fun _ => false, 0⟩], by decide +kernel, by decide +kernel⟩

/-- A tree with two lines, three rows, the tested feature flipped. -/
example : lnTest [1] (fun i => ⟨fun _ => i, 2 * i⟩) 1 0 (fun _ => 1) (fun k => ⟨0, k, 1, 0⟩)
    (Obj.ofTree (.node 0 (.leaf 0) (.leaf 1))) [⟨0, fun _ => true, 0⟩, ⟨1, fun _ => false, 0⟩, ⟨2, fun _ => true, 0⟩] =
    some (((0 - 1) ^ 2 + (2 - 1) ^ 2 + (4 - 3) ^ 2) / 3) := by decide +kernel

/-! ### Linear models and survival -/

private theorem real_score (fl : List Nat) (leaf : View → Nat → Option ℝ) (c : Inst → Nat → ℝ) (hc : ∀ i j k, i.id = j.id → c i k = c j k)
    (P : Nat → Prop) (hleaf : ∀ v k, v.groups.length = 1 → P k → leaf v k = some (v.rows.map fun i => c i k).sum) (t : Tree)
    (ht : t.LeafAll P) (D : Data) (hD : D ≠ []) :
    realTest fl leaf (Obj.ofTree t) D = some ((D.map fun i => c i (t.predict i)).sum / D.length) := by
  have hpos : D.length ≠ 0 := fun h => hD (List.length_eq_zero_iff.1 h)
  have hsize : (preprocessTest fl (loadNumbers D)).size = D.length := by
    rw [size_rows (num_ok fl D), num_rows, List.length_map]
  unfold realTest
  dsimp only
  rw [walk_eq fl (· + ·) (fun a b c => add_assoc a b c) leaf (fun D k => (D.map fun i => c i k).sum) 1 P
    (fun v k _ _ hn hk => hleaf v k hn hk) t ht _ (num_ok fl D) (num_grouped fl D) rfl]
  simp only [Option.bind_eq_bind, Option.bind_some, zero_add]
  rw [evalTree_sum c _ (fun _ => True) (fun _ _ _ => rfl) _ _ (fun _ _ => trivial), hsize, if_neg hpos, num_rows, List.map_map]
  congr 3
  refine List.map_congr_left fun i _ => ?_
  simp only [Function.comp, unflip_predict, predict_label]
  exact hc _ _ _ rfl

/-- C92 with linear models: the score is the mean squared error of the predictions, for every tree, all flips and all new rows. -/
theorem score_linear (fl : List Nat) (x : Nat → Conts) (tg : Nat → ℝ) (m : Nat → LinModel) (t : Tree) (D : Data) (hD : D ≠ []) :
    realTest fl (pwLeafV x tg m) (Obj.ofTree t) D =
      some ((D.map fun i => (tg i.id - (m (t.predict i)).predict (x i.id)) ^ 2).sum / D.length) := by
  refine real_score fl _ (fun i k => (tg i.id - (m k).predict (x i.id)) ^ 2) (fun i j k h => by rw [h]) (fun _ => True)
    (fun v k hv _ => ?_) t (all_true t) D hD
  unfold pwLeafV
  rw [first_group hv, Option.map_some]
  have key : ∀ (g : Data) (e : ℝ), g.foldl (fun e i => e + ((tg i.id + 0) * 1 - ((m k).predict (x i.id) + 0) * 1) ^ 2) e =
      e + (g.map fun i => (tg i.id - (m k).predict (x i.id)) ^ 2).sum := by
    intro g
    induction g with
    | nil => intro e; simp
    | cons i g ih =>
      intro e
      rw [List.foldl_cons, ih, List.map_cons, List.sum_cons]
      ring
  rw [key, zero_add]

/-- The loss of a row whose time is `o` under a leaf with risk `theta`, with the hazard estimated from the training data. -/
noncomputable def riskLoss (T : List Obs) (o : Obs) (theta : ℝ) : ℝ :=
  survLoss theta ⟨decide (o.ev ≠ 0), (((hazardFn T o.time).getD 0 : Rat) : ℝ)⟩

/-- C92 for survival: the score is the mean loss of the rows under the predicted risks, with the hazard of the training data, for every tree
with positive risks, all flips and all new rows; times outside the training data included. -/
theorem score_survival (fl : List Nat) (T : List Obs) (obs : Nat → Obs) (theta : Nat → ℝ) (t : Tree)
    (ht : t.LeafAll fun k => 0 < theta k) (D : Data) (hD : D ≠ []) :
    realTest fl (svLeafV T obs theta) (Obj.ofTree t) D =
      some ((D.map fun i => riskLoss T (obs i.id) (theta (t.predict i))).sum / D.length) := by
  refine real_score fl _ (fun i k => riskLoss T (obs i.id) (theta k)) (fun i j k h => by rw [h]) (fun k => 0 < theta k)
    (fun v k hv hk => ?_) t ht D hD
  have hh : ∀ o : Obs, hazardRow T o = some ⟨decide (o.ev ≠ 0), (((hazardFn T o.time).getD 0 : Rat) : ℝ)⟩ := by
    intro o
    obtain ⟨h, e, _⟩ := (hazard_positive_mono T).1 o.time
    unfold hazardRow
    rw [e]
    rfl
  have hm : ∀ g : Data, g.mapM (fun i => hazardRow T (obs i.id)) =
      some (g.map fun i => (⟨decide ((obs i.id).ev ≠ 0), (((hazardFn T (obs i.id).time).getD 0 : Rat) : ℝ)⟩ : SurvInst)) := by
    intro g
    induction g with
    | nil => rfl
    | cons i g ih => rw [List.mapM_cons, hh, ih]; rfl
  unfold svLeafV
  rw [first_group hv]
  simp only [Option.bind_eq_bind, Option.bind_some, hm]
  rw [survival_evaluate _ _ _ hk, List.map_map]
  · rfl
  · intro s hs
    obtain ⟨i, _, rfl⟩ := List.mem_map.1 hs
    obtain ⟨h, e, hp⟩ := (hazard_positive_mono T).1 (obs i.id).time
    rw [e]
    exact Rat.cast_pos.2 hp

/-- The hypotheses hold for a tree with risks 1 and 2. -/
example : (Tree.node 0 (.leaf 0) (.leaf 1)).LeafAll (fun k => (0 : ℝ) < ((k + 1 : Nat) : ℝ)) :=
  ⟨Nat.cast_pos.2 (Nat.succ_pos 0), Nat.cast_pos.2 (Nat.succ_pos 1)⟩

end Streed
