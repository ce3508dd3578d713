import Verif.Lemmas.Tasks
import Verif.Props.Front

/-!
# C37, C39, C40, C41: the arithmetic of the tasks
-/

namespace Streed

open TaskLemmas

/-! ### C37: accuracy -/

/-- The number of instances of `D` that get the wrong label when all get label `k`. -/
def wrong (D : Data) (k : Nat) : Nat := D.countP fun i => i.label != k

private theorem acc_fold (D : Data) (label : Nat) (ks : List Nat) (e : Int) :
    ks.foldl (fun e k => if k = label then e else e + (numLabel D k : Int)) e =
      e + ((ks.filter (· ≠ label)).map fun k => (numLabel D k : Int)).sum := by
  induction ks generalizing e with
  | nil => simp
  | cons k ks ih =>
    rw [List.foldl_cons, ih]
    by_cases h : k = label <;> simp [h, Int.add_assoc]

/-- C37, first part: the leaf cost of a label is the number of instances with another label. -/
theorem accuracy_leaf (nL : Nat) (D : Data) (hD : ∀ i ∈ D, i.label < nL) (label : Nat) :
    accLeafCosts nL D label = wrong D label := by
  unfold accLeafCosts wrong
  rw [acc_fold, Int.zero_add]
  induction D with
  | nil => simp [numLabel]
  | cons i D ih =>
    have hi := hD i (by simp)
    have ih := ih fun j hj => hD j (by simp [hj])
    have key : ∀ ks : List Nat, ks.Nodup → (∀ k ∈ ks, k ≠ label) →
        (ks.map fun k => ((numLabel (i :: D) k : Nat) : Int)).sum =
          (if i.label ∈ ks then 1 else 0) + (ks.map fun k => (numLabel D k : Int)).sum := by
      intro ks hn hk
      induction ks with
      | nil => simp
      | cons k ks ihk =>
        have hn' := List.nodup_cons.1 hn
        rw [List.map_cons, List.sum_cons, ihk hn'.2 (fun k hk' => hk k (by simp [hk'])), numLabel_cons]
        by_cases h : i.label = k
        · simp [h, hn'.1]; omega
        · simp [h]; omega
    rw [key _ (List.nodup_range.filter _) (by simp), ih]
    by_cases h : i.label = label <;> simp [h, hi]
    omega

/-- C37: the cost per instance that feeds the pair statistics adds up to the leaf cost, times the multiplier: with
`-1` the instances that left a view take back what they had added. -/
theorem accuracy_pairwise (nL : Nat) (D : Data) (hD : ∀ i ∈ D, i.label < nL) (label : Nat) (m : Int) :
    (D.map fun i => accD2 i.label label m).sum = m * accLeafCosts nL D label := by
  rw [accuracy_leaf nL D hD]
  unfold wrong accD2
  clear hD
  induction D with
  | nil => simp
  | cons i D ih =>
    rw [List.map_cons, List.sum_cons, ih, List.countP_cons]
    by_cases h : i.label = label <;> simp [h, Int.mul_add, Int.add_comm]

private theorem map_wrong_sum (t : Tree) (D : Data) :
    (D.map fun i => if i.label = t.predict i then (0 : Int) else 1).sum = misclassified t D := by
  unfold misclassified
  induction D with
  | nil => rfl
  | cons i D ih =>
    rw [List.map_cons, List.sum_cons, ih, List.countP_cons]
    by_cases h : i.label = t.predict i
    · simp [h]
    · have : ¬ t.predict i = i.label := fun e => h e.symm
      simp [h, this]; omega

private theorem accLeaf_sum (nL : Nat) (D : Data) (hD : ∀ i ∈ D, i.label < nL) (k : Nat) :
    accLeafCosts nL D k = (D.map fun i => if i.label = k then (0 : Int) else 1).sum := by
  rw [← Int.one_mul (accLeafCosts nL D k), ← accuracy_pairwise nL D hD]; simp [accD2]

/-- C37: the value of a tree is the number of instances it misclassifies. -/
theorem accuracy_tree (nL : Nat) (t : Tree) (D : Data) (hD : ∀ i ∈ D, i.label < nL) :
    evalTree (· + ·) (accLeafCosts nL) t D = misclassified t D := by
  rw [← map_wrong_sum]
  exact evalTree_sum _ _ (fun i => i.label < nL) (fun D k h => accLeaf_sum nL D h k) t D hD

/-- C37, second part: the score is the fraction of correctly classified instances, between 0 and 1. -/
theorem accuracy_score (nL : Nat) (t : Tree) (D : Data) (hD : ∀ i ∈ D, i.label < nL) (hne : D ≠ []) :
    ∃ s, accScore D.length (evalTree (· + ·) (accLeafCosts nL) t D) = some s ∧ 0 ≤ s ∧ s ≤ 1 ∧
      s = (D.countP fun i => t.predict i == i.label : Nat) / (D.length : Rat) := by
  have hpos : 0 < D.length := List.length_pos_iff.2 hne
  have hl : (0 : Rat) < D.length := by exact_mod_cast hpos
  have hsum : (D.countP fun i => t.predict i == i.label) + misclassified t D = D.length := by
    rw [List.length_eq_countP_add_countP (fun i => t.predict i == i.label)]
    unfold misclassified
    congr 1
    apply List.countP_congr
    simp
  refine ⟨_, by rw [accScore, if_neg (by omega)], ?_, ?_, ?_⟩
  all_goals rw [accuracy_tree nL t D hD]
  all_goals rw [show ((D.length : Int) - (misclassified t D : Int) : Int) =
    ((D.countP fun i => t.predict i == i.label : Nat) : Int) by omega, Int.cast_natCast]
  · positivity
  · rw [div_le_one hl]
    exact_mod_cast (by omega : (D.countP fun i => t.predict i == i.label) ≤ D.length)

/-- Without data the score is not a number. -/
theorem accuracy_score_undefined (v : Int) : accScore 0 v = none := rfl

/-- A non-trivial dataset for the examples: four instances, two features. -/
private def sample : Data :=
  [⟨0, fun f => f == 0, 0⟩, ⟨1, fun f => f == 1, 1⟩, ⟨2, fun _ => true, 1⟩, ⟨3, fun _ => false, 0⟩]

example : (∀ i ∈ sample, i.label < 2) ∧ sample ≠ [] ∧ misclassified (.node 0 (.leaf 0) (.leaf 1)) sample = 2 := by
  decide

/-! ### C39: F1-score -/

/-- Positive instances that the tree calls negative. -/
def falseNegatives (t : Tree) (D : Data) : Nat := D.countP fun i => i.label == 1 && t.predict i == 0
/-- Negative instances that the tree calls positive. -/
def falsePositives (t : Tree) (D : Data) : Nat := D.countP fun i => i.label == 0 && t.predict i == 1
/-- Positive instances that the tree calls positive. -/
def truePositives (t : Tree) (D : Data) : Nat := D.countP fun i => i.label == 1 && t.predict i == 1

private theorem f1_fn_eval (t : Tree) (D : Data) :
    (evalTree f1Add f1LeafCosts t D).fn = evalTree (· + ·) (fun D k => (f1LeafCosts D k).fn) t D := by
  induction t generalizing D with
  | leaf k => rfl
  | node f l r ihl ihr => simp only [evalTree, f1Add, ihl, ihr]

private theorem f1_fp_eval (t : Tree) (D : Data) :
    (evalTree f1Add f1LeafCosts t D).fp = evalTree (· + ·) (fun D k => (f1LeafCosts D k).fp) t D := by
  induction t generalizing D with
  | leaf k => rfl
  | node f l r ihl ihr => simp only [evalTree, f1Add, ihl, ihr]

/-- C39: the value of a tree counts its false negatives and its false positives. -/
theorem f1_tree {nF : Nat} (t : Tree) (ht : t.Over nF 2) (D : Data) (hD : ∀ i ∈ D, i.label < 2) :
    evalTree f1Add f1LeafCosts t D = ⟨falseNegatives t D, falsePositives t D⟩ := by
  have e1 := evalTree_sum (fun i k => if k ≠ 0 then (0 : Int) else if i.label = 1 then 1 else 0)
    (fun D k => (f1LeafCosts D k).fn) (fun i => i.label < 2) (by
      intro D k h
      have := numLabel_compl D h
      by_cases hk : k = 0
      · simp only [f1LeafCosts, hk, ne_eq, not_true_eq_false, if_false]
        rw [← numLabel_sum]; omega
      · simp [f1LeafCosts, hk]) t D hD
  have e2 := evalTree_sum (fun i k => if k ≠ 0 then (if i.label = 0 then (1 : Int) else 0) else 0)
    (fun D k => if k = 1 then (f1LeafCosts D k).fp else if k = 0 then 0 else (numLabel D 0 : Int))
    (fun i => i.label < 2) (by
      intro D k h
      have := numLabel_compl D h
      by_cases hk : k = 0
      · simp [hk]
      · by_cases hk1 : k = 1
        · simp only [hk1, f1LeafCosts]; simp only [ne_eq, one_ne_zero, not_false_eq_true, if_true]
          rw [← numLabel_sum]; omega
        · simp [hk, hk1, numLabel_sum]) t D hD
  have e2' : ∀ (t : Tree), t.Over nF 2 → ∀ D : Data, evalTree (· + ·) (fun D k => (f1LeafCosts D k).fp) t D =
      evalTree (· + ·)
        (fun D k => if k = 1 then (f1LeafCosts D k).fp else if k = 0 then 0 else (numLabel D 0 : Int)) t D := by
    intro t
    induction t with
    | leaf k =>
      intro h D
      have : k < 2 := h
      have h2 : k = 0 ∨ k = 1 := by omega
      rcases h2 with rfl | rfl <;> simp [evalTree, f1LeafCosts]
    | node f l r ihl ihr => intro h D; simp only [evalTree]; rw [ihl h.2.1, ihr h.2.2]
  have e3 : evalTree f1Add f1LeafCosts t D = ⟨(evalTree f1Add f1LeafCosts t D).fn, (evalTree f1Add f1LeafCosts t D).fp⟩ := rfl
  rw [e3, f1_fn_eval, f1_fp_eval, e2' t ht, e1, e2]
  unfold falseNegatives falsePositives
  rw [countP_sum, countP_sum]
  congr 2
  · apply List.map_congr_left; intro i _
    by_cases a : t.predict i = 0 <;> by_cases b : i.label = 1 <;> simp [a, b]
  · apply List.map_congr_left; intro i _
    have := over_predict ht i
    by_cases a : t.predict i = 0
    · simp [a]
    · have a' : t.predict i = 1 := by omega
      by_cases b : i.label = 0 <;> simp [a', b]

/-- C39: the costs per instance add up to the leaf costs. -/
theorem f1_pairwise (D : Data) (hD : ∀ i ∈ D, i.label < 2) (k : Nat) (hk : k < 2) :
    (⟨(D.map fun i => (f1D2 i.label k 1).fn).sum, (D.map fun i => (f1D2 i.label k 1).fp).sum⟩ : F1Sol) =
      f1LeafCosts D k := by
  have := numLabel_compl D hD
  have h2 : k = 0 ∨ k = 1 := by omega
  rcases h2 with rfl | rfl
  · simp only [f1D2, f1LeafCosts, if_true, ne_eq, not_true_eq_false, if_false, ← numLabel_sum]
    simp; omega
  · simp only [f1D2, f1LeafCosts, ne_eq, one_ne_zero, not_false_eq_true, if_true, if_false, ← numLabel_sum]
    simp; omega

theorem tp_eq {nF : Nat} (t : Tree) (ht : t.Over nF 2) (D : Data) :
    truePositives t D + falseNegatives t D = numLabel D 1 := by
  unfold truePositives falseNegatives
  induction D with
  | nil => rfl
  | cons i D ih =>
    rw [numLabel_cons, List.countP_cons, List.countP_cons, ← ih]
    have := over_predict ht i
    by_cases b : i.label = 1
    · have h2 : t.predict i = 0 ∨ t.predict i = 1 := by omega
      rcases h2 with h | h <;> simp [h, b] <;> omega
    · simp [b]

/-- C39: the reported score of a tree is its F1-score `2 TP / (2 TP + FP + FN)`, between 0 and 1, unless the data
has no positive instance and the tree predicts none, when it is not a number. -/
theorem f1_score {nF : Nat} (t : Tree) (ht : t.Over nF 2) (D : Data) (hD : ∀ i ∈ D, i.label < 2)
    (h : 0 < truePositives t D + falsePositives t D + falseNegatives t D) :
    ∃ s, f1Score (numLabel D 1) (evalTree f1Add f1LeafCosts t D) = some s ∧ 0 ≤ s ∧ s ≤ 1 ∧
      s = 2 * (truePositives t D : Rat) / (2 * truePositives t D + falsePositives t D + falseNegatives t D) := by
  rw [f1_tree t ht D hD]
  have htp := tp_eq t ht D
  have e : ((numLabel D 1 : Int) - (falseNegatives t D : Int)) = (truePositives t D : Int) := by omega
  simp only [f1Score, e]
  generalize truePositives t D = a at *
  generalize falsePositives t D = b at *
  generalize falseNegatives t D = c at *
  have hq : (0 : Rat) < (a : Rat) + 1 / 2 * ((b : Rat) + c) := by
    have : (0 : Rat) < (a : Rat) + b + c := by exact_mod_cast h
    have ha : (0 : Rat) ≤ a := by positivity
    linarith
  have hq' : ((a : Int) : Rat) + 1 / 2 * (((b : Int) + (c : Int) : Int) : Rat) ≠ 0 := by
    push_cast; exact ne_of_gt hq
  refine ⟨_, by rw [if_neg hq'], ?_, ?_, ?_⟩
  all_goals push_cast
  · positivity
  · rw [div_le_one hq]
    have : (0 : Rat) ≤ (b : Rat) + c := by positivity
    linarith
  · have : (0 : Rat) < 2 * (a : Rat) + b + c := by linarith
    rw [div_eq_div_iff (ne_of_gt hq) (ne_of_gt this)]
    ring

example : 0 < truePositives (.node 0 (.leaf 0) (.leaf 1)) sample + falsePositives (.node 0 (.leaf 0) (.leaf 1)) sample
    + falseNegatives (.node 0 (.leaf 0) (.leaf 1)) sample := by decide

/-- C39 fails on data without positive instances: the tree that makes no error has no score. -/
theorem f1_score_undefined :
    ∃ (t : Tree) (D : Data), t.Over 1 2 ∧ D ≠ [] ∧ (∀ i ∈ D, i.label < 2) ∧ misclassified t D = 0 ∧
      f1Score (numLabel D 1) (evalTree f1Add f1LeafCosts t D) = none :=
  ⟨.leaf 0, [⟨0, fun _ => false, 0⟩], Nat.zero_lt_two, by decide, by decide, by decide, by decide +kernel⟩

/-- Fewer errors of both kinds never lower the score. -/
theorem f1_mono (pos : Nat) (a b : F1Sol) (sa sb : Rat) (h : f1Ops.dom a b = true)
    (ha0 : 0 ≤ a.fn) (ha1 : 0 ≤ a.fp) (hb : b.fn ≤ pos)
    (ea : f1Score pos a = some sa) (eb : f1Score pos b = some sb) : sb ≤ sa := by
  simp only [f1Ops, Bool.and_eq_true, decide_eq_true_eq] at h
  simp only [f1Score] at ea eb
  split at ea
  · simp at ea
  split at eb
  · simp at eb
  rename_i na nb
  rw [← Option.some.inj ea, ← Option.some.inj eb]
  clear ea eb
  obtain ⟨h1, h2⟩ := h
  have q1 : (a.fn : Rat) ≤ b.fn := by exact_mod_cast h1
  have q2 : (a.fp : Rat) ≤ b.fp := by exact_mod_cast h2
  have q3 : (b.fn : Rat) ≤ pos := by exact_mod_cast hb
  have q4 : (0 : Rat) ≤ a.fn := by exact_mod_cast ha0
  have q5 : (0 : Rat) ≤ a.fp := by exact_mod_cast ha1
  push_cast at na nb ⊢
  have da : (0 : Rat) < (pos : Rat) - a.fn + 1 / 2 * ((a.fp : Rat) + a.fn) := by
    refine lt_of_le_of_ne ?_ (Ne.symm na); linarith
  have db : (0 : Rat) < (pos : Rat) - b.fn + 1 / 2 * ((b.fp : Rat) + b.fn) := by
    refine lt_of_le_of_ne ?_ (Ne.symm nb); linarith
  rw [div_le_div_iff₀ db da]
  nlinarith [mul_nonneg (sub_nonneg.2 q1) (add_nonneg q5 q4), mul_nonneg (sub_nonneg.2 q2) (sub_nonneg.2 (q1.trans q3)),
    mul_nonneg (sub_nonneg.2 q1) (sub_nonneg.2 q3), mul_nonneg (sub_nonneg.2 q1) q5, mul_nonneg (sub_nonneg.2 q2) (sub_nonneg.2 q3)]

/-- With a positive instance in the data every score is defined. -/
theorem f1_defined (pos : Nat) (hp : 0 < pos) (a : F1Sol) (h0 : 0 ≤ a.fn) (h1 : a.fn ≤ pos) (h2 : 0 ≤ a.fp) :
    ∃ s, f1Score pos a = some s := by
  have q1 : (a.fn : Rat) ≤ pos := by exact_mod_cast h1
  have q2 : (0 : Rat) ≤ a.fp := by exact_mod_cast h2
  have q3 : (0 : Rat) ≤ a.fn := by exact_mod_cast h0
  have q4 : (0 : Rat) < pos := by exact_mod_cast hp
  simp only [f1Score]
  rw [if_neg]
  · exact ⟨_, rfl⟩
  · push_cast
    apply ne_of_gt
    linarith

/-- C39, last part: whatever values are added to a front, it keeps one whose F1-score is at least that of every
added value. -/
theorem f1_front_max (pos : Nat) (hp : 0 < pos) (ns : List (PNode F1Sol))
    (hns : ∀ n ∈ ns, 0 ≤ n.sol.fn ∧ n.sol.fn ≤ pos ∧ 0 ≤ n.sol.fp) (n : PNode F1Sol) (hn : n ∈ ns) :
    ∃ m ∈ ((Front.empty : Front F1Sol).addAll f1Ops.dom f1Ops.key f1Ops.checkUnique ns).sols,
      ∃ s s', f1Score pos n.sol = some s ∧ f1Score pos m.sol = some s' ∧ s ≤ s' := by
  obtain ⟨hin, _, hc⟩ := f1_front_exact ns
  obtain ⟨m, hm, h1, h2⟩ := hc n hn
  have a := hns n hn
  have b := hns m (hin m hm)
  obtain ⟨s, es⟩ := f1_defined pos hp n.sol a.1 a.2.1 a.2.2
  obtain ⟨s', es'⟩ := f1_defined pos hp m.sol b.1 b.2.1 b.2.2
  exact ⟨m, hm, s, s', es, es', f1_mono pos m.sol n.sol s' s (by simp [f1Ops, h1, h2]) b.1 b.2.2 a.2.1 es' es⟩

example : ∀ n ∈ [(⟨⟨1, 2⟩, 1⟩ : PNode F1Sol), ⟨⟨0, 3⟩, 0⟩], 0 ≤ n.sol.fn ∧ n.sol.fn ≤ (3 : Nat) ∧ 0 ≤ n.sol.fp := by decide

/-! ### C40, C41: the fairness constraints -/

/-- How often the tree predicts the positive class among the members of one group. -/
def posRate (t : Tree) (x : Bool) (D : Data) : Rat :=
  (D.countP fun i => i.feat 0 == x && t.predict i == 1 : Nat) / (D.countP fun i => i.feat 0 == x : Nat)

/-- How often the tree is right about the positive members of one group. -/
def truePosRate (t : Tree) (x : Bool) (D : Data) : Rat :=
  (D.countP fun i => i.feat 0 == x && i.label == 1 && t.predict i == 1 : Nat) /
    (D.countP fun i => i.feat 0 == x && i.label == 1 : Nat)

/-- From the scores to the absolute difference of two rates. -/
private theorem rates (a c b d m0 m1 : Nat) (limit : Rat) (h0 : a + c = m0) (h1 : b + d = m1) (hm0 : 0 < m0) (hm1 : 0 < m1) :
    (max ((a : Rat) / m0 + (d : Rat) / m1) ((b : Rat) / m1 + (c : Rat) / m0) - 1 ≤ limit) ↔
      |(a : Rat) / m0 - (b : Rat) / m1| ≤ limit := by
  have q0 : (m0 : Rat) ≠ 0 := by exact_mod_cast (by omega : m0 ≠ 0)
  have q1 : (m1 : Rat) ≠ 0 := by exact_mod_cast (by omega : m1 ≠ 0)
  have e0 : (c : Rat) / m0 = 1 - (a : Rat) / m0 := by
    rw [eq_sub_iff_add_eq, ← add_div, div_eq_one_iff_eq q0]; exact_mod_cast (by omega : c + a = m0)
  have e1 : (d : Rat) / m1 = 1 - (b : Rat) / m1 := by
    rw [eq_sub_iff_add_eq, ← add_div, div_eq_one_iff_eq q1]; exact_mod_cast (by omega : d + b = m1)
  rw [e0, e1, sub_le_iff_le_add, max_le_iff, abs_le]
  constructor
  · rintro ⟨h, h'⟩; constructor <;> linarith
  · rintro ⟨h, h'⟩; constructor <;> linarith

/-- C40: with both groups present, a tree over two labels is accepted exactly when its positive rates in the two
groups differ by at most the limit. -/
theorem parity_exact {nF : Nat} (t : Tree) (ht : t.Over nF 2) (T : Data) (limit : Rat)
    (h0 : ∃ i ∈ T, i.feat 0 = false) (h1 : ∃ i ∈ T, i.feat 0 = true) :
    fairAccepts limit (evalTree fairAdd (gfLeaf (gfGroups T)) t T) = true ↔
      |posRate t false T - posRate t true T| ≤ limit := by
  have hs := fair_scores (gfLeaf (gfGroups T)) (fun _ => true) (groupSize false T) (groupSize true T)
    (by
      intro D k hk
      have := group_compl D
      simp only [gfLeaf, hk, ne_eq, not_false_eq_true, if_true, gfGroups, Bool.true_and]
      constructor
      · rw [groupSize_countP]; congr 3; funext i; cases i.feat 0 <;> rfl
      · rw [show ((D.length : Int) - (groupSize false D : Int)) = (groupSize true D : Int) by omega, groupSize_countP true]
        rw [Int.cast_natCast]; congr 3; funext i; cases i.feat 0 <;> rfl)
    (by
      intro D
      have := group_compl D
      simp only [gfLeaf, ne_eq, not_true_eq_false, if_false, gfGroups, Bool.true_and]
      constructor
      · rw [show ((D.length : Int) - (groupSize false D : Int)) = (groupSize true D : Int) by omega, groupSize_countP true]
        rw [Int.cast_natCast]; congr 3; funext i; cases i.feat 0 <;> rfl
      · rw [groupSize_countP]; congr 3; funext i; cases i.feat 0 <;> rfl) t T
  simp only [fairAccepts, decide_eq_true_eq]
  rw [hs.1, hs.2]
  simp only [Bool.true_and]
  have hp : ∀ i, (t.predict i != 0) = (t.predict i == 1) := by
    intro i
    have := over_predict ht i
    by_cases a : t.predict i = 0
    · simp [a]
    · have a' : t.predict i = 1 := by omega
      simp [a']
  have hc := fun x : Bool => countP_and_compl (fun i => i.feat 0 == x) (fun i => t.predict i == 1) T
  have e0 : ∀ q : Inst → Bool, (T.countP fun i => !i.feat 0 && q i) = T.countP fun i => i.feat 0 == false && q i := by
    intro q; congr 1; funext i; cases i.feat 0 <;> rfl
  have e1 : ∀ q : Inst → Bool, (T.countP fun i => i.feat 0 && q i) = T.countP fun i => i.feat 0 == true && q i := by
    intro q; congr 1; funext i; cases i.feat 0 <;> rfl
  have hp' : ∀ i, (t.predict i == 0) = !(t.predict i == 1) := by
    intro i; rw [← hp]; simp [bne]
  simp only [e0, e1, hp]
  simp only [hp']
  unfold posRate
  rw [groupSize_countP, groupSize_countP]
  exact rates _ _ _ _ _ _ limit (hc false) (hc true)
    (by rw [List.countP_pos_iff]; simpa using h0) (by rw [List.countP_pos_iff]; simpa using h1)

example : (∃ i ∈ sample, i.feat 0 = false) ∧ (∃ i ∈ sample, i.feat 0 = true) ∧
    posRate (.node 1 (.leaf 0) (.leaf 1)) false sample = 1 / 2 := by decide +kernel

/-- C41: with positive instances in both groups, a tree over two labels is accepted exactly when its true-positive
rates in the two groups differ by at most the limit. -/
theorem opportunity_exact {nF : Nat} (t : Tree) (ht : t.Over nF 2) (T : Data) (limit : Rat)
    (h0 : ∃ i ∈ T, i.feat 0 = false ∧ i.label = 1) (h1 : ∃ i ∈ T, i.feat 0 = true ∧ i.label = 1) :
    fairAccepts limit (evalTree fairAdd (eoLeaf (eoGroups T)) t T) = true ↔
      |truePosRate t false T - truePosRate t true T| ≤ limit := by
  have gp : ∀ (x : Bool) (D : Data), groupSize x (positives D) = D.countP fun i => i.label == 1 && i.feat 0 == x := by
    intro x D
    rw [groupSize_countP]
    unfold positives
    rw [List.countP_filter]
    congr 1; funext i; rw [Bool.and_comm]; congr 1
  have pl : ∀ D : Data, (positives D).length = numLabel D 1 := fun D => rfl
  have hs := fair_scores (eoLeaf (eoGroups T)) (fun i => i.label == 1) (groupSize false (positives T)) (groupSize true (positives T))
    (by
      intro D k hk
      have := group_compl (positives D)
      rw [pl] at this
      simp only [eoLeaf, hk, ne_eq, not_false_eq_true, if_true, eoGroups]
      constructor
      · rw [gp false D]; congr 3; funext i; cases i.feat 0 <;> rfl
      · rw [show ((numLabel D 1 : Int) - (groupSize false (positives D) : Int)) = (groupSize true (positives D) : Int) by omega,
          gp true D, Int.cast_natCast]
        congr 3; funext i; cases i.feat 0 <;> rfl)
    (by
      intro D
      have := group_compl (positives D)
      rw [pl] at this
      simp only [eoLeaf, ne_eq, not_true_eq_false, if_false, eoGroups]
      constructor
      · rw [show ((numLabel D 1 : Int) - (groupSize false (positives D) : Int)) = (groupSize true (positives D) : Int) by omega,
          gp true D, Int.cast_natCast]
        congr 3; funext i; cases i.feat 0 <;> rfl
      · rw [gp false D]; congr 3; funext i; cases i.feat 0 <;> rfl) t T
  simp only [fairAccepts, decide_eq_true_eq]
  rw [hs.1, hs.2]
  have hp : ∀ i, (t.predict i != 0) = (t.predict i == 1) := by
    intro i
    have := over_predict ht i
    by_cases a : t.predict i = 0
    · simp [a]
    · have a' : t.predict i = 1 := by omega
      simp [a']
  have hc := fun x : Bool => countP_and_compl (fun i => i.feat 0 == x && i.label == 1) (fun i => t.predict i == 1) T
  have e0 : ∀ q : Inst → Bool, (T.countP fun i => (i.label == 1 && !i.feat 0) && q i) =
      T.countP fun i => (i.feat 0 == false && i.label == 1) && q i := by
    intro q; congr 1; funext i; cases i.feat 0 <;> simp
  have e1 : ∀ q : Inst → Bool, (T.countP fun i => (i.label == 1 && i.feat 0) && q i) =
      T.countP fun i => (i.feat 0 == true && i.label == 1) && q i := by
    intro q; congr 1; funext i; cases i.feat 0 <;> simp
  have hp' : ∀ i, (t.predict i == 0) = !(t.predict i == 1) := by
    intro i; rw [← hp]; simp [bne]
  simp only [e0, e1, hp]
  simp only [hp']
  unfold truePosRate
  rw [gp, gp]
  have e2 : ∀ x : Bool, (T.countP fun i => i.label == 1 && i.feat 0 == x) = T.countP fun i => i.feat 0 == x && i.label == 1 := by
    intro x; congr 1; funext i; rw [Bool.and_comm]
  rw [e2, e2]
  exact rates _ _ _ _ _ _ limit (hc false) (hc true)
    (by rw [List.countP_pos_iff]; simpa using h0) (by rw [List.countP_pos_iff]; simpa using h1)

example : (∃ i ∈ sample, i.feat 0 = false ∧ i.label = 1) ∧ (∃ i ∈ sample, i.feat 0 = true ∧ i.label = 1) ∧
    truePosRate (.node 0 (.leaf 0) (.leaf 1)) true sample = 1 := by decide +kernel

end Streed
