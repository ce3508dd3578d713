import Verif.Lemmas.TestScore
import Mathlib.Tactic.Linarith

/-!
# C89: the score of new data
-/

namespace Streed

open TaskLemmas TestLemmas

/-! ### Accuracy and question length -/

private theorem acc_walk (fl : List Nat) (t : Tree) (D : Data) :
    ∃ n, (∀ i ∈ D, i.label < n) ∧
      (Obj.ofTree t).testWalk fl (· + ·) accLeafV (preprocessTest fl (loadRows D)) (0, 0) =
        some (evalTree (· + ·) (accLeafCosts n) (unflip (flipSet fl) t) (preprocessTest fl (loadRows D)).rows,
          (D.map fun i => t.asked i + 1).sum) := by
  refine ⟨(preprocessTest fl (loadRows D)).groups.length, fun i hi => (seen_groups fl D i.label).2 ⟨i, hi, Nat.le_refl _⟩, ?_⟩
  rw [walk_eq fl (· + ·) (fun a b c => Int.add_assoc a b c) accLeafV (accLeafCosts _) _ (fun _ => True)
    (fun v k _ hg hn _ => by rw [accLeafV_eq hg, hn]) t (by
      induction t with
      | leaf k => trivial
      | node f l r ihl ihr => exact ⟨ihl, ihr⟩) _ (seen_ok fl D) (seen_grouped fl D) rfl]
  have : ((preprocessTest fl (loadRows D)).rows.map fun i => (unflip (flipSet fl) t).asked i + 1).sum =
      (D.map fun i => t.asked i + 1).sum := by
    rw [((seen_perm fl D).map _).sum_eq, List.map_map]
    congr 1
    refine List.map_congr_left fun i _ => ?_
    simp only [Function.comp, unflip_asked]
  rw [this]
  simp

/-- C89 for accuracy, with or without a price for nodes: for every tree, every set of flipped features and all new rows, including
rows of classes the tree never predicts and data in which predicted classes do not occur, the score is the fraction of rows whose
label `predict` gives. -/
theorem score_accuracy (fl : List Nat) (t : Tree) (D : Data) (hD : D ≠ []) :
    accTest fl (Obj.ofTree t) D = some ((D.countP fun i => t.predict i == i.label : Nat) / (D.length : Rat)) := by
  obtain ⟨n, hn, hw⟩ := acc_walk fl t D
  unfold accTest
  simp only [hw, Option.bind_eq_bind, Option.bind_some]
  have hne : (preprocessTest fl (loadRows D)).rows ≠ [] := by
    intro h
    have := seen_length fl D
    rw [h] at this
    exact hD (List.length_eq_zero_iff.1 this.symm)
  obtain ⟨s, e, _, _, hs⟩ := accuracy_score n (unflip (flipSet fl) t) _ (seen_labels fl D n hn) hne
  rw [size_rows (seen_ok fl D), e, hs, seen_length,
    seen_count fl D _ (fun i => t.predict i == i.label) (fun i => by rw [unflip_predict]; rfl)]

/-- C89: there is no score for no rows. -/
theorem score_no_rows (fl : List Nat) (t : Tree) : accTest fl (Obj.ofTree t) [] = none := by
  obtain ⟨n, _, hw⟩ := acc_walk fl t []
  unfold accTest
  simp only [hw, Option.bind_eq_bind, Option.bind_some, seen_size]
  rfl

/-- C89: the question length is the average number of tests per row plus one: the leaf is counted as a question. -/
theorem question_length (fl : List Nat) (t : Tree) (D : Data) (hD : D ≠ []) :
    questionLength fl (Obj.ofTree t) D = some ((D.map fun i => t.asked i).sum / (D.length : Rat) + 1) := by
  obtain ⟨n, _, hw⟩ := acc_walk fl t D
  have hpos : 0 < D.length := List.length_pos_iff.2 hD
  have hq : (D.length : Rat) ≠ 0 := by exact_mod_cast (by omega : D.length ≠ 0)
  have hsum : ∀ D : Data, (D.map fun i => t.asked i + 1).sum = (D.map fun i => t.asked i).sum + D.length := by
    intro D
    induction D with
    | nil => rfl
    | cons i D ih => rw [List.map_cons, List.sum_cons, ih, List.map_cons, List.sum_cons, List.length_cons]; omega
  unfold questionLength
  simp only [hw, Option.bind_eq_bind, Option.bind_some, seen_size]
  rw [if_neg (by omega), hsum, Nat.cast_add, add_div, div_self hq]

/-- C89 fails for the question length: a tree that asks nothing has question length 1. -/
theorem question_length_leaf (fl : List Nat) (k : Nat) (D : Data) (hD : D ≠ []) :
    questionLength fl (Obj.ofTree (.leaf k)) D = some 1 ∧ ∀ i ∈ D, (Tree.leaf k).asked i = 0 := by
  refine ⟨?_, fun _ _ => rfl⟩
  rw [question_length fl _ D hD]
  have : (D.map fun i => (Tree.leaf k).asked i).sum = 0 := by
    induction D with
    | nil => rfl
    | cons i D ih =>
      by_cases h : D = []
      · subst h; rfl
      · rw [List.map_cons, List.sum_cons, ih h]; rfl
  rw [this]
  simp

/-! ### F1-score -/

/-- C89 for the F1-score: on new rows of two classes with at least one positive row, the score is the F1-score of the predictions. -/
theorem score_f1_partial {nF : Nat} (fl : List Nat) (t : Tree) (ht : t.Over nF 2) (D : Data) (hD : ∀ i ∈ D, i.label < 2)
    (h1 : ∃ i ∈ D, i.label = 1) :
    f1Test fl (Obj.ofTree t) D = some (2 * (truePositives t D : Rat) /
      (2 * truePositives t D + falsePositives t D + falseNegatives t D)) := by
  have hlen : 1 < (preprocessTest fl (loadRows D)).groups.length := by
    obtain ⟨i, hi, e⟩ := h1
    exact (seen_groups fl D 1).2 ⟨i, hi, by omega⟩
  have hover := unflip_over (flipSet fl) ht
  unfold f1Test
  dsimp only
  rw [walk_eq fl f1Add (fun a b c => by simp only [f1Add, Int.add_assoc]) f1LeafV f1LeafCosts _ (· < 2)
    (fun v k hv hg hn hk => f1LeafV_eq hg hv (by rw [hn]; omega)) t (over_leaves ht) _ (seen_ok fl D) (seen_grouped fl D) rfl]
  obtain ⟨g, e1, e2, _⟩ := group_some (seen_grouped fl D) hlen
  simp only [Option.bind_eq_bind, Option.bind_some, e1, e2]
  have hz : ∀ a : F1Sol, f1Add ⟨0, 0⟩ a = a := fun a => by simp [f1Add]
  rw [hz]
  have htp : truePositives (unflip (flipSet fl) t) (preprocessTest fl (loadRows D)).rows = truePositives t D :=
    seen_count fl D _ _ (fun i => by rw [unflip_predict]; rfl)
  have hfp : falsePositives (unflip (flipSet fl) t) (preprocessTest fl (loadRows D)).rows = falsePositives t D :=
    seen_count fl D _ _ (fun i => by rw [unflip_predict]; rfl)
  have hfn : falseNegatives (unflip (flipSet fl) t) (preprocessTest fl (loadRows D)).rows = falseNegatives t D :=
    seen_count fl D _ _ (fun i => by rw [unflip_predict]; rfl)
  have hpos : 0 < truePositives t D + falseNegatives t D := by
    obtain ⟨i, hi, e⟩ := h1
    have hp := over_predict ht i
    by_cases hq : t.predict i = 1
    · have : 0 < truePositives t D := List.countP_pos_iff.2 ⟨i, hi, by simp [e, hq]⟩
      omega
    · have : 0 < falseNegatives t D := List.countP_pos_iff.2 ⟨i, hi, by simp [e]; omega⟩
      omega
  obtain ⟨s, es, _, _, hs⟩ := f1_score (unflip (flipSet fl) t) hover _ (seen_labels fl D 2 hD) (by rw [htp, hfp, hfn]; omega)
  rw [es, hs, htp, hfp, hfn]

/-- C89 fails for the F1-score: when no new row is positive, the score reads beyond the end of the class counts, for every tree. -/
theorem score_f1_undefined (fl : List Nat) (t : Obj) (D : Data) (h : ∀ i ∈ D, i.label = 0) : f1Test fl t D = none := by
  have hlen : ¬ 1 < (preprocessTest fl (loadRows D)).groups.length := by
    rw [seen_groups]
    rintro ⟨i, hi, hk⟩
    rw [h i hi] at hk
    omega
  unfold f1Test
  dsimp only
  rw [List.getElem?_eq_none (l := (preprocessTest fl (loadRows D)).groups) (by omega)]
  cases t.testWalk fl f1Add f1LeafV (preprocessTest fl (loadRows D)) (⟨0, 0⟩, 0) <;> rfl

/-! ### Fairness -/

/-- How many rows of one group count for the constraint: all for demographic parity, the positive ones for equality of opportunity. -/
def counted (p : Inst → Bool) (x : Bool) (D : Data) : Nat := D.countP fun i => p i && i.feat 0 == x

/-- The two group scores of any tree add up to the size of the data compared with the training data, and are not negative. -/
private theorem fair_total' (leaf : Data → Nat → FairSol) (p : Inst → Bool) (n0 n1 : Nat)
    (h1 : ∀ D k, k ≠ 0 → (leaf D k).g0 = (D.countP fun i => p i && !i.feat 0 : Nat) / (n0 : Rat) ∧
      (leaf D k).g1 = (D.countP fun i => p i && i.feat 0 : Nat) / (n1 : Rat))
    (h0 : ∀ D, (leaf D 0).g0 = (D.countP fun i => p i && i.feat 0 : Nat) / (n1 : Rat) ∧
      (leaf D 0).g1 = (D.countP fun i => p i && !i.feat 0 : Nat) / (n0 : Rat)) (t : Tree) (D : Data) :
    (evalTree fairAdd leaf t D).g0 + (evalTree fairAdd leaf t D).g1 =
      (counted p false D : Rat) / n0 + (counted p true D : Rat) / n1 ∧
      0 ≤ (evalTree fairAdd leaf t D).g0 ∧ 0 ≤ (evalTree fairAdd leaf t D).g1 := by
  obtain ⟨e0, e1⟩ := fair_scores leaf p n0 n1 h1 h0 t D
  rw [e0, e1]
  have c := fun x : Bool => countP_and_compl (fun i => p i && i.feat 0 == x) (fun i => t.predict i == 0) D
  have f0 : ∀ q : Inst → Bool, (D.countP fun i => (p i && !i.feat 0) && q i) = D.countP fun i => (p i && i.feat 0 == false) && q i := by
    intro q; congr 1; funext i; cases i.feat 0 <;> rfl
  have f1 : ∀ q : Inst → Bool, (D.countP fun i => (p i && i.feat 0) && q i) = D.countP fun i => (p i && i.feat 0 == true) && q i := by
    intro q; congr 1; funext i; cases i.feat 0 <;> rfl
  rw [f0, f1, f0, f1]
  have c0 := c false
  have c1 := c true
  unfold counted
  rw [← c0, ← c1]
  refine ⟨?_, by positivity, by positivity⟩
  push_cast
  simp only [bne]
  ring

private theorem gf_hyp (G : Groups) :
    (∀ D k, k ≠ 0 → (gfLeaf G D k).g0 = (D.countP fun i => (fun _ => true) i && !i.feat 0 : Nat) / (G.n0 : Rat) ∧
      (gfLeaf G D k).g1 = (D.countP fun i => (fun _ => true) i && i.feat 0 : Nat) / (G.n1 : Rat)) ∧
    (∀ D, (gfLeaf G D 0).g0 = (D.countP fun i => (fun _ => true) i && i.feat 0 : Nat) / (G.n1 : Rat) ∧
      (gfLeaf G D 0).g1 = (D.countP fun i => (fun _ => true) i && !i.feat 0 : Nat) / (G.n0 : Rat)) := by
  have a0 : ∀ D : Data, groupSize false D = D.countP fun i => true && !i.feat 0 := fun D => by
    rw [groupSize_countP]; congr 1; funext i; cases i.feat 0 <;> rfl
  have a1 : ∀ D : Data, ((D.length : Int) - (groupSize false D : Int)) = ((D.countP fun i => true && i.feat 0 : Nat) : Int) := fun D => by
    have := group_compl D
    have e : groupSize true D = D.countP fun i => true && i.feat 0 := by
      rw [groupSize_countP]; congr 1; funext i; cases i.feat 0 <;> rfl
    omega
  constructor
  · intro D k hk
    simp only [gfLeaf, hk, ne_eq, not_false_eq_true, if_true, a1, ← a0, Int.cast_natCast, and_self]
  · intro D
    simp only [gfLeaf, ne_eq, not_true_eq_false, if_false, a1, ← a0, Int.cast_natCast, and_self]

private theorem eo_hyp (G : Groups) :
    (∀ D k, k ≠ 0 → (eoLeaf G D k).g0 = (D.countP fun i => (fun i : Inst => i.label == 1) i && !i.feat 0 : Nat) / (G.n0 : Rat) ∧
      (eoLeaf G D k).g1 = (D.countP fun i => (fun i : Inst => i.label == 1) i && i.feat 0 : Nat) / (G.n1 : Rat)) ∧
    (∀ D, (eoLeaf G D 0).g0 = (D.countP fun i => (fun i : Inst => i.label == 1) i && i.feat 0 : Nat) / (G.n1 : Rat) ∧
      (eoLeaf G D 0).g1 = (D.countP fun i => (fun i : Inst => i.label == 1) i && !i.feat 0 : Nat) / (G.n0 : Rat)) := by
  have gp : ∀ (x : Bool) (D : Data), groupSize x (positives D) = D.countP fun i => i.label == 1 && i.feat 0 == x := by
    intro x D
    rw [groupSize_countP]
    unfold positives
    rw [List.countP_filter]
    congr 1; funext i; rw [Bool.and_comm]; congr 1
  have a0 : ∀ D : Data, groupSize false (positives D) = D.countP fun i => i.label == 1 && !i.feat 0 := fun D => by
    rw [gp]; congr 1; funext i; cases i.feat 0 <;> rfl
  have a1 : ∀ D : Data, ((numLabel D 1 : Int) - (groupSize false (positives D) : Int)) =
      ((D.countP fun i => i.label == 1 && i.feat 0 : Nat) : Int) := fun D => by
    have := group_compl (positives D)
    have pl : (positives D).length = numLabel D 1 := rfl
    have e : groupSize true (positives D) = D.countP fun i => i.label == 1 && i.feat 0 := by
      rw [gp]; congr 1; funext i; cases i.feat 0 <;> rfl
    omega
  constructor
  · intro D k hk
    simp only [eoLeaf, hk, ne_eq, not_false_eq_true, if_true, a1, ← a0, Int.cast_natCast, and_self]
  · intro D
    simp only [eoLeaf, ne_eq, not_true_eq_false, if_false, a1, ← a0, Int.cast_natCast, and_self]

/-- The training data as the solver sees them. -/
def seenTrain (fl : List Nat) (T : Data) : Data := T.map (flipInst (flipSet fl))

private theorem counted_seen (fl : List Nat) (D : Data) (p : Inst → Bool) (hp : ∀ fl i, p (flipInst fl i) = p i) (x : Bool) :
    counted p x (preprocessTest fl (loadRows D)).rows = counted p (x != flipSet fl 0) D := by
  refine seen_count fl D _ _ fun i => ?_
  rw [hp]
  congr 1
  simp only [flipInst]
  cases i.feat 0 <;> cases flipSet fl 0 <;> cases x <;> rfl

private theorem counted_train (fl : List Nat) (T : Data) (p : Inst → Bool) (hp : ∀ fl i, p (flipInst fl i) = p i) (x : Bool) :
    counted p x (seenTrain fl T) = counted p (x != flipSet fl 0) T := by
  unfold counted seenTrain
  rw [List.countP_map]
  congr 1
  funext i
  simp only [Function.comp]
  rw [hp]
  congr 1
  simp only [flipInst]
  cases i.feat 0 <;> cases flipSet fl 0 <;> cases x <;> rfl

/-- How large the data are compared with the training data: for each group the number of rows that count, divided by that number in
the training data, added up. Two for the training data themselves. -/
def relSize (p : Inst → Bool) (T D : Data) : Rat :=
  (counted p false D : Rat) / counted p false T + (counted p true D : Rat) / counted p true T

private theorem relSize_seen (fl : List Nat) (T D : Data) (p : Inst → Bool) (hp : ∀ fl i, p (flipInst fl i) = p i) :
    relSize p (seenTrain fl T) (preprocessTest fl (loadRows D)).rows = relSize p T D := by
  unfold relSize
  rw [counted_seen fl D p hp, counted_seen fl D p hp, counted_train fl T p hp, counted_train fl T p hp]
  cases flipSet fl 0
  · rfl
  · exact add_comm _ _

private theorem gf_counted (T : Data) : (gfGroups T).n0 = counted (fun _ => true) false T ∧
    (gfGroups T).n1 = counted (fun _ => true) true T := by
  simp [gfGroups, counted, groupSize_countP]

private theorem eo_counted (T : Data) : (eoGroups T).n0 = counted (fun i => i.label == 1) false T ∧
    (eoGroups T).n1 = counted (fun i => i.label == 1) true T := by
  have gp : ∀ (x : Bool) (D : Data), groupSize x (positives D) = D.countP fun i => i.label == 1 && i.feat 0 == x := by
    intro x D
    rw [groupSize_countP]
    unfold positives
    rw [List.countP_filter]
    congr 1; funext i; rw [Bool.and_comm]; congr 1
  exact ⟨gp false T, gp true T⟩

private theorem two_groups {fl : List Nat} {D : Data} (h1 : ∃ i ∈ D, i.label = 1) :
    1 < (preprocessTest fl (loadRows D)).groups.length := by
  obtain ⟨i, hi, e⟩ := h1
  exact (seen_groups fl D 1).2 ⟨i, hi, by omega⟩

private theorem fair_assoc (a b c : FairSol) : fairAdd (fairAdd a b) c = fairAdd a (fairAdd b c) := by
  simp only [fairAdd, add_assoc]

private theorem fair_zero (leaf : Data → Nat → FairSol) (hl : ∀ D k, (leaf D k).root = false) (t : Tree) (D : Data) :
    fairAdd ⟨0, 0, 0, false⟩ (evalTree fairAdd leaf t D) = evalTree fairAdd leaf t D := by
  have : (evalTree fairAdd leaf t D).root = false := by
    cases t with
    | leaf k => exact hl D k
    | node f l r => rfl
  rw [fairAdd]
  generalize evalTree fairAdd leaf t D = s at *
  cases s
  simp only [zero_add] at *
  rw [this]

private theorem gf_test {nF : Nat} (fl : List Nat) (limit : Rat) (G : Groups) (t : Tree) (ht : t.Over nF 2) (D : Data)
    (h1 : ∃ i ∈ D, i.label = 1) :
    gfTest fl limit G (Obj.ofTree t) D = some (fairScore limit D.length
      (evalTree fairAdd (gfLeaf G) (unflip (flipSet fl) t) (preprocessTest fl (loadRows D)).rows)) := by
  have hlen := two_groups (fl := fl) h1
  have hpos : D.length ≠ 0 := by
    obtain ⟨i, hi, _⟩ := h1
    exact Nat.ne_of_gt (List.length_pos_of_mem hi)
  unfold gfTest
  dsimp only
  rw [walk_eq fl fairAdd fair_assoc (gfLeafV G) (gfLeaf G) _ (· < 2)
    (fun v k hv hg hn _ => gfLeafV_eq G hg hv (by rw [hn]; omega) k) t (over_leaves ht) _ (seen_ok fl D) (seen_grouped fl D) rfl]
  simp only [Option.bind_eq_bind, Option.bind_some, seen_size]
  rw [if_neg hpos, fair_zero _ (fun D k => by unfold gfLeaf; dsimp only; split <;> rfl)]

private theorem eo_test {nF : Nat} (fl : List Nat) (limit : Rat) (G : Groups) (t : Tree) (ht : t.Over nF 2) (D : Data)
    (h1 : ∃ i ∈ D, i.label = 1) :
    eoTest fl limit G (Obj.ofTree t) D = some (fairScore limit D.length
      (evalTree fairAdd (eoLeaf G) (unflip (flipSet fl) t) (preprocessTest fl (loadRows D)).rows)) := by
  have hlen := two_groups (fl := fl) h1
  have hpos : D.length ≠ 0 := by
    obtain ⟨i, hi, _⟩ := h1
    exact Nat.ne_of_gt (List.length_pos_of_mem hi)
  obtain ⟨g, e1, _, _⟩ := group_some (seen_grouped fl D) hlen
  unfold eoTest eoInform
  dsimp only
  rw [walk_eq fl fairAdd fair_assoc (eoLeafV G) (eoLeaf G) _ (· < 2)
    (fun v k hv hg hn _ => eoLeafV_eq G hg (by rw [hn]; omega) k) t (over_leaves ht) _ (seen_ok fl D) (seen_grouped fl D) rfl]
  simp only [Option.bind_eq_bind, Option.bind_some, seen_size, e1, Option.map_some]
  rw [if_neg hpos, fair_zero _ (fun D k => by unfold eoLeaf; dsimp only; split <;> rfl)]

/-- The fraction of the rows whose label the tree gives. -/
def accOn (t : Tree) (D : Data) : Rat := (D.countP fun i => t.predict i == i.label : Nat) / (D.length : Rat)

private theorem acc_of_mis {nF : Nat} (fl : List Nat) (leaf : Data → Nat → FairSol)
    (h : ∀ D k, (leaf D k).mis = if k ≠ 0 then (numLabel D 0 : Int) else (numLabel D 1 : Int)) (t : Tree) (ht : t.Over nF 2) (D : Data)
    (hD : ∀ i ∈ D, i.label < 2) :
    (((D.length : Int) - (evalTree fairAdd leaf (unflip (flipSet fl) t) (preprocessTest fl (loadRows D)).rows).mis : Int) : Rat) /
      (D.length : Rat) = accOn t D := by
  rw [fair_mis_tree leaf h _ (unflip_over _ ht) _ (seen_labels fl D 2 hD)]
  have hm : misclassified (unflip (flipSet fl) t) (preprocessTest fl (loadRows D)).rows = misclassified t D :=
    seen_count fl D _ _ (fun i => by rw [unflip_predict]; rfl)
  have hsum : (D.countP fun i => t.predict i == i.label) + misclassified t D = D.length := by
    rw [List.length_eq_countP_add_countP (fun i => t.predict i == i.label)]
    unfold misclassified
    congr 1
    apply List.countP_congr
    simp
  unfold accOn
  rw [hm, show ((D.length : Int) - (misclassified t D : Int)) = ((D.countP fun i => t.predict i == i.label : Nat) : Int) by omega]
  rfl

private theorem accepts_small {limit : Rat} (hl : 0 ≤ limit) {s : FairSol} (h : s.g0 + s.g1 ≤ 1) (h0 : 0 ≤ s.g0) (h1 : 0 ≤ s.g1) :
    fairAccepts limit s = true := by
  simp only [fairAccepts, decide_eq_true_eq]
  have := max_le (show s.g0 ≤ 1 by linarith) (show s.g1 ≤ 1 by linarith)
  linarith

private theorem rejects_large {limit : Rat} {s : FairSol} (h : 2 * (1 + limit) < s.g0 + s.g1) : fairAccepts limit s = false := by
  simp only [fairAccepts, decide_eq_false_iff_not, not_le]
  have a := le_max_left s.g0 s.g1
  have b := le_max_right s.g0 s.g1
  linarith

/-- C89 fails for demographic parity on little data: when the new rows are few compared with the training rows (at most half of each
group, say), every tree counts as fair and the score is its accuracy, however much it discriminates on the new rows. -/
theorem score_parity_small {nF : Nat} (fl : List Nat) (limit : Rat) (hl : 0 ≤ limit) (t : Tree) (ht : t.Over nF 2) (T D : Data)
    (hD : ∀ i ∈ D, i.label < 2) (h1 : ∃ i ∈ D, i.label = 1) (hs : relSize (fun _ => true) T D ≤ 1) :
    gfTest fl limit (gfGroups (seenTrain fl T)) (Obj.ofTree t) D = some (accOn t D) := by
  rw [gf_test fl limit _ t ht D h1]
  obtain ⟨hh1, hh0⟩ := gf_hyp (gfGroups (seenTrain fl T))
  obtain ⟨e, p0, p1⟩ := fair_total' (gfLeaf (gfGroups (seenTrain fl T))) (fun _ => true) _ _ hh1 hh0 (unflip (flipSet fl) t)
    (preprocessTest fl (loadRows D)).rows
  have e' := relSize_seen fl T D (fun _ => true) (fun _ _ => rfl)
  unfold relSize at e'
  rw [(gf_counted _).1, (gf_counted _).2, e'] at e
  unfold fairScore
  rw [accepts_small hl (by rw [e]; exact hs) p0 p1, if_pos rfl,
    acc_of_mis fl _ (by intro D k; by_cases hk : k = 0 <;> simp [gfLeaf, hk]) t ht D hD]

/-- C89 fails for demographic parity on much data: when the new rows are many compared with the training rows, every tree counts as
unfair and the score is 0. -/
theorem score_parity_large {nF : Nat} (fl : List Nat) (limit : Rat) (t : Tree) (ht : t.Over nF 2) (T D : Data)
    (h1 : ∃ i ∈ D, i.label = 1) (hs : 2 * (1 + limit) < relSize (fun _ => true) T D) :
    gfTest fl limit (gfGroups (seenTrain fl T)) (Obj.ofTree t) D = some 0 := by
  rw [gf_test fl limit _ t ht D h1]
  obtain ⟨hh1, hh0⟩ := gf_hyp (gfGroups (seenTrain fl T))
  obtain ⟨e, _, _⟩ := fair_total' (gfLeaf (gfGroups (seenTrain fl T))) (fun _ => true) _ _ hh1 hh0 (unflip (flipSet fl) t)
    (preprocessTest fl (loadRows D)).rows
  have e' := relSize_seen fl T D (fun _ => true) (fun _ _ => rfl)
  unfold relSize at e'
  rw [(gf_counted _).1, (gf_counted _).2, e'] at e
  unfold fairScore
  rw [rejects_large (by rw [e]; exact hs)]
  rfl

/-- The training rows given twice are twice as large. -/
private theorem relSize_twice (p : Inst → Bool) (T : Data) (h0 : 0 < counted p false T) (h1 : 0 < counted p true T) :
    relSize p T (T ++ T) = 4 := by
  unfold relSize
  have e : ∀ x, counted p x (T ++ T) = counted p x T + counted p x T := fun x => List.countP_append
  have q0 : (counted p false T : Rat) ≠ 0 := by exact_mod_cast (by omega : counted p false T ≠ 0)
  have q1 : (counted p true T : Rat) ≠ 0 := by exact_mod_cast (by omega : counted p true T ≠ 0)
  rw [e, e]
  push_cast
  rw [add_div, add_div, div_self q0, div_self q1]
  norm_num

/-- C89 fails for demographic parity: the training rows given twice have score 0 for every tree, also for one that treats both groups
alike and makes no error. -/
theorem score_parity_twice {nF : Nat} (fl : List Nat) (limit : Rat) (hl : limit < 1) (t : Tree) (ht : t.Over nF 2) (T : Data)
    (h0 : ∃ i ∈ T, i.feat 0 = false) (h0' : ∃ i ∈ T, i.feat 0 = true) (h1 : ∃ i ∈ T, i.label = 1) :
    gfTest fl limit (gfGroups (seenTrain fl T)) (Obj.ofTree t) (T ++ T) = some 0 := by
  refine score_parity_large fl limit t ht T (T ++ T) ?_ ?_
  · obtain ⟨i, hi, e⟩ := h1
    exact ⟨i, List.mem_append_left _ hi, e⟩
  · rw [relSize_twice _ T (List.countP_pos_iff.2 (by simpa using h0)) (List.countP_pos_iff.2 (by simpa using h0'))]
    linarith

private theorem posRate_seen (fl : List Nat) (t : Tree) (D : Data) (x : Bool) :
    posRate (unflip (flipSet fl) t) x (preprocessTest fl (loadRows D)).rows = posRate t (x != flipSet fl 0) D := by
  unfold posRate
  have hx : ∀ i, ((flipInst (flipSet fl) i).feat 0 == x) = (i.feat 0 == (x != flipSet fl 0)) := fun i => by
    simp only [flipInst]
    cases i.feat 0 <;> cases flipSet fl 0 <;> cases x <;> rfl
  rw [seen_count fl D _ (fun i => i.feat 0 == (x != flipSet fl 0) && t.predict i == 1) (fun i => by rw [hx, unflip_predict]),
    seen_count fl D _ (fun i => i.feat 0 == (x != flipSet fl 0)) hx]

private theorem truePosRate_seen (fl : List Nat) (t : Tree) (D : Data) (x : Bool) :
    truePosRate (unflip (flipSet fl) t) x (preprocessTest fl (loadRows D)).rows = truePosRate t (x != flipSet fl 0) D := by
  unfold truePosRate
  have hx : ∀ i, ((flipInst (flipSet fl) i).feat 0 == x) = (i.feat 0 == (x != flipSet fl 0)) := fun i => by
    simp only [flipInst]
    cases i.feat 0 <;> cases flipSet fl 0 <;> cases x <;> rfl
  rw [seen_count fl D _ (fun i => i.feat 0 == (x != flipSet fl 0) && i.label == 1 && t.predict i == 1)
      (fun i => by rw [hx, unflip_predict]; rfl),
    seen_count fl D _ (fun i => i.feat 0 == (x != flipSet fl 0) && i.label == 1) (fun i => by rw [hx]; rfl)]

private theorem seen_group (fl : List Nat) {D : Data} (p : Inst → Prop) (hp : ∀ fl i, p i → p (flipInst fl i))
    (h : ∀ x, ∃ i ∈ D, i.feat 0 = x ∧ p i) (x : Bool) :
    ∃ i ∈ (preprocessTest fl (loadRows D)).rows, i.feat 0 = x ∧ p i := by
  obtain ⟨i, hi, e, q⟩ := h (x != flipSet fl 0)
  refine ⟨flipInst (flipSet fl) i, (seen_perm fl D).mem_iff.2 (List.mem_map_of_mem hi), ?_, hp _ _ q⟩
  simp only [flipInst, e]
  cases flipSet fl 0 <;> cases x <;> rfl

/-- C89 for demographic parity, partial: when both groups are as large among the new rows as among the training rows, the score is the
accuracy of a tree whose positive rates on the new rows differ by at most the limit, and 0 for any other tree. Missing: all other
sizes, see `score_parity_small` and `score_parity_large`. -/
theorem score_parity_partial {nF : Nat} (fl : List Nat) (limit : Rat) (t : Tree) (ht : t.Over nF 2) (T D : Data)
    (hD : ∀ i ∈ D, i.label < 2) (h1 : ∃ i ∈ D, i.label = 1) (hg : ∀ x, ∃ i ∈ D, i.feat 0 = x)
    (hs : ∀ x, counted (fun _ => true) x D = counted (fun _ => true) x T) :
    gfTest fl limit (gfGroups (seenTrain fl T)) (Obj.ofTree t) D =
      some (if |posRate t false D - posRate t true D| ≤ limit then accOn t D else 0) := by
  have hG : gfGroups (seenTrain fl T) = gfGroups (preprocessTest fl (loadRows D)).rows := by
    have a := gf_counted (seenTrain fl T)
    have b := gf_counted (preprocessTest fl (loadRows D)).rows
    rw [counted_train fl T _ (fun _ _ => rfl), counted_train fl T _ (fun _ _ => rfl), ← hs, ← hs,
      ← counted_seen fl D _ (fun _ _ => rfl), ← counted_seen fl D _ (fun _ _ => rfl), ← b.1, ← b.2] at a
    cases h : gfGroups (seenTrain fl T)
    cases h' : gfGroups (preprocessTest fl (loadRows D)).rows
    rw [h, h'] at a
    simp only at a
    rw [a.1, a.2]
  rw [gf_test fl limit _ t ht D h1, hG]
  have hsg := seen_group fl (fun _ => True) (fun _ _ h => h) (fun x => by simpa using hg x)
  have hx := parity_exact (unflip (flipSet fl) t) (unflip_over _ ht) (preprocessTest fl (loadRows D)).rows limit
    (by simpa using hsg false) (by simpa using hsg true)
  have habs : |posRate (unflip (flipSet fl) t) false (preprocessTest fl (loadRows D)).rows -
      posRate (unflip (flipSet fl) t) true (preprocessTest fl (loadRows D)).rows| = |posRate t false D - posRate t true D| := by
    rw [posRate_seen, posRate_seen]
    cases flipSet fl 0
    · rfl
    · exact abs_sub_comm _ _
  rw [habs] at hx
  unfold fairScore
  rw [acc_of_mis fl _ (by intro D k; by_cases hk : k = 0 <;> simp [gfLeaf, hk]) t ht D hD]
  by_cases h : |posRate t false D - posRate t true D| ≤ limit
  · rw [if_pos (hx.2 h), if_pos h]
  · rw [if_neg (fun e => h (hx.1 e)), if_neg h]

/-- C89 fails for demographic parity: when no new row is positive, the score of a tree with a leaf for the negative class reads beyond
the end of the label groups. -/
theorem score_parity_undefined (fl : List Nat) (limit : Rat) (G : Groups) (t : Tree) (ht : ¬ t.LeafAll (· ≠ 0)) (D : Data)
    (h : ∀ i ∈ D, i.label = 0) : gfTest fl limit G (Obj.ofTree t) D = none := by
  have hlen : ¬ 1 < (preprocessTest fl (loadRows D)).groups.length := by
    rw [seen_groups]
    rintro ⟨i, hi, hk⟩
    rw [h i hi] at hk
    omega
  unfold gfTest
  dsimp only
  rw [walk_none fl fairAdd (gfLeafV G) (preprocessTest fl (loadRows D)).groups.length (· = 0) (fun v k hn hk => by
    unfold gfLeafV
    dsimp only
    rw [if_neg (by simp [hk]), List.getElem?_eq_none (by omega)]
    rfl) t ht _ rfl]
  rfl

/-! ### Equality of opportunity -/

/-- C89 fails for equality of opportunity on little data, in the same way. -/
theorem score_opportunity_small {nF : Nat} (fl : List Nat) (limit : Rat) (hl : 0 ≤ limit) (t : Tree) (ht : t.Over nF 2) (T D : Data)
    (hD : ∀ i ∈ D, i.label < 2) (h1 : ∃ i ∈ D, i.label = 1) (hs : relSize (fun i => i.label == 1) T D ≤ 1) :
    eoTest fl limit (eoGroups (seenTrain fl T)) (Obj.ofTree t) D = some (accOn t D) := by
  rw [eo_test fl limit _ t ht D h1]
  obtain ⟨hh1, hh0⟩ := eo_hyp (eoGroups (seenTrain fl T))
  obtain ⟨e, p0, p1⟩ := fair_total' (eoLeaf (eoGroups (seenTrain fl T))) (fun i => i.label == 1) _ _ hh1 hh0 (unflip (flipSet fl) t)
    (preprocessTest fl (loadRows D)).rows
  have e' := relSize_seen fl T D (fun i => i.label == 1) (fun _ _ => rfl)
  unfold relSize at e'
  rw [(eo_counted _).1, (eo_counted _).2, e'] at e
  unfold fairScore
  rw [accepts_small hl (by rw [e]; exact hs) p0 p1, if_pos rfl,
    acc_of_mis fl _ (by intro D k; by_cases hk : k = 0 <;> simp [eoLeaf, hk]) t ht D hD]

/-- C89 fails for equality of opportunity on much data, in the same way. -/
theorem score_opportunity_large {nF : Nat} (fl : List Nat) (limit : Rat) (t : Tree) (ht : t.Over nF 2) (T D : Data)
    (h1 : ∃ i ∈ D, i.label = 1) (hs : 2 * (1 + limit) < relSize (fun i => i.label == 1) T D) :
    eoTest fl limit (eoGroups (seenTrain fl T)) (Obj.ofTree t) D = some 0 := by
  rw [eo_test fl limit _ t ht D h1]
  obtain ⟨hh1, hh0⟩ := eo_hyp (eoGroups (seenTrain fl T))
  obtain ⟨e, _, _⟩ := fair_total' (eoLeaf (eoGroups (seenTrain fl T))) (fun i => i.label == 1) _ _ hh1 hh0 (unflip (flipSet fl) t)
    (preprocessTest fl (loadRows D)).rows
  have e' := relSize_seen fl T D (fun i => i.label == 1) (fun _ _ => rfl)
  unfold relSize at e'
  rw [(eo_counted _).1, (eo_counted _).2, e'] at e
  unfold fairScore
  rw [rejects_large (by rw [e]; exact hs)]
  rfl

/-- C89 for equality of opportunity, partial: as for demographic parity, with the true-positive rates, when both groups have as many
positive rows among the new rows as among the training rows. -/
theorem score_opportunity_partial {nF : Nat} (fl : List Nat) (limit : Rat) (t : Tree) (ht : t.Over nF 2) (T D : Data)
    (hD : ∀ i ∈ D, i.label < 2) (hg : ∀ x, ∃ i ∈ D, i.feat 0 = x ∧ i.label = 1)
    (hs : ∀ x, counted (fun i => i.label == 1) x D = counted (fun i => i.label == 1) x T) :
    eoTest fl limit (eoGroups (seenTrain fl T)) (Obj.ofTree t) D =
      some (if |truePosRate t false D - truePosRate t true D| ≤ limit then accOn t D else 0) := by
  have h1 : ∃ i ∈ D, i.label = 1 := by
    obtain ⟨i, hi, _, e⟩ := hg true
    exact ⟨i, hi, e⟩
  have hG : eoGroups (seenTrain fl T) = eoGroups (preprocessTest fl (loadRows D)).rows := by
    have a := eo_counted (seenTrain fl T)
    have b := eo_counted (preprocessTest fl (loadRows D)).rows
    rw [counted_train fl T _ (fun _ _ => rfl), counted_train fl T _ (fun _ _ => rfl), ← hs, ← hs,
      ← counted_seen fl D _ (fun _ _ => rfl), ← counted_seen fl D _ (fun _ _ => rfl), ← b.1, ← b.2] at a
    cases h : eoGroups (seenTrain fl T)
    cases h' : eoGroups (preprocessTest fl (loadRows D)).rows
    rw [h, h'] at a
    simp only at a
    rw [a.1, a.2]
  rw [eo_test fl limit _ t ht D h1, hG]
  have hsg := seen_group fl (fun i => i.label = 1) (fun _ _ h => h) hg
  have hx := opportunity_exact (unflip (flipSet fl) t) (unflip_over _ ht) (preprocessTest fl (loadRows D)).rows limit
    (hsg false) (hsg true)
  have habs : |truePosRate (unflip (flipSet fl) t) false (preprocessTest fl (loadRows D)).rows -
      truePosRate (unflip (flipSet fl) t) true (preprocessTest fl (loadRows D)).rows| = |truePosRate t false D - truePosRate t true D| := by
    rw [truePosRate_seen, truePosRate_seen]
    cases flipSet fl 0
    · rfl
    · exact abs_sub_comm _ _
  rw [habs] at hx
  unfold fairScore
  rw [acc_of_mis fl _ (by intro D k; by_cases hk : k = 0 <;> simp [eoLeaf, hk]) t ht D hD]
  by_cases h : |truePosRate t false D - truePosRate t true D| ≤ limit
  · rw [if_pos (hx.2 h), if_pos h]
  · rw [if_neg (fun e => h (hx.1 e)), if_neg h]

/-- C89 fails for equality of opportunity: without a positive row the score reads beyond the end of the label groups, for every
tree. -/
theorem score_opportunity_undefined (fl : List Nat) (limit : Rat) (G : Groups) (t : Obj) (D : Data) (h : ∀ i ∈ D, i.label = 0) :
    eoTest fl limit G t D = none := by
  have hlen : ¬ 1 < (preprocessTest fl (loadRows D)).groups.length := by
    rw [seen_groups]
    rintro ⟨i, hi, hk⟩
    rw [h i hi] at hk
    omega
  unfold eoTest eoInform
  dsimp only
  rw [List.getElem?_eq_none (l := (preprocessTest fl (loadRows D)).groups) (by omega)]
  rfl

/-- C89 fails for predictions with equality of opportunity: new rows come without labels, are all loaded as negative, and the task
then looks for the positive ones beyond the end of the label groups. So every call of `predict` on rows that the solver has not seen
reads outside its memory. -/
theorem predict_opportunity_undefined (fl : List Nat) (t : Obj) (D : Data) : eoPredict fl t D = none := by
  have hlen : ¬ 1 < (preprocessTest fl (loadRows (D.map fun i => { i with label := 0 }))).groups.length := by
    rw [seen_groups]
    rintro ⟨i, hi, hk⟩
    obtain ⟨j, _, rfl⟩ := List.mem_map.1 hi
    simp at hk
  unfold eoPredict eoInform
  dsimp only
  rw [List.getElem?_eq_none (l := (preprocessTest fl (loadRows (D.map fun i => { i with label := 0 }))).groups) (by omega)]
  rfl

/-! ### Examples -/

/-- Two rows of each group, one of them positive; feature 1 is the label. -/
def evenRows : Data :=
  [⟨0, fun f => f == 1, 1⟩, ⟨1, fun _ => false, 0⟩, ⟨2, fun _ => true, 1⟩, ⟨3, fun f => f == 0, 0⟩]

/-- Positive exactly for the second group. -/
def apartTree : Tree := .node 0 (.leaf 0) (.leaf 1)

/-- The label. -/
def alikeTree : Tree := .node 1 (.leaf 0) (.leaf 1)

example : accTest [1, 0] (Obj.ofTree apartTree) evenRows = some (1 / 2) := by
  rw [score_accuracy _ _ _ (by decide)]; decide +kernel
example : questionLength [1, 0] (Obj.ofTree apartTree) evenRows = some 2 := by
  rw [question_length _ _ _ (by decide)]; decide +kernel
example : f1Test [0, 1] (Obj.ofTree alikeTree) evenRows = some 1 := by
  rw [score_f1_partial (nF := 2) _ _ (by simp [alikeTree, Tree.Over]) _ (by decide) (by decide)]; decide +kernel
/-- A tree without errors that treats both groups alike: score 1 on the training rows, 0 on the same rows given twice. -/
example : gfTest [1, 0] (1 / 10) (gfGroups (seenTrain [1, 0] evenRows)) (Obj.ofTree alikeTree) evenRows = some 1 ∧
    gfTest [1, 0] (1 / 10) (gfGroups (seenTrain [1, 0] evenRows)) (Obj.ofTree alikeTree) (evenRows ++ evenRows) = some 0 := by
  decide +kernel
example : posRate alikeTree false evenRows = posRate alikeTree true evenRows ∧ misclassified alikeTree evenRows = 0 := by decide +kernel
/-- A tree that is positive for one group only: score 0 on the training rows, and its accuracy on half of them. -/
example : gfTest [] (1 / 10) (gfGroups (seenTrain [] evenRows)) (Obj.ofTree apartTree) evenRows = some 0 ∧
    relSize (fun _ => true) evenRows [evenRows.headD ⟨0, fun _ => true, 0⟩, ⟨3, fun f => f == 0, 0⟩] = 1 ∧
    gfTest [] (1 / 10) (gfGroups (seenTrain [] evenRows)) (Obj.ofTree apartTree) [⟨0, fun _ => false, 0⟩, ⟨2, fun _ => true, 1⟩] = some 1 ∧
    posRate apartTree false [⟨0, fun _ => false, 0⟩, ⟨2, fun _ => true, 1⟩] = 0 ∧
    posRate apartTree true [⟨0, fun _ => false, 0⟩, ⟨2, fun _ => true, 1⟩] = 1 := by decide +kernel
example : (∀ i ∈ evenRows, i.label < 2) ∧ (∀ x, ∃ i ∈ evenRows, i.feat 0 = x ∧ i.label = 1) ∧
    eoTest [1, 0] (1 / 10) (eoGroups (seenTrain [1, 0] evenRows)) (Obj.ofTree alikeTree) evenRows = some 1 ∧
    eoTest [1, 0] (1 / 10) (eoGroups (seenTrain [1, 0] evenRows)) (Obj.ofTree alikeTree) (evenRows ++ evenRows) = some 0 := by
  decide +kernel
example : ¬ alikeTree.LeafAll (· ≠ 0) := by simp [alikeTree, Tree.LeafAll]

end Streed
