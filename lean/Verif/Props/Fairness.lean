import Verif.Props.Tasks

/-!
# C19, C40, C41: more about the fairness tasks
-/

namespace Streed

open TaskLemmas

theorem fair_mis_tree (leaf : Data → Nat → FairSol)
    (h : ∀ D k, (leaf D k).mis = if k ≠ 0 then (numLabel D 0 : Int) else (numLabel D 1 : Int)) {nF : Nat}
    (t : Tree) (ht : t.Over nF 2) (D : Data) (hD : ∀ i ∈ D, i.label < 2) :
    (evalTree fairAdd leaf t D).mis = misclassified t D := by
  rw [fair_mis, evalTree_sum (fun i k => if k ≠ 0 then (if i.label = 0 then (1 : Int) else 0)
    else (if i.label = 1 then 1 else 0)) _ (fun _ => True) (by
      intro D k _
      rw [h]
      by_cases hk : k = 0 <;> simp [hk, numLabel_sum]) t D (by simp)]
  unfold misclassified
  rw [countP_sum]
  congr 1
  apply List.map_congr_left
  intro i hi
  have h1 := over_predict ht i
  have h2 := hD i hi
  have a : t.predict i = 0 ∨ t.predict i = 1 := by omega
  have b : i.label = 0 ∨ i.label = 1 := by omega
  rcases a with a | a <;> rcases b with b | b <;> simp [a, b]

/-- C40: the first component of a tree's value is the number of its misclassifications, so the reported training
score is its accuracy when the constraint holds, and 0 otherwise. -/
theorem parity_score {nF : Nat} (t : Tree) (ht : t.Over nF 2) (T : Data) (hT : ∀ i ∈ T, i.label < 2) (limit : Rat)
    (h0 : ∃ i ∈ T, i.feat 0 = false) (h1 : ∃ i ∈ T, i.feat 0 = true) :
    fairScore limit T.length (evalTree fairAdd (gfLeaf (gfGroups T)) t T) =
      if |posRate t false T - posRate t true T| ≤ limit then
        ((T.length : Int) - misclassified t T : Int) / (T.length : Rat) else 0 := by
  unfold fairScore
  rw [fair_mis_tree _ (by intro D k; by_cases hk : k = 0 <;> simp [gfLeaf, hk]) t ht T hT]
  by_cases h : |posRate t false T - posRate t true T| ≤ limit
  · rw [if_pos ((parity_exact t ht T limit h0 h1).2 h), if_pos h]
  · rw [if_neg (fun e => h ((parity_exact t ht T limit h0 h1).1 e)), if_neg h]

/-- C41: the same for equality of opportunity. -/
theorem opportunity_score {nF : Nat} (t : Tree) (ht : t.Over nF 2) (T : Data) (hT : ∀ i ∈ T, i.label < 2) (limit : Rat)
    (h0 : ∃ i ∈ T, i.feat 0 = false ∧ i.label = 1) (h1 : ∃ i ∈ T, i.feat 0 = true ∧ i.label = 1) :
    fairScore limit T.length (evalTree fairAdd (eoLeaf (eoGroups T)) t T) =
      if |truePosRate t false T - truePosRate t true T| ≤ limit then
        ((T.length : Int) - misclassified t T : Int) / (T.length : Rat) else 0 := by
  unfold fairScore
  rw [fair_mis_tree _ (by intro D k; by_cases hk : k = 0 <;> simp [eoLeaf, hk]) t ht T hT]
  by_cases h : |truePosRate t false T - truePosRate t true T| ≤ limit
  · rw [if_pos ((opportunity_exact t ht T limit h0 h1).2 h), if_pos h]
  · rw [if_neg (fun e => h ((opportunity_exact t ht T limit h0 h1).1 e)), if_neg h]

/-! The constraint is also tested on subtrees during the search. That never discards an acceptable tree. -/

private theorem fair_nonneg (leaf : Data → Nat → FairSol) (h : ∀ D k, 0 ≤ (leaf D k).g0 ∧ 0 ≤ (leaf D k).g1)
    (t : Tree) (D : Data) : 0 ≤ (evalTree fairAdd leaf t D).g0 ∧ 0 ≤ (evalTree fairAdd leaf t D).g1 := by
  induction t generalizing D with
  | leaf k => exact h D k
  | node f l r ihl ihr =>
    exact ⟨add_nonneg (ihl _).1 (ihr _).1, add_nonneg (ihl _).2 (ihr _).2⟩

private theorem accept_children (leaf : Data → Nat → FairSol) (h : ∀ D k, 0 ≤ (leaf D k).g0 ∧ 0 ≤ (leaf D k).g1)
    (limit : Rat) (f : Nat) (l r : Tree) (D : Data)
    (ha : fairAccepts limit (evalTree fairAdd leaf (.node f l r) D) = true) :
    fairAccepts limit (evalTree fairAdd leaf l (without f D)) = true ∧
      fairAccepts limit (evalTree fairAdd leaf r (having f D)) = true := by
  have hl := fair_nonneg leaf h l (without f D)
  have hr := fair_nonneg leaf h r (having f D)
  simp only [fairAccepts, decide_eq_true_eq, evalTree, fairAdd, sub_le_iff_le_add, max_le_iff] at *
  refine ⟨⟨?_, ?_⟩, ⟨?_, ?_⟩⟩ <;> linarith [ha.1, ha.2, hl.1, hl.2, hr.1, hr.2]

theorem gf_nonneg (G : Groups) (D : Data) (k : Nat) : 0 ≤ (gfLeaf G D k).g0 ∧ 0 ≤ (gfLeaf G D k).g1 := by
  have h := group_compl D
  have e : ((D.length : Int) - (groupSize false D : Int)) = (groupSize true D : Int) := by omega
  by_cases hk : k = 0
  · simp only [gfLeaf, hk, ne_eq, not_true_eq_false, if_false, e]; constructor <;> positivity
  · simp only [gfLeaf, hk, ne_eq, not_false_eq_true, if_true, e]; constructor <;> positivity

theorem eo_nonneg (G : Groups) (D : Data) (k : Nat) : 0 ≤ (eoLeaf G D k).g0 ∧ 0 ≤ (eoLeaf G D k).g1 := by
  have h := group_compl (positives D)
  rw [show (positives D).length = numLabel D 1 from rfl] at h
  have e : ((numLabel D 1 : Int) - (groupSize false (positives D) : Int)) = (groupSize true (positives D) : Int) := by omega
  by_cases hk : k = 0
  · simp only [eoLeaf, hk, ne_eq, not_true_eq_false, if_false, e]; constructor <;> positivity
  · simp only [eoLeaf, hk, ne_eq, not_false_eq_true, if_true, e]; constructor <;> positivity

/-- C40: if a tree is accepted, so are its two subtrees, so discarding rejected subtrees is harmless. -/
theorem parity_children (G : Groups) (limit : Rat) (f : Nat) (l r : Tree) (D : Data)
    (h : fairAccepts limit (evalTree fairAdd (gfLeaf G) (.node f l r) D) = true) :
    fairAccepts limit (evalTree fairAdd (gfLeaf G) l (without f D)) = true ∧
      fairAccepts limit (evalTree fairAdd (gfLeaf G) r (having f D)) = true :=
  accept_children _ (gf_nonneg G) limit f l r D h

/-- C41: the same for equality of opportunity. -/
theorem opportunity_children (G : Groups) (limit : Rat) (f : Nat) (l r : Tree) (D : Data)
    (h : fairAccepts limit (evalTree fairAdd (eoLeaf G) (.node f l r) D) = true) :
    fairAccepts limit (evalTree fairAdd (eoLeaf G) l (without f D)) = true ∧
      fairAccepts limit (evalTree fairAdd (eoLeaf G) r (having f D)) = true :=
  accept_children _ (eo_nonneg G) limit f l r D h

/-- The costs per instance of demographic parity add up to its leaf costs. -/
theorem parity_pairwise (G : Groups) (D : Data) (hD : ∀ i ∈ D, i.label < 2) (k : Nat) (hk : k < 2) :
    ((D.map fun i => (gfD2 G i i.label k 1).mis).sum = (gfLeaf G D k).mis) ∧
    ((D.map fun i => (gfD2 G i i.label k 1).g0).sum = (gfLeaf G D k).g0) ∧
    ((D.map fun i => (gfD2 G i i.label k 1).g1).sum = (gfLeaf G D k).g1) := by
  have hc := group_compl D
  have e : ((D.length : Int) - (groupSize false D : Int)) = (groupSize true D : Int) := by omega
  have a0 : (D.map fun i => (1 : Rat) * ((((if i.feat 0 then 0 else 1 : Int)) : Rat) / G.n0)).sum = (groupSize false D : Rat) / G.n0 := by
    rw [groupSize_countP, countP_rat]; congr 1; apply List.map_congr_left; intro i _; cases i.feat 0 <;> simp
  have a1 : (D.map fun i => (1 : Rat) * ((((1 - (if i.feat 0 then 0 else 1) : Int)) : Rat) / G.n1)).sum = (groupSize true D : Rat) / G.n1 := by
    rw [groupSize_countP, countP_rat]; congr 1; apply List.map_congr_left; intro i _; cases i.feat 0 <;> simp
  have hm : ∀ (k' : Nat) (g : Inst → Int), (∀ i ∈ D, g i = if i.label = k' then 1 else 0) →
      (D.map g).sum = numLabel D k' := by
    intro k' g hg; rw [numLabel_sum]; congr 1; exact List.map_congr_left hg
  have h2 : k = 0 ∨ k = 1 := by omega
  rcases h2 with rfl | rfl
  · simp only [gfD2, gfLeaf, ne_eq, not_true_eq_false, if_false, e, Int.cast_natCast, Int.cast_one]
    refine ⟨hm 1 _ ?_, a1, a0⟩
    intro i hi; have := hD i hi
    have b : i.label = 0 ∨ i.label = 1 := by omega
    rcases b with b | b <;> simp [b]
  · simp only [gfD2, gfLeaf, ne_eq, one_ne_zero, not_false_eq_true, if_true, e, Int.cast_natCast, Int.cast_one]
    refine ⟨hm 0 _ ?_, a0, a1⟩
    intro i hi; have := hD i hi
    have b : i.label = 0 ∨ i.label = 1 := by omega
    rcases b with b | b <;> simp [b]

/-- Training data for the witnesses: one instance without and three with the sensitive feature. -/
def lopsided : Data :=
  [⟨0, fun _ => false, 1⟩, ⟨1, fun f => f == 0, 1⟩, ⟨2, fun f => f == 0, 1⟩, ⟨3, fun f => f == 0, 0⟩]

example : (∃ i ∈ lopsided, i.feat 0 = false ∧ i.label = 1) ∧ (∃ i ∈ lopsided, i.feat 0 = true ∧ i.label = 1) := by decide

/-- C40 fails for the score on test data: the group sizes of the training data are used, so a tree that treats
both groups of the test data alike and makes no error there gets score 0. -/
theorem parity_test_score_wrong :
    ∃ (T D : Data) (t : Tree) (limit : Rat), t.Over 2 2 ∧ 0 < limit ∧ (∀ i ∈ T ++ D, i.label < 2) ∧
      posRate t false D = posRate t true D ∧ misclassified t D = 0 ∧
      fairScore limit D.length (evalTree fairAdd (gfLeaf (gfGroups T)) t D) = 0 :=
  ⟨lopsided, [⟨0, fun _ => false, 1⟩, ⟨1, fun _ => false, 1⟩, ⟨2, fun f => f == 0, 1⟩], .leaf 1, 1 / 10,
    Nat.one_lt_two, by norm_num, by decide, by decide +kernel, by decide, by decide +kernel⟩

/-! ### C19 -/

/-- C19 for a task with values in several components: `worst k` bounds, component by component, what one more
instance with label `k` adds to the cost of a leaf with any legal label. -/
def FairWorst (leaf : Data → Nat → FairSol) (worst : Nat → FairSol) : Prop :=
  ∀ (i : Inst) (D : Data) (k : Nat), i.label < 2 → k < 2 →
    (leaf (i :: D) k).mis ≤ (leaf D k).mis + (worst i.label).mis ∧
    (leaf (i :: D) k).g0 ≤ (leaf D k).g0 + (worst i.label).g0 ∧
    (leaf (i :: D) k).g1 ≤ (leaf D k).g1 + (worst i.label).g1

/-- C19 fails for demographic parity: group 0 has one instance, group 1 three; an instance of group 0 with label 1
adds 1 to the first score of a leaf with label 1, but the declared bound is 1/3. -/
theorem parity_worst_wrong : ∃ T : Data, ¬ FairWorst (gfLeaf (gfGroups T)) (gfWorst (gfGroups T)) := by
  refine ⟨lopsided, fun h => ?_⟩
  have := (h ⟨0, fun _ => false, 1⟩ [] 1 (by decide) (by decide)).2.1
  revert this
  decide +kernel

/-- C19 fails for equality of opportunity. -/
theorem opportunity_worst_wrong : ∃ T : Data, ¬ FairWorst (eoLeaf (eoGroups T)) (eoWorst (eoGroups T)) := by
  refine ⟨lopsided, fun h => ?_⟩
  have := (h ⟨0, fun _ => false, 1⟩ [] 1 (by decide) (by decide)).2.1
  revert this
  decide +kernel

/-- C19 holds for demographic parity when the groups are equally large. -/
theorem parity_worst_partial (G : Groups) (h : G.n0 = G.n1) : FairWorst (gfLeaf G) (gfWorst G) := by
  intro i D k hi hk
  have hc := group_compl D
  have hc' := group_compl (i :: D)
  have e : ((D.length : Int) - (groupSize false D : Int)) = (groupSize true D : Int) := by omega
  have e' : (((i :: D).length : Int) - (groupSize false (i :: D) : Int)) = (groupSize true (i :: D) : Int) := by omega
  have s0 : ∀ x, (groupSize x (i :: D) : Rat) ≤ (groupSize x D : Rat) + 1 := by
    intro x
    rw [groupSize_countP, groupSize_countP, List.countP_cons]
    split <;> push_cast <;> linarith
  have hn : (0 : Rat) ≤ (G.n1 : Rat)⁻¹ := by positivity
  have hd : ∀ x, (groupSize x (i :: D) : Rat) / G.n1 ≤ (groupSize x D : Rat) / G.n1 + 1 / G.n1 := by
    intro x
    rw [← add_div, div_eq_mul_inv, div_eq_mul_inv]
    exact mul_le_mul_of_nonneg_right (s0 x) hn
  have m : ∀ k', (numLabel (i :: D) k' : Int) ≤ (numLabel D k' : Int) + 1 := by
    intro k'; rw [numLabel_cons]; split <;> push_cast <;> omega
  have hk2 : k = 0 ∨ k = 1 := by omega
  have hi2 : i.label = 0 ∨ i.label = 1 := by omega
  rcases hk2 with rfl | rfl <;> rcases hi2 with hl | hl <;>
    simp only [gfLeaf, gfWorst, ne_eq, not_true_eq_false, if_false, one_ne_zero, not_false_eq_true, if_true, e, e', h, hl,
      Int.cast_natCast] <;>
    first | exact ⟨m _, hd _, hd _⟩

example : FairWorst (gfLeaf (gfGroups [⟨0, fun _ => false, 1⟩, ⟨1, fun f => f == 0, 1⟩]))
    (gfWorst (gfGroups [⟨0, fun _ => false, 1⟩, ⟨1, fun f => f == 0, 1⟩])) := parity_worst_partial _ (by decide)

/-- C19 holds for the accuracy tasks. -/
theorem accuracy_worst (nL : Nat) (i : Inst) (D : Data) (hi : i.label < nL) (hD : ∀ j ∈ D, j.label < nL) (k : Nat) :
    accLeafCosts nL (i :: D) k ≤ accLeafCosts nL D k + accWorst i.label := by
  rw [accuracy_leaf nL D hD, accuracy_leaf nL (i :: D) (by
    intro j hj
    rcases List.mem_cons.1 hj with rfl | h
    · exact hi
    · exact hD j h)]
  unfold wrong accWorst
  rw [List.countP_cons]
  split <;> push_cast <;> omega

/-- C19 holds for the F1 task. -/
theorem f1_worst (i : Inst) (D : Data) (hi : i.label < 2) (k : Nat) (hk : k < 2) :
    (f1LeafCosts (i :: D) k).fn ≤ (f1LeafCosts D k).fn + (f1Worst i.label).fn ∧
    (f1LeafCosts (i :: D) k).fp ≤ (f1LeafCosts D k).fp + (f1Worst i.label).fp := by
  have hk2 : k = 0 ∨ k = 1 := by omega
  have hi2 : i.label = 0 ∨ i.label = 1 := by omega
  rcases hk2 with rfl | rfl <;> rcases hi2 with hl | hl <;>
    simp [f1LeafCosts, f1Worst, hl, numLabel_cons] <;> omega

end Streed
