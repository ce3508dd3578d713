import Verif.Lemmas.LeafBestTree
import Verif.Props.Proba

/-!
# C75: every leaf predicts a most frequent class

The tree that `fit()` returns may be worse than the optimum (`returned_not_optimal`), and after a time-out it usually is. Its leaves
always carry the best label for the training rows that they receive.
-/

namespace Streed

/-- Two rows end in the same leaf. -/
def Tree.together : Tree → Inst → Inst → Bool
  | .leaf _, _, _ => true
  | .node f l r, x, y => x.feat f == y.feat f && (if x.feat f then r.together x y else l.together x y)

/-- The number of training rows with label `j` in the leaf of `x`. -/
def inLeaf (t : Tree) (T : Data) (x : Inst) (j : Nat) : Nat := T.countP fun y => t.together x y && y.label == j

/-! ### Undoing the preprocessing -/

theorem prep_best {P : Problem} {mls : Nat} (hP : FeatureFree P) (hmls : 1 ≤ mls) (fl red : Nat → Bool) (t : Tree) (D : Data)
    (ht : t.Legal P mls (D.map (prepInst fl red))) (hb : BestLeaves P t (D.map (prepInst fl red))) : BestLeaves P (unflip fl t) D := by
  induction t generalizing D with
  | leaf k =>
    intro j hj
    have := hb j hj
    rwa [leafCost_prep hP, leafCost_prep hP] at this
  | node f l r ihl ihr =>
    obtain ⟨hf, hm, hl, hr⟩ := ht
    obtain ⟨hbl, hbr⟩ := hb
    have hred : red f = false := by
      cases h : red f with
      | false => rfl
      | true =>
        have h1 := hr.length
        have h2 : having f (D.map (prepInst fl red)) = [] := by
          unfold having
          apply List.filter_eq_nil_iff.2
          intro i hi
          obtain ⟨j, _, rfl⟩ := List.mem_map.1 hi
          simp [prepInst, h]
        rw [h2] at h1; simp at h1; omega
    unfold unflip
    cases hfl : fl f with
    | false =>
      have e0 : without f (D.map (prepInst fl red)) = (without f D).map (prepInst fl red) := by
        rw [← side_false, ← side_false]
        exact side_prep _ _ _ _ _ _ _ fun i hi => by simp [prepInst, hred, hfl]
      have e1 : having f (D.map (prepInst fl red)) = (having f D).map (prepInst fl red) := by
        rw [← side_true, ← side_true]
        exact side_prep _ _ _ _ _ _ _ fun i hi => by simp [prepInst, hred, hfl]
      rw [e0] at hl hbl; rw [e1] at hr hbr
      exact ⟨ihl _ hl hbl, ihr _ hr hbr⟩
    | true =>
      have e0 : without f (D.map (prepInst fl red)) = (having f D).map (prepInst fl red) := by
        rw [← side_false, ← side_true]
        exact side_prep _ _ _ _ _ _ _ fun i hi => by simp only [prepInst, hred, hfl]; cases i.feat f <;> rfl
      have e1 : having f (D.map (prepInst fl red)) = (without f D).map (prepInst fl red) := by
        rw [← side_false, ← side_true]
        exact side_prep _ _ _ _ _ _ _ fun i hi => by simp only [prepInst, hred, hfl]; cases i.feat f <;> rfl
      rw [e0] at hl hbl; rw [e1] at hr hbr
      exact ⟨ihr _ hr hbr, ihl _ hl hbl⟩

/-- The tree that `fit()` returns has best labels on the training rows. -/
theorem fitTree_best {nF nL mls : Nat} {o : Options} {T : Data} (t : Top) (ho : ∀ D f, f ∈ o.order D → f < nF) (hi : Input nL T)
    (hmls : 1 ≤ mls) (hfit : t.maxNodes + 1 ≤ 2 ^ t.maxDepth) (r : Fitted) (h : fitTree nF nL mls o t T = some (some r)) :
    BestLeaves (accuracy nF nL) r.tree T ∧ r.tree.Legal (accuracy nF nL) mls T := by
  have G := accCfg_base (nF := nF) (mls := mls) (o := o) hi ho
  obtain ⟨e, he⟩ := solve_sound G t hfit
  have hb := solve_bestLeaves G t hfit
  unfold fitTree fitAccuracy at h
  dsimp only at h
  rcases returned_spec G False _ he (fun _ _ _ => rfl) (fun h => h.elim) with ⟨h1, _⟩ | ⟨tr, h1, _, h3, _⟩
  · rw [h1] at h; simp at h
  · have h4 := returned_bestLeaves G t he hb (fun _ _ _ => rfl) tr h1
    rw [h1] at h
    simp only [Option.map_some, Option.some.injEq] at h
    rw [← h]
    exact ⟨prep_best (accuracy_featureFree nF nL) hmls _ _ tr T h3 h4, (fitTree_back hmls T tr h3).1⟩

/-! ### Counting -/

theorem accuracy_leafCost (nF nL k : Nat) (D : Data) : leafCost (accuracy nF nL) D k + (D.countP fun y => y.label == k : Nat) = D.length := by
  have h := misclassified_single k D
  have e : leafCost (accuracy nF nL) D k = misclassified (.leaf k) D := cost_eq_misclassified nF nL (.leaf k) D
  rw [e, List.count, List.countP_map] at *
  have e2 : (D.countP fun y => y.label == k) = D.countP ((fun x => x == k) ∘ Inst.label) := rfl
  rw [e2]
  omega

theorem inLeaf_node_right {f : Nat} {l r : Tree} {T : Data} {x : Inst} (h : x.feat f = true) (j : Nat) :
    inLeaf (.node f l r) T x j = inLeaf r (having f T) x j := by
  unfold inLeaf having
  rw [List.countP_filter]
  congr 1
  funext y
  simp only [Tree.together, h, if_true]
  cases y.feat f <;> simp

theorem inLeaf_node_left {f : Nat} {l r : Tree} {T : Data} {x : Inst} (h : x.feat f = false) (j : Nat) :
    inLeaf (.node f l r) T x j = inLeaf l (without f T) x j := by
  unfold inLeaf without
  rw [List.countP_filter]
  congr 1
  funext y
  simp only [Tree.together, h, Bool.false_eq_true, if_false]
  cases y.feat f <;> simp

theorem bestLeaves_counts {nF nL : Nat} {t : Tree} {T : Data} (hlab : ∀ i ∈ T, i.label < nL) (h : BestLeaves (accuracy nF nL) t T) (x : Inst) (j : Nat) :
    inLeaf t T x j ≤ inLeaf t T x (t.predict x) := by
  induction t generalizing T with
  | leaf k =>
    have e : ∀ m, inLeaf (.leaf k) T x m = T.countP fun y => y.label == m := fun m => by simp [inLeaf, Tree.together]
    rw [e, e]
    show _ ≤ T.countP fun y => y.label == k
    by_cases hj : j < nL
    · have h1 := h j hj
      have h2 := accuracy_leafCost nF nL k T
      have h3 := accuracy_leafCost nF nL j T
      omega
    · have : (T.countP fun y => y.label == j) = 0 := List.countP_eq_zero.2 fun y hy h' => by
        have := hlab y hy
        have h'' : y.label = j := by simpa using h'
        omega
      omega
  | node f l r ihl ihr =>
    cases hx : x.feat f with
    | true =>
      rw [inLeaf_node_right hx, inLeaf_node_right hx]
      have e : (Tree.node f l r).predict x = r.predict x := by simp [Tree.predict, hx]
      rw [e]
      exact ihr (fun i hi => hlab i (List.mem_of_mem_filter hi)) h.2
    | false =>
      rw [inLeaf_node_left hx, inLeaf_node_left hx]
      have e : (Tree.node f l r).predict x = l.predict x := by simp [Tree.predict, hx]
      rw [e]
      exact ihl (fun i hi => hlab i (List.mem_of_mem_filter hi)) h.1

/-- **C75.** For every dataset, depth, node limit, leaf size, combination of options, feature order, initial upper bound and clock (so also
after a time-out): if `fit()` returns a tree, the label that it predicts for a row is a most frequent one among the training rows
in the same leaf. -/
theorem leaf_majority {nF nL mls : Nat} {o : Options} {T : Data} (t : Top) (ho : ∀ D f, f ∈ o.order D → f < nF) (hi : Input nL T)
    (hmls : 1 ≤ mls) (hfit : t.maxNodes + 1 ≤ 2 ^ t.maxDepth) (r : Fitted) (h : fitTree nF nL mls o t T = some (some r)) (x : Inst) (j : Nat) :
    inLeaf r.tree T x j ≤ inLeaf r.tree T x (r.tree.predict x) :=
  bestLeaves_counts hi.inRange (fitTree_best t ho hi hmls hfit r h).1 x j

theorem bestLeaves_majority {nF nL mls : Nat} {t : Tree} {T : Data} (hlab : ∀ i ∈ T, i.label < nL) (hmls : 1 ≤ mls)
    (h : BestLeaves (accuracy nF nL) t T) (hl : t.Legal (accuracy nF nL) mls T) : MajorityLeaves nL t (asRows T) := by
  induction t generalizing T with
  | leaf k =>
    refine ⟨?_, hl.1, fun j => ?_⟩
    · intro he
      have : T = [] := List.map_eq_nil_iff.1 he
      have h2 := hl.2
      rw [this] at h2
      simp at h2; omega
    · rw [asRows_labels]
      have h1 := bestLeaves_counts hlab h ⟨0, fun _ => false, 0⟩ j
      have e : ∀ m, inLeaf (.leaf k) T ⟨0, fun _ => false, 0⟩ m = (T.map Inst.label).count m := fun m => by
        simp [inLeaf, Tree.together, List.count, List.countP_map, Function.comp_def]
      rw [e, e] at h1
      exact h1
  | node f l r ihl ihr =>
    unfold MajorityLeaves
    rw [asRows_having, asRows_without]
    exact ⟨ihl (fun i hi => hlab i (List.mem_of_mem_filter hi)) h.1 hl.2.2.1, ihr (fun i hi => hlab i (List.mem_of_mem_filter hi)) h.2 hl.2.2.2⟩

theorem leafLabel_lt {nF nC : Nat} (t : Tree) (ht : t.Over nF nC) (x : IntRow) : leafLabel t x < nC := by
  induction t with
  | leaf k => exact ht
  | node f l r ihl ihr =>
    unfold leafLabel
    split
    · exact ihr ht.2.2
    · exact ihl ht.2.1

/-- **C71** after any accuracy fit: whatever the depth, node limit, leaf size, options and clock, if the labels are `0, …, n_classes - 1` and
`fit()` returned a tree, `predict_proba` raises nothing. Each row of its result has the class frequencies of the training rows in its leaf,
they sum to one, and the predicted label has the largest one. -/
theorem proba_after_fit {nF mls : Nat} {o : Options} {T : Data} (t : Top) (X : List IntRow) (ho : ∀ D f, f ∈ o.order D → f < nF)
    (hi : Input (numClasses (asRows T)) T) (hmls : 1 ≤ mls) (hfit : t.maxNodes + 1 ≤ 2 ^ t.maxDepth) (r : Fitted)
    (h : fitTree nF (numClasses (asRows T)) mls o t T = some (some r)) :
    ∃ P, predictProba (numClasses (asRows T)) r.tree X (asRows T) = .ok P ∧ P.length = X.length ∧
      ∀ i, (hi : i < X.length) → (P.getD i []).length = numClasses (asRows T) ∧ (P.getD i []).sum = 1 ∧
        ∀ k, k < numClasses (asRows T) → (P.getD i []).getD k 0 = leafFrequency r.tree (asRows T) X[i] k ∧
          (P.getD i []).getD k 0 ≤ (P.getD i []).getD (leafLabel r.tree X[i]) 0 := by
  obtain ⟨h1, h2⟩ := fitTree_best t ho hi hmls hfit r h
  have hmaj := bestLeaves_majority hi.inRange hmls h1 h2
  obtain ⟨P, p1, p2, p3⟩ := proba_frequencies X (fun p hp => by
    obtain ⟨i, hm, rfl⟩ := List.mem_map.1 hp
    exact hi.inRange i hm) hmaj
  refine ⟨P, p1, p2, fun i hlt => ⟨(p3 i hlt).1, (p3 i hlt).2.1, fun k hk => ⟨(p3 i hlt).2.2 k hk, ?_⟩⟩⟩
  rw [(p3 i hlt).2.2 k hk, (p3 i hlt).2.2 _ (leafLabel_lt _ (legal_over h2) _)]
  exact proba_prefers_prediction _ hmaj k

/-! ### The hypotheses are met -/

/-- The run whose returned tree is worse than the optimum, at depth four. -/
example : Input 2 recData ∧ ∃ r, fitTree 5 2 1 (giniOptions 5 2) ⟨4, 2 ^ 4 - 1, false, int32Max⟩ recData = some (some r) :=
  ⟨recData_input, _, recData_tree⟩

/-- A run that is stopped at once: only the leaf found before the search is left. -/
example : let o : Options := { giniOptions 1 2 with clock := fun _ => false }
    Input 2 probaData ∧ fitTree 1 2 1 o ⟨3, 2 ^ 3 - 1, false, int32Max⟩ probaData = some (some ⟨.leaf 0, 2⟩) ∧
    inLeaf (.leaf 0) probaData ⟨0, fun _ => true, 0⟩ 0 = 2 :=
  ⟨⟨by decide, by decide, by unfold IdSorted; decide, by decide⟩, by decide +kernel, by decide⟩

end Streed
