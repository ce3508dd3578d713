import Verif.Model.Fit
import Verif.Lemmas.Top
import Verif.Props.Preprocess

/-! The accuracy run meets the hypotheses of the search theorem. -/

namespace Streed

theorem prepInst_id (fl red : Nat → Bool) (i : Inst) : (prepInst fl red i).id = i.id := rfl
theorem prepInst_label (fl red : Nat → Bool) (i : Inst) : (prepInst fl red i).label = i.label := rfl

theorem preprocess_length (P : Problem) (mls : Nat) (T : Data) : (preprocess P mls T).length = T.length := by
  simp [preprocess]

theorem preprocess_sorted {P : Problem} {mls : Nat} {T : Data} (h : IdSorted T) : IdSorted (preprocess P mls T) := by
  unfold IdSorted preprocess at *
  rw [List.pairwise_map]
  exact h

theorem preprocess_redundant {P : Problem} {mls : Nat} {T : Data} {f : Nat} (h : isRedundant P mls T f = true) :
    having f (preprocess P mls T) = [] := by
  unfold having preprocess
  apply List.filter_eq_nil_iff.2
  intro i hi
  obtain ⟨j, _, rfl⟩ := List.mem_map.1 hi
  simp [prepInst, h]

/-- The accuracy cost of a tree is the number of misclassified instances. -/
theorem cost_eq_misclassified (nF nL : Nat) (t : Tree) (D : Data) :
    t.cost (accuracy nF nL) D = misclassified t D := by
  rw [Tree.cost_eq_sum _ rfl]
  unfold misclassified
  induction D with
  | nil => rfl
  | cons i D ih =>
    simp only [List.map_cons, List.sum_cons, ih, List.countP_cons]
    by_cases h : t.predict i = i.label
    · simp [h, accuracy]
    · have h' : ¬ i.label = t.predict i := fun e => h e.symm
      simp [h, h', accuracy]; omega

/-- What is asked of the input: labels in range, rows in order, at most `INT32_MAX - 1` rows. -/
structure Input (nL : Nat) (T : Data) : Prop where
  labels : 0 < nL
  inRange : ∀ i ∈ T, i.label < nL
  sorted : IdSorted T
  size : T.length < int32Max

theorem accCfg_good {nF nL mls : Nat} {o : Options} {T : Data} (h : Input nL T) (hmls : 1 ≤ mls)
    (ho : ∀ D f, f ∈ o.order D ↔ f < nF) (hterm : o.useTerm = true → mls = 1 ∧ o.useUB = true)
    (hsim : o.simLB = true → mls = 1) :
    Good (accCfg nF nL mls o (isRedundant (accuracy nF nL) mls T)) (preprocess (accuracy nF nL) mls T) where
  labels := h.labels
  bc := Int.le_refl _
  bcLB := fun _ => rfl
  nonneg := accuracy_nonneg _ _ _
  small := fun D hD t _ => accuracy_lt _ _ _ _ _ (by
    have h1 := hD.length_le
    rw [preprocess_length] at h1
    have h2 := h.size
    show (D.length : Int) < (int32Max : Int)
    omega)
  mls := hmls
  term := hterm
  sim := hsim
  sparse := fun h => by simp [accCfg] at h
  custom := fun D _ t _ => Tree.cost_nonneg _ t D (accuracy_nonneg _ _ _) (Int.le_refl 0)
  md := ⟨by show (0 : Int) ≤ 1; decide, by show (1 : Int) ≤ 1; decide⟩
  sorted := preprocess_sorted h.sorted
  inRange := fun i hi => by
    obtain ⟨j, hj, rfl⟩ := List.mem_map.1 hi
    exact h.inRange j hj
  order := ho
  redundant := fun f hf => .inr (preprocess_redundant hf)
  simInst := fun _ _ h => by cases h
  worstPer := fun _ _ i _ k _ => by simp only [accCfg, accuracy]; split <;> decide

/-- The outcome of a finished run. -/
theorem fit_spec {nF nL mls : Nat} {o : Options} {T : Data} {t : Top} (h : Input nL T) (hmls : 1 ≤ mls)
    (hT : mls ≤ T.length) (ho : ∀ D f, f ∈ o.order D ↔ f < nF) (hclk : Monotone o.clock)
    (hterm : o.useTerm = true → mls = 1 ∧ o.useUB = true ∧ t.maxNodes + 1 = 2 ^ t.maxDepth ∧ (t.allTrees = true → t.maxNodes ≤ 1))
    (hsim : o.simLB = true → mls = 1) (hfit : t.maxNodes + 1 ≤ 2 ^ t.maxDepth)
    (hub : (int32Max : Int) ≤ t.ub) (hopt : (fitAccuracy nF nL mls o t T).2 = true) :
    (fitAccuracy nF nL mls o t T).1.result.isEmpty = false ∧
    IsOpt (accuracy nF nL) mls t.maxDepth t.maxNodes T (fitAccuracy nF nL mls o t T).1.result.sol ∧
    (∀ i, i < (fitAccuracy nF nL mls o t T).1.st.tick → o.clock i = true) := by
  have G := accCfg_good (o := o) h hmls ho (fun a => ⟨(hterm a).1, (hterm a).2.1⟩) hsim
  obtain ⟨h1, h2⟩ := solve_spec G t (by rw [preprocess_length]; exact hT) hclk hfit
    (fun a => ⟨(hterm a).2.2.1, (hterm a).2.2.2⟩)
  obtain ⟨h3, h4⟩ := h2 hopt
  unfold fitAccuracy
  generalize solve (accCfg nF nL mls o (isRedundant (accuracy nF nL) mls T)) t (preprocess (accuracy nF nL) mls T) = r at *
  have hset : ∀ x, Allowed (accuracy nF nL) mls t.maxDepth t.maxNodes (preprocess (accuracy nF nL) mls T) x →
      r.1.result.isEmpty = false ∧ r.1.result.sol ≤ x.cost (accuracy nF nL) (preprocess (accuracy nF nL) mls T) := by
    intro x hx
    refine h4 x hx ?_
    have := accuracy_lt nF nL (preprocess (accuracy nF nL) mls T) x int32Max (by
      rw [preprocess_length]; have := h.size; omega)
    exact Int.le_trans (Int.le_of_lt this) hub
  have hne := (hset (.leaf 0) ⟨Nat.zero_le _, Nat.zero_le _, h.labels, by rw [preprocess_length]; exact hT⟩).1
  obtain ⟨h5, h6⟩ := h1.real hne
  exact ⟨hne, (preprocess_optimum (accuracy_featureFree nF nL) (fun _ _ => rfl) hmls T _ _ _).1
    ⟨h5.attained h6, fun x hx => (hset x hx).2⟩, h3⟩

end Streed
