import Verif.Model.PlainReg
import Verif.Props.RealTree

/-!
Instances stored under one label, against the rows they come from.
-/

namespace Streed

theorem rowOf_mem {T : Data} (h : IdSorted T) {i : Inst} (hi : i ∈ T) : rowOf T i.id = i := by
  unfold rowOf
  induction T with
  | nil => simp at hi
  | cons j T ih =>
    obtain ⟨h1, h2⟩ := List.pairwise_cons.1 h
    rw [List.find?_cons]
    rcases List.mem_cons.1 hi with rfl | hi
    · simp
    · have : (j.id == i.id) = false := by
        have := h1 i hi
        rw [beq_eq_false_iff_ne]
        omega
      rw [this]
      exact ih h2 hi

theorem oneLabel_without (f : Nat) (D : Data) : without f (oneLabel D) = oneLabel (without f D) := by
  simp only [without, oneLabel, List.filter_map]; rfl

theorem oneLabel_having (f : Nat) (D : Data) : having f (oneLabel D) = oneLabel (having f D) := by
  simp only [having, oneLabel, List.filter_map]; rfl

theorem oneLabel_length (D : Data) : (oneLabel D).length = D.length := by simp [oneLabel]

section
variable {nF q : Nat} {tg : Nat → Rat} {T : Data} (hs : IdSorted T)
include hs

theorem plain_leafCost {D : Data} (hD : ∀ i ∈ D, i ∈ T) (k : Nat) :
    leafCost (plainProblem nF q tg T) (oneLabel D) k = leafCost (userProblem nF q 0 tg T) D k := by
  unfold leafCost oneLabel
  rw [List.map_map]
  congr 1
  refine List.map_congr_left fun i hi => ?_
  show (userProblem nF q 0 tg T).cost (rowOf T i.id) k = _
  rw [rowOf_mem hs (hD i hi)]

theorem plain_cost (t : Tree) {D : Data} (hD : ∀ i ∈ D, i ∈ T) :
    t.cost (plainProblem nF q tg T) (oneLabel D) = t.cost (userProblem nF q 0 tg T) D := by
  induction t generalizing D with
  | leaf k => exact plain_leafCost hs hD k
  | node f l r ihl ihr =>
    simp only [Tree.cost]
    rw [oneLabel_without, oneLabel_having, ihl (D := without f D) fun i hi => hD i (List.mem_of_mem_filter hi),
      ihr (D := having f D) fun i hi => hD i (List.mem_of_mem_filter hi)]
    rfl

theorem plain_bestLeaves (t : Tree) {D : Data} (hD : ∀ i ∈ D, i ∈ T) (h : BestLeaves (plainProblem nF q tg T) t (oneLabel D)) :
    BestLeaves (userProblem nF q 0 tg T) t D := by
  induction t generalizing D with
  | leaf k =>
    intro j hj
    have := h j hj
    rwa [plain_leafCost hs hD, plain_leafCost hs hD] at this
  | node f l r ihl ihr =>
    have h1 := h.1
    have h2 := h.2
    rw [oneLabel_without] at h1
    rw [oneLabel_having] at h2
    exact ⟨ihl (fun i hi => hD i (List.mem_of_mem_filter hi)) h1, ihr (fun i hi => hD i (List.mem_of_mem_filter hi)) h2⟩

end

theorem plain_legal {nF q mls : Nat} {tg : Nat → Rat} {T : Data} (t : Tree) (D : Data) :
    t.Legal (plainProblem nF q tg T) mls (oneLabel D) ↔ t.Legal (userProblem nF q 0 tg T) mls D := by
  induction t generalizing D with
  | leaf k => simp only [Tree.Legal, oneLabel_length]; rfl
  | node f l r ihl ihr =>
    simp only [Tree.Legal, oneLabel_without, oneLabel_having, ihl, ihr]
    rfl

theorem plain_isOpt {nF q mls d n : Nat} {tg : Nat → Rat} {T : Data} (hs : IdSorted T) {v : Int}
    (h : IsOpt (plainProblem nF q tg T) mls d n (oneLabel T) v) : IsOpt (userProblem nF q 0 tg T) mls d n T v := by
  obtain ⟨⟨x, ⟨h1, h2, h3⟩, h4⟩, h5⟩ := h
  refine ⟨⟨x, ⟨h1, h2, (plain_legal x T).1 h3⟩, ?_⟩, fun y hy => ?_⟩
  · rw [← plain_cost hs x fun i hi => hi]; exact h4
  · rw [← plain_cost hs y fun i hi => hi]
    exact h5 y ⟨hy.1, hy.2.1, (plain_legal y T).2 hy.2.2⟩

theorem plain_featureFree (nF q : Nat) (tg : Nat → Rat) (T : Data) : FeatureFree (plainProblem nF q tg T) := fun _ _ _ => rfl

theorem regPrice_zero (tg : Nat → Rat) (T : Data) : regPrice 0 tg T = 0 := by simp [regPrice]

theorem plain_bc (nF q : Nat) (tg : Nat → Rat) (T : Data) : (plainProblem nF q tg T).bc = 0 := by
  show ((q : Rat) * regPrice 0 tg T).num = 0
  rw [regPrice_zero, mul_zero]
  rfl

theorem cost_le_each {P : Problem} (hbc : P.bc = 0) {M : Rat} (t : Tree) {D : Data} (ht : t.Over P.nF P.nL)
    (h : ∀ i ∈ D, ∀ k < P.nL, ((P.cost i k : Int) : Rat) ≤ M) : ((t.cost P D : Int) : Rat) ≤ D.length * M := by
  induction t generalizing D with
  | leaf k =>
    simp only [Tree.cost, leafCost]
    have hk : k < P.nL := ht
    induction D with
    | nil => simp
    | cons i D ih =>
      have h1 := h i (List.mem_cons_self ..) k hk
      have h2 := ih fun j hj => h j (List.mem_cons_of_mem _ hj)
      rw [List.map_cons, List.sum_cons, List.length_cons]
      push_cast
      push_cast at h2
      linarith
  | node f l r ihl ihr =>
    have h1 := ihl (D := without f D) ht.2.1 fun i hi => h i (List.mem_of_mem_filter hi)
    have h2 := ihr (D := having f D) ht.2.2 fun i hi => h i (List.mem_of_mem_filter hi)
    have h3 : (D.length : Rat) = (without f D).length + (having f D).length := by
      have := length_split f D
      exact_mod_cast this.symm
    simp only [Tree.cost, hbc]
    push_cast
    rw [h3]
    linarith

section
variable {nF q mls : Nat} {tg : Nat → Rat} {T : Data} {B : Rat} (hU : Units q 0 tg T) (hs : IdSorted T)
  (hB : ∀ i ∈ T, ∀ j ∈ T, (tg i.label - tg j.label) ^ 2 ≤ B)
include hU hs hB

/-- What a tree costs at most. -/
theorem plain_le {D : Data} (hD : ViewOf (preprocess (plainProblem nF q tg T) mls (oneLabel T)) D) {t : Tree}
    (ht : t.Legal (plainProblem nF q tg T) mls D) :
    ((t.cost (plainProblem nF q tg T) D : Int) : Rat) ≤ q * (T.length * B) := by
  have hq : (0 : Rat) < q := by exact_mod_cast hU.pos
  have h1 := cost_le_each (plain_bc nF q tg T) (M := q * B) (D := D) t (legal_over_of ht) (by
    intro i hi k hk
    obtain ⟨j, hj, rfl⟩ := List.mem_map.1 (hD.subset hi)
    obtain ⟨j', hj', rfl⟩ := List.mem_map.1 hj
    show (((userProblem nF q 0 tg T).cost (rowOf T j'.id) k : Int) : Rat) ≤ _
    rw [rowOf_mem hs hj', user_cost hU ⟨j', hj', rfl⟩ hk]
    refine mul_le_mul_of_nonneg_left ?_ hq.le
    refine value_close hB hj' ?_
    have hk' : k < (leafValues tg T).length := hk
    rw [List.getD_eq_getElem _ _ hk']
    exact List.getElem_mem hk')
  refine le_trans h1 ?_
  have h2 : D.length ≤ T.length := by
    have := hD.length_le
    rwa [preprocess_length, oneLabel_length] at this
  have h3 : (D.length : Rat) ≤ T.length := by exact_mod_cast h2
  by_cases he : D.length = 0
  · rw [he]
    have : (0 : Rat) ≤ T.length * B := by
      rcases T with _ | ⟨i, T⟩
      · simp
      · exact mul_nonneg (Nat.cast_nonneg _) (le_trans (sq_nonneg _) (hB i (by simp) i (by simp)))
    simp only [Nat.cast_zero, zero_mul]
    exact mul_nonneg hq.le this
  · obtain ⟨i, hi⟩ := List.exists_mem_of_ne_nil D (by rintro rfl; simp at he)
    obtain ⟨j, hj, rfl⟩ := List.mem_map.1 (hD.subset hi)
    obtain ⟨j', hj', rfl⟩ := List.mem_map.1 hj
    have hB0 : 0 ≤ B := le_trans (sq_nonneg _) (hB j' hj' j' hj')
    have := mul_le_mul_of_nonneg_right h3 (mul_nonneg hq.le hB0)
    linarith

theorem plain_small (hF : T.length * B < largestDouble) {D : Data}
    (hD : ViewOf (preprocess (plainProblem nF q tg T) mls (oneLabel T)) D) {t : Tree}
    (ht : t.Legal (plainProblem nF q tg T) mls D) : t.cost (plainProblem nF q tg T) D < ((q * largestDouble : Nat) : Int) := by
  have hq : (0 : Rat) < q := by exact_mod_cast hU.pos
  have h1 := plain_le hU hs hB hD ht
  have h2 := mul_lt_mul_of_pos_left hF hq
  have h3 := lt_of_le_of_lt h1 h2
  have h4 : ((t.cost (plainProblem nF q tg T) D : Int) : Rat) < (((q * largestDouble : Nat) : Int) : Rat) := by
    push_cast; exact h3
  exact_mod_cast h4

omit hU hs hB in
theorem oneLabel_sorted (h : IdSorted T) : IdSorted (oneLabel T) := by
  unfold IdSorted oneLabel
  rw [List.pairwise_map]
  exact h

omit hU hs hB in
theorem plain_inRange (hT : T ≠ []) : ∀ i ∈ preprocess (plainProblem nF q tg T) mls (oneLabel T), i.label < (leafValues tg T).length := by
  intro i hi
  obtain ⟨j, hj, rfl⟩ := List.mem_map.1 hi
  obtain ⟨j', _, rfl⟩ := List.mem_map.1 hj
  exact values_pos hT

theorem plainCfg_base (hF : T.length * B < largestDouble) (hT : T ≠ []) {o : Options} (ho : ∀ D f, f ∈ o.order D → f < nF) :
    Base (plainCfg nF q tg mls o (isRedundant (plainProblem nF q tg T) mls (oneLabel T)) T)
      (preprocess (plainProblem nF q tg T) mls (oneLabel T)) where
  labels := values_pos hT
  bc := (plain_bc nF q tg T).ge
  nonneg := fun i _ k => user_nonneg nF q 0 tg T _ k
  worst := Int.natCast_nonneg _
  small := fun D hD t ht => plain_small hU hs hB hF hD ht
  custom := fun D _ => Int.natCast_nonneg _
  md := Int.le_refl 0
  sorted := preprocess_sorted (oneLabel_sorted hs)
  inRange := plain_inRange hT
  order := ho
  worstPer := fun _ => .inl (Int.natCast_nonneg _)
  simInst := fun v hv => by simp [plainCfg] at hv

theorem plainCfg_good (hF : T.length * B < largestDouble) (hT : T ≠ []) (hmls : 1 ≤ mls) {o : Options} (ho : ∀ D f, f ∈ o.order D ↔ f < nF)
    (hterm : o.useTerm = true → mls = 1 ∧ o.useUB = true) (hsim : o.simLB = true → mls = 1) :
    Good (plainCfg nF q tg mls o (isRedundant (plainProblem nF q tg T) mls (oneLabel T)) T)
      (preprocess (plainProblem nF q tg T) mls (oneLabel T)) where
  labels := values_pos hT
  bc := (plain_bc nF q tg T).ge
  bcLB := fun _ => plain_bc nF q tg T
  nonneg := fun i _ k => user_nonneg nF q 0 tg T _ k
  small := fun D hD t ht => plain_small hU hs hB hF hD ht
  mls := hmls
  term := hterm
  sim := hsim
  sparse := fun h => by simp [plainCfg] at h
  custom := fun D _ t _ => Tree.cost_nonneg _ t D (fun i _ k => user_nonneg nF q 0 tg T _ k) (plain_bc nF q tg T).ge
  md := ⟨by show (0 : Int) ≤ 0; decide, by show (0 : Int) ≤ 1; decide⟩
  sorted := preprocess_sorted (oneLabel_sorted hs)
  inRange := plain_inRange hT
  order := ho
  redundant := fun f hf => .inr (preprocess_redundant hf)
  worstPer := fun _ _ i hi k hk => by
    have hv : ViewOf (preprocess (plainProblem nF q tg T) mls (oneLabel T)) [i] := List.singleton_sublist.2 hi
    obtain ⟨j, hj, rfl⟩ := List.mem_map.1 hi
    obtain ⟨j', hj', rfl⟩ := List.mem_map.1 hj
    have hq : (0 : Rat) < q := by exact_mod_cast hU.pos
    have h1 : (((userProblem nF q 0 tg T).cost (rowOf T j'.id) k : Int) : Rat) ≤ q * B := by
      rw [rowOf_mem hs hj', user_cost hU ⟨j', hj', rfl⟩ hk]
      refine mul_le_mul_of_nonneg_left (value_close hB hj' ?_) hq.le
      have hk' : k < (leafValues tg T).length := hk
      rw [List.getD_eq_getElem _ _ hk']
      exact List.getElem_mem hk'
    have hB0 : 0 ≤ B := le_trans (sq_nonneg _) (hB j' hj' j' hj')
    have h2 : B ≤ T.length * B := by
      have h3 : (1 : Rat) ≤ T.length := by
        have := List.length_pos_of_ne_nil hT
        exact_mod_cast this
      exact le_mul_of_one_le_left hB0 h3
    have h4 : (q : Rat) * B ≤ q * largestDouble := mul_le_mul_of_nonneg_left (le_trans h2 hF.le) hq.le
    have h5 : (((userProblem nF q 0 tg T).cost (rowOf T j'.id) k : Int) : Rat) ≤ (((q * largestDouble : Nat) : Int) : Rat) := by
      push_cast
      linarith
    exact_mod_cast h5
  simInst := fun _ v hv => by simp [plainCfg] at hv

end

/-! ### The trees that are compared -/

/-- Every leaf of a regression tree receives at least `mls` rows. -/
def RegHolds (mls : Nat) : RegTree → Data → Prop
  | .leaf _, D => mls ≤ D.length
  | .node f l r, D => RegHolds mls l (without f D) ∧ RegHolds mls r (having f D)

/-- `v` is the smallest squared error of any regression tree with depth at most `d` and at most `n` branching nodes, each leaf of which
receives at least `mls` rows. -/
def RegBestWithin (nF mls d n : Nat) (tg : Nat → Rat) (T : Data) (v : Rat) : Prop :=
  (∃ t : RegTree, t.Over nF ∧ t.depth ≤ d ∧ t.nodes ≤ n ∧ RegHolds mls t T ∧ totalError tg T t = v) ∧
  ∀ t : RegTree, t.Over nF → t.depth ≤ d → t.nodes ≤ n → RegHolds mls t T → v ≤ totalError tg T t

theorem valueTree_holds {mls : Nat} (vals : List Rat) (t : Tree) {D : Data} (h : LeavesHold mls t D) : RegHolds mls (valueTree vals t) D := by
  induction t generalizing D with
  | leaf k => exact h
  | node f l r ihl ihr => exact ⟨ihl h.1, ihr h.2⟩

/-- A regression tree with filled leaves is matched by a tree of the search of the same shape. -/
theorem snap_holds {nF q mls : Nat} {tg : Nat → Rat} {T : Data} (hU : Units q 0 tg T) (hmls : 1 ≤ mls) (t : RegTree) (ht : t.Over nF)
    {D : Data} (hD : D.Sublist T) (hh : RegHolds mls t D) :
    ∃ x : Tree, x.Legal (userProblem nF q 0 tg T) mls D ∧ x.depth = t.depth ∧ x.nodes = t.nodes ∧
      (x.cost (userProblem nF q 0 tg T) D : Rat) ≤ q * totalError tg D t := by
  have hq : (0 : Rat) < q := by exact_mod_cast hU.pos
  induction t generalizing D with
  | leaf v =>
    have hh' : mls ≤ D.length := hh
    have hl : (D.map fun i => tg i.label) ≠ [] := by
      intro h
      rw [List.map_eq_nil_iff.1 h, List.length_nil] at hh'
      omega
    have hm := mean_mem (T := T) hl (hD.map _).subperm
    obtain ⟨k, hk, e⟩ := List.getElem_of_mem hm
    refine ⟨.leaf k, ⟨hk, hh⟩, rfl, rfl, ?_⟩
    simp only [Tree.cost]
    rw [user_leafCost hU (fun i hi => ⟨i, hD.subset hi, rfl⟩) hk, List.getD_eq_getElem _ _ hk, e]
    have := sq_mean_best hl v
    rw [List.map_map, List.map_map] at this
    exact mul_le_mul_of_nonneg_left this hq.le
  | node f l r ihl ihr =>
    obtain ⟨x, a1, a2, a3, a4⟩ := ihl ht.2.1 (D := without f D) (List.filter_sublist.trans hD) hh.1
    obtain ⟨y, b1, b2, b3, b4⟩ := ihr ht.2.2 (D := having f D) (List.filter_sublist.trans hD) hh.2
    refine ⟨.node f x y, ⟨ht.1, rfl, a1, b1⟩, by simp only [Tree.depth, RegTree.depth, a2, b2],
      by simp only [Tree.nodes, RegTree.nodes, a3, b3], ?_⟩
    have hb : (userProblem nF q 0 tg T).bc = 0 := plain_bc nF q tg T
    simp only [Tree.cost, hb]
    push_cast
    rw [totalError_node]
    linarith

theorem regBestWithin_of_isOpt {nF q mls d n : Nat} {tg : Nat → Rat} {T : Data} (hU : Units q 0 tg T) (hmls : 1 ≤ mls) {v : Int}
    (h : IsOpt (userProblem nF q 0 tg T) mls d n T v) : RegBestWithin nF mls d n tg T (v / q) := by
  have hq : (0 : Rat) < q := by exact_mod_cast hU.pos
  obtain ⟨⟨t, ⟨h1, h2, h3⟩, h4⟩, h5⟩ := h
  refine ⟨⟨valueTree (leafValues tg T) t, ?_⟩, fun x hx hd hn hh => ?_⟩
  · have ho : t.Over nF (leafValues tg T).length := legal_over_of (P := userProblem nF q 0 tg T) h3
    obtain ⟨a1, a2, a3⟩ := valueTree_shape (leafValues tg T) t ho
    refine ⟨a1, by rw [a2]; exact h1, by rw [a3]; exact h2, valueTree_holds _ t (legal_leavesHold h3), ?_⟩
    rw [eq_div_iff hq.ne', ← h4, user_treeCost hU t (fun i hi => ⟨i, hi, rfl⟩) ho, regPrice_zero]
    ring
  · obtain ⟨y, b1, b2, b3, b4⟩ := snap_holds hU hmls x hx (List.Sublist.refl T) hh
    have h6 := h5 y ⟨by omega, by omega, b1⟩
    have h7 : (v : Rat) ≤ (y.cost (userProblem nF q 0 tg T) T : Rat) := by exact_mod_cast h6
    rw [div_le_iff₀ hq]
    linarith

end Streed
