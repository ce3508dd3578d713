import Verif.Model.Penalised
import Verif.Lemmas.Fit
import Verif.Lemmas.EquivPoints
import Verif.Props.Optimal

/-! Lemmas for the complexity-penalised search. -/

namespace Streed

/-- The same rows, in any order and with any ids. -/
def SameRows (D E : Data) : Prop :=
  (D.map fun i => (i.feat, i.label)).Perm (E.map fun i => (i.feat, i.label))

theorem SameRows.symm {D E : Data} (h : SameRows D E) : SameRows E D := List.Perm.symm h
theorem SameRows.trans {D E F : Data} (h : SameRows D E) (h' : SameRows E F) : SameRows D F := List.Perm.trans h h'

theorem SameRows.length {D E : Data} (h : SameRows D E) : D.length = E.length := by
  have := List.Perm.length_eq h
  simpa using this

theorem SameRows.filter {D E : Data} (h : SameRows D E) (p : (Nat → Bool) → Bool) :
    SameRows (D.filter fun i => p i.feat) (E.filter fun i => p i.feat) := by
  have := List.Perm.filter (fun x : (Nat → Bool) × Nat => p x.1) h
  rw [List.filter_map, List.filter_map] at this
  exact this

theorem SameRows.leafCost {D E : Data} (h : SameRows D E) {P : Problem} (hP : ∀ i j k, i.label = j.label → P.cost i k = P.cost j k)
    (k : Nat) : leafCost P D k = leafCost P E k := by
  have key : ∀ F : Data, F.map (fun i => P.cost i k) =
      (F.map fun i => (i.feat, i.label)).map (fun x => P.cost ⟨0, x.1, x.2⟩ k) := by
    intro F
    rw [List.map_map]
    exact List.map_congr_left fun i _ => hP _ _ _ rfl
  unfold Streed.leafCost
  rw [key D, key E]
  exact perm_sum (List.Perm.map _ h)

theorem SameRows.tree {P : Problem} (hP : ∀ i j k, i.label = j.label → P.cost i k = P.cost j k) {mls : Nat} (t : Tree)
    {D E : Data} (h : SameRows D E) : t.cost P D = t.cost P E ∧ (t.Legal P mls D → t.Legal P mls E) := by
  induction t generalizing D E with
  | leaf k => exact ⟨h.leafCost hP k, fun ht => ⟨ht.1, by rw [← h.length]; exact ht.2⟩⟩
  | node f l r ihl ihr =>
    have h0 : SameRows (without f D) (without f E) := h.filter fun g => !g f
    have h1 : SameRows (having f D) (having f E) := h.filter fun g => g f
    refine ⟨?_, fun ht => ⟨ht.1, ht.2.1, (ihl h0).2 ht.2.2.1, (ihr h1).2 ht.2.2.2⟩⟩
    simp only [Tree.cost]
    rw [(ihl h0).1, (ihr h1).1]

theorem SameRows.isOpt {P : Problem} (hP : ∀ i j k, i.label = j.label → P.cost i k = P.cost j k) {mls d n : Nat}
    {D E : Data} (h : SameRows D E) {v : Int} (ho : IsOpt P mls d n D v) : IsOpt P mls d n E v := by
  obtain ⟨⟨t, h1, h2⟩, h3⟩ := ho
  refine ⟨⟨t, ⟨h1.1, h1.2.1, (SameRows.tree hP t h).2 h1.2.2⟩, by rw [← (SameRows.tree (mls := mls) hP t h).1]; exact h2⟩, fun x hx => ?_⟩
  have := h3 x ⟨hx.1, hx.2.1, (SameRows.tree hP x h.symm).2 hx.2.2⟩
  rw [(SameRows.tree (mls := mls) hP x h).1] at this
  exact this

theorem SortedByFeatures.sameRows {nF : Nat} {T S : Data} (h : SortedByFeatures nF T S) : SameRows S T :=
  List.Perm.map _ h.1

theorem assignLoop_rows (nF : Nat) (l : List Inst) (prev : Inst) (g id : Nat) :
    ((assignLoop nF prev g id l).map (·.inst)).map (fun i => (i.feat, i.label)) = l.map fun i => (i.feat, i.label) := by
  induction l generalizing prev g id with
  | nil => rfl
  | cons i l ih =>
    unfold assignLoop
    split <;> simp only [List.map_cons, ih]

theorem assignGroups_rows (nF : Nat) (S : List Inst) : SameRows ((assignGroups nF S).map (·.inst)) S := by
  unfold SameRows
  cases S with
  | nil => exact List.Perm.refl _
  | cons i l =>
    unfold assignGroups
    simp only [List.map_cons, assignLoop_rows]
    exact List.Perm.refl _

theorem assignLoop_ids (nF : Nat) (l : List Inst) (prev : Inst) (g id : Nat) :
    IdSorted ((assignLoop nF prev g id l).map (·.inst)) ∧ ∀ e ∈ assignLoop nF prev g id l, id ≤ e.inst.id := by
  induction l generalizing prev g id with
  | nil => exact ⟨List.Pairwise.nil, fun e h => by simp [assignLoop] at h⟩
  | cons i l ih =>
    unfold assignLoop
    split
    all_goals
      first
      | obtain ⟨h1, h2⟩ := ih prev g (id + 1)
        refine ⟨List.Pairwise.cons (fun j hj => ?_) h1, fun e he => ?_⟩
        · obtain ⟨e, he, rfl⟩ := List.mem_map.1 hj
          have := h2 e he
          show id < e.inst.id
          omega
        · rcases List.mem_cons.1 he with rfl | he
          · exact Nat.le_refl _
          · have := h2 e he; omega
      | obtain ⟨h1, h2⟩ := ih i (g + 1) (id + 1)
        refine ⟨List.Pairwise.cons (fun j hj => ?_) h1, fun e he => ?_⟩
        · obtain ⟨e, he, rfl⟩ := List.mem_map.1 hj
          have := h2 e he
          show id < e.inst.id
          omega
        · rcases List.mem_cons.1 he with rfl | he
          · exact Nat.le_refl _
          · have := h2 e he; omega

theorem assignGroups_ids (nF : Nat) (S : List Inst) : IdSorted ((assignGroups nF S).map (·.inst)) := by
  cases S with
  | nil => exact List.Pairwise.nil
  | cons i l =>
    unfold assignGroups
    obtain ⟨h1, h2⟩ := assignLoop_ids nF l i 0 1
    refine List.Pairwise.cons (fun j hj => ?_) h1
    obtain ⟨e, he, rfl⟩ := List.mem_map.1 hj
    have := h2 e he
    show 0 < e.inst.id
    omega

/-! ### The objective -/

theorem leafCost_penalised (nF nL e p : Nat) (D : Data) (k : Nat) :
    leafCost (penalised nF nL e p) D k = e * misclassified (.leaf k) D := by
  unfold leafCost misclassified
  induction D with
  | nil => simp
  | cons i D ih =>
    simp only [List.map_cons, List.sum_cons, ih, List.countP_cons, Tree.predict]
    by_cases h : k = i.label
    · subst h; simp [penalised]
    · have h' : ¬ i.label = k := fun e => h e.symm
      simp only [penalised, h', if_false, bne_iff_ne, ne_eq, h, not_false_eq_true, if_true]
      push_cast; rw [Int.mul_add]; omega

theorem misclassified_node (f : Nat) (l r : Tree) (D : Data) :
    misclassified (.node f l r) D = misclassified l (without f D) + misclassified r (having f D) := by
  unfold misclassified without having
  induction D with
  | nil => rfl
  | cons i D ih =>
    simp only [Tree.predict] at ih
    simp only [List.countP_cons, List.filter_cons, Tree.predict]
    cases i.feat f <;> simp [List.countP_cons] <;> omega

/-- The cost of a tree is what the documentation says. -/
theorem penalised_cost (nF nL e p : Nat) (t : Tree) (D : Data) :
    t.cost (penalised nF nL e p) D = e * misclassified t D + p * t.nodes := by
  induction t generalizing D with
  | leaf k => simp only [Tree.cost, leafCost_penalised, Tree.nodes]; omega
  | node f l r ihl ihr =>
    simp only [Tree.cost, ihl, ihr, misclassified_node, Tree.nodes]
    have : (penalised nF nL e p).bc = p := rfl
    rw [this]
    push_cast
    rw [Int.mul_add, Int.mul_add, Int.mul_add]
    omega

theorem legal_nodes {P : Problem} {mls : Nat} (hm : 1 ≤ mls) {t : Tree} {D : Data} (h : t.Legal P mls D) :
    t.nodes + 1 ≤ D.length := by
  induction t generalizing D with
  | leaf k => have := h.2; simp only [Tree.nodes]; omega
  | node f l r ihl ihr =>
    have h1 := ihl h.2.2.1
    have h2 := ihr h.2.2.2
    have h3 : (without f D).length + (having f D).length = D.length := by
      unfold without having
      induction D with
      | nil => rfl
      | cons i D ih =>
        clear ihl ihr h h1 h2 
        simp only [List.filter_cons, List.length_cons]
        have : ∀ D : Data, (D.filter fun i => !i.feat f).length + (D.filter fun i => i.feat f).length = D.length := by
          intro D
          induction D with
          | nil => rfl
          | cons j D ih => cases h : j.feat f <;> simp [h] at ih ⊢ <;> omega
        have := this D
        cases h : i.feat f <;> simp [List.length_cons] <;> omega
    simp only [Tree.nodes]; omega

theorem misclassified_le (t : Tree) (D : Data) : misclassified t D ≤ D.length := List.countP_le_length

/-- Pruning does not increase the cost. -/
theorem prune_cost_le {P : Problem} (hb : 0 ≤ P.bc) (t : Tree) (D : Data) : (prune t D).cost P D ≤ t.cost P D := by
  have empty : ∀ t : Tree, 0 ≤ t.cost P [] := fun t => Tree.cost_nonneg P t [] (fun i hi => by simp at hi) hb
  induction t generalizing D with
  | leaf k => exact Int.le_refl _
  | node f l r ihl ihr =>
    have h1 := ihl (without f D)
    have h2 := ihr (having f D)
    unfold prune
    split
    · rename_i h
      have h' := without_eq_nil h
      have h3 : 0 ≤ l.cost P (without f D) := by rw [h]; exact empty l
      have h4 : (prune r (having f D)).cost P D ≤ r.cost P (having f D) := by rw [h'] at h2 ⊢; exact h2
      simp only [Tree.cost]; omega
    · split
      · rename_i h0 h
        have h' : without f D = D := by
          unfold having at h
          unfold without
          rw [List.filter_eq_nil_iff] at h
          exact List.filter_eq_self.2 fun i hi => by simpa using h i hi
        have h3 : 0 ≤ r.cost P (having f D) := by rw [h]; exact empty r
        have h4 : (prune l (without f D)).cost P D ≤ l.cost P (without f D) := by rw [h'] at h1 ⊢; exact h1
        simp only [Tree.cost]; omega
      · simp only [Tree.cost]; omega

theorem over_legal_pen {nF nL e p : Nat} {t : Tree} (h : t.Over nF nL) (D : Data) : t.Legal (penalised nF nL e p) 0 D := by
  induction t generalizing D with
  | leaf k => exact ⟨h, Nat.zero_le _⟩
  | node f l r ihl ihr => exact ⟨h.1, rfl, ihl h.2.1 _, ihr h.2.2 _⟩

theorem legal_over_pen {nF nL e p mls : Nat} {t : Tree} {D : Data} (h : t.Legal (penalised nF nL e p) mls D) : t.Over nF nL := by
  induction t generalizing D with
  | leaf k => exact h.1
  | node f l r ihl ihr => exact ⟨h.1, ihl h.2.2.1, ihr h.2.2.2⟩

theorem penalised_nonneg (nF nL e p : Nat) (D : Data) : ∀ i ∈ D, ∀ k, 0 ≤ (penalised nF nL e p).cost i k := by
  intro i _ k
  simp only [penalised]; split <;> omega

theorem penalised_small {nF nL e p mls N : Nat} (hm : 1 ≤ mls) (hN : (e + p) * N < e * int32Max) {D : Data}
    (hD : D.length ≤ N) {t : Tree} (ht : t.Legal (penalised nF nL e p) mls D) :
    t.cost (penalised nF nL e p) D < (e * int32Max : Nat) := by
  rw [penalised_cost]
  have h1 := legal_nodes hm ht
  have h2 := misclassified_le t D
  have h3 : e * misclassified t D ≤ e * N := Nat.mul_le_mul_left _ (by omega)
  have h4 : p * t.nodes ≤ p * N := Nat.mul_le_mul_left _ (by omega)
  have h5 : (e + p) * N = e * N + p * N := Nat.add_mul ..
  have h6 : e * misclassified t D + p * t.nodes < e * int32Max := by omega
  exact_mod_cast h6

/-! ### The equivalent-points bound of a view -/

theorem find_group {nF : Nat} {S : List Inst} {D : Data} (hD : D.Sublist ((assignGroups nF S).map (·.inst))) (i : Inst)
    (hi : i ∈ D) : (⟨i, (((assignGroups nF S).find? fun x => x.inst.id == i.id).map (·.gid)).getD 0⟩ : EInst) ∈ assignGroups nF S := by
  obtain ⟨e, he, rfl⟩ := List.mem_map.1 (hD.subset hi)
  have hs := assignGroups_ids nF S
  generalize assignGroups nF S = E at *
  have : E.find? (fun x => x.inst.id == e.inst.id) = some e := by
    clear hD hi
    induction E with
    | nil => simp at he
    | cons x E ih =>
      rw [List.find?_cons]
      have h1 := List.pairwise_cons.1 hs
      rcases List.mem_cons.1 he with rfl | he
      · simp
      · have h2 := h1.1 e.inst (List.mem_map.2 ⟨e, he, rfl⟩)
        have h3 : (x.inst.id == e.inst.id) = false := by simpa using Nat.ne_of_lt h2
        rw [h3]
        exact ih he h1.2
  rw [this]
  exact he

theorem ccaLB_le {nF nL e : Nat} {S : List Inst} {D : Data} (hD : D.Sublist ((assignGroups nF S).map (·.inst))) (t : Tree)
    (ht : t.Over nF nL) : ccaLB nL e (assignGroups nF S) D ≤ e * misclassified t D := by
  unfold ccaLB
  generalize hE : D.map (fun i => (⟨i, (((assignGroups nF S).find? fun x => x.inst.id == i.id).map (·.gid)).getD 0⟩ : EInst)) = E
  have hmem : ∀ x ∈ E, x ∈ assignGroups nF S := by
    intro x hx
    rw [← hE] at hx
    obtain ⟨i, hi, rfl⟩ := List.mem_map.1 hx
    exact find_group hD i hi
  have hinst : E.map (·.inst) = D := by
    rw [← hE, List.map_map]
    exact List.map_id' D
  have key : (equivBound nL E).getD 0 ≤ misclassified t D := by
    cases hb : equivBound nL E with
    | none => exact Nat.zero_le _
    | some b =>
      have := equivBound_le (h := fun e => t.predict e.inst) ⟨fun e _ => over_predict_lt ht _, fun x hx y hy hxy =>
        predict_congr ht (assignGroups_same nF S x (hmem x hx) y (hmem y hy) hxy)⟩ hb
      rw [← hinst, misclassified, List.countP_map]
      exact this
  have := Nat.mul_le_mul_left e key
  exact_mod_cast this

/-! ### The configuration -/

theorem ccaCfg_good {nF nL e p mls : Nat} {o : Options} {T S : Data} (h : Input nL T) (hmls : 1 ≤ mls)
    (hS : SortedByFeatures nF (preprocess (penalised nF nL e p) mls T) S) (hN : (e + p) * T.length < e * int32Max)
    (ho : ∀ D f, f ∈ o.order D ↔ f < nF) (hterm : o.useTerm = true → mls = 1) (hsim : o.simLB = true → mls = 1)
    (hlb : o.useLB = false) (hub : o.useUB = true) :
    Good (ccaCfg nF nL e p mls o (isRedundant (penalised nF nL e p) mls T) (assignGroups nF S))
      ((assignGroups nF S).map (·.inst)) where
  labels := h.labels
  bc := Int.natCast_nonneg p
  bcLB := fun h => by rw [show (ccaCfg nF nL e p mls o _ _).useLB = o.useLB from rfl, hlb] at h; simp at h
  nonneg := penalised_nonneg _ _ _ _ _
  small := fun D hD t ht => by
    have h1 := hD.length_le
    rw [(assignGroups_rows nF S).length, hS.sameRows.length, preprocess_length] at h1
    have := penalised_small hmls hN h1 ht
    simpa [ccaCfg] using this
  mls := hmls
  term := fun h => ⟨hterm h, hub⟩
  sim := hsim
  sparse := fun _ => ⟨hlb, hub⟩
  custom := fun D hD t ht => by
    have h1 := ccaLB_le (e := e) hD t (legal_over_pen ht)
    have h2 := penalised_cost nF nL e p t D
    have h3 : (0 : Int) ≤ p * t.nodes := Int.mul_nonneg (by omega) (by omega)
    show ccaLB nL e (assignGroups nF S) D ≤ t.cost (penalised nF nL e p) D
    omega
  md := ⟨Int.le_refl 0, by show (0 : Int) ≤ 1; decide⟩
  sorted := assignGroups_ids nF S
  inRange := fun i hi => by
    have h1 := ((assignGroups_rows nF S).trans hS.sameRows)
    have h2 : (i.feat, i.label) ∈ (preprocess (penalised nF nL e p) mls T).map fun i => (i.feat, i.label) :=
      List.Perm.mem_iff h1 |>.1 (List.mem_map.2 ⟨i, hi, rfl⟩)
    obtain ⟨j, hj, hji⟩ := List.mem_map.1 h2
    obtain ⟨k, hk, rfl⟩ := List.mem_map.1 hj
    have := h.inRange k hk
    simp only [Prod.mk.injEq] at hji
    rw [← hji.2]
    exact this
  order := ho
  redundant := fun f hf => by
    right
    have h1 := preprocess_redundant hf
    have h2 : SameRows (having f ((assignGroups nF S).map (·.inst))) (having f (preprocess (penalised nF nL e p) mls T)) :=
      ((assignGroups_rows nF S).trans hS.sameRows).filter fun g => g f
    have h3 := h2.length
    rw [h1] at h3
    exact List.length_eq_zero_iff.1 h3
  simInst := fun _ _ h => by cases h
  worstPer := fun _ _ i _ k _ => by simp only [ccaCfg, penalised]; split <;> omega

theorem penalised_featureFree (nF nL e p : Nat) : FeatureFree (penalised nF nL e p) := fun _ _ _ => rfl

/-- From the prepared data back to the input. -/
theorem penalised_back {nF nL e p mls : Nat} {T S : Data} {t : Top} (h : Input nL T) (hmls : 1 ≤ mls)
    (hT : mls ≤ T.length) (hS : SortedByFeatures nF (preprocess (penalised nF nL e p) mls T) S)
    (hN : (e + p) * T.length < e * int32Max) (htub : ((e * int32Max : Nat) : Int) ≤ t.ub) {v : Node}
    (h1 : v.isEmpty = false → Real (penalised nF nL e p) mls t.maxDepth ((assignGroups nF S).map (·.inst)) v ∧ v.numNodes ≤ t.maxNodes)
    (h4 : ∀ x, Allowed (penalised nF nL e p) mls t.maxDepth t.maxNodes ((assignGroups nF S).map (·.inst)) x →
      x.cost (penalised nF nL e p) ((assignGroups nF S).map (·.inst)) ≤ t.ub →
      v.isEmpty = false ∧ v.sol ≤ x.cost (penalised nF nL e p) ((assignGroups nF S).map (·.inst))) :
    v.isEmpty = false ∧ IsOpt (penalised nF nL e p) mls t.maxDepth t.maxNodes T v.sol := by
  have hlen : ((assignGroups nF S).map (·.inst)).length = T.length := by
    rw [(assignGroups_rows nF S).length, hS.sameRows.length, preprocess_length]
  have hset : ∀ x, Allowed (penalised nF nL e p) mls t.maxDepth t.maxNodes ((assignGroups nF S).map (·.inst)) x →
      v.isEmpty = false ∧ v.sol ≤ x.cost (penalised nF nL e p) ((assignGroups nF S).map (·.inst)) := by
    intro x hx
    refine h4 x hx ?_
    have := penalised_small hmls hN (Nat.le_of_eq hlen) hx.2.2
    exact Int.le_trans (Int.le_of_lt this) htub
  have hne := (hset (.leaf 0) ⟨Nat.zero_le _, Nat.zero_le _, h.labels, by rw [hlen]; exact hT⟩).1
  obtain ⟨h5, h6⟩ := h1 hne
  refine ⟨hne, (preprocess_optimum (penalised_featureFree nF nL e p) (fun _ _ => rfl) hmls T _ _ _).1 ?_⟩
  have hP : ∀ i j : Inst, ∀ k, i.label = j.label → (penalised nF nL e p).cost i k = (penalised nF nL e p).cost j k := by
    intro i j k hij
    simp only [penalised, hij]
  exact ((assignGroups_rows nF S).trans hS.sameRows).isOpt hP ⟨h5.attained h6, fun x hx => (hset x hx).2⟩

/-- The outcome of a finished run without lower bounds. -/
theorem fitPenalised_spec {nF nL e p mls : Nat} {o : Options} {T S : Data} {t : Top} (h : Input nL T) (hmls : 1 ≤ mls)
    (hT : mls ≤ T.length) (hS : SortedByFeatures nF (preprocess (penalised nF nL e p) mls T) S)
    (hN : (e + p) * T.length < e * int32Max) (ho : ∀ D f, f ∈ o.order D ↔ f < nF) (hclk : Monotone o.clock)
    (hterm : o.useTerm = true → mls = 1 ∧ t.maxNodes + 1 = 2 ^ t.maxDepth ∧ (t.allTrees = true → t.maxNodes ≤ 1))
    (hsim : o.simLB = true → mls = 1) (hlb : o.useLB = false) (hub : o.useUB = true)
    (hfit : t.maxNodes + 1 ≤ 2 ^ t.maxDepth) (htub : ((e * int32Max : Nat) : Int) ≤ t.ub)
    (hopt : (fitPenalised nF nL e p mls o t T S).2 = true) :
    (fitPenalised nF nL e p mls o t T S).1.result.isEmpty = false ∧
    IsOpt (penalised nF nL e p) mls t.maxDepth t.maxNodes T (fitPenalised nF nL e p mls o t T S).1.result.sol := by
  have G := ccaCfg_good (o := o) h hmls hS hN ho (fun a => (hterm a).1) hsim hlb hub
  have hlen : ((assignGroups nF S).map (·.inst)).length = T.length := by
    rw [(assignGroups_rows nF S).length, hS.sameRows.length, preprocess_length]
  obtain ⟨h1, h2⟩ := solve_spec G t (by rw [hlen]; exact hT) hclk hfit (fun a => ⟨(hterm a).2.1, (hterm a).2.2⟩)
  obtain ⟨h3, h4⟩ := h2 hopt
  exact penalised_back h hmls hT hS hN htub h1.real h4

end Streed
