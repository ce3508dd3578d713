import Verif.Lemmas.RegFit
import Verif.Props.RegSpec

/-!
Costs of the search in units, against squared errors of regression trees.
-/

namespace Streed
open RegLemmas

theorem num_of_den {x : Rat} (h : x.den = 1) : ((x.num : Int) : Rat) = x := by
  have := Rat.num_div_den x
  rw [h] at this
  simpa using this

theorem sum_map_sq (l : List Rat) (c : Rat) : (l.map fun y => (y - c) ^ 2).sum =
    (l.map fun y => y * y).sum - 2 * c * l.sum + l.length * c ^ 2 := by
  induction l with
  | nil => simp
  | cons y l ih =>
    simp only [List.map_cons, List.sum_cons, List.length_cons]
    rw [ih]
    push_cast
    ring

/-- The squared error around any value is that around the mean plus the distance. -/
theorem sq_split {l : List Rat} (h : l ≠ []) (c : Rat) : (l.map fun y => (y - c) ^ 2).sum =
    (l.map fun y => (y - meanOf l) ^ 2).sum + l.length * (meanOf l - c) ^ 2 := by
  have hl : (l.length : Rat) ≠ 0 := by exact_mod_cast (List.length_pos_of_ne_nil h).ne'
  rw [sum_map_sq, sum_map_sq, meanOf]
  field_simp
  ring

theorem sq_mean_best {l : List Rat} (h : l ≠ []) (c : Rat) :
    (l.map fun y => (y - meanOf l) ^ 2).sum ≤ (l.map fun y => (y - c) ^ 2).sum := by
  rw [sq_split h c]
  have : (0 : Rat) ≤ l.length * (meanOf l - c) ^ 2 := by positivity
  linarith

theorem mean_close {l : List Rat} (h : l ≠ []) {x b : Rat} (hb : ∀ y ∈ l, (y - x) ^ 2 ≤ b) : (meanOf l - x) ^ 2 ≤ b := by
  have hl : (0 : Rat) < l.length := by exact_mod_cast List.length_pos_of_ne_nil h
  have h1 := sq_split h x
  have h2 : (l.map fun y => (y - x) ^ 2).sum ≤ l.length * b := by
    clear h h1 hl
    induction l with
    | nil => simp
    | cons y l ih =>
      have := ih fun z hz => hb z (List.mem_cons_of_mem _ hz)
      have h3 := hb y (by simp)
      simp only [List.map_cons, List.sum_cons, List.length_cons]
      push_cast
      linarith
  have h3 : 0 ≤ (l.map fun y => (y - meanOf l) ^ 2).sum := by
    refine List.sum_nonneg fun z hz => ?_
    obtain ⟨y, _, rfl⟩ := List.mem_map.1 hz
    positivity
  have h4 : (l.length : Rat) * (meanOf l - x) ^ 2 ≤ l.length * b := by linarith
  exact le_of_mul_le_mul_left h4 hl

theorem meanOf_perm {l l' : List Rat} (h : l.Perm l') : meanOf l = meanOf l' := by
  unfold meanOf
  rw [h.sum_eq, h.length_eq]

/-- `q` is a common denominator of everything the search adds up. -/
structure Units (q : Nat) (ccp : Rat) (tg : Nat → Rat) (T : Data) : Prop where
  pos : 0 < q
  costs : ∀ i ∈ T, ∀ v ∈ leafValues tg T, ((q : Rat) * (tg i.label - v) ^ 2).den = 1
  price : ((q : Rat) * regPrice ccp tg T).den = 1

/-- Every label of `D` occurs in `T`. -/
def LabelsIn (T D : Data) : Prop := ∀ i ∈ D, ∃ j ∈ T, i.label = j.label

theorem LabelsIn.sub {T D E : Data} (h : LabelsIn T D) (hE : ∀ i ∈ E, i ∈ D) : LabelsIn T E := fun i hi => h i (hE i hi)

/-- The tree with the values of its labels. -/
def valueTree (vals : List Rat) : Tree → RegTree
  | .leaf k => .leaf (vals.getD k 0)
  | .node f l r => .node f (valueTree vals l) (valueTree vals r)

theorem valueTree_shape (vals : List Rat) (t : Tree) {nF nL : Nat} (h : t.Over nF nL) :
    (valueTree vals t).Over nF ∧ (valueTree vals t).depth = t.depth ∧ (valueTree vals t).nodes = t.nodes := by
  induction t with
  | leaf k => exact ⟨trivial, rfl, rfl⟩
  | node f l r ihl ihr =>
    obtain ⟨a1, a2, a3⟩ := ihl h.2.1
    obtain ⟨b1, b2, b3⟩ := ihr h.2.2
    exact ⟨⟨h.1, a1, b1⟩, by simp only [valueTree, RegTree.depth, Tree.depth, a2, b2],
      by simp only [valueTree, RegTree.nodes, Tree.nodes, a3, b3]⟩

theorem sum_filter_split {α : Type} (D : List α) (p : α → Bool) (g : α → Rat) :
    (D.map g).sum = ((D.filter fun i => !p i).map g).sum + ((D.filter p).map g).sum := by
  induction D with
  | nil => simp
  | cons i D ih =>
    rw [List.map_cons, List.sum_cons, ih, List.filter_cons, List.filter_cons]
    cases p i <;> simp <;> ring

theorem totalError_node (tg : Nat → Rat) (D : Data) (f : Nat) (l r : RegTree) :
    totalError tg D (.node f l r) = totalError tg (without f D) l + totalError tg (having f D) r := by
  unfold totalError
  rw [sum_filter_split D (fun i => i.feat f)]
  congr 2
  · refine List.map_congr_left fun i hi => ?_
    have := (List.mem_filter.1 hi).2
    simp only [Bool.not_eq_true'] at this
    simp [RegTree.predict, this]
  · refine List.map_congr_left fun i hi => ?_
    have := (List.mem_filter.1 hi).2
    simp [RegTree.predict, this]

theorem totalError_nonneg (tg : Nat → Rat) (D : Data) (t : RegTree) : 0 ≤ totalError tg D t := by
  refine List.sum_nonneg fun z hz => ?_
  obtain ⟨y, _, rfl⟩ := List.mem_map.1 hz
  positivity

section
variable {nF q : Nat} {ccp : Rat} {tg : Nat → Rat} {T : Data} (hU : Units q ccp tg T)
include hU

theorem user_cost {i : Inst} (hi : ∃ j ∈ T, i.label = j.label) {k : Nat} (hk : k < (leafValues tg T).length) :
    ((userProblem nF q ccp tg T).cost i k : Rat) = q * (tg i.label - (leafValues tg T).getD k 0) ^ 2 := by
  obtain ⟨j, hj, e⟩ := hi
  refine num_of_den ?_
  rw [e, List.getD_eq_getElem _ _ hk]
  exact hU.costs j hj _ (List.getElem_mem hk)

theorem user_bc : ((userProblem nF q ccp tg T).bc : Rat) = q * regPrice ccp tg T := num_of_den hU.price

theorem user_leafCost {D : Data} (hD : LabelsIn T D) {k : Nat} (hk : k < (leafValues tg T).length) :
    (leafCost (userProblem nF q ccp tg T) D k : Rat) = q * totalError tg D (.leaf ((leafValues tg T).getD k 0)) := by
  unfold leafCost totalError
  induction D with
  | nil => simp
  | cons i D ih =>
    rw [List.map_cons, List.sum_cons, List.map_cons, List.sum_cons, Int.cast_add, user_cost hU (hD i (by simp)) hk,
      ih fun j hj => hD j (List.mem_cons_of_mem _ hj)]
    simp only [RegTree.predict]
    ring

/-- What a tree costs in the search is what its regression tree costs. -/
theorem user_treeCost (t : Tree) {D : Data} (hD : LabelsIn T D) (ht : t.Over nF (leafValues tg T).length) :
    (t.cost (userProblem nF q ccp tg T) D : Rat) =
      q * (totalError tg D (valueTree (leafValues tg T) t) + t.nodes * regPrice ccp tg T) := by
  induction t generalizing D with
  | leaf k =>
    simp only [Tree.cost, valueTree, Tree.nodes]
    rw [user_leafCost hU hD ht]
    push_cast
    ring
  | node f l r ihl ihr =>
    simp only [Tree.cost, valueTree, Tree.nodes]
    rw [totalError_node]
    push_cast
    rw [ihl (D := without f D) (hD.sub fun i hi => List.mem_of_mem_filter hi) ht.2.1,
      ihr (D := having f D) (hD.sub fun i hi => List.mem_of_mem_filter hi) ht.2.2, user_bc hU]
    ring

end

theorem user_nonneg (nF q : Nat) (ccp : Rat) (tg : Nat → Rat) (T : Data) (i : Inst) (k : Nat) :
    0 ≤ (userProblem nF q ccp tg T).cost i k := by
  show 0 ≤ (_ : Rat).num
  rw [Rat.num_nonneg]
  positivity

/-- The mean of any non-empty part of the targets is among the values. -/
theorem mean_mem {tg : Nat → Rat} {T : Data} {l : List Rat} (hl : l ≠ []) (h : l.Subperm (T.map fun i => tg i.label)) :
    meanOf l ∈ leafValues tg T := by
  obtain ⟨l', h1, h2⟩ := h
  unfold leafValues
  refine List.mem_map.2 ⟨l', List.mem_filter.2 ⟨List.mem_sublists.2 h2, ?_⟩, meanOf_perm h1⟩
  rw [Bool.not_eq_true', List.isEmpty_eq_false_iff]
  rintro rfl
  exact hl h1.symm.eq_nil

theorem values_pos {tg : Nat → Rat} {T : Data} (hT : T ≠ []) : 0 < (leafValues tg T).length :=
  List.length_pos_of_mem (mean_mem (l := T.map fun i => tg i.label) (by simpa using hT) (List.Subperm.refl _))

/-- Any regression tree is matched by a tree of the search. -/
theorem snap {nF q : Nat} {ccp : Rat} {tg : Nat → Rat} {T : Data} (hU : Units q ccp tg T) (hp : 0 ≤ regPrice ccp tg T)
    (t : RegTree) (ht : t.Over nF) {D : Data} (hne : D ≠ []) (hD : D.Sublist T) :
    ∃ x : Tree, x.Legal (userProblem nF q ccp tg T) 1 D ∧ x.depth ≤ t.depth ∧ x.nodes ≤ t.nodes ∧
      (x.cost (userProblem nF q ccp tg T) D : Rat) ≤ q * (totalError tg D t + t.nodes * regPrice ccp tg T) := by
  have hin : ∀ {E : Data}, E.Sublist T → LabelsIn T E := fun hE i hi => ⟨i, hE.subset hi, rfl⟩
  have hq : (0 : Rat) < q := by exact_mod_cast hU.pos
  induction t generalizing D with
  | leaf v =>
    have hl : (D.map fun i => tg i.label) ≠ [] := by simpa using hne
    have hm := mean_mem (T := T) hl (hD.map _).subperm
    obtain ⟨k, hk, e⟩ := List.getElem_of_mem hm
    refine ⟨.leaf k, ⟨hk, List.length_pos_of_ne_nil hne⟩, Nat.le_refl _, Nat.le_refl _, ?_⟩
    simp only [Tree.cost, RegTree.nodes]
    rw [user_leafCost hU (hin hD) hk, List.getD_eq_getElem _ _ hk, e]
    have := sq_mean_best hl v
    rw [List.map_map, List.map_map] at this
    refine mul_le_mul_of_nonneg_left ?_ hq.le
    simp only [Nat.cast_zero, zero_mul, add_zero]
    exact this
  | node f l r ihl ihr =>
    have e := totalError_node tg D f l r
    have drop : ∀ {a b : RegTree} {E : Data}, (∃ x : Tree, x.Legal (userProblem nF q ccp tg T) 1 E ∧ x.depth ≤ a.depth ∧
        x.nodes ≤ a.nodes ∧ (x.cost (userProblem nF q ccp tg T) E : Rat) ≤ q * (totalError tg E a + a.nodes * regPrice ccp tg T)) →
        E = D → totalError tg D (.node f l r) = totalError tg E a → a.depth ≤ max l.depth r.depth → a.nodes ≤ l.nodes + r.nodes →
        ∃ x : Tree, x.Legal (userProblem nF q ccp tg T) 1 D ∧ x.depth ≤ (RegTree.node f l r).depth ∧
          x.nodes ≤ (RegTree.node f l r).nodes ∧ (x.cost (userProblem nF q ccp tg T) D : Rat) ≤
            q * (totalError tg D (.node f l r) + (RegTree.node f l r).nodes * regPrice ccp tg T) := by
      rintro a b E ⟨x, h1, h2, h3, h4⟩ rfl he hd hn
      refine ⟨x, h1, ?_, ?_, le_trans h4 ?_⟩
      · simp only [RegTree.depth]; omega
      · simp only [RegTree.nodes]; omega
      · rw [he]
        refine mul_le_mul_of_nonneg_left ?_ hq.le
        have : (a.nodes : Rat) ≤ (RegTree.node f l r).nodes := by
          have : a.nodes ≤ (RegTree.node f l r).nodes := by simp only [RegTree.nodes]; omega
          exact_mod_cast this
        have := mul_le_mul_of_nonneg_right this hp
        linarith
    by_cases h0 : without f D = []
    · have h1 : having f D = D := by
        rw [having, List.filter_eq_self]
        intro i hi
        by_contra hc
        have : i ∈ without f D := List.mem_filter.2 ⟨hi, by simpa using hc⟩
        rw [h0] at this
        simp at this
      refine drop (b := l) (ihr ht.2.2 (by rw [h1]; exact hne) (by rw [h1]; exact hD)) h1 ?_ (le_max_right _ _) (Nat.le_add_left _ _)
      rw [e, h0]
      simp [totalError]
    by_cases h1 : having f D = []
    · have h2 : without f D = D := by
        rw [without, List.filter_eq_self]
        intro i hi
        by_contra hc
        have : i ∈ having f D := List.mem_filter.2 ⟨hi, by simpa using hc⟩
        rw [h1] at this
        simp at this
      refine drop (b := r) (ihl ht.2.1 (by rw [h2]; exact hne) (by rw [h2]; exact hD)) h2 ?_ (le_max_left _ _) (Nat.le_add_right _ _)
      rw [e, h1]
      simp [totalError]
    obtain ⟨x, a1, a2, a3, a4⟩ := ihl ht.2.1 h0 (List.filter_sublist.trans hD)
    obtain ⟨y, b1, b2, b3, b4⟩ := ihr ht.2.2 h1 (List.filter_sublist.trans hD)
    refine ⟨.node f x y, ⟨ht.1, rfl, a1, b1⟩, ?_, ?_, ?_⟩
    · simp only [Tree.depth, RegTree.depth]; omega
    · simp only [Tree.nodes, RegTree.nodes]; omega
    · simp only [Tree.cost, RegTree.nodes]
      push_cast
      rw [e, user_bc hU]
      nlinarith [a4, b4]

/-- The optimum of the search problem on the user's data is the optimum over all regression trees. -/
theorem regBest_of_isOpt {nF q : Nat} {ccp : Rat} {tg : Nat → Rat} {T : Data} (hU : Units q ccp tg T)
    (hp : 0 ≤ regPrice ccp tg T) (hT : T ≠ []) {d : Nat} {v : Int}
    (h : IsOpt (userProblem nF q ccp tg T) 1 d (2 ^ d - 1) T v) : RegBest nF d (regPrice ccp tg T) tg T (v / q) := by
  have hq : (0 : Rat) < q := by exact_mod_cast hU.pos
  obtain ⟨⟨t, ⟨h1, h2, h3⟩, h4⟩, h5⟩ := h
  refine ⟨⟨valueTree (leafValues tg T) t, ?_⟩, fun x hx hd => ?_⟩
  · have ho : t.Over nF (leafValues tg T).length := legal_over_of (P := userProblem nF q ccp tg T) h3
    obtain ⟨a1, a2, a3⟩ := valueTree_shape (leafValues tg T) t ho
    refine ⟨a1, by rw [a2]; exact h1, ?_⟩
    rw [eq_div_iff hq.ne', ← h4, user_treeCost hU t (fun i hi => ⟨i, hi, rfl⟩) ho, a3]
    ring
  · obtain ⟨y, b1, b2, b3, b4⟩ := snap hU hp x hx hT (List.Sublist.refl T)
    have hn : y.nodes ≤ 2 ^ d - 1 := by
      have h1 := y.nodes_lt_pow
      have h2 : 2 ^ y.depth ≤ 2 ^ d := Nat.pow_le_pow_right (by decide) (Nat.le_trans b2 hd)
      omega
    have h6 := h5 y ⟨Nat.le_trans b2 hd, hn, b1⟩
    have h7 : (v : Rat) ≤ (y.cost (userProblem nF q ccp tg T) T : Rat) := by exact_mod_cast h6
    rw [div_le_iff₀ hq]
    linarith

end Streed
