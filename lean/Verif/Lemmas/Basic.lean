import Verif.Spec

/-! Small lemmas on lists and sums. -/

namespace Streed

theorem perm_sum {l l' : List Int} (h : l.Perm l') : l.sum = l'.sum := by
  induction h with
  | nil => rfl
  | cons x _ ih => simp only [List.sum_cons, ih]
  | swap x y l => simp only [List.sum_cons]; omega
  | trans _ _ h1 h2 => exact h1.trans h2

theorem perm_map_sum {α : Type} {l l' : List α} (h : l.Perm l') (g : α → Int) :
    (l.map g).sum = (l'.map g).sum := perm_sum (h.map g)

end Streed

namespace Streed

theorem foldl_inv {α β : Type} (Q : β → Prop) (st : β → α → β) (L : List α) (b : β) (h0 : Q b)
    (hs : ∀ b, Q b → ∀ a ∈ L, Q (st b a)) : Q (L.foldl st b) := by
  induction L generalizing b with
  | nil => exact h0
  | cons a L ih =>
    exact ih _ (hs b h0 a (List.mem_cons_self ..)) fun b hb x hx => hs b hb x (List.mem_cons_of_mem _ hx)

/-- Instances whose feature `f` has value `x`. -/
def side (f : Nat) (x : Bool) (D : Data) : Data := D.filter (fun i => i.feat f == x)

theorem side_false (f : Nat) (D : Data) : side f false D = without f D := by
  unfold side without; congr 1; funext i; cases i.feat f <;> rfl

theorem side_true (f : Nat) (D : Data) : side f true D = having f D := by
  unfold side having; congr 1; funext i; cases i.feat f <;> rfl

theorem side_comm (f g : Nat) (x y : Bool) (D : Data) :
    side g y (side f x D) = side f x (side g y D) := by
  unfold side; rw [List.filter_filter, List.filter_filter]; congr 1; funext i; exact Bool.and_comm _ _

theorem mem_side {f : Nat} {x : Bool} {D : Data} {i : Inst} : i ∈ side f x D ↔ i ∈ D ∧ i.feat f = x := by
  simp [side, List.mem_filter]

theorem mem_without {f : Nat} {D : Data} {i : Inst} : i ∈ without f D ↔ i ∈ D ∧ i.feat f = false := by
  rw [← side_false, mem_side]

theorem mem_having {f : Nat} {D : Data} {i : Inst} : i ∈ having f D ↔ i ∈ D ∧ i.feat f = true := by
  rw [← side_true, mem_side]

theorem without_sublist (f : Nat) (D : Data) : (without f D).Sublist D := List.filter_sublist
theorem having_sublist (f : Nat) (D : Data) : (having f D).Sublist D := List.filter_sublist

theorem length_split (f : Nat) (D : Data) : (without f D).length + (having f D).length = D.length := by
  unfold without having
  induction D with
  | nil => rfl
  | cons i D ih => simp only [List.filter_cons, List.length_cons]; cases i.feat f <;> simp <;> omega

theorem sum_split (g : Inst → Int) (f : Nat) (D : Data) :
    ((without f D).map g).sum + ((having f D).map g).sum = (D.map g).sum := by
  unfold without having
  induction D with
  | nil => rfl
  | cons i D ih => simp only [List.filter_cons]; cases i.feat f <;> simp <;> omega

theorem leafCost_split (P : Problem) (f : Nat) (D : Data) (k : Nat) :
    leafCost P (without f D) k + leafCost P (having f D) k = leafCost P D k := sum_split _ f D

theorem sum_map_nonneg {α : Type} (g : α → Int) (L : List α) (h : ∀ a ∈ L, 0 ≤ g a) : 0 ≤ (L.map g).sum := by
  induction L with
  | nil => simp
  | cons a L ih =>
    simp only [List.map_cons, List.sum_cons]
    have h1 := h a (List.mem_cons_self ..)
    have h2 := ih fun b hb => h b (List.mem_cons_of_mem _ hb)
    omega

theorem sum_map_le {α : Type} (g h : α → Int) (L : List α) (hle : ∀ a ∈ L, g a ≤ h a) :
    (L.map g).sum ≤ (L.map h).sum := by
  induction L with
  | nil => simp
  | cons a L ih =>
    simp only [List.map_cons, List.sum_cons]
    have h1 := hle a (List.mem_cons_self ..)
    have h2 := ih fun b hb => hle b (List.mem_cons_of_mem _ hb)
    omega

theorem sum_sublist_le {α : Type} (g : α → Int) {L M : List α} (hs : L.Sublist M) (h : ∀ a ∈ M, 0 ≤ g a) :
    (L.map g).sum ≤ (M.map g).sum := by
  induction hs with
  | slnil => simp
  | cons a hs ih =>
    simp only [List.map_cons, List.sum_cons]
    have h1 := h a (List.mem_cons_self ..)
    have h2 := ih fun b hb => h b (List.mem_cons_of_mem _ hb)
    omega
  | cons_cons a hs ih =>
    simp only [List.map_cons, List.sum_cons]
    have h2 := ih fun b hb => h b (List.mem_cons_of_mem _ hb)
    omega

theorem leafCost_nonneg (P : Problem) (D : Data) (k : Nat) (h : ∀ i ∈ D, ∀ k, 0 ≤ P.cost i k) :
    0 ≤ leafCost P D k := sum_map_nonneg _ _ fun i hi => h i hi k

theorem Tree.cost_nonneg (P : Problem) (t : Tree) (D : Data) (h : ∀ i ∈ D, ∀ k, 0 ≤ P.cost i k) (hb : 0 ≤ P.bc) :
    0 ≤ t.cost P D := by
  induction t generalizing D with
  | leaf k => exact leafCost_nonneg P D k h
  | node f l r ihl ihr =>
    have h1 := ihl (without f D) fun i hi => h i (mem_without.1 hi).1
    have h2 := ihr (having f D) fun i hi => h i (mem_having.1 hi).1
    simp only [Tree.cost]; omega

/-- Every legal tree needs at least as many instances as one leaf; a branching one twice that. -/
theorem Tree.Legal.length {P : Problem} {mls : Nat} {t : Tree} {D : Data} (h : t.Legal P mls D) :
    mls ≤ D.length := by
  induction t generalizing D with
  | leaf k => exact h.2
  | node f l r ihl ihr =>
    have := ihl h.2.2.1
    have := (without_sublist f D).length_le
    omega

theorem Tree.Legal.length_node {P : Problem} {mls : Nat} {f : Nat} {l r : Tree} {D : Data}
    (h : (Tree.node f l r).Legal P mls D) : 2 * mls ≤ D.length := by
  have h1 := h.2.2.1.length
  have h2 := h.2.2.2.length
  have := length_split f D
  omega

theorem Tree.depth_le_nodes (t : Tree) : t.depth ≤ t.nodes := by
  induction t with
  | leaf k => simp [depth, nodes]
  | node f l r ihl ihr => simp only [depth, nodes]; omega

theorem Tree.nodes_lt_pow (t : Tree) : t.nodes + 1 ≤ 2 ^ t.depth := by
  induction t with
  | leaf k => simp [depth, nodes]
  | node f l r ihl ihr =>
    simp only [depth, nodes]
    have h1 : 2 ^ l.depth ≤ 2 ^ (max l.depth r.depth) := Nat.pow_le_pow_right (by omega) (by omega)
    have h2 : 2 ^ r.depth ≤ 2 ^ (max l.depth r.depth) := Nat.pow_le_pow_right (by omega) (by omega)
    rw [Nat.pow_add, Nat.pow_one]
    omega

/-- Without branching costs a tree costs what its predictions cost. -/
theorem Tree.cost_eq_sum (P : Problem) (hb : P.bc = 0) (t : Tree) (D : Data) :
    t.cost P D = (D.map fun i => P.cost i (t.predict i)).sum := by
  induction t generalizing D with
  | leaf k => rfl
  | node f l r ihl ihr =>
    simp only [Tree.cost, ihl, ihr, hb, Tree.predict]
    rw [← sum_split _ f D]
    have e1 : (without f D).map (fun i => P.cost i (l.predict i)) =
        (without f D).map (fun i => P.cost i (if i.feat f = true then r.predict i else l.predict i)) :=
      List.map_congr_left fun i hi => by simp [(mem_without.1 hi).2]
    have e2 : (having f D).map (fun i => P.cost i (r.predict i)) =
        (having f D).map (fun i => P.cost i (if i.feat f = true then r.predict i else l.predict i)) :=
      List.map_congr_left fun i hi => by simp [(mem_having.1 hi).2]
    rw [e1, e2]; omega

end Streed
