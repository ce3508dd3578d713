import Verif.Model.Tasks
import Mathlib.Tactic.Linarith
import Mathlib.Tactic.Ring
import Mathlib.Tactic.FieldSimp
import Mathlib.Tactic.Positivity
import Mathlib.Algebra.Order.Field.Basic
import Mathlib.Algebra.Order.Field.Rat
import Mathlib.Data.Rat.Cast.Order
import Mathlib.Algebra.BigOperators.Group.List.Basic

/-! Sums over the instances that reach the leaves of a tree. -/

namespace Streed.TaskLemmas

theorem sum_filter_split {S : Type} [AddCommMonoid S] (g : Inst → S) (f : Nat) (D : Data) :
    ((without f D).map g).sum + ((having f D).map g).sum = (D.map g).sum := by
  unfold without having
  induction D with
  | nil => simp
  | cons i D ih =>
    cases h : i.feat f <;> simp only [List.filter_cons, h, Bool.not_true, Bool.not_false, List.map_cons,
      List.sum_cons, ← ih, if_true, if_false, Bool.false_eq_true]
    · rw [add_assoc]
    · rw [← add_assoc, ← add_assoc, add_comm _ (g i)]

/-- When every leaf value is a sum over the instances, so is the value of a tree. -/
theorem evalTree_sum {S : Type} [AddCommMonoid S] (c : Inst → Nat → S) (leaf : Data → Nat → S)
    (Q : Inst → Prop) (h : ∀ D k, (∀ i ∈ D, Q i) → leaf D k = (D.map fun i => c i k).sum) (t : Tree) (D : Data)
    (hD : ∀ i ∈ D, Q i) : evalTree (· + ·) leaf t D = (D.map fun i => c i (t.predict i)).sum := by
  induction t generalizing D with
  | leaf k => simp only [evalTree, h D k hD, Tree.predict]
  | node f l r ihl ihr =>
    simp only [evalTree, ihl (without f D) fun i hi => hD i (List.mem_filter.1 hi).1,
      ihr (having f D) fun i hi => hD i (List.mem_filter.1 hi).1]
    rw [← sum_filter_split (fun i => c i ((Tree.node f l r).predict i)) f D]
    congr 2
    · apply List.map_congr_left
      intro i hi
      have : i.feat f = false := by simpa using (List.mem_filter.1 hi).2
      simp [Tree.predict, this]
    · apply List.map_congr_left
      intro i hi
      have : i.feat f = true := by simpa using (List.mem_filter.1 hi).2
      simp [Tree.predict, this]

theorem numLabel_cons (i : Inst) (D : Data) (k : Nat) :
    numLabel (i :: D) k = (if i.label = k then 1 else 0) + numLabel D k := by
  unfold numLabel
  by_cases h : i.label = k <;> simp [h, Nat.add_comm]

theorem over_predict {nF nL : Nat} {t : Tree} (h : t.Over nF nL) (i : Inst) : t.predict i < nL := by
  induction t with
  | leaf k => exact h
  | node f l r ihl ihr =>
    simp only [Tree.predict]
    split
    · exact ihr h.2.2
    · exact ihl h.2.1

theorem numLabel_compl (D : Data) (hD : ∀ i ∈ D, i.label < 2) :
    numLabel D 0 + numLabel D 1 = D.length := by
  induction D with
  | nil => rfl
  | cons i D ih =>
    have hi := hD i (by simp)
    have := ih fun j hj => hD j (by simp [hj])
    rw [numLabel_cons, numLabel_cons, List.length_cons]
    have h2 : i.label = 0 ∨ i.label = 1 := by omega
    rcases h2 with h | h <;> simp [h] <;> omega

theorem numLabel_sum (D : Data) (k : Nat) :
    (numLabel D k : Int) = (D.map fun i => if i.label = k then (1 : Int) else 0).sum := by
  induction D with
  | nil => rfl
  | cons i D ih => rw [numLabel_cons, List.map_cons, List.sum_cons, ← ih]; split <;> simp

theorem countP_sum (p : Inst → Bool) (D : Data) :
    ((D.countP p : Nat) : Int) = (D.map fun i => if p i then (1 : Int) else 0).sum := by
  induction D with
  | nil => rfl
  | cons i D ih =>
    rw [List.countP_cons, List.map_cons, List.sum_cons, ← ih]
    cases p i <;> simp [Int.add_comm]

theorem fair_g0 (leaf : Data → Nat → FairSol) (t : Tree) (D : Data) :
    (evalTree fairAdd leaf t D).g0 = evalTree (· + ·) (fun D k => (leaf D k).g0) t D := by
  induction t generalizing D with
  | leaf k => rfl
  | node f l r ihl ihr => simp only [evalTree, fairAdd, ihl, ihr]

theorem fair_g1 (leaf : Data → Nat → FairSol) (t : Tree) (D : Data) :
    (evalTree fairAdd leaf t D).g1 = evalTree (· + ·) (fun D k => (leaf D k).g1) t D := by
  induction t generalizing D with
  | leaf k => rfl
  | node f l r ihl ihr => simp only [evalTree, fairAdd, ihl, ihr]

theorem fair_mis (leaf : Data → Nat → FairSol) (t : Tree) (D : Data) :
    (evalTree fairAdd leaf t D).mis = evalTree (· + ·) (fun D k => (leaf D k).mis) t D := by
  induction t generalizing D with
  | leaf k => rfl
  | node f l r ihl ihr => simp only [evalTree, fairAdd, ihl, ihr]

theorem countP_rat (p : Inst → Bool) (x : Rat) (D : Data) :
    ((D.countP p : Nat) : Rat) / x = (D.map fun i => if p i then 1 / x else 0).sum := by
  induction D with
  | nil => simp
  | cons i D ih =>
    rw [List.countP_cons, List.map_cons, List.sum_cons, ← ih]
    cases p i <;> simp
    ring

theorem sum_add_rat (f g : Inst → Rat) (D : Data) :
    (D.map f).sum + (D.map g).sum = (D.map fun i => f i + g i).sum := by
  induction D with
  | nil => simp
  | cons i D ih => simp only [List.map_cons, List.sum_cons, ← ih]; ring

theorem groupSize_countP (x : Bool) (D : Data) : groupSize x D = D.countP fun i => i.feat 0 == x := by
  unfold groupSize; rw [List.countP_eq_length_filter]

theorem group_compl (D : Data) : groupSize false D + groupSize true D = D.length := by
  rw [groupSize_countP, groupSize_countP, List.length_eq_countP_add_countP (fun i => i.feat 0 == false)]
  congr 1
  apply List.countP_congr
  simp

/-- The two group scores of a tree, from a task's two leaf scores: `p` selects the instances that count. -/
theorem fair_scores (leaf : Data → Nat → FairSol) (p : Inst → Bool) (n0 n1 : Nat)
    (h1 : ∀ D k, k ≠ 0 → (leaf D k).g0 = (D.countP fun i => p i && !i.feat 0 : Nat) / (n0 : Rat) ∧
      (leaf D k).g1 = (D.countP fun i => p i && i.feat 0 : Nat) / (n1 : Rat))
    (h0 : ∀ D, (leaf D 0).g0 = (D.countP fun i => p i && i.feat 0 : Nat) / (n1 : Rat) ∧
      (leaf D 0).g1 = (D.countP fun i => p i && !i.feat 0 : Nat) / (n0 : Rat)) (t : Tree) (D : Data) :
    (evalTree fairAdd leaf t D).g0 =
      (D.countP fun i => (p i && !i.feat 0) && t.predict i != 0 : Nat) / (n0 : Rat) +
      (D.countP fun i => (p i && i.feat 0) && t.predict i == 0 : Nat) / (n1 : Rat) ∧
    (evalTree fairAdd leaf t D).g1 =
      (D.countP fun i => (p i && i.feat 0) && t.predict i != 0 : Nat) / (n1 : Rat) +
      (D.countP fun i => (p i && !i.feat 0) && t.predict i == 0 : Nat) / (n0 : Rat) := by
  rw [fair_g0, fair_g1]
  simp only [countP_rat] at *
  constructor
  · rw [sum_add_rat, evalTree_sum (fun i k => if k = 0 then (if p i && i.feat 0 then 1 / (n1 : Rat) else 0)
      else (if p i && !i.feat 0 then 1 / (n0 : Rat) else 0)) _ (fun _ => True) _ t D (by simp)]
    · congr 1; apply List.map_congr_left; intro i _
      by_cases a : t.predict i = 0 <;> simp [a]
    · intro D k _
      by_cases hk : k = 0
      · subst hk; simpa using (h0 D).1
      · simp only [hk, if_false]; exact (h1 D k hk).1
  · rw [sum_add_rat, evalTree_sum (fun i k => if k = 0 then (if p i && !i.feat 0 then 1 / (n0 : Rat) else 0)
      else (if p i && i.feat 0 then 1 / (n1 : Rat) else 0)) _ (fun _ => True) _ t D (by simp)]
    · congr 1; apply List.map_congr_left; intro i _
      by_cases a : t.predict i = 0 <;> simp [a]
    · intro D k _
      by_cases hk : k = 0
      · subst hk; simpa using (h0 D).2
      · simp only [hk, if_false]; exact (h1 D k hk).2

theorem countP_and_compl (p q : Inst → Bool) (D : Data) :
    (D.countP fun i => p i && q i) + (D.countP fun i => p i && !q i) = D.countP p := by
  induction D with
  | nil => rfl
  | cons i D ih =>
    simp only [List.countP_cons, ← ih]
    cases p i <;> cases q i <;> simp <;> omega

end Streed.TaskLemmas
