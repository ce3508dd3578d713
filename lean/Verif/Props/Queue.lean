import Verif.Lemmas.Heap
import Mathlib.Tactic.FieldSimp
import Mathlib.Tactic.Ring
import Mathlib.Tactic.Positivity
import Verif.Props.Difference

/-!
# C31: the feature queue
-/

namespace Streed

/-- C31, first half: for any scores the queue returns every feature exactly once. -/
theorem queue_each_once (scores : List Rat) : (Heap.order scores).Perm (List.range scores.length) := by
  have H := Heap.fill_spec scores
  have hlen : (Heap.fill scores).a.length = scores.length := by
    have := H.keys.length_eq
    simpa using this
  obtain ⟨cs, h1, h2, _⟩ := Heap.pops_spec scores.length (Heap.fill scores) H.n (by rw [H.n, hlen])
  unfold Heap.order
  rw [h1]
  refine (h2.map _).trans ?_
  rw [List.take_of_length_le (by omega)]
  exact H.keys

/-- C31, second half, for non-negative scores: the features come in non-increasing order of their score. -/
theorem queue_score_order_partial (scores : List Rat) (hs : ∀ x ∈ scores, 0 ≤ x) :
    (Heap.order scores).Pairwise fun f g => scores.getD g 0 ≤ scores.getD f 0 := by
  have H := Heap.fill_spec scores
  have hlen : (Heap.fill scores).a.length = scores.length := by
    have := H.keys.length_eq
    simpa using this
  obtain ⟨cs, h1, h2, _, _, h5⟩ := Heap.pops_spec scores.length (Heap.fill scores) H.n (by rw [H.n, hlen])
  unfold Heap.order
  rw [h1, List.pairwise_map]
  have hv : ∀ p ∈ cs, p.2 = scores.getD p.1 0 := by
    intro p hp
    have := h2.subset hp
    obtain ⟨i, hi, e⟩ := List.mem_take_iff_getElem.1 this
    have h3 := (H.inside i (by omega)).2
    unfold Heap.val at h3
    rw [Heap.cell_eq _ i (by omega), e] at h3
    exact h3
  refine (h5 (H.ord hs)).imp_of_mem fun {p q} hp hq h => ?_
  rw [← hv p hp, ← hv q hq]
  exact h

/-- The claim of C31 for all scores. -/
def QueueSorted : Prop := ∀ scores : List Rat,
  (Heap.order scores).Pairwise fun f g => scores.getD g 0 ≤ scores.getD f 0

/-- With negative scores the order is wrong: a score is added with `Increment`, which only moves entries up. -/
theorem queue_not_sorted : ¬ QueueSorted := by
  intro h
  have := h [-1, -2]
  revert this
  decide +kernel

/-- C31 for the feature order used in a run: every feature is tried exactly once at every node. -/
theorem gini_order_complete (nF nL : Nat) (D : Data) (f : Nat) : f ∈ giniOrder nF nL D ↔ f < nF := by
  unfold giniOrder
  rw [(queue_each_once _).mem_iff]
  simp

/-! ### Gini scores -/

/-- The sum of the squared shares of the labels. -/
def purity (nL : Nat) (D : Data) : Rat :=
  ((List.range nL).map fun k => ((D.countP fun i => i.label == k : Nat) / (D.length : Nat) : Rat) ^ 2).sum

theorem merge_sq (a b A B : Rat) (hA : 0 < A) (hB : 0 < B) :
    (A + B) * ((a + b) / (A + B)) ^ 2 ≤ A * (a / A) ^ 2 + B * (b / B) ^ 2 := by
  have h : A * (a / A) ^ 2 + B * (b / B) ^ 2 - (A + B) * ((a + b) / (A + B)) ^ 2 = (a * B - b * A) ^ 2 / (A * B * (A + B)) := by
    have hAB : A + B ≠ 0 := by positivity
    field_simp
    ring
  have : 0 ≤ (a * B - b * A) ^ 2 / (A * B * (A + B)) := by positivity
  linarith

theorem merge_sum (x y : Nat → Rat) (A B : Rat) (hA : 0 < A) (hB : 0 < B) (ks : List Nat) :
    (A + B) * (ks.map fun k => ((x k + y k) / (A + B)) ^ 2).sum ≤
      A * (ks.map fun k => (x k / A) ^ 2).sum + B * (ks.map fun k => (y k / B) ^ 2).sum := by
  induction ks with
  | nil => simp
  | cons k ks ih =>
    simp only [List.map_cons, List.sum_cons]
    have := merge_sq (x k) (y k) A B hA hB
    linarith

theorem length_split (f : Nat) (D : Data) : (without f D).length + (having f D).length = D.length := by
  induction D with
  | nil => rfl
  | cons i D ih =>
    unfold without having at *
    simp only [List.filter_cons]
    cases i.feat f <;> simp <;> omega

theorem countP_split (p : Inst → Bool) (f : Nat) (D : Data) : (without f D).countP p + (having f D).countP p = D.countP p := by
  induction D with
  | nil => rfl
  | cons i D ih =>
    unfold without having at *
    simp only [List.filter_cons]
    cases i.feat f <;> simp [List.countP_cons] <;> omega

/-- Gini scores are never negative, in exact arithmetic. -/
theorem giniScore_nonneg (nL : Nat) (D : Data) (f : Nat) : 0 ≤ giniScore nL D f := by
  have hl := length_split f D
  have hc : ∀ k, ((D.countP fun i => i.label == k : Nat) : Rat) =
      ((without f D).countP fun i => i.label == k : Nat) + ((having f D).countP fun i => i.label == k : Nat) := by
    intro k
    rw [← countP_split (fun i => i.label == k) f D]
    push_cast; rfl
  unfold giniScore impurity
  rcases Nat.eq_zero_or_pos (without f D).length with h0 | h0
  · have e0 : without f D = [] := List.length_eq_zero_iff.1 h0
    have hD : ∀ k, ((D.countP fun i => i.label == k : Nat) : Rat) = ((having f D).countP fun i => i.label == k : Nat) := by
      intro k; rw [hc k, e0]; simp
    rw [h0, Nat.zero_add] at hl
    rw [h0, if_pos rfl, hl]
    simp only [hD]
    rcases Nat.eq_zero_or_pos D.length with h1 | h1
    · simp [h1]
    · rw [if_neg (by omega)]
      have : ((D.length : Nat) : Rat) ≠ 0 := by positivity
      rw [div_self this]
      simp
  rcases Nat.eq_zero_or_pos (having f D).length with h1 | h1
  · have e0 : having f D = [] := List.length_eq_zero_iff.1 h1
    have hD : ∀ k, ((D.countP fun i => i.label == k : Nat) : Rat) = ((without f D).countP fun i => i.label == k : Nat) := by
      intro k; rw [hc k, e0]; simp
    rw [h1, Nat.add_zero] at hl
    rw [h1, if_pos rfl, hl]
    simp only [hD]
    rw [if_neg (by omega)]
    have : ((D.length : Nat) : Rat) ≠ 0 := by
      have : 0 < D.length := by omega
      positivity
    rw [div_self this]
    simp
  · rw [if_neg (by omega), if_neg (by omega), ← hl]
    have hA : (0 : Rat) < ((without f D).length : Nat) := by positivity
    have hB : (0 : Rat) < ((having f D).length : Nat) := by positivity
    push_cast
    simp only [hc]
    have := merge_sum (fun k => (((without f D).countP fun i => i.label == k : Nat) : Rat))
      (fun k => (((having f D).countP fun i => i.label == k : Nat) : Rat)) _ _ hA hB (List.range nL)
    generalize (((without f D).length : Nat) : Rat) = A at *
    generalize (((having f D).length : Nat) : Rat) = B at *
    generalize ((List.range nL).map fun k => (_ / (A + B) : Rat) ^ 2).sum = u at *
    generalize ((List.range nL).map fun k => (_ / A : Rat) ^ 2).sum = v at *
    generalize ((List.range nL).map fun k => (_ / B : Rat) ^ 2).sum = w at *
    have hAB : 0 < A + B := by linarith
    have e : 1 - u - A / (A + B) * (1 - v) - B / (A + B) * (1 - w) = (A * v + B * w - (A + B) * u) / (A + B) := by
      field_simp
      ring
    rw [e]
    apply div_nonneg _ (le_of_lt hAB)
    linarith

/-- C31 for the default feature ordering: the features come in non-increasing order of their Gini score. -/
theorem gini_order_sorted (nF nL : Nat) (D : Data) :
    (giniOrder nF nL D).Pairwise fun f g => giniScore nL D g ≤ giniScore nL D f := by
  have h := queue_score_order_partial ((List.range nF).map (giniScore nL D)) (by
    intro x hx
    obtain ⟨f, _, rfl⟩ := List.mem_map.1 hx
    exact giniScore_nonneg nL D f)
  refine h.imp_of_mem fun {f g} hf hg hh => ?_
  have e : ∀ f, f < nF → ((List.range nF).map (giniScore nL D)).getD f 0 = giniScore nL D f := by
    intro f hf
    rw [List.getD_eq_getElem?_getD, List.getElem?_map, List.getElem?_range hf]
    rfl
  rw [e f ((gini_order_complete nF nL D f).1 hf), e g ((gini_order_complete nF nL D g).1 hg)] at hh
  exact hh

/-- A queue with four features. -/
example : (∀ x ∈ [(1 : Rat) / 2, 0, 3, 1], 0 ≤ x) ∧ Heap.order [(1 : Rat) / 2, 0, 3, 1] = [2, 3, 0, 1] := by
  refine ⟨by decide +kernel, by decide +kernel⟩

end Streed
