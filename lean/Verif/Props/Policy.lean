import Verif.Lemmas.Policy

/-!
# Prescriptive policies and instance-specific costs (C44, C19)
-/

namespace Streed
open TaskLemmas PolicyLemmas

/-- The estimated outcome of giving treatment `k` to one person: the direct method uses the predicted outcome,
inverse propensity weighting the weighted observed outcome when `k` was given, the doubly robust estimate the
prediction corrected by the weighted residual when `k` was given. -/
def estimate (m : Teacher) (e : Treatment) (k : Nat) : Rat :=
  match m with
  | .dm => e.yhat k
  | .ipw => if k = e.k then e.y / e.mu else 0
  | .dr => e.yhat k + if k = e.k then (e.y - e.yhat k) / e.mu else 0

/-- The estimated value of a policy: the sum of the estimates of the treatments it gives. -/
def policyValue (m : Teacher) (ext : Inst → Treatment) (t : Tree) (D : Data) : Rat :=
  (D.map fun i => estimate m (ext i) (t.predict i)).sum

/-- The propensity score of every person can be divided by. -/
def Usable (m : Teacher) (ext : Inst → Treatment) (D : Data) : Prop :=
  m = .dm ∨ ∀ i ∈ D, 1 / 1000000 < |(ext i).mu|

private theorem score_estimate {m : Teacher} {ext : Inst → Treatment} {D : Data} (h : Usable m ext D) {i : Inst}
    (hi : i ∈ D) (k : Nat) : (ext i).score m k = -estimate m (ext i) k := by
  cases m with
  | dm => rfl
  | ipw =>
    have : ¬ |(ext i).mu| ≤ 1 / 1000000 := not_le.2 ((h.resolve_left (by simp)) i hi)
    simp only [Treatment.score, estimate, decide_eq_true_eq, if_neg this]
  | dr =>
    have : ¬ |(ext i).mu| ≤ 1 / 1000000 := not_le.2 ((h.resolve_left (by simp)) i hi)
    simp only [Treatment.score, estimate, decide_eq_true_eq, if_neg this]
    by_cases e : k = (ext i).k <;> simp [e]

theorem policy_eval {m : Teacher} {ext : Inst → Treatment} {nL : Nat} {T : Data} (hl : ∀ i ∈ T, i.label < nL)
    (hn : (T.map Inst.id).Nodup) (hu : Usable m ext T) (t : Tree) :
    evalTree (· + ·) (policyLeaf (costRows ext m nL T) nL) t T =
      -policyValue m ext t T - T.length * minScore ext m nL T := by
  rw [evalTree_sum (fun i k => costRow (costRows ext m nL T) i.id k) _ (fun i => i ∈ T) _ t T (fun i hi => hi)]
  · have : ∀ D : Data, (∀ i ∈ D, i ∈ T) →
        (D.map fun i => costRow (costRows ext m nL T) i.id (t.predict i)).sum =
          -policyValue m ext t D - D.length * minScore ext m nL T := by
      intro D
      induction D with
      | nil => simp [policyValue]
      | cons i D ih =>
        intro h
        have hi := h i (List.mem_cons_self ..)
        rw [List.map_cons, List.sum_cons, ih fun j hj => h j (List.mem_cons_of_mem _ hj),
          costRow_eq hl hn hi, score_estimate hu hi]
        simp only [policyValue, List.map_cons, List.sum_cons, List.length_cons]
        push_cast
        ring
    exact this T fun _ h => h
  · intro D k hD
    exact foldl_byLabels _ fun i hi => hl i (hD i hi)

/-- **C44**: a tree has smaller training cost exactly when the policy it describes has a larger estimated value. -/
theorem policy_order (m : Teacher) (ext : Inst → Treatment) (nL : Nat) (T : Data) (hl : ∀ i ∈ T, i.label < nL)
    (hn : (T.map Inst.id).Nodup) (hu : Usable m ext T) (t u : Tree) :
    evalTree (· + ·) (policyLeaf (costRows ext m nL T) nL) t T ≤
        evalTree (· + ·) (policyLeaf (costRows ext m nL T) nL) u T ↔
      policyValue m ext u T ≤ policyValue m ext t T := by
  rw [policy_eval hl hn hu, policy_eval hl hn hu]
  constructor <;> intro h <;> linarith

/-- **C44**: the cost of every treatment of every person is at least zero. -/
theorem policy_nonneg (m : Teacher) (ext : Inst → Treatment) (nL : Nat) (T : Data) (hl : ∀ i ∈ T, i.label < nL)
    (hn : (T.map Inst.id).Nodup) (i : Inst) (hi : i ∈ T) (k : Nat) (hk : k < nL) :
    0 ≤ policyD2 (costRows ext m nL T) i k 1 := by
  unfold policyD2
  rw [costRow_eq hl hn hi]
  have := minScore_le (ext := ext) (m := m) hi (hl i hi) hk
  simp; exact this

/-- **C44**: the depth-two solver's costs per person add up to the cost of a leaf. -/
theorem policy_pairwise (rows : List (Nat × (Nat → Rat))) (nL : Nat) (D : Data) (hl : ∀ i ∈ D, i.label < nL)
    (k : Nat) : (D.map fun i => policyD2 rows i k 1).sum = policyLeaf rows nL D k := by
  unfold policyLeaf policyD2
  rw [foldl_byLabels (fun i => costRow rows i.id k) hl]
  simp

/-- The value a test run counts is the number of people who get another treatment than their best one. -/
theorem policy_test (opt : Inst → Nat) (nL : Nat) (D : Data) (hl : ∀ i ∈ D, i.label < nL) (t : Tree) :
    evalTree (· + ·) (policyTestLeaf opt nL) t D = ((D.filter fun i => opt i ≠ t.predict i).length : Int) := by
  rw [evalTree_sum (fun i k => if opt i = k then (0 : Int) else 1) _ (fun i => i.label < nL) _ t D hl]
  · clear hl
    induction D with
    | nil => rfl
    | cons i D ih =>
      rw [List.map_cons, List.sum_cons, ih]
      by_cases e : opt i = t.predict i <;> simp [e, add_comm]
  · intro D k hD
    exact foldl_byLabels _ hD

/-- A person without a usable propensity score. -/
def noScore : Treatment := ⟨0, 0, 0, fun k => if k = 0 then 0 else 5⟩

/-- Two people, the second of whom gains nothing from treatment. -/
def twoPeople : Inst → Treatment := fun i => ⟨0, 1, 1, fun k => if i.id = 0 then (if k = 0 then 10 else 20) else 1⟩

/-- **C44**, negation of "one treatment of every person costs zero": the costs are measured from one minimum for
all people, so a person can have only positive costs. -/
theorem policy_no_zero : ∃ (ext : Inst → Treatment) (T : Data), (T.map Inst.id).Nodup ∧ (∀ i ∈ T, i.label < 2) ∧
    Usable .dm ext T ∧ ∃ i ∈ T, ∀ k < 2, 0 < policyD2 (costRows ext .dm 2 T) i k 1 := by
  refine ⟨twoPeople, [⟨0, fun _ => false, 0⟩, ⟨1, fun _ => true, 0⟩], by decide, by decide, Or.inl rfl,
    ⟨1, fun _ => true, 0⟩, by simp, ?_⟩
  decide +kernel

/-- **C44**, negation for unusable propensity scores: the doubly robust estimate of a person with propensity zero
drops their predicted outcomes as well, so two policies of different predicted value get the same cost. -/
theorem policy_unusable : ∃ (ext : Inst → Treatment) (T : Data) (t u : Tree), (T.map Inst.id).Nodup ∧
    evalTree (· + ·) (policyLeaf (costRows ext .dr 2 T) 2) t T =
      evalTree (· + ·) (policyLeaf (costRows ext .dr 2 T) 2) u T ∧
    policyValue .dr ext t T < policyValue .dr ext u T := by
  refine ⟨fun _ => noScore, [⟨0, fun _ => false, 0⟩], .leaf 0, .leaf 1, by decide, by decide +kernel, by decide +kernel⟩

/-- **C19** for policies: whatever the vector held before, after the training data are announced the entry of a
label bounds the cost of every treatment of every person with that label. -/
theorem policy_worst (m : Teacher) (ext : Inst → Treatment) (nL : Nat) (T : Data) (w : List Rat)
    (hl : ∀ i ∈ T, i.label < nL) (hn : (T.map Inst.id).Nodup) (i : Inst) (hi : i ∈ T) (k : Nat) (hk : k < nL) :
    policyD2 (costRows ext m nL T) i k 1 ≤ (informWorst ext m nL T w).getD i.label 0 := by
  unfold policyD2 informWorst
  obtain ⟨hlen, h⟩ := scan_inv ext m nL T w nL
  obtain ⟨v, hv⟩ := h i.label (hl i hi)
  rw [costRow_eq hl hn hi, sub_inv _ _ _ (by exact hlen), if_pos (hl i hi)]
  have e : (scanWorst ext m nL T w).getD i.label 0 = scanOne ext m nL T i.label v := hv
  rw [e]
  have := scanOne_ge (ext := ext) (m := m) hi hk v
  simp; exact this

example : Usable .dr twoPeople [⟨0, fun _ => false, 0⟩, ⟨1, fun _ => true, 0⟩] := by
  right; simp [twoPeople]; norm_num
example : policyValue .dr twoPeople (.node 0 (.leaf 1) (.leaf 0)) [⟨0, fun _ => false, 0⟩, ⟨1, fun _ => true, 0⟩] = 21 := by
  decide +kernel

/-! ### Instance-specific costs -/

/-- The cost of a tree under instance-specific costs is the sum over the instances of the cost of the label they
get, and the depth-two costs give the same for a leaf. -/
theorem instance_costs (c : Inst → Nat → Rat) (nL : Nat) (D : Data) (hl : ∀ i ∈ D, i.label < nL) :
    (∀ t : Tree, evalTree (· + ·) (icsLeaf c nL) t D = (D.map fun i => c i (t.predict i)).sum) ∧
    (∀ k, (∀ i ∈ D, 0 ≤ c i k) → icsCompute (D.map fun i => icsD2 c i k 1).sum = icsLeaf c nL D k) := by
  constructor
  · intro t
    exact evalTree_sum c _ (fun i => i.label < nL) (fun D k hD => foldl_byLabels (fun i => c i k) hD) t D hl
  · intro k hc
    unfold icsLeaf
    rw [foldl_byLabels (fun i => c i k) hl]
    have e : (D.map fun i => icsD2 c i k 1) = D.map fun i => c i k := by
      apply List.map_congr_left; intro i _; simp [icsD2]
    rw [e]
    have : 0 ≤ (D.map fun i => c i k).sum := by
      apply List.sum_nonneg
      intro x hx
      obtain ⟨i, hi, rfl⟩ := List.mem_map.1 hx
      exact hc i hi
    simp [icsCompute, not_lt.2 this]

/-- With a negative cost the two computations differ: the depth-two solver replaces a negative leaf cost by zero. -/
theorem instance_costs_negative : ∃ (c : Inst → Nat → Rat) (D : Data) (k : Nat), (∀ i ∈ D, i.label < 1) ∧ k < 1 ∧
    icsCompute (D.map fun i => icsD2 c i k 1).sum ≠ icsLeaf c 1 D k :=
  ⟨fun _ _ => -1, [⟨0, fun _ => false, 0⟩], 0, by decide, by decide, by decide +kernel⟩

/-- **C19** for instance-specific costs: the worst value stored with an instance bounds each of its costs, for any
start value. -/
theorem instance_worst (c : Inst → Nat → Rat) (nL : Nat) (start : Rat) (i : Inst) (k : Nat) (hk : k < nL) :
    c i k ≤ icsWorst c nL start i := by
  unfold icsWorst
  refine foldl_max_mem (fun k w => if c i k > w then c i k else w) ?_ _ _ k _ ?_ (List.mem_range.2 hk)
  · intro k v; split
    · exact le_of_lt ‹_›
    · exact le_refl _
  · intro v; split
    · exact le_refl _
    · exact le_of_not_gt ‹_›

/-- **C19**, negation for the declared per-label value of this task: it is indexed by the assigned label, so for an
instance of label 0 it does not bound the cost of label 1. (The similarity bound of this task uses the value stored
with the instance instead.) -/
theorem instance_worst_label_wrong : ∃ (c : Inst → Nat → Rat) (D : Data), (∀ i ∈ D, i.label < 2) ∧
    ∃ i ∈ D, ∃ k < 2, icsWorstLabel c 2 D i.label < c i k :=
  ⟨fun _ k => k, [⟨0, fun _ => false, 0⟩], by decide, ⟨0, fun _ => false, 0⟩, by simp, 1, by decide, by decide +kernel⟩

end Streed
