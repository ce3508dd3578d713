import Verif.Lemmas.Preprocess
import Verif.Props.Terminal

/-!
# C25, C26: preprocessing of the features
-/

namespace Streed

/-- The trees allowed before and after preprocessing have the same costs. -/
theorem preprocess_attained {P : Problem} {mls : Nat} (hP : FeatureFree P) (hmay : ∀ f, f < P.nF → P.may f = true)
    (hmls : 1 ≤ mls) (T : Data) (d n : Nat) (v : Int) :
    Attained P mls d n (preprocess P mls T) v ↔ Attained P mls d n T v := by
  constructor
  · rintro ⟨t, ⟨h1, h2, h3⟩, h4⟩
    obtain ⟨a1, a2⟩ := prep_backward hP hmls _ _ t T h3
    exact ⟨_, ⟨by rw [unflip_depth]; exact h1, by rw [unflip_nodes]; exact h2, a1⟩, by rw [a2]; exact h4⟩
  · rintro ⟨t, ⟨h1, h2, h3⟩, h4⟩
    obtain ⟨t', a1, a2, a3, a4⟩ := prep_forward hP hmay t T (List.Sublist.refl T) h3
    exact ⟨t', ⟨by omega, by omega, a1⟩, by rw [← h4]; exact a4⟩

theorem preprocess_lower {P : Problem} {mls : Nat} (hP : FeatureFree P) (hmay : ∀ f, f < P.nF → P.may f = true)
    (hmls : 1 ≤ mls) (T : Data) (d n : Nat) (v : Int) :
    LowerBound P mls d n (preprocess P mls T) v ↔ LowerBound P mls d n T v := by
  constructor
  · intro h t ht
    obtain ⟨t', h1, h2⟩ := (preprocess_attained hP hmay hmls T d n (t.cost P T)).2 ⟨t, ht, rfl⟩
    rw [← h2]; exact h t' h1
  · intro h t ht
    obtain ⟨t', h1, h2⟩ := (preprocess_attained hP hmay hmls T d n _).1 ⟨t, ht, rfl⟩
    rw [← h2]; exact h t' h1

/-- C25: for tasks that may branch on every feature, flipping features and dropping the redundant ones keeps
the optimal value for every budget and leaf size. -/
theorem preprocess_optimum {P : Problem} {mls : Nat} (hP : FeatureFree P) (hmay : ∀ f, f < P.nF → P.may f = true)
    (hmls : 1 ≤ mls) (T : Data) (d n : Nat) (v : Int) :
    IsOpt P mls d n (preprocess P mls T) v ↔ IsOpt P mls d n T v :=
  and_congr (preprocess_attained hP hmay hmls T d n v) (preprocess_lower hP hmay hmls T d n v)

theorem accuracy_featureFree (nF nL : Nat) : FeatureFree (accuracy nF nL) := fun _ _ _ => rfl

/-- The claim of C25 without the restriction on the task. -/
def PreprocessHarmless : Prop := ∀ (P : Problem) (mls : Nat) (T : Data) (d n : Nat) (v : Int), FeatureFree P →
  1 ≤ mls → IsOpt P mls d n (preprocess P mls T) v → IsOpt P mls d n T v

/-- Two instances told apart by both of two equal features; only the second one may be used. -/
def hiddenData : Data := [exInst 0 0 0, exInst 1 3 1]

/-- Tasks with a forbidden (sensitive) feature: a feature equal to an earlier forbidden one is dropped,
although the earlier one cannot stand in for it. -/
theorem preprocess_not_harmless : ¬ PreprocessHarmless := by
  intro h
  let P : Problem := { accuracy 2 2 with may := fun f => f == 1 }
  have hopt : IsOpt P 1 1 1 (preprocess P 1 hiddenData) 1 := by
    refine ⟨⟨.leaf 0, by decide, by decide⟩, ?_⟩
    rintro t ⟨h1, h2, h3⟩
    match t with
    | .leaf k =>
      have hk : k < 2 := h3.1
      have : k = 0 ∨ k = 1 := by omega
      rcases this with rfl | rfl <;> decide
    | .node f l r =>
      exfalso
      obtain ⟨hf, hm, _, hr⟩ := h3
      have h1 : f = 1 := by simpa [P] using hm
      subst h1
      have := hr.length
      revert this
      decide
  have := (h P 1 hiddenData 1 1 1 (fun _ _ _ => rfl) (Nat.le_refl _) hopt).2 (.node 1 (.leaf 0) (.leaf 1)) (by decide)
  revert this
  decide

/-- The hypotheses are met; the preprocessed optimum is that of the raw data. -/
example : isRedundant (accuracy 2 2) 1 hiddenData 1 = true ∧ IsOpt (accuracy 2 2) 1 1 1 hiddenData 0 := by
  refine ⟨by decide, ⟨.node 1 (.leaf 0) (.leaf 1), by decide, by decide⟩, fun t _ => ?_⟩
  exact Tree.cost_nonneg _ t _ (accuracy_nonneg 2 2 _) (by decide)

end Streed
