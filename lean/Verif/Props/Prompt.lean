import Verif.Lemmas.Prompt
import Verif.Props.Timeout

/-!
# C64: the search stops soon after the time limit

For all settings of the accuracy classifier: any options, depth, node limit, leaf size, data, clock.
-/

namespace Streed

/-- C64: if the time limit has passed before the `k`-th check, the search returns after at most `3 · max_depth + 5` further
checks, whatever the number of instances, features, labels and nodes. -/
theorem prompt_stop (nF nL mls : Nat) (o : Options) (t : Top) (T : Data) (k : Nat) (h : ∀ i, k ≤ i → o.clock i = false) :
    (fitAccuracy nF nL mls o t T).1.st.tick ≤ k + 3 * t.maxDepth + 5 :=
  solve_prompt (c := accCfg nF nL mls o (isRedundant (accuracy nF nL) mls T)) h t _

/-- In particular the number of checks after the first failed one is bounded by the depth alone. -/
theorem prompt_after_first_failure (nF nL mls : Nat) (o : Options) (t : Top) (T : Data) (hclk : Monotone o.clock) (k : Nat)
    (hf : o.clock k = false) : (fitAccuracy nF nL mls o t T).1.st.tick - k ≤ 3 * t.maxDepth + 5 := by
  have := prompt_stop nF nL mls o t T k fun i hi => by
    cases hi' : o.clock i with
    | false => rfl
    | true => rw [hclk k i hi hi'] at hf; exact absurd hf (by simp)
  omega

/-- A run of depth three without the depth-two solver makes more than 30 checks without limit, and stops within seven
checks when the limit passes after the fifth. -/
example : let o := fun m : Nat => ({ defaultOptions 2 with useTerm := false, useUB := false, useLB := false, simLB := false, clock := fun i => decide (i < m) } : Options)
    30 < (fitAccuracy 2 2 1 (o 1000) ⟨3, 7, false, int32Max⟩ xorData).1.st.tick ∧
    (fitAccuracy 2 2 1 (o 5) ⟨3, 7, false, int32Max⟩ xorData).1.st.tick ≤ 12 ∧
    (∀ i, 5 ≤ i → (o 5).clock i = false) := by
  refine ⟨by decide +kernel, by decide +kernel, fun i hi => ?_⟩
  simp only [decide_eq_false_iff_not]; omega

end Streed
