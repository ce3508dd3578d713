import Verif.Lemmas.Clock
import Verif.Props.Reconstruct

/-!
# C07: time-outs

For all settings of the accuracy classifier: any options, depth, node limit, leaf size, data, clock.
-/

namespace Streed

theorem rootDepth_clock {c : Cfg} (k : Nat → Bool) (D : Data) (v : Node) (s : St) (m d : Nat) :
    rootDepth (c.at k) D v s m d = rootDepth c D v s m d := by
  induction m generalizing d with
  | zero => rfl
  | succ m ih =>
    unfold rootDepth
    rw [ih]
    rfl

theorem returned_clock {c : Cfg} (k : Nat → Bool) (D : Data) (r : Run) : returned (c.at k) D r = returned c D r := by
  unfold returned
  simp only [rootDepth_clock]

/-- C07: if a run reports `is_optimal`, no time check has failed, and everything (the value, the flag, the returned tree)
is as in a run without time limit. -/
theorem optimal_run_unlimited {nF nL mls : Nat} {o : Options} {T : Data} (t : Top) (hclk : Monotone o.clock)
    (hopt : (fitAccuracy nF nL mls o t T).2 = true) :
    (∀ i, i < (fitAccuracy nF nL mls o t T).1.st.tick → o.clock i = true) ∧
    fitAccuracy nF nL mls { o with clock := fun _ => true } t T = fitAccuracy nF nL mls o t T ∧
    fitTree nF nL mls { o with clock := fun _ => true } t T = fitTree nF nL mls o t T := by
  have h1 : ∀ i, i < (fitAccuracy nF nL mls o t T).1.st.tick → o.clock i = true := by
    unfold fitAccuracy solve solveFrom at hopt ⊢
    dsimp only [St.next] at hopt ⊢
    generalize (if t.allTrees = true ∨ t.maxNodes = 1 then _ else _ : Run) = r at hopt ⊢
    intro i hi
    exact hclk i r.st.tick (by omega) hopt
  have h2 : fitAccuracy nF nL mls { o with clock := fun _ => true } t T = fitAccuracy nF nL mls o t T :=
    solve_same (k := fun _ => true) t (preprocess (accuracy nF nL) mls T) fun i hi => (h1 i hi).symm
  refine ⟨h1, h2, ?_⟩
  unfold fitTree
  rw [h2]
  have := returned_clock (c := accCfg nF nL mls o (isRedundant (accuracy nF nL) mls T)) (fun _ => true)
    (preprocess (accuracy nF nL) mls T) (fitAccuracy nF nL mls o t T).1
  dsimp only
  rw [← this]
  rfl

/-- The converse: if all checks that are made succeed, the run reports `is_optimal`. -/
theorem unlimited_reported {nF nL mls : Nat} {o : Options} {T : Data} (t : Top)
    (h : ∀ i, i < (fitAccuracy nF nL mls o t T).1.st.tick → o.clock i = true) : (fitAccuracy nF nL mls o t T).2 = true := by
  unfold fitAccuracy solve solveFrom at h ⊢
  dsimp only [St.next] at h ⊢
  generalize (if t.allTrees = true ∨ t.maxNodes = 1 then _ else _ : Run) = r at h ⊢
  exact h _ (Nat.lt_succ_self _)

/-- A clock that expires after the last check: the flag is set. One check earlier: it is not. -/
example : let o := fun m : Nat => ({ defaultOptions 2 with clock := fun i => decide (i < m) } : Options)
    (fitAccuracy 2 2 1 (o 3) ⟨2, 3, false, int32Max⟩ xorData).2 = true ∧
    (fitAccuracy 2 2 1 (o 2) ⟨2, 3, false, int32Max⟩ xorData).2 = false ∧ Monotone (o 3).clock := by
  refine ⟨by decide +kernel, by decide +kernel, fun i j hij h => ?_⟩
  simp only [decide_eq_true_eq] at *; omega

end Streed
