import Verif.Model.FrontUB

/-!
# C20 for partially ordered tasks

When the other side of a split has several solutions, the reduced bound prunes subtrees that the split needs:
a subtree may only be dropped if the bound dominates its combination with *every* solution of the other
side, but the code drops it as soon as this holds for one of them.
-/

namespace Streed

/-- What C20 asks of the reduced bound `R`: a subtree value that `R` strictly dominates is useless, because
the bound `UB` dominates its combination with every solution of the other side. -/
def ReductionSafe (UB sols R : Front F1Sol) : Prop :=
  ∀ x : F1Sol, 0 ≤ x.fn → x.fn < intMax → 0 ≤ x.fp → x.fp < intMax →
    R.strictDominates f1Ops x = true →
    ∀ s ∈ sols.sols, ∃ u ∈ UB.sols, f1Ops.dom u.sol (f1Add x s.sol) = true

/-- C20 fails for the F1 task, with a bound of one solution and two solutions on the other side: the subtree
with 1 false negative and 5 false positives is pruned, although together with (7, 10) it gives (8, 15),
which the bound (11, 11) does not dominate. -/
theorem front_subtraction_unsound :
    ∃ UB sols R : Front F1Sol, f1SubtractUBs UB sols = some R ∧ ¬ ReductionSafe UB sols R := by
  let UB : Front F1Sol := ⟨[⟨⟨11, 11⟩, 1⟩], []⟩
  let sols : Front F1Sol := ⟨[⟨⟨10, 7⟩, 1⟩, ⟨⟨7, 10⟩, 1⟩], []⟩
  have hp : (f1SubtractUBs UB sols).any (·.strictDominates f1Ops ⟨1, 5⟩) = true := by decide +kernel
  obtain ⟨R, hR, hs⟩ := (Option.any_eq_true_iff_get _ _).1 hp |> fun ⟨h, h'⟩ => (⟨_, (Option.some_get h).symm, h'⟩ :
    ∃ R, f1SubtractUBs UB sols = some R ∧ R.strictDominates f1Ops ⟨1, 5⟩ = true)
  refine ⟨UB, sols, R, hR, ?_⟩
  intro h
  obtain ⟨u, hu, hd⟩ := h ⟨1, 5⟩ (by decide) (by decide) (by decide) (by decide) hs ⟨⟨7, 10⟩, 1⟩ (by simp [sols])
  have hu : u = ⟨⟨11, 11⟩, 1⟩ := by simpa [UB] using hu
  subst hu
  revert hd
  decide

end Streed
