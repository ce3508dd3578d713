import Verif.Model.SurvEst
import Verif.Props.Estimator

/-!
# C102: the survival estimator over several calls of `fit`
-/

namespace Streed

variable {tests : Column → List (Rat → Bool)} {cuts : Column → List Rat}

/-- What the curves should be: those of one call, computed from its observations, its binariser, its tree and its hazard ratios. -/
def SurvStep.curves (c : SurvStep) (F : FittedBin) (t : Tree) (X : Frame) (n : Nat) : SurvAnswer :=
  match predictFrame F t X n with
  | none => .raises
  | some l => .curves (l.map fun k => hazardCurve c.obs (c.theta k))

namespace SurvEst

theorem fits_snoc (e : SurvEst) (cs : List SurvStep) (c : SurvStep) :
    e.fits tests cuts (cs ++ [c]) = ((e.fits tests cuts cs).fit tests cuts c).1 := by
  unfold SurvEst.fits; rw [List.foldl_append]; rfl

/-- The state after a call that found a tree. -/
theorem fit_fitted {e : SurvEst} {c : SurvStep} {F : FittedBin} {t : Tree} (h : (e.fit tests cuts c).2 = .fitted F t) :
    c.step.answer = some t ∧ fitBin tests cuts (frameTypes c.step.given c.step.X) c.step.X = some F ∧
    (e.fit tests cuts c).1 = ⟨⟨some (some F), some F.width, some F.width, .val t, some t⟩, some c.obs, c.theta⟩ := by
  unfold SurvEst.fit at h ⊢
  cases hr : c.rows with
  | false => rw [hr] at h; exact absurd h (fun h => FitEnd.noConfusion h)
  | true =>
    rw [hr] at h
    have h' : (e.base.fit tests cuts c.step).2 = .fitted F t := h
    rcases fit_cases (tests := tests) (cuts := cuts) e.base c.step with ⟨h1, -⟩ | ⟨h1, -⟩ | ⟨F', t', h1, h2, h3, h4⟩
    · rw [h1] at h'; exact absurd h' (fun h => FitEnd.noConfusion h)
    · rw [h1] at h'; exact absurd h' (fun h => FitEnd.noConfusion h)
    · rw [h1] at h'
      injection h' with e1 e2
      subst e1 e2
      refine ⟨h2, h3, ?_⟩
      rw [if_neg (by simp)]
      dsimp only
      rw [h1, h4]

theorem hazards_whole (c : SurvStep) (F : FittedBin) (t : Tree) (X : Frame) (n : Nat) :
    (⟨⟨some (some F), some F.width, some F.width, .val t, some t⟩, some c.obs, c.theta⟩ : SurvEst).hazards X n = c.curves F t X n := by
  unfold SurvEst.hazards SurvStep.curves
  dsimp only
  rw [predict_whole rfl rfl rfl rfl X n]
  unfold answerOf
  cases predictFrame F t X n <;> rfl

end SurvEst

/-- C102 after a successful call: whatever was called before, the curves come from the observations, the binariser, the tree and the
hazard ratios of this call. -/
theorem surv_fitted (cs : List SurvStep) (c : SurvStep) (F : FittedBin) (t : Tree)
    (h : ((SurvEst.init.fits tests cuts cs).fit tests cuts c).2 = .fitted F t) :
    c.step.answer = some t ∧ fitBin tests cuts (frameTypes c.step.given c.step.X) c.step.X = some F ∧
    ∀ X n, (SurvEst.init.fits tests cuts (cs ++ [c])).hazards X n = c.curves F t X n := by
  obtain ⟨h1, h2, h3⟩ := SurvEst.fit_fitted h
  refine ⟨h1, h2, fun X n => ?_⟩
  rw [SurvEst.fits_snoc, h3, SurvEst.hazards_whole]

/-- No call raised, except before anything was stored. -/
def NoCallRaised (tests : Column → List (Rat → Bool)) (cuts : Column → List Rat) (cs : List SurvStep) : Prop :=
  ∀ a c b, cs = a ++ c :: b → ((SurvEst.init.fits tests cuts a).fit tests cuts c).2 = .raised → c.rows = false

/-- **C102** for sequences of calls of which none raised after its observations had been accepted: the curves are never undefined, and are those of
one call. Missing: calls that raise later, even because of a parameter (`surv_bad_parameter_mixes`). -/
theorem surv_consistent_partial (cs : List SurvStep) (h : NoCallRaised tests cuts cs) (X : Frame) (n : Nat) :
    (SurvEst.init.fits tests cuts cs).hazards X n ≠ .undef ∧
    ∀ l, (SurvEst.init.fits tests cuts cs).hazards X n = .curves l →
      ∃ c ∈ cs, ∃ F t, c.step.answer = some t ∧ fitBin tests cuts (frameTypes c.step.given c.step.X) c.step.X = some F ∧
        (SurvEst.init.fits tests cuts cs).base.getTree = some t ∧ c.curves F t X n = .curves l := by
  have key : ∀ cs, NoCallRaised tests cuts cs →
      ((SurvEst.init.fits tests cuts cs).base.res = .absent ∨ (SurvEst.init.fits tests cuts cs).base = Est.init ∨
        ∃ c ∈ cs, ∃ F t, c.step.answer = some t ∧ fitBin tests cuts (frameTypes c.step.given c.step.X) c.step.X = some F ∧
          SurvEst.init.fits tests cuts cs = ⟨⟨some (some F), some F.width, some F.width, .val t, some t⟩, some c.obs, c.theta⟩) := by
    intro cs
    induction cs using List.reverseRecOn with
    | nil => exact fun _ => .inr (.inl rfl)
    | append_singleton cs c ih =>
      intro h
      have ih := ih fun a d b hd hr => h a d (b ++ [c]) (by rw [hd]; simp) hr
      rw [SurvEst.fits_snoc]
      cases hr : c.rows with
      | false =>
        have e : ((SurvEst.init.fits tests cuts cs).fit tests cuts c).1 = SurvEst.init.fits tests cuts cs := by
          unfold SurvEst.fit; rw [hr]; rfl
        rw [e]
        rcases ih with i | i | ⟨d, hd, i⟩
        · exact .inl i
        · exact .inr (.inl i)
        · exact .inr (.inr ⟨d, List.mem_append_left _ hd, i⟩)
      | true =>
        generalize hE : SurvEst.init.fits tests cuts cs = e
        have hc : (e.fit tests cuts c).1.base = (e.base.fit tests cuts c.step).1 ∧ (e.fit tests cuts c).2 = (e.base.fit tests cuts c.step).2 := by
          unfold SurvEst.fit; rw [hr]; exact ⟨rfl, rfl⟩
        rcases fit_cases (tests := tests) (cuts := cuts) e.base c.step with ⟨h1, -⟩ | ⟨h1, -, h2, -⟩ | ⟨F, t, h1, -⟩
        · have := h cs c [] rfl (by rw [hE, hc.2]; exact h1)
          rw [hr] at this; cases this
        · exact .inl (by rw [hc.1]; exact h2)
        · obtain ⟨a1, a2, a3⟩ := SurvEst.fit_fitted (hc.2.trans h1)
          exact .inr (.inr ⟨c, by simp, F, t, a1, a2, a3⟩)
  rcases key cs h with i | i | ⟨c, hc, F, t, h1, h2, h3⟩
  · have hp : (SurvEst.init.fits tests cuts cs).base.predict X n = .notFitted := if_pos i
    unfold SurvEst.hazards
    rw [hp]
    exact ⟨fun h => SurvAnswer.noConfusion h, fun l h => SurvAnswer.noConfusion h⟩
  · have hp : (SurvEst.init.fits tests cuts cs).base.predict X n = .raises := by rw [i]; rfl
    unfold SurvEst.hazards
    rw [hp]
    exact ⟨fun h => SurvAnswer.noConfusion h, fun l h => SurvAnswer.noConfusion h⟩
  · rw [h3, SurvEst.hazards_whole]
    refine ⟨?_, fun l hl => ⟨c, hc, F, t, h1, h2, rfl, hl⟩⟩
    unfold SurvStep.curves
    split <;> exact fun h => SurvAnswer.noConfusion h

/-- After a call that found no tree there are no curves. -/
theorem surv_noTree (e : SurvEst) (c : SurvStep) (h : (e.fit tests cuts c).2 = .noTree) (X : Frame) (n : Nat) :
    (e.fit tests cuts c).1.hazards X n = .notFitted := by
  unfold SurvEst.fit at h ⊢
  cases hr : c.rows with
  | false => rw [hr] at h; exact absurd h (fun h => FitEnd.noConfusion h)
  | true =>
    rw [hr] at h
    have h' : (e.base.fit tests cuts c.step).2 = .noTree := h
    rw [if_neg (by simp)]
    unfold SurvEst.hazards
    dsimp only
    rw [(est_noTree_keeps_tree e.base c.step h').2.1 X n]

/-! ### A call that raises -/

/-- With the binarisers of `estFit`. -/
def survFit (e : SurvEst) (c : SurvStep) : SurvEst × FitEnd :=
  e.fit (fun c => [fun v => decide (v = c.vals.headD 0)]) (fun c => [c.vals.headD 0]) c

/-- Four observed deaths. -/
def survGood : SurvStep := ⟨true, [⟨1, 1⟩, ⟨2, 1⟩, ⟨3, 1⟩, ⟨4, 1⟩], estGood, fun k => k + 1⟩

/-- Other observations, and a parameter out of range. -/
def survBadParam : SurvStep := ⟨true, [⟨5, 1⟩, ⟨6, 1⟩], { estGood with params := false }, fun _ => 0⟩

/-- **C102**, violated: `fit` with a parameter out of range raises and keeps the tree, the binariser and the solver of the earlier call, so that
for every other estimator nothing changes (`est_consistent_partial`); but the survival curves afterwards multiply the hazard
ratios of the old tree with the baseline of the rejected observations, at their times. -/
theorem surv_bad_parameter_mixes : ∃ c d : SurvStep, ∃ X n, d.step.params = false ∧ (survFit (survFit SurvEst.init c).1 d).2 = .raised ∧
    (survFit (survFit SurvEst.init c).1 d).1.base.predict X n = (survFit SurvEst.init c).1.base.predict X n ∧
    (survFit SurvEst.init c).1.hazards X n = .curves [[1/2, 7/6, 13/6, 25/6], [1/4, 7/12, 13/12, 25/12]] ∧
    (survFit (survFit SurvEst.init c).1 d).1.hazards X n = .curves [[1, 3], [1/2, 3/2]] := by
  refine ⟨survGood, survBadParam, [⟨0, true, [3, 5]⟩], 2, rfl, rfl, rfl, by decide +kernel, by decide +kernel⟩

/-- The hypotheses are met: a call that finds a tree, and sequences without calls that raise late. -/
example : ∃ F t, (survFit SurvEst.init survGood).2 = .fitted F t := ⟨_, _, rfl⟩

example : NoCallRaised (fun c => [fun v => decide (v = c.vals.headD 0)]) (fun c => [c.vals.headD 0]) [survGood] := by
  intro a c b h hr
  cases a with
  | nil =>
    simp only [List.nil_append, List.cons.injEq] at h
    rw [← h.1] at hr
    exact absurd hr (fun h => FitEnd.noConfusion h)
  | cons x a =>
    have := congrArg List.length h
    simp at this

end Streed
