import Verif.Model.ClfEst
import Verif.Props.Estimator

/-!
# C105: the classifier over several calls of `fit`
-/

namespace Streed

variable {tests : Column → List (Rat → Bool)} {cuts : Column → List Rat}

/-- What the probabilities should be: those of one call, computed from its labels, its binariser, its tree and its rows. -/
def ClfStep.probs (c : ClfStep) (F : FittedBin) (t : Tree) (T : Nat × List (IntRow × Nat)) (X : Frame) (n : Nat) : ProbaAnswer :=
  match F.transform X with
  | none => .raises
  | some cols =>
    if t.testsBelow F.width && t.testsBelow T.1 then
      match predictProba c.y.dedup.length t (matrixRows cols n) T.2 with
      | .ok p => .probs p
      | .error _ => .raises
    else .raises

namespace ClfEst

theorem fits_snoc (e : ClfEst) (cs : List ClfStep) (c : ClfStep) :
    e.fits tests cuts (cs ++ [c]) = ((e.fits tests cuts cs).fit tests cuts c).1 := by
  unfold ClfEst.fits; rw [List.foldl_append]; rfl

/-- A call that found a tree could binarise its rows. -/
theorem rows_of_fitted {e : Est} {c : ClfStep} {F : FittedBin} {t : Tree} (h : (e.fit tests cuts c.step).2 = .fitted F t) :
    ∃ cols, F.transform c.step.X = some cols ∧ c.rows tests cuts = some (cols.length, (matrixRows cols c.y.length).zip c.y) := by
  rcases fit_cases (tests := tests) (cuts := cuts) e c.step with ⟨h1, -⟩ | ⟨h1, -⟩ | ⟨F', t', h1, h2, h3, h4⟩
  · rw [h1] at h; exact absurd h (fun h => FitEnd.noConfusion h)
  · rw [h1] at h; exact absurd h (fun h => FitEnd.noConfusion h)
  · rw [h1] at h
    injection h with e1 e2
    subst e1 e2
    unfold ClfStep.rows
    rw [h3]
    cases hc : F'.transform c.step.X with
    | none =>
      exfalso
      unfold Est.fit at h1
      rw [h3] at h1
      dsimp only at h1
      rw [hc] at h1
      split at h1 <;> exact FitEnd.noConfusion h1
    | some cols => exact ⟨cols, rfl, by simp [hc]⟩

/-- The state after a call that found a tree. -/
theorem fit_fitted {e : ClfEst} {c : ClfStep} {F : FittedBin} {t : Tree} (h : (e.fit tests cuts c).2 = .fitted F t) :
    c.step.answer = some t ∧ fitBin tests cuts (frameTypes c.step.given c.step.X) c.step.X = some F ∧ ∃ T, c.rows tests cuts = some T ∧
    (e.fit tests cuts c).1 = ⟨⟨some (some F), some F.width, some F.width, .val t, some t⟩, some c.y.dedup.length, some T⟩ := by
  have h' : (e.base.fit tests cuts c.step).2 = .fitted F t := h
  obtain ⟨cols, -, hT⟩ := rows_of_fitted h'
  rcases fit_cases (tests := tests) (cuts := cuts) e.base c.step with ⟨h1, -⟩ | ⟨h1, -⟩ | ⟨F', t', h1, h2, h3, h4⟩
  · rw [h1] at h'; exact absurd h' (fun h => FitEnd.noConfusion h)
  · rw [h1] at h'; exact absurd h' (fun h => FitEnd.noConfusion h)
  · rw [h1] at h'
    injection h' with e1 e2
    subst e1 e2
    refine ⟨h2, h3, _, hT, ?_⟩
    unfold ClfEst.fit
    dsimp only
    rw [h1, h4, hT]
    rfl

theorem proba_whole (c : ClfStep) (F : FittedBin) (t : Tree) (T : Nat × List (IntRow × Nat)) (X : Frame) (n : Nat) :
    (⟨⟨some (some F), some F.width, some F.width, .val t, some t⟩, some c.y.dedup.length, some T⟩ : ClfEst).proba X n = c.probs F t T X n := by
  unfold ClfEst.proba ClfStep.probs
  rw [if_neg (fun h => FitAttr.noConfusion h)]
  dsimp only
  cases h : F.transform X with
  | none => rfl
  | some cols =>
    dsimp only
    rw [← transform_length h, if_neg (by simp)]
    cases predictProba c.y.dedup.length t (matrixRows cols n) T.2 <;> rfl

end ClfEst

/-- C105 after a successful call: whatever was called before, the probabilities come from the labels, the binariser, the tree and the rows
of this call. -/
theorem clf_fitted (cs : List ClfStep) (c : ClfStep) (F : FittedBin) (t : Tree)
    (h : ((ClfEst.init.fits tests cuts cs).fit tests cuts c).2 = .fitted F t) :
    c.step.answer = some t ∧ fitBin tests cuts (frameTypes c.step.given c.step.X) c.step.X = some F ∧ ∃ T, c.rows tests cuts = some T ∧
    ∀ X n, (ClfEst.init.fits tests cuts (cs ++ [c])).proba X n = c.probs F t T X n := by
  obtain ⟨h1, h2, T, h3, h4⟩ := ClfEst.fit_fitted h
  refine ⟨h1, h2, T, h3, fun X n => ?_⟩
  rw [ClfEst.fits_snoc, h4, ClfEst.proba_whole]

/-- After a call that found no tree there are no probabilities. -/
theorem clf_noTree (e : ClfEst) (c : ClfStep) (h : (e.fit tests cuts c).2 = .noTree) (X : Frame) (n : Nat) :
    (e.fit tests cuts c).1.proba X n = .notFitted := by
  have h' : (e.base.fit tests cuts c.step).2 = .noTree := h
  rcases fit_cases (tests := tests) (cuts := cuts) e.base c.step with ⟨h1, -⟩ | ⟨-, -, h2, -⟩ | ⟨F, t, h1, -⟩
  · rw [h1] at h'; exact absurd h' (fun h => FitEnd.noConfusion h)
  · exact if_pos h2
  · rw [h1] at h'; exact absurd h' (fun h => FitEnd.noConfusion h)

/-- A call with a parameter out of range changes nothing if its labels have as many classes as those of the last call. -/
theorem clf_same_classes (e : ClfEst) (c : ClfStep) (hp : c.step.params = false) (hs : c.stored = false) (hn : e.nC = some c.y.dedup.length) :
    (e.fit tests cuts c).2 = .raised ∧ (e.fit tests cuts c).1 = e := by
  have hr : e.base.fit tests cuts c.step = (e.base, .raised) := by unfold Est.fit; rw [hp]; rfl
  unfold ClfEst.fit
  rw [hr, hs, ← hn]
  exact ⟨rfl, rfl⟩

/-- No call raised. -/
def NoClfRaised (tests : Column → List (Rat → Bool)) (cuts : Column → List Rat) (cs : List ClfStep) : Prop :=
  ∀ a c b, cs = a ++ c :: b → ((ClfEst.init.fits tests cuts a).fit tests cuts c).2 ≠ .raised

/-- **C105** for sequences of calls of which none raised: probabilities are those of one call, the one whose tree the estimator shows. Missing:
calls that raise (`clf_bad_parameter_raises`, `clf_bad_parameter_column`, `clf_unread_mixes`). -/
theorem clf_consistent_partial (cs : List ClfStep) (h : NoClfRaised tests cuts cs) (X : Frame) (n : Nat) (p : List (List Rat))
    (hp : (ClfEst.init.fits tests cuts cs).proba X n = .probs p) :
    ∃ c ∈ cs, ∃ F t T, c.step.answer = some t ∧ fitBin tests cuts (frameTypes c.step.given c.step.X) c.step.X = some F ∧
      c.rows tests cuts = some T ∧ (ClfEst.init.fits tests cuts cs).base.getTree = some t ∧ c.probs F t T X n = .probs p := by
  rcases List.eq_nil_or_concat cs with rfl | ⟨a, c, rfl⟩
  · exact absurd hp (fun h => ProbaAnswer.noConfusion h)
  · have hr := h a c [] (by simp)
    rw [List.concat_eq_append] at hp ⊢
    rw [ClfEst.fits_snoc] at hp ⊢
    cases hc : ((ClfEst.init.fits tests cuts a).fit tests cuts c).2 with
    | raised => exact absurd hc hr
    | noTree => rw [clf_noTree _ c hc] at hp; exact absurd hp (fun h => ProbaAnswer.noConfusion h)
    | fitted F t =>
      obtain ⟨h1, h2, T, h3, h4⟩ := ClfEst.fit_fitted hc
      rw [h4, ClfEst.proba_whole] at hp
      exact ⟨c, by simp, F, t, T, h1, h2, h3, by rw [h4]; rfl, hp⟩

/-! ### Calls that raise -/

/-- With the binarisers of `estFit`. -/
def clfFit (e : ClfEst) (c : ClfStep) : ClfEst × FitEnd :=
  e.fit (fun c => [fun v => decide (v = c.vals.headD 0)]) (fun c => [c.vals.headD 0]) c

/-- Four rows, one threshold, two classes that the threshold tells apart. -/
def clfGood : ClfStep := ⟨[1, 0, 1, 0], estGood, false⟩

/-- One class only, and a parameter out of range. -/
def clfOneClass : ClfStep := ⟨[0, 0, 0, 0], { estGood with params := false }, false⟩

/-- Three classes, and a parameter out of range. -/
def clfThreeClasses : ClfStep := ⟨[0, 1, 2, 0], { estGood with params := false }, false⟩

/-- Rows that the solver cannot read. -/
def clfUnread : ClfStep := ⟨[1, 0, 1, 1], estUnread, true⟩

set_option maxRecDepth 100000 in
/-- **C105**, violated: after `fit` was refused because of a parameter, `predict` answers as before but `predict_proba` raises, because the number of
classes is that of the refused labels. -/
theorem clf_bad_parameter_raises : ∃ c d : ClfStep, ∃ X n, d.step.params = false ∧ (clfFit (clfFit ClfEst.init c).1 d).2 = .raised ∧
    (clfFit (clfFit ClfEst.init c).1 d).1.base.predict X n = (clfFit ClfEst.init c).1.base.predict X n ∧
    (clfFit ClfEst.init c).1.proba X n = .probs [[0, 1], [1, 0]] ∧ (clfFit (clfFit ClfEst.init c).1 d).1.proba X n = .raises := by
  refine ⟨clfGood, clfOneClass, [⟨0, true, [3, 5]⟩], 2, rfl, rfl, rfl, by decide +kernel, by decide +kernel⟩

set_option maxRecDepth 100000 in
/-- **C105**, violated: or the probabilities get a column for a class that the tree never saw. -/
theorem clf_bad_parameter_column : ∃ c d : ClfStep, ∃ X n, d.step.params = false ∧ (clfFit (clfFit ClfEst.init c).1 d).2 = .raised ∧
    (clfFit ClfEst.init c).1.proba X n = .probs [[0, 1], [1, 0]] ∧
    (clfFit (clfFit ClfEst.init c).1 d).1.proba X n = .probs [[0, 1, 0], [1, 0, 0]] := by
  refine ⟨clfGood, clfThreeClasses, [⟨0, true, [3, 5]⟩], 2, rfl, rfl, by decide +kernel, by decide +kernel⟩

set_option maxRecDepth 100000 in
/-- **C105**, violated: after a call whose rows the solver did not read, the probabilities are frequencies of the new rows in the leaves of the old
tree. -/
theorem clf_unread_mixes : ∃ c d : ClfStep, ∃ X n, (clfFit (clfFit ClfEst.init c).1 d).2 = .raised ∧
    (clfFit ClfEst.init c).1.proba X n = .probs [[0, 1], [1, 0]] ∧
    (clfFit (clfFit ClfEst.init c).1 d).1.proba X n = .probs [[0, 1], [1/2, 1/2]] := by
  refine ⟨clfGood, clfUnread, [⟨0, true, [3, 5]⟩], 2, rfl, by decide +kernel, by decide +kernel⟩

/-- The hypotheses are met. -/
example : ∃ F t, (clfFit ClfEst.init clfGood).2 = .fitted F t := ⟨_, _, rfl⟩

example : NoClfRaised (fun c => [fun v => decide (v = c.vals.headD 0)]) (fun c => [c.vals.headD 0]) [clfGood] := by
  intro a c b h hr
  cases a with
  | nil =>
    simp only [List.nil_append, List.cons.injEq] at h
    rw [← h.1] at hr
    exact absurd hr (fun h => FitEnd.noConfusion h)
  | cons x a =>
    have := congrArg List.length h
    simp at this

end Streed
