import Verif.Model.VecEst
import Verif.Props.CostVecs
import Verif.Props.Estimator

/-!
# C108: the instance-cost-sensitive classifier over several calls of `fit`
-/

namespace Streed

variable {tests : Column → List (Rat → Bool)} {cuts : Column → List Rat}

/-- The number of classes of given costs: the length of the longest vector. -/
def VecInput.classes (y : VecInput) : Nat := y.vecs.foldl (fun m v => max m v.length) 0

/-- What a score should be: the total costs of the predictions of tree `t` for the rows that the binariser makes of `X`, if the costs have the
right shape for `K` classes and there is a cost for every prediction. -/
def IsScore (K : Nat) (F : FittedBin) (t : Tree) (X : Frame) (n : Nat) (y : VecInput) (s : Rat) : Prop :=
  y.Shape (some K) ∧ (∀ v ∈ y.vecs, v ≠ []) ∧ y.vecs.length = n ∧ ∃ cols, F.transform X = some cols ∧
    (∀ r < n, (costOf y.vecs (rowInst cols r) (t.predict (rowInst cols r))).isSome = true) ∧
    s = ((List.range n).map fun r => (costOf y.vecs (rowInst cols r) (t.predict (rowInst cols r))).getD 0).sum

namespace VecEst

theorem fits_snoc (e : VecEst) (cs : List VecStep) (c : VecStep) :
    e.fits tests cuts (cs ++ [c]) = ((e.fits tests cuts cs).fit tests cuts c).1 := by
  unfold VecEst.fits; rw [List.foldl_append]; rfl

theorem checkVecs_classes {y : VecInput} {r : List Nat × Nat} (h : checkVecs none y = some r) : r.2 = y.classes := by
  unfold checkVecs at h
  split at h
  · obtain ⟨ls, -, rfl⟩ := Option.map_eq_some_iff.1 h
    rfl
  · cases h

/-- The state after a call that found a tree. -/
theorem fit_fitted {e : VecEst} {c : VecStep} {F : FittedBin} {t : Tree} (h : (e.fit tests cuts c).2 = .fitted F t) :
    c.step.answer = some t ∧ fitBin tests cuts (frameTypes c.step.given c.step.X) c.step.X = some F ∧
    (e.fit tests cuts c).1 = ⟨⟨some (some F), some F.width, some F.width, .val t, some t⟩, some c.y.classes⟩ := by
  unfold VecEst.fit at h ⊢
  cases hc : checkVecs none c.y with
  | none => rw [hc] at h; exact absurd h (fun h => FitEnd.noConfusion h)
  | some r =>
    rw [hc] at h
    dsimp only at h ⊢
    rcases fit_cases (tests := tests) (cuts := cuts) e.base c.step with ⟨h1, -⟩ | ⟨h1, -⟩ | ⟨F', t', h1, h2, h3, h4⟩
    · rw [h1] at h; exact absurd h (fun h => FitEnd.noConfusion h)
    · rw [h1] at h; exact absurd h (fun h => FitEnd.noConfusion h)
    · rw [h1] at h
      injection h with e1 e2
      subst e1 e2
      exact ⟨h2, h3, by rw [h4, checkVecs_classes hc]⟩

theorem score_whole (K : Nat) (F : FittedBin) (t : Tree) (X : Frame) (n : Nat) (y : VecInput) :
    (∀ s, (⟨⟨some (some F), some F.width, some F.width, .val t, some t⟩, some K⟩ : VecEst).score X n y = .total s ↔ IsScore K F t X n y s) ∧
    (⟨⟨some (some F), some F.width, some F.width, .val t, some t⟩, some K⟩ : VecEst).score X n y ≠ .undef := by
  have hv := fun D s => vectors_score K t y D s
  unfold scoreVecs at hv
  unfold VecEst.score IsScore
  dsimp only
  cases hc : checkVecs (some K) y with
  | none =>
    simp only [hc, Option.bind_none] at hv
    refine ⟨fun s => ⟨fun h => ScoreAnswer.noConfusion h, ?_⟩, fun h => ScoreAnswer.noConfusion h⟩
    rintro ⟨h1, h2, -, cols, -, h3, h4⟩
    have := (hv ((List.range n).map (rowInst cols)) s).2 ⟨h1, h2, fun i hi => ?_, ?_⟩
    · cases this
    · obtain ⟨r, hr, rfl⟩ := List.mem_map.1 hi
      exact h3 r (List.mem_range.1 hr)
    · rw [List.map_map]; exact h4
  | some r =>
    simp only [hc, Option.bind_some] at hv
    dsimp only
    rw [if_neg (fun h => FitAttr.noConfusion h)]
    cases hF : F.transform X with
    | none =>
      refine ⟨fun s => ⟨fun h => ScoreAnswer.noConfusion h, ?_⟩, fun h => ScoreAnswer.noConfusion h⟩
      rintro ⟨-, -, -, cols, h, -⟩
      cases h
    | some cols =>
      dsimp only
      rw [← transform_length hF, if_neg (by simp)]
      by_cases hn : y.vecs.length = n
      · rw [if_neg (by simpa using hn), if_neg (Nat.lt_irrefl _)]
        have hv := hv ((List.range n).map (rowInst cols))
        cases hs : vecCost y.vecs t ((List.range n).map (rowInst cols)) with
        | none =>
          rw [hs] at hv
          refine ⟨fun s => ⟨fun h => ScoreAnswer.noConfusion h, ?_⟩, fun h => ScoreAnswer.noConfusion h⟩
          rintro ⟨h1, h2, -, cols', hcols, h3, h4⟩
          obtain rfl := Option.some.inj hcols
          have := (hv s).2 ⟨h1, h2, fun i hi => ?_, ?_⟩
          · cases this
          · obtain ⟨r, hr, rfl⟩ := List.mem_map.1 hi
            exact h3 r (List.mem_range.1 hr)
          · rw [List.map_map]; exact h4
        | some s' =>
          rw [hs] at hv
          refine ⟨fun s => ⟨fun h => ?_, ?_⟩, fun h => ScoreAnswer.noConfusion h⟩
          · injection h with h
            subst h
            obtain ⟨h1, h2, h3, h4⟩ := (hv s').1 rfl
            refine ⟨h1, h2, hn, cols, rfl, fun r hr => h3 _ (List.mem_map.2 ⟨r, List.mem_range.2 hr, rfl⟩), ?_⟩
            rw [List.map_map] at h4; exact h4
          · rintro ⟨h1, h2, -, cols', hcols, h3, h4⟩
            obtain rfl := Option.some.inj hcols
            have := (hv s).2 ⟨h1, h2, fun i hi => ?_, ?_⟩
            · rw [Option.some.inj this]
            · obtain ⟨r, hr, rfl⟩ := List.mem_map.1 hi
              exact h3 r (List.mem_range.1 hr)
            · rw [List.map_map]; exact h4
      · rw [if_pos hn]
        exact ⟨fun s => ⟨fun h => ScoreAnswer.noConfusion h, fun h => absurd h.2.2.1 hn⟩, fun h => ScoreAnswer.noConfusion h⟩

end VecEst

/-- C108 after a successful call: whatever was called before, scores are computed with the classes, the binariser and the tree of this call. -/
theorem vec_fitted (cs : List VecStep) (c : VecStep) (F : FittedBin) (t : Tree)
    (h : ((VecEst.init.fits tests cuts cs).fit tests cuts c).2 = .fitted F t) :
    c.step.answer = some t ∧ fitBin tests cuts (frameTypes c.step.given c.step.X) c.step.X = some F ∧
    ∀ X n y, (∀ s, (VecEst.init.fits tests cuts (cs ++ [c])).score X n y = .total s ↔ IsScore c.y.classes F t X n y s) ∧
      (VecEst.init.fits tests cuts (cs ++ [c])).score X n y ≠ .undef := by
  obtain ⟨h1, h2, h3⟩ := VecEst.fit_fitted h
  refine ⟨h1, h2, fun X n y => ?_⟩
  rw [VecEst.fits_snoc, h3]
  exact VecEst.score_whole _ F t X n y

/-- After a call that found no tree there are no scores. -/
theorem vec_noTree (e : VecEst) (c : VecStep) (h : (e.fit tests cuts c).2 = .noTree) (X : Frame) (n : Nat) (y : VecInput) :
    (e.fit tests cuts c).1.score X n y = .notFitted ∨ (e.fit tests cuts c).1.score X n y = .raises := by
  unfold VecEst.fit at h ⊢
  cases hc : checkVecs none c.y with
  | none => rw [hc] at h; exact absurd h (fun h => FitEnd.noConfusion h)
  | some r =>
    rw [hc] at h
    dsimp only at h ⊢
    rcases fit_cases (tests := tests) (cuts := cuts) e.base c.step with ⟨h1, -⟩ | ⟨-, -, h2, -⟩ | ⟨F, t, h1, -⟩
    · rw [h1] at h; exact absurd h (fun h => FitEnd.noConfusion h)
    · unfold VecEst.score
      dsimp only
      cases checkVecs (some r.2) y with
      | none => exact .inr rfl
      | some _ => exact .inl (if_pos h2)
    · rw [h1] at h; exact absurd h (fun h => FitEnd.noConfusion h)

/-- Costs that are refused change nothing: arrays that are not two-dimensional with two or more columns, and empty vectors. -/
theorem vec_refused (e : VecEst) (c : VecStep) (h : ¬ c.y.Shape none ∨ ∃ v ∈ c.y.vecs, v = []) :
    (e.fit tests cuts c).2 = .raised ∧ (e.fit tests cuts c).1 = e := by
  have : checkVecs none c.y = none := by
    unfold checkVecs
    by_cases hs : c.y.shapeOK none = true
    · rw [if_pos hs]
      rcases h with h | ⟨v, hv, rfl⟩
      · exact absurd ((shapeOK_iff none c.y).1 hs) h
      · cases hm : c.y.vecs.mapM argminVec with
        | none => rfl
        | some ls => exact absurd rfl ((Vecs.mapM_argmin.1 hm).1 [] hv)
    · rw [if_neg hs]
  unfold VecEst.fit
  rw [this]
  exact ⟨rfl, rfl⟩

/-- A call with a parameter out of range changes nothing if its costs have as many classes as those of the last call. -/
theorem vec_same_classes (e : VecEst) (c : VecStep) (hp : c.step.params = false) (hn : e.nC = some c.y.classes) :
    (e.fit tests cuts c).2 = .raised ∧ (e.fit tests cuts c).1 = e := by
  have hr : e.base.fit tests cuts c.step = (e.base, .raised) := by unfold Est.fit; rw [hp]; rfl
  unfold VecEst.fit
  cases hc : checkVecs none c.y with
  | none => exact ⟨rfl, rfl⟩
  | some r =>
    dsimp only
    rw [hr, VecEst.checkVecs_classes hc, ← hn]
    exact ⟨rfl, rfl⟩

/-- A call with a parameter out of range raises and keeps the attributes of the base class. -/
theorem vec_params_raised (e : VecEst) (c : VecStep) (hp : c.step.params = false) :
    (e.fit tests cuts c).2 = .raised ∧ (e.fit tests cuts c).1.base = e.base := by
  have hr : e.base.fit tests cuts c.step = (e.base, .raised) := by unfold Est.fit; rw [hp]; rfl
  unfold VecEst.fit
  cases checkVecs none c.y with
  | none => exact ⟨rfl, rfl⟩
  | some r => dsimp only; rw [hr]; exact ⟨rfl, rfl⟩

/-- No call raised. -/
def NoVecRaised (tests : Column → List (Rat → Bool)) (cuts : Column → List Rat) (cs : List VecStep) : Prop :=
  ∀ a c b, cs = a ++ c :: b → ((VecEst.init.fits tests cuts a).fit tests cuts c).2 ≠ .raised

/-- **C108** for sequences of calls of which none raised: a score is that of one call, the one whose tree the estimator shows. Missing: calls that
raise (`vec_bad_parameter_raises`, `vec_bad_parameter_accepts`). -/
theorem vec_consistent_partial (cs : List VecStep) (h : NoVecRaised tests cuts cs) (X : Frame) (n : Nat) (y : VecInput) (s : Rat)
    (hs : (VecEst.init.fits tests cuts cs).score X n y = .total s) :
    ∃ c ∈ cs, ∃ F t, c.step.answer = some t ∧ fitBin tests cuts (frameTypes c.step.given c.step.X) c.step.X = some F ∧
      (VecEst.init.fits tests cuts cs).base.getTree = some t ∧ IsScore c.y.classes F t X n y s := by
  rcases List.eq_nil_or_concat cs with rfl | ⟨a, c, rfl⟩
  · exfalso
    unfold VecEst.fits VecEst.score at hs
    dsimp only [List.foldl_nil, VecEst.init, Est.init] at hs
    split at hs
    · exact ScoreAnswer.noConfusion hs
    · exact ScoreAnswer.noConfusion hs
  · have hr := h a c [] (by simp)
    rw [List.concat_eq_append] at hs ⊢
    cases hc : ((VecEst.init.fits tests cuts a).fit tests cuts c).2 with
    | raised => exact absurd hc hr
    | noTree =>
      rw [VecEst.fits_snoc] at hs
      rcases vec_noTree _ c hc X n y with h | h <;> (rw [h] at hs; exact absurd hs (fun h => ScoreAnswer.noConfusion h))
    | fitted F t =>
      obtain ⟨h1, h2, h3⟩ := vec_fitted a c F t hc
      refine ⟨c, by simp, F, t, h1, h2, ?_, ((h3 X n y).1 s).1 hs⟩
      rw [VecEst.fits_snoc, (VecEst.fit_fitted hc).2.2]; rfl

/-! ### Calls that raise -/

/-- With the binarisers of `estFit`. -/
def vecFit (e : VecEst) (c : VecStep) : VecEst × FitEnd :=
  e.fit (fun c => [fun v => decide (v = c.vals.headD 0)]) (fun c => [c.vals.headD 0]) c

/-- Four rows with two costs each. -/
def vecGood : VecStep := ⟨.array 2 [[1, 0], [0, 2], [3, 0], [0, 4]], estGood⟩

/-- Three costs for each row, and a parameter out of range. -/
def vecThree : VecStep := ⟨.array 3 [[1, 0, 1], [0, 2, 1], [3, 0, 1], [0, 4, 1]], { estGood with params := false }⟩

set_option maxRecDepth 100000 in
/-- **C108**, violated: after `fit` was refused because of a parameter, `predict` answers as before but `score` refuses costs for the classes of the
tree. -/
theorem vec_bad_parameter_raises : ∃ c d : VecStep, ∃ X n y, d.step.params = false ∧ (vecFit (vecFit VecEst.init c).1 d).2 = .raised ∧
    (vecFit (vecFit VecEst.init c).1 d).1.base.predict X n = (vecFit VecEst.init c).1.base.predict X n ∧
    (vecFit VecEst.init c).1.score X n y = .total 7 ∧ (vecFit (vecFit VecEst.init c).1 d).1.score X n y = .raises := by
  refine ⟨vecGood, vecThree, [⟨0, true, [3, 5]⟩], 2, .array 2 [[5, 6], [1, 2]], rfl, (vec_params_raised _ vecThree rfl).1,
    by unfold vecFit; rw [(vec_params_raised _ vecThree rfl).2], by decide +kernel, by decide +kernel⟩

set_option maxRecDepth 100000 in
/-- **C108**, violated: and it accepts costs for other classes. -/
theorem vec_bad_parameter_accepts : ∃ c d : VecStep, ∃ X n y, d.step.params = false ∧ (vecFit (vecFit VecEst.init c).1 d).2 = .raised ∧
    (vecFit VecEst.init c).1.score X n y = .raises ∧ (vecFit (vecFit VecEst.init c).1 d).1.score X n y = .total 7 := by
  refine ⟨vecGood, vecThree, [⟨0, true, [3, 5]⟩], 2, .array 3 [[5, 6, 0], [1, 2, 0]], rfl, (vec_params_raised _ vecThree rfl).1,
    by decide +kernel, by decide +kernel⟩

/-- The hypotheses are met. -/
example : (vecFit VecEst.init vecGood).2 matches .fitted .. := by decide +kernel

example : NoVecRaised (fun c => [fun v => decide (v = c.vals.headD 0)]) (fun c => [c.vals.headD 0]) [vecGood] := by
  intro a c b h hr
  cases a with
  | nil =>
    simp only [List.nil_append, List.cons.injEq] at h
    rw [← h.1] at hr
    have : ¬ ((vecFit VecEst.init vecGood).2 matches .raised) := by decide +kernel
    apply this
    show (match (vecFit VecEst.init vecGood).2 with | .raised => true | _ => false) = true
    unfold vecFit
    have hr' : (VecEst.init.fit (fun c => [fun v => decide (v = c.vals.headD 0)]) (fun c => [c.vals.headD 0]) vecGood).2 = .raised := hr
    rw [hr']
  | cons x a =>
    have := congrArg List.length h
    simp at this

end Streed
