import Verif.Model.PolEst
import Verif.Props.PolicyData
import Verif.Props.Estimator

/-!
# C111: the policy estimator over several calls of `fit`
-/

namespace Streed

variable {tests : Column → List (Rat → Bool)} {cuts : Column → List Rat}

/-- What a score should be: the share of the rows that the binariser makes of `X` for which the prediction of `t` is the best treatment. -/
def IsShare (F : FittedBin) (t : Tree) (X : Frame) (ps : List PPG) (s : Rat) : Prop :=
  ∃ cols, F.transform X = some cols ∧ ps ≠ [] ∧
    s * ps.length = (((List.range ps.length).filter fun r => decide ((ps[r]?).map (·.kOpt) = some (t.predict (rowInst cols r) : Int))).length : Nat)

namespace PolEst

theorem fits_snoc (e : PolEst) (cs : List PolStep) (c : PolStep) :
    e.fits tests cuts (cs ++ [c]) = ((e.fits tests cuts cs).fit tests cuts c).1 := by
  unfold PolEst.fits; rw [List.foldl_append]; rfl

/-- The number of treatments that a call stores: the different ones in the records it reads. -/
theorem stored_treatments {w : Nat} {stored : Option Nat} {rows : List (List Rat)} {r : List PPG × Nat} (h : ppgCheck w stored true rows = some r) :
    r.2 = (r.1.map (·.k)).dedup.length ∧ ppgCheck w none true rows = some r := by
  unfold ppgCheck at h ⊢
  split at h
  · cases h
  · rename_i hw
    rw [if_neg hw]
    have ht : ppgTreatments stored true rows = ppgTreatments none true rows := by
      unfold ppgTreatments; cases stored <;> rfl
    rw [ht] at h
    split at h
    · cases h
    · rename_i ps hps
      cases stored <;> (simp only [if_true] at h; obtain rfl := Option.some.inj h; exact ⟨rfl, rfl⟩)

/-- The state after a call that found a tree. -/
theorem fit_fitted {e : PolEst} {c : PolStep} {F : FittedBin} {t : Tree} (h : (e.fit tests cuts c).2 = .fitted F t) :
    ∃ r, ppgCheck c.width none true c.rows = some r ∧ c.step.answer = some t ∧
    fitBin tests cuts (frameTypes c.step.given c.step.X) c.step.X = some F ∧
    (e.fit tests cuts c).1 = ⟨⟨some (some F), some F.width, some F.width, .val t, some t⟩, some r.2⟩ := by
  unfold PolEst.fit at h ⊢
  cases hc : ppgCheck c.width e.nC true c.rows with
  | none => rw [hc] at h; exact absurd h (fun h => FitEnd.noConfusion h)
  | some r =>
    rw [hc] at h
    dsimp only at h ⊢
    rcases fit_cases (tests := tests) (cuts := cuts) e.base c.step with ⟨h1, -⟩ | ⟨h1, -⟩ | ⟨F', t', h1, h2, h3, h4⟩
    · rw [h1] at h; exact absurd h (fun h => FitEnd.noConfusion h)
    · rw [h1] at h; exact absurd h (fun h => FitEnd.noConfusion h)
    · rw [h1] at h
      injection h with e1 e2
      subst e1 e2
      exact ⟨r, (stored_treatments hc).2, h2, h3, by rw [h4]⟩

theorem zipIdx_filter (ps : List PPG) (g : Nat → Int) :
    (ps.zipIdx.filter fun p => decide (p.1.kOpt = g p.2)).length =
    ((List.range ps.length).filter fun r => decide ((ps[r]?).map (·.kOpt) = some (g r))).length := by
  rw [← List.countP_eq_length_filter, ← List.countP_eq_length_filter]
  have : (List.range ps.length) = ps.zipIdx.map (·.2) := by
    rw [List.zipIdx_map_snd, List.range_eq_range']
  rw [this, List.countP_map]
  apply List.countP_congr
  intro p hp
  obtain ⟨p, r⟩ := p
  have := List.mem_zipIdx_iff_getElem?.1 hp
  simp only [Function.comp, this, Option.map_some, Option.some.injEq]

theorem score_whole (K : Nat) (F : FittedBin) (t : Tree) (X : Frame) (n w : Nat) (rows : List (List Rat)) (s : Rat) :
    (⟨⟨some (some F), some F.width, some F.width, .val t, some t⟩, some K⟩ : PolEst).score X n w rows = .share s ↔
    ∃ ps, ppgCheck w (some K) false rows = some (ps, K) ∧ rows.length = n ∧ (∀ p ∈ ps, 0 ≤ p.k) ∧ IsShare F t X ps s := by
  have hK : ∀ r, ppgCheck w (some K) false rows = some r → r.2 = K ∧ r.1.length = rows.length := by
    intro r h
    unfold ppgCheck at h
    split at h
    · cases h
    · split at h
      · cases h
      · rename_i ps hps
        obtain rfl := Option.some.inj h
        refine ⟨by simp, ?_⟩
        dsimp only
        clear h
        generalize ppgTreatments (some K) false rows = m at hps
        induction rows generalizing ps with
        | nil => unfold ppgRows at hps; obtain rfl := Option.some.inj hps; rfl
        | cons a l ih =>
          unfold ppgRows at hps
          split at hps
          · rename_i p qs _ hq
            obtain rfl := Option.some.inj hps
            rw [List.length_cons, List.length_cons, ih qs hq]
          · cases hps
  unfold PolEst.score
  dsimp only
  cases hc : ppgCheck w (some K) false rows with
  | none =>
    refine ⟨fun h => ShareAnswer.noConfusion h, ?_⟩
    rintro ⟨ps, h, -⟩
    simp at h
  | some r =>
    obtain ⟨ps, K'⟩ := r
    obtain ⟨rfl, hl⟩ := hK _ hc
    dsimp only at hl ⊢
    rw [if_neg (fun h => FitAttr.noConfusion h)]
    unfold IsShare
    cases hF : F.transform X with
    | none =>
      refine ⟨fun h => ShareAnswer.noConfusion h, ?_⟩
      rintro ⟨_, -, -, -, cols, h, -⟩
      simp at h
    | some cols =>
      dsimp only
      by_cases h0 : n = 0
      · rw [if_pos h0]
        refine ⟨fun h => ShareAnswer.noConfusion h, ?_⟩
        rintro ⟨qs, hq, h1, -, -, -, h2, -⟩
        simp only [Option.some.injEq, Prod.mk.injEq, and_true] at hq
        subst hq
        exact absurd (List.length_eq_zero_iff.1 (by omega)) h2
      rw [if_neg h0, ← transform_length hF, if_neg (by simp)]
      by_cases hn : rows.length = n
      · rw [if_neg (by simpa using hn)]
        by_cases hk : (ps.any fun p => decide (p.k < 0)) = true
        · rw [if_pos hk]
          refine ⟨fun h => ShareAnswer.noConfusion h, ?_⟩
          rintro ⟨qs, hq, -, h1, -⟩
          simp only [Option.some.injEq, Prod.mk.injEq, and_true] at hq
          subst hq
          obtain ⟨p, hp, hp'⟩ := List.any_eq_true.1 hk
          have := h1 p hp
          simp only [decide_eq_true_eq] at hp'
          omega
        · rw [if_neg hk, if_neg (Nat.lt_irrefl _)]
          have hpos : (ps.length : Rat) ≠ 0 := by rw [hl, hn]; exact_mod_cast h0
          have hz := zipIdx_filter ps fun r => (t.predict (rowInst cols r) : Int)
          constructor
          · intro h
            injection h with h
            refine ⟨ps, rfl, hn, fun p hp => ?_, cols, rfl, ?_, ?_⟩
            · by_contra hneg
              exact hk (List.any_eq_true.2 ⟨p, hp, by simp; omega⟩)
            · rintro rfl; simp at hpos
            · rw [← h, ← hz, show (n : Rat) = ps.length by rw [hl, hn]]
              exact div_mul_cancel₀ _ hpos
          · rintro ⟨qs, hq, -, -, cols', hcols, -, h2⟩
            obtain rfl := Option.some.inj hcols
            simp only [Option.some.injEq, Prod.mk.injEq, and_true] at hq
            subst hq
            rw [hz, ← h2, show (n : Rat) = ps.length by rw [hl, hn], mul_div_assoc, div_self hpos, mul_one]
      · rw [if_pos hn]
        refine ⟨fun h => ShareAnswer.noConfusion h, ?_⟩
        rintro ⟨_, -, h, -⟩
        exact absurd h hn

end PolEst

/-- C111 after a successful call: whatever was called before, an array of new data is read for the treatments of this call and judged by its tree. -/
theorem pol_fitted (cs : List PolStep) (c : PolStep) (F : FittedBin) (t : Tree)
    (h : ((PolEst.init.fits tests cuts cs).fit tests cuts c).2 = .fitted F t) :
    c.step.answer = some t ∧ fitBin tests cuts (frameTypes c.step.given c.step.X) c.step.X = some F ∧
    ∃ qs K, ppgCheck c.width none true c.rows = some (qs, K) ∧ K = (qs.map (·.k)).dedup.length ∧
    ∀ X n w rows s, (PolEst.init.fits tests cuts (cs ++ [c])).score X n w rows = .share s ↔
      ∃ ps, ppgCheck w (some K) false rows = some (ps, K) ∧ rows.length = n ∧ (∀ p ∈ ps, 0 ≤ p.k) ∧ IsShare F t X ps s := by
  obtain ⟨⟨qs, K⟩, h0, h1, h2, h3⟩ := PolEst.fit_fitted h
  refine ⟨h1, h2, qs, K, h0, (PolEst.stored_treatments h0).1, fun X n w rows s => ?_⟩
  rw [PolEst.fits_snoc, h3]
  exact PolEst.score_whole K F t X n w rows s

/-- C111 for documented arrays: after a successful call with a documented array in which all `K` treatments occur, the score for a documented array with
the columns for tests is the share of rows with the best treatment. -/
theorem pol_documented {K : Nat} (cs : List PolStep) (c : PolStep) (F : FittedBin) (t : Tree) (full : Bool) (qs : List PPG)
    (h : ((PolEst.init.fits tests cuts cs).fit tests cuts c).2 = .fitted F t) (hw : c.width = ppgWidth full K)
    (hr : c.rows = qs.map (ppgColumns full)) (hq : ForTreatments K qs) (hall : ∀ k < K, ∃ p ∈ qs, p.k = (k : Int)) (h5 : 5 ≤ ppgWidth full K)
    (X : Frame) (ps : List PPG) (hps : ForTreatments K ps) (s : Rat) :
    (PolEst.init.fits tests cuts (cs ++ [c])).score X ps.length (ppgWidth true K) (ps.map (ppgColumns true)) = .share s ↔ IsShare F t X ps s := by
  obtain ⟨-, -, qs', K', h1, -, h2⟩ := pol_fitted cs c F t h
  rw [hw, hr, (policy_array_read full qs none hq hall h5).1] at h1
  obtain ⟨-, rfl⟩ := Prod.mk.inj (Option.some.inj h1)
  have hw5 : 5 ≤ ppgWidth true K := by
    unfold ppgWidth at h5 ⊢
    cases full <;> simp at h5 ⊢ <;> omega
  rw [h2, policy_score_array_read true ps (fun p hp => (hps p hp).2.2) hw5]
  simp only [if_true, List.map_id', Option.some.injEq, Prod.mk.injEq, and_true, List.length_map, true_and, exists_eq_left']
  exact ⟨fun h => h.2, fun h => ⟨fun p hp => (hps p hp).1, h⟩⟩

/-- Without the columns for tests, `score` does not raise: it takes treatment 0 for the best one of every row. -/
theorem pol_short_array {K : Nat} (cs : List PolStep) (c : PolStep) (F : FittedBin) (t : Tree) (full : Bool) (qs : List PPG)
    (h : ((PolEst.init.fits tests cuts cs).fit tests cuts c).2 = .fitted F t) (hw : c.width = ppgWidth full K)
    (hr : c.rows = qs.map (ppgColumns full)) (hq : ForTreatments K qs) (hall : ∀ k < K, ∃ p ∈ qs, p.k = (k : Int)) (h5 : 2 ≤ K)
    (X : Frame) (ps : List PPG) (hps : ForTreatments K ps) (s : Rat) :
    (PolEst.init.fits tests cuts (cs ++ [c])).score X ps.length (ppgWidth false K) (ps.map (ppgColumns false)) = .share s ↔
      IsShare F t X (ps.map fun p => { p with kOpt := 0 }) s := by
  obtain ⟨-, -, qs', K', h1, -, h2⟩ := pol_fitted cs c F t h
  rw [hw, hr, (policy_array_read full qs none hq hall (by unfold ppgWidth; cases full <;> simp <;> omega)).1] at h1
  obtain ⟨-, rfl⟩ := Prod.mk.inj (Option.some.inj h1)
  rw [h2, policy_score_array_read false ps (fun p hp => (hps p hp).2.2) (by simp [ppgWidth]; omega)]
  simp only [Bool.false_eq_true, if_false, Option.some.injEq, Prod.mk.injEq, and_true, List.length_map, true_and, exists_eq_left']
  have e : ∀ r : Nat, ((ps.map fun p => p.short)[r]?).map (·.kOpt) = ((ps.map fun p => ({ p with kOpt := 0 } : PPG))[r]?).map (·.kOpt) := by
    intro r
    rw [List.getElem?_map, List.getElem?_map, Option.map_map, Option.map_map]; rfl
  have key : IsShare F t X (ps.map fun p => p.short) s ↔ IsShare F t X (ps.map fun p => { p with kOpt := 0 }) s := by
    unfold IsShare
    simp only [e, List.length_map, ne_eq, List.map_eq_nil_iff]
  rw [key]
  refine ⟨fun h => h.2, fun h => ⟨fun p hp => ?_, h⟩⟩
  obtain ⟨q, hq', rfl⟩ := List.mem_map.1 hp
  exact (hps q hq').1

/-- After a call that found no tree there are no scores. -/
theorem pol_noTree (e : PolEst) (c : PolStep) (h : (e.fit tests cuts c).2 = .noTree) (X : Frame) (n w : Nat) (rows : List (List Rat)) :
    (e.fit tests cuts c).1.score X n w rows = .notFitted ∨ (e.fit tests cuts c).1.score X n w rows = .raises := by
  unfold PolEst.fit at h ⊢
  cases hc : ppgCheck c.width e.nC true c.rows with
  | none => rw [hc] at h; exact absurd h (fun h => FitEnd.noConfusion h)
  | some r =>
    rw [hc] at h
    dsimp only at h ⊢
    rcases fit_cases (tests := tests) (cuts := cuts) e.base c.step with ⟨h1, -⟩ | ⟨-, -, h2, -⟩ | ⟨F, t, h1, -⟩
    · rw [h1] at h; exact absurd h (fun h => FitEnd.noConfusion h)
    · unfold PolEst.score
      dsimp only
      cases ppgCheck w (some r.2) false rows with
      | none => exact .inr rfl
      | some _ => exact .inl (if_pos h2)
    · rw [h1] at h; exact absurd h (fun h => FitEnd.noConfusion h)

/-- A call with a parameter out of range raises and keeps the attributes of the base class. It changes nothing if its array is refused or has as many
treatments as that of the last call. -/
theorem pol_params_raised (e : PolEst) (c : PolStep) (hp : c.step.params = false) :
    (e.fit tests cuts c).2 = .raised ∧ (e.fit tests cuts c).1.base = e.base ∧
    ((∀ qs K, ppgCheck c.width none true c.rows = some (qs, K) → e.nC = some K) → (e.fit tests cuts c).1 = e) := by
  have hr : e.base.fit tests cuts c.step = (e.base, .raised) := by unfold Est.fit; rw [hp]; rfl
  unfold PolEst.fit
  cases hc : ppgCheck c.width e.nC true c.rows with
  | none => exact ⟨rfl, rfl, fun _ => rfl⟩
  | some r =>
    dsimp only
    rw [hr]
    refine ⟨rfl, rfl, fun h => ?_⟩
    rw [← h r.1 r.2 (PolEst.stored_treatments hc).2]

/-- No call raised. -/
def NoPolRaised (tests : Column → List (Rat → Bool)) (cuts : Column → List Rat) (cs : List PolStep) : Prop :=
  ∀ a c b, cs = a ++ c :: b → ((PolEst.init.fits tests cuts a).fit tests cuts c).2 ≠ .raised

/-- **C111** for sequences of calls of which none raised: a score is that of one call, the one whose tree the estimator shows, with the array read for the
treatments of that call. Missing: calls that raise (`pol_bad_parameter_misreads`). -/
theorem pol_consistent_partial (cs : List PolStep) (h : NoPolRaised tests cuts cs) (X : Frame) (n w : Nat) (rows : List (List Rat)) (s : Rat)
    (hs : (PolEst.init.fits tests cuts cs).score X n w rows = .share s) :
    ∃ c ∈ cs, ∃ F t qs K ps, c.step.answer = some t ∧ fitBin tests cuts (frameTypes c.step.given c.step.X) c.step.X = some F ∧
      (PolEst.init.fits tests cuts cs).base.getTree = some t ∧ ppgCheck c.width none true c.rows = some (qs, K) ∧
      ppgCheck w (some K) false rows = some (ps, K) ∧ IsShare F t X ps s := by
  rcases List.eq_nil_or_concat cs with rfl | ⟨a, c, rfl⟩
  · exfalso
    unfold PolEst.fits PolEst.score at hs
    dsimp only [List.foldl_nil, PolEst.init, Est.init] at hs
    split at hs
    · exact ShareAnswer.noConfusion hs
    · exact ShareAnswer.noConfusion hs
  · have hr := h a c [] (by simp)
    rw [List.concat_eq_append] at hs ⊢
    cases hc : ((PolEst.init.fits tests cuts a).fit tests cuts c).2 with
    | raised => exact absurd hc hr
    | noTree =>
      rw [PolEst.fits_snoc] at hs
      rcases pol_noTree _ c hc X n w rows with h | h <;> (rw [h] at hs; exact absurd hs (fun h => ShareAnswer.noConfusion h))
    | fitted F t =>
      obtain ⟨h1, h2, qs, K, h3, -, h4⟩ := pol_fitted a c F t hc
      obtain ⟨ps, h5, -, -, h6⟩ := (h4 X n w rows s).1 hs
      refine ⟨c, by simp, F, t, qs, K, ps, h1, h2, ?_, h3, h5, h6⟩
      obtain ⟨_, -, -, -, h7⟩ := PolEst.fit_fitted hc
      rw [PolEst.fits_snoc, h7]; rfl

/-! ### Calls that raise -/

/-- With the binarisers of `estFit`. -/
def polFit (e : PolEst) (c : PolStep) : PolEst × FitEnd :=
  e.fit (fun c => [fun v => decide (v = c.vals.headD 0)]) (fun c => [c.vals.headD 0]) c

/-- Four records for two treatments. -/
def polTwo : PolStep := ⟨5, [[0, 1, 1 / 2, 1, 0], [1, 1, 1 / 2, 1, 0], [0, 1, 1 / 2, 0, 1], [1, 1, 1 / 2, 0, 1]], estGood⟩

/-- Five records for five treatments, and a parameter out of range. -/
def polFive : PolStep := ⟨8, [[0, 1, 1, 0, 0, 0, 0, 0], [1, 1, 1, 0, 0, 0, 0, 0], [2, 1, 1, 0, 0, 0, 0, 0], [3, 1, 1, 0, 0, 0, 0, 0],
  [4, 1, 1, 0, 0, 0, 0, 0]], { estGood with params := false }⟩

set_option maxRecDepth 100000 in
/-- **C111**, violated: after `fit` was refused because of a parameter, `predict` answers as before, but `score` reads a documented array for other
treatments and gives another score, without any message. -/
theorem pol_bad_parameter_misreads : ∃ c d : PolStep, ∃ X ps, d.step.params = false ∧ (polFit (polFit PolEst.init c).1 d).2 = .raised ∧
    (polFit (polFit PolEst.init c).1 d).1.base.predict X 2 = (polFit PolEst.init c).1.base.predict X 2 ∧ ForTreatments 2 ps ∧
    (polFit PolEst.init c).1.score X 2 (ppgWidth true 2) (ps.map (ppgColumns true)) = .share 1 ∧
    (polFit (polFit PolEst.init c).1 d).1.score X 2 (ppgWidth true 2) (ps.map (ppgColumns true)) = .share (1 / 2) := by
  refine ⟨polTwo, polFive, [⟨0, true, [3, 5]⟩], [⟨0, 1, 1 / 2, [1, 0], 1, [0, 1]⟩, ⟨1, 1, 1 / 2, [1, 0], 0, [0, 1]⟩], rfl,
    (pol_params_raised _ polFive rfl).1, by unfold polFit; rw [(pol_params_raised _ polFive rfl).2.1],
    by unfold ForTreatments; decide, by decide +kernel, by decide +kernel⟩

/-- The hypotheses are met. -/
example : (polFit PolEst.init polTwo).2 matches .fitted .. := by decide +kernel

example : ∃ qs : List PPG, polTwo.width = ppgWidth false 2 ∧ polTwo.rows = qs.map (ppgColumns false) ∧ ForTreatments 2 qs ∧
    ∀ k : Nat, k < 2 → ∃ p ∈ qs, p.k = (k : Int) :=
  ⟨[⟨0, 1, 1 / 2, [1, 0], 0, [0, 0]⟩, ⟨1, 1, 1 / 2, [1, 0], 0, [0, 0]⟩, ⟨0, 1, 1 / 2, [0, 1], 0, [0, 0]⟩, ⟨1, 1, 1 / 2, [0, 1], 0, [0, 0]⟩],
    rfl, by decide +kernel, by unfold ForTreatments; decide, by decide⟩

example : NoPolRaised (fun c => [fun v => decide (v = c.vals.headD 0)]) (fun c => [c.vals.headD 0]) [polTwo] := by
  intro a c b h hr
  cases a with
  | nil =>
    simp only [List.nil_append, List.cons.injEq] at h
    rw [← h.1] at hr
    have : ¬ ((polFit PolEst.init polTwo).2 matches .raised) := by decide +kernel
    apply this
    show (match (polFit PolEst.init polTwo).2 with | .raised => true | _ => false) = true
    unfold polFit
    have hr' : (PolEst.init.fit (fun c => [fun v => decide (v = c.vals.headD 0)]) (fun c => [c.vals.headD 0]) polTwo).2 = .raised := hr
    rw [hr']
  | cons x a =>
    have := congrArg List.length h
    simp at this

end Streed
