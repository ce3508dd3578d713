import Verif.Model.Estimator
import Verif.Props.Columns
import Mathlib.Data.List.Induction

/-!
# C87, C88: estimators after calls that fail, and declared categorical columns
-/

namespace Streed

variable {tests : Column → List (Rat → Bool)} {cuts : Column → List Rat}

/-- The number of binary columns that a binariser makes. -/
def FittedBin.width (F : FittedBin) : Nat := F.bin.length + ((F.cat.map fun p => p.2.length).sum + (F.cont.map fun p => p.2.length).sum)

theorem mapM_length {α β : Type} {f : α → Option β} {l : List α} {r : List β} (h : l.mapM f = some r) : r.length = l.length := by
  induction l generalizing r with
  | nil => simp at h; subst h; rfl
  | cons a l ih =>
    simp only [List.mapM_cons] at h
    obtain ⟨b, h1, h⟩ := Option.bind_eq_some_iff.1 h
    obtain ⟨s, h2, h⟩ := Option.bind_eq_some_iff.1 h
    obtain rfl := Option.some.inj h
    simp [ih h2]

theorem mapM_flatten_length {α β γ : Type} {f : α × List γ → Option (List β)} (hf : ∀ p y, f p = some y → y.length = p.2.length)
    {l : List (α × List γ)} {r : List (List β)} (h : l.mapM f = some r) : r.flatten.length = (l.map fun p => p.2.length).sum := by
  induction l generalizing r with
  | nil => simp at h; subst h; rfl
  | cons a l ih =>
    simp only [List.mapM_cons] at h
    obtain ⟨b, h1, h⟩ := Option.bind_eq_some_iff.1 h
    obtain ⟨s, h2, h⟩ := Option.bind_eq_some_iff.1 h
    obtain rfl := Option.some.inj h
    simp [ih h2, hf _ _ h1]

theorem transform_length {F : FittedBin} {X : Frame} {cols : List (List Bool)} (h : F.transform X = some cols) : cols.length = F.width := by
  unfold FittedBin.transform at h
  obtain ⟨a, h1, h⟩ := Option.bind_eq_some_iff.1 h
  obtain ⟨b, h2, h⟩ := Option.bind_eq_some_iff.1 h
  obtain ⟨c, h3, h⟩ := Option.bind_eq_some_iff.1 h
  obtain rfl := Option.some.inj h
  rw [List.length_append, List.length_append, mapM_length h1,
    mapM_flatten_length (fun p y hy => by obtain ⟨_, _, rfl⟩ := Option.map_eq_some_iff.1 hy; simp) h2,
    mapM_flatten_length (fun p y hy => by obtain ⟨_, _, rfl⟩ := Option.map_eq_some_iff.1 hy; simp) h3]
  rfl

/-- The answer of the tree `t` and the binariser `F`. -/
def answerOf (F : FittedBin) (t : Tree) (X : Frame) (n : Nat) : PyAnswer := (predictFrame F t X n).elim .raises .labels

/-- A state that one call left: nothing is fitted, the attribute is gone, or everything belongs together. -/
def Est.Whole (e : Est) : Prop :=
  match e.res with
  | .absent => True
  | .isNone => e.bin = none
  | .val t => ∃ F, e.bin = some (some F) ∧ e.width = some F.width ∧ e.solver = some F.width ∧ e.tree = some t

theorem predict_whole {e : Est} {F : FittedBin} {t : Tree} (h1 : e.bin = some (some F)) (h2 : e.width = some F.width)
    (h3 : e.solver = some F.width) (h4 : e.res = .val t) (X : Frame) (n : Nat) : e.predict X n = answerOf F t X n := by
  unfold Est.predict answerOf predictFrame
  rw [h4, if_neg (fun h => FitAttr.noConfusion h), h1]
  dsimp only
  cases h : F.transform X with
  | none => rfl
  | some cols =>
    have hl := transform_length h
    dsimp only
    rw [h2, h3, hl]
    simp

/-- What the steps of a call leave. -/
theorem fit_cases (e : Est) (c : FitStep) :
    ((e.fit tests cuts c).2 = .raised ∧ (e.fit tests cuts c).1.res = e.res ∧ (e.fit tests cuts c).1.tree = e.tree ∧
      (c.params = false → (e.fit tests cuts c).1 = e)) ∨
    ((e.fit tests cuts c).2 = .noTree ∧ c.answer = none ∧ (e.fit tests cuts c).1.res = .absent ∧ (e.fit tests cuts c).1.tree = e.tree) ∨
    ∃ F t, (e.fit tests cuts c).2 = .fitted F t ∧ c.answer = some t ∧ fitBin tests cuts (frameTypes c.given c.X) c.X = some F ∧
      (e.fit tests cuts c).1 = ⟨some (some F), some F.width, some F.width, .val t, some t⟩ := by
  unfold Est.fit
  cases hp : c.params
  · exact .inl ⟨rfl, rfl, rfl, fun _ => rfl⟩
  dsimp only [Bool.not_true]
  rw [if_neg (by simp)]
  cases hF : fitBin tests cuts (frameTypes c.given c.X) c.X with
  | none => exact .inl ⟨rfl, rfl, rfl, fun h => by cases h⟩
  | some F =>
    dsimp only
    cases hc : F.transform c.X with
    | none => exact .inl ⟨rfl, rfl, rfl, fun h => by cases h⟩
    | some cols =>
      dsimp only
      cases c.enough
      · exact .inl ⟨rfl, rfl, rfl, fun h => by cases h⟩
      cases c.labels
      · exact .inl ⟨rfl, rfl, rfl, fun h => by cases h⟩
      cases c.extra
      · exact .inl ⟨rfl, rfl, rfl, fun h => by cases h⟩
      cases c.loads
      · exact .inl ⟨rfl, rfl, rfl, fun h => by cases h⟩
      cases ha : c.answer with
      | none => exact .inr (.inl ⟨rfl, rfl, rfl, rfl⟩)
      | some t =>
        refine .inr (.inr ⟨F, t, rfl, rfl, rfl, ?_⟩)
        have := transform_length hc
        simp [this]

/-- **C87**, after a call that found a tree: whatever was called before, also calls that raised, `get_tree` gives its tree, and `predict` answers
with its tree and its binariser. -/
theorem est_fitted (cs : List FitStep) (c : FitStep) (F : FittedBin) (t : Tree)
    (h : ((Est.init.fits tests cuts cs).fit tests cuts c).2 = .fitted F t) :
    c.answer = some t ∧ fitBin tests cuts (frameTypes c.given c.X) c.X = some F ∧
    (Est.init.fits tests cuts (cs ++ [c])).isFitted = true ∧ (Est.init.fits tests cuts (cs ++ [c])).getTree = some t ∧
    ∀ X n, (Est.init.fits tests cuts (cs ++ [c])).predict X n = answerOf F t X n := by
  have hs : Est.init.fits tests cuts (cs ++ [c]) = ((Est.init.fits tests cuts cs).fit tests cuts c).1 := by
    unfold Est.fits; rw [List.foldl_append]; rfl
  rw [hs]
  rcases fit_cases (tests := tests) (cuts := cuts) (Est.init.fits tests cuts cs) c with ⟨h1, -⟩ | ⟨h1, -⟩ | ⟨F', t', h1, h2, h3, h4⟩
  · rw [h] at h1; exact absurd h1 (fun h => FitEnd.noConfusion h)
  · rw [h] at h1; exact absurd h1 (fun h => FitEnd.noConfusion h)
  · rw [h] at h1
    injection h1 with e1 e2
    subst e1; subst e2
    rw [h4]
    exact ⟨h2, h3, rfl, rfl, fun X n => predict_whole rfl rfl rfl rfl X n⟩

/-- The calls of a sequence that raised did so before anything was stored. -/
def NoneRaised (tests : Column → List (Rat → Bool)) (cuts : Column → List Rat) (cs : List FitStep) : Prop :=
  ∀ a c b, cs = a ++ c :: b → ((Est.init.fits tests cuts a).fit tests cuts c).2 = .raised → c.params = false

theorem fits_snoc (e : Est) (cs : List FitStep) (c : FitStep) : e.fits tests cuts (cs ++ [c]) = ((e.fits tests cuts cs).fit tests cuts c).1 := by
  unfold Est.fits; rw [List.foldl_append]; rfl

/-- **C87** for sequences of calls of which none raised after its parameters had been accepted: `predict` is never undefined, answers only if
`is_fitted`, and then with the tree that `get_tree` shows and with the binariser of the same call. Missing: calls that raise later. -/
theorem est_consistent_partial (cs : List FitStep) (h : NoneRaised tests cuts cs) (X : Frame) (n : Nat) :
    (Est.init.fits tests cuts cs).predict X n ≠ .undef ∧
    ∀ l, (Est.init.fits tests cuts cs).predict X n = .labels l → (Est.init.fits tests cuts cs).isFitted = true ∧
      ∃ c ∈ cs, ∃ F t, c.answer = some t ∧ fitBin tests cuts (frameTypes c.given c.X) c.X = some F ∧
        (Est.init.fits tests cuts cs).getTree = some t ∧ predictFrame F t X n = some l := by
  have key : ∀ cs, NoneRaised tests cuts cs →
      (∃ e, Est.init.fits tests cuts cs = e ∧ (e.res = .absent ∨ e = Est.init ∨
        ∃ c ∈ cs, ∃ F t, c.answer = some t ∧ fitBin tests cuts (frameTypes c.given c.X) c.X = some F ∧
          e = ⟨some (some F), some F.width, some F.width, .val t, some t⟩)) := by
    intro cs
    induction cs using List.reverseRecOn with
    | nil => exact fun _ => ⟨_, rfl, .inr (.inl rfl)⟩
    | append_singleton cs c ih =>
      intro h
      obtain ⟨e, he, ih⟩ := ih fun a d b hd hr => h a d (b ++ [c]) (by rw [hd]; simp) hr
      refine ⟨_, rfl, ?_⟩
      rw [fits_snoc, he]
      rcases fit_cases (tests := tests) (cuts := cuts) e c with ⟨h1, h2, -, h3⟩ | ⟨h1, -, h2, -⟩ | ⟨F, t, h1, h2, h3, h4⟩
      · have hp := h cs c [] rfl (by rw [he]; exact h1)
        rw [h3 hp]
        rcases ih with i | i | ⟨d, hd, i⟩
        · exact .inl i
        · exact .inr (.inl i)
        · exact .inr (.inr ⟨d, List.mem_append_left _ hd, i⟩)
      · exact .inl h2
      · exact .inr (.inr ⟨c, by simp, F, t, h2, h3, h4⟩)
  obtain ⟨e, he, hc⟩ := key cs h
  rw [he]
  rcases hc with hc | rfl | ⟨c, hm, F, t, h1, h2, rfl⟩
  · have : e.predict X n = .notFitted := if_pos hc
    rw [this]
    exact ⟨fun h => PyAnswer.noConfusion h, fun l h => PyAnswer.noConfusion h⟩
  · have : Est.init.predict X n = .raises := rfl
    rw [this]
    exact ⟨fun h => PyAnswer.noConfusion h, fun l h => PyAnswer.noConfusion h⟩
  · rw [predict_whole rfl rfl rfl rfl X n]
    unfold answerOf
    cases hx : predictFrame F t X n with
    | none => exact ⟨fun h => PyAnswer.noConfusion h, fun l h => PyAnswer.noConfusion h⟩
    | some ps =>
      refine ⟨fun h => PyAnswer.noConfusion h, fun l hl => ⟨rfl, c, hm, F, t, h1, h2, rfl, ?_⟩⟩
      have : PyAnswer.labels ps = .labels l := hl
      injection this with this
      rw [hx, this]

/-- **C87**, violated: after a call that found no tree, `predict` says that the estimator is not fitted, but `get_tree`, `print_tree` and
`export_dot` go on showing the tree of an earlier call. -/
theorem est_noTree_keeps_tree (e : Est) (c : FitStep) (h : (e.fit tests cuts c).2 = .noTree) :
    (e.fit tests cuts c).1.isFitted = false ∧ (∀ X n, (e.fit tests cuts c).1.predict X n = .notFitted) ∧
      (e.fit tests cuts c).1.getTree = e.getTree := by
  rcases fit_cases (tests := tests) (cuts := cuts) e c with ⟨h1, -⟩ | ⟨-, -, h2, h3⟩ | ⟨F, t, h1, -⟩
  · rw [h] at h1; exact absurd h1 (fun h => FitEnd.noConfusion h)
  · exact ⟨by unfold Est.isFitted; rw [h2]; rfl, fun X n => if_pos h2, h3⟩
  · rw [h] at h1; exact absurd h1 (fun h => FitEnd.noConfusion h)

/-- **C87**, violated: a new estimator reports that it is fitted, and `predict` fails with another exception than `NotFittedError`. -/
theorem est_new_is_fitted : Est.init.isFitted = true ∧ Est.init.getTree = none ∧ ∀ X n, Est.init.predict X n = .raises :=
  ⟨rfl, rfl, fun _ _ => rfl⟩

/-- One threshold for each continuous column, the first value; one category, the first value. -/
def estFit (e : Est) (c : FitStep) : Est × FitEnd :=
  e.fit (fun c => [fun v => decide (v = c.vals.headD 0)]) (fun c => [c.vals.headD 0]) c

/-- A first call that finds a tree. -/
def estGood : FitStep := ⟨true, [⟨0, true, [3, 5, 2, 9]⟩], [], true, true, true, true, some (.node 0 (.leaf 0) (.leaf 1))⟩

/-- A second call, with other data and too few labels. -/
def estBad : FitStep := ⟨true, [⟨0, true, [8, 5, 2, 9]⟩], [], true, false, true, true, none⟩

/-- A second call with more columns and too few labels. -/
def estWide : FitStep := ⟨true, [⟨0, true, [8, 5, 2, 9]⟩, ⟨1, true, [8, 5, 2, 9]⟩], [], true, false, true, true, none⟩

/-- A second call whose data the solver cannot read. -/
def estUnread : FitStep := ⟨true, [⟨0, true, [3, 5, 2, 9]⟩], [], true, true, true, false, none⟩

/-- A second call without a feasible tree. -/
def estNone : FitStep := ⟨true, [⟨0, true, [3, 5, 2, 9]⟩], [], true, true, true, true, none⟩

set_option maxRecDepth 100000 in
/-- **C87**, violated: a call of `fit` that raises changes the predictions of an estimator that was fitted before: the tree is the old one,
the thresholds are those of the rejected data. -/
theorem est_raised_mixes : ∃ c d : FitStep, ∃ X n, (estFit (estFit Est.init c).1 d).2 = .raised ∧
    (estFit Est.init c).1.predict X n = .labels [1, 0] ∧ (estFit (estFit Est.init c).1 d).1.predict X n = .labels [1, 1] := by
  refine ⟨estGood, estBad, [⟨0, true, [3, 5]⟩], 2, rfl, by decide +kernel, by decide +kernel⟩

set_option maxRecDepth 100000 in
/-- **C87**, violated: after a call that raises because the labels are wrong or because the solver cannot read the data, predicting with the
earlier result is undefined behaviour. -/
theorem est_raised_undefined : ∃ c d d' : FitStep, ∃ X Y n,
    (estFit (estFit Est.init c).1 d).2 = .raised ∧ (estFit (estFit Est.init c).1 d).1.predict X n = .undef ∧
    (estFit (estFit Est.init c).1 d').2 = .raised ∧ (estFit (estFit Est.init c).1 d').1.predict Y n = .undef := by
  refine ⟨estGood, estWide, estUnread, [⟨0, true, [3, 5]⟩, ⟨1, true, [3, 5]⟩], [⟨0, true, [3, 5]⟩], 2, rfl, by decide +kernel, rfl, by decide +kernel⟩

/-- **C87**, violated: a call whose columns the binariser refuses leaves the estimator reporting that it is fitted and showing the earlier
tree, but every prediction raises. -/
theorem est_raised_no_predictions (e : Est) (c : FitStep) (hp : c.params = true)
    (hb : fitBin tests cuts (frameTypes c.given c.X) c.X = none) (he : e.isFitted = true) :
    (e.fit tests cuts c).2 = .raised ∧ (e.fit tests cuts c).1.isFitted = true ∧ (e.fit tests cuts c).1.getTree = e.getTree ∧
      ∀ X n, (e.fit tests cuts c).1.predict X n = .raises := by
  have h : e.fit tests cuts c = ({ e with bin := some none }, .raised) := by
    unfold Est.fit
    rw [hp, hb]
    rfl
  rw [h]
  refine ⟨rfl, he, rfl, fun X n => ?_⟩
  have hr : e.res ≠ .absent := by simpa [Est.isFitted] using he
  exact if_neg hr

/-- After a fit, a call with a declared column that the frame does not have. -/
example : (estFit (estFit Est.init estGood).1 ⟨true, [⟨0, false, [3, 5]⟩], [7], true, true, true, true, none⟩).2 = .raised ∧
    fitBin (fun c => [fun v => decide (v = c.vals.headD 0)]) (fun c => [c.vals.headD 0]) (frameTypes [7] [⟨0, false, [3, 5]⟩])
      [⟨0, false, [3, 5]⟩] = none ∧ (estFit Est.init estGood).1.isFitted = true := ⟨rfl, rfl, rfl⟩

/-- A sequence as in `est_consistent_partial`: a tree, a call with wrong parameters, no tree, a tree. -/
example : (estFit Est.init estGood).2 matches .fitted .. ∧ (estFit Est.init { estGood with params := false }).2 matches .raised ∧
    (estFit (estFit Est.init estGood).1 estNone).2 matches .noTree ∧
    (estFit (estFit Est.init estGood).1 estNone).1.getTree = some (.node 0 (.leaf 0) (.leaf 1)) := by
  exact ⟨rfl, rfl, rfl, rfl⟩

example : NoneRaised (fun c => [fun v => decide (v = c.vals.headD 0)]) (fun c => [c.vals.headD 0])
    [estGood, { estGood with params := false }, estNone] := by
  intro a c b h hr
  rcases a with _ | ⟨x, _ | ⟨y, _ | ⟨z, a⟩⟩⟩
  · injection h with h1 _
    subst h1
    exact absurd hr (fun h => FitEnd.noConfusion h)
  · injection h with h1 h
    injection h with h2 _
    subst h2
    rfl
  · injection h with h1 h
    injection h with h2 h
    injection h with h3 _
    subst h1 h2 h3
    exact absurd hr (fun h => FitEnd.noConfusion h)
  · simp at h

/-! ### C88: declared categorical columns -/

/-- **C88** for the estimators that pass the argument on: a declared column gets the tests made for categories and no thresholds.
Missing: the three others. -/
theorem declared_categorical_partial (k : EstKind) (hk : k ≠ .costSensitive ∧ k ≠ .groupFair ∧ k ≠ .instanceCosts) (given : List Nat) (X : Frame)
    (F : FittedBin) (h : k.fitBin tests cuts (some given) X = some F) (n : Nat) (hn : n ∈ given) :
    (∃ c, X.col n = some c ∧ (n, tests c) ∈ F.cat) ∧ ∀ p ∈ F.cont, p.1 ≠ n := by
  have hp : k.passes (some given) = (false, given) := by
    cases k <;> first | rfl | exact absurd rfl hk.1 | exact absurd rfl hk.2.1 | exact absurd rfl hk.2.2
  unfold EstKind.fitBin at h
  rw [hp] at h
  obtain ⟨G, h1, h2⟩ := Option.bind_eq_some_iff.1 h
  simp only [Bool.false_eq_true, if_false, Option.some.injEq] at h2
  subst h2
  unfold fitBin at h1
  obtain ⟨cat, h3, h1⟩ := Option.bind_eq_some_iff.1 h1
  obtain ⟨cont, h4, h1⟩ := Option.bind_eq_some_iff.1 h1
  obtain rfl := Option.some.inj h1
  have hc : n ∈ (frameTypes given X).2.1 := List.mem_append_left _ hn
  constructor
  · obtain ⟨p, hp, h5⟩ := mapM_image h3 n hc
    obtain ⟨c, h6, h7⟩ := Option.map_eq_some_iff.1 h5
    exact ⟨c, h6, h7 ▸ hp⟩
  · rintro p hp rfl
    obtain ⟨m, hm, h5⟩ := mapM_mem h4 p hp
    obtain ⟨c, h6, h7⟩ := Option.map_eq_some_iff.1 h5
    subst h7
    obtain ⟨d, h8, h9⟩ := List.mem_map.1 hm
    have h8 := (List.mem_filter.1 h8).2
    rw [h9] at h8
    simp only [Bool.and_eq_true, Bool.not_eq_true', List.contains_eq_mem, decide_eq_false_iff_not] at h8
    exact h8.1 (List.mem_append_left _ hn)

/-- **C88**, violated: the classifier with instance costs ignores the declaration, so a numeric column that is not binary gets thresholds. -/
theorem declared_ignored (cat : Option (List Nat)) (X : Frame) :
    EstKind.instanceCosts.fitBin tests cuts cat X = EstKind.instanceCosts.fitBin tests cuts none X ∧
    ∀ F, EstKind.instanceCosts.fitBin tests cuts cat X = some F → ∀ c ∈ X, X.col c.name = some c → c.numeric = true → c.binary = false →
      (∀ d ∈ X, d.name = c.name → d = c) → (c.name, cuts c) ∈ F.cont := by
  refine ⟨rfl, fun F h c hc hx hn hb hu => ?_⟩
  obtain ⟨G, h1, h2⟩ := Option.bind_eq_some_iff.1 h
  have h2 : some G = some F := h2
  obtain rfl := Option.some.inj h2
  unfold fitBin at h1
  obtain ⟨cat', h3, h1⟩ := Option.bind_eq_some_iff.1 h1
  obtain ⟨cont, h4, h1⟩ := Option.bind_eq_some_iff.1 h1
  obtain rfl := Option.some.inj h1
  have hm : c.name ∈ (frameTypes [] X).2.2 := by
    refine List.mem_map.2 ⟨c, List.mem_filter.2 ⟨hc, ?_⟩, rfl⟩
    simp only [Bool.and_eq_true, Bool.not_eq_true', List.contains_eq_mem, decide_eq_false_iff_not, List.nil_append, List.mem_map,
      List.mem_filter, not_exists, not_and]
    constructor
    · intro d hd he
      rw [hu d hd.1 he] at hd
      simp [hn] at hd
    · intro d hd he
      rw [hu d hd.1 he, hb] at hd
      simp at hd
  obtain ⟨p, hp, h5⟩ := mapM_image h4 c.name hm
  obtain ⟨c', h6, h7⟩ := Option.map_eq_some_iff.1 h5
  rw [hx] at h6
  obtain rfl := Option.some.inj h6
  exact h7 ▸ hp

/-- **C88**, violated: the cost-sensitive and the group-fair classifier raise whenever the argument is given, even with an empty list. -/
theorem declared_raises (k : EstKind) (hk : k = .costSensitive ∨ k = .groupFair) (given : List Nat) (X : Frame) :
    k.fitBin tests cuts (some given) X = none := by
  unfold EstKind.fitBin
  rcases hk with rfl | rfl <;>
  · simp only [EstKind.passes, Option.isSome_some, if_true]
    cases fitBin tests cuts (frameTypes [] X) X <;> rfl

set_option maxRecDepth 100000 in
/-- A numeric column with four values, declared categorical. -/
example : let X : Frame := [⟨0, true, [3, 5, 2, 9]⟩]
    let fit := fun k : EstKind => k.fitBin (fun c => [fun v => decide (v = c.vals.headD 0)]) (fun c => [c.vals.headD 0]) (some [0]) X
    ((fit .survival).map fun F => (F.cat.map (·.1), F.cont)) = some ([0], []) ∧
    ((fit .instanceCosts).map fun F => (F.cat.map (·.1), F.cont)) = some ([], [(0, [3])]) ∧ (fit .groupFair).isNone = true := by
  exact ⟨by decide +kernel, by decide +kernel, by decide +kernel⟩

end Streed
