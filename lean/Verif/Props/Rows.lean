import Verif.Model.Rows

/-!
# C95: data of different lengths are refused
-/

namespace Streed

namespace Rows

variable {R L E : Type}

/-- The rows with their own labels and extra data, in order. -/
def together : List R → List L → List E → List (R × L × E)
  | r :: X, l :: y, d :: e => (r, l, d) :: together X y e
  | _, _, _ => []

theorem together_get (X : List R) (y : List L) (e : List E) (hy : y.length = X.length) (he : e.length = X.length) :
    (together X y e).length = X.length ∧ ∀ (i : Nat) (r : R) (l : L) (d : E), X[i]? = some r → y[i]? = some l → e[i]? = some d →
      (together X y e)[i]? = some (r, l, d) := by
  induction X generalizing y e with
  | nil => simp [together]
  | cons r X ih =>
    obtain ⟨l, y, rfl⟩ := List.exists_cons_of_length_eq_add_one (n := X.length) (by simpa using hy)
    obtain ⟨d, e, rfl⟩ := List.exists_cons_of_length_eq_add_one (n := X.length) (by simpa using he)
    obtain ⟨h1, h2⟩ := ih y e (by simpa using hy) (by simpa using he)
    refine ⟨by simp [together, h1], ?_⟩
    intro i r' l' d' a b c
    cases i with
    | zero => simp_all [together]
    | succ i => simp only [List.getElem?_cons_succ] at a b c; simpa [together] using h2 i r' l' d' a b c

/-- What the loop needs: a label and an item for each row, or none at all. -/
theorem load_some_iff (l₀ : L) (e₀ : E) (y : List L) (e : List E) (i : Nat) (X : List R) :
    (load l₀ e₀ y e i X).isSome = true ↔ X = [] ∨ ((y = [] ∨ i + X.length ≤ y.length) ∧ (e = [] ∨ i + X.length ≤ e.length)) := by
  induction X generalizing i with
  | nil => simp [load]
  | cons r X ih =>
    have h := ih (i + 1)
    have opt : ∀ {A : Type} (a₀ : A) (l : List A), ((if l = [] then some a₀ else l[i]?).isSome = true) ↔ (l = [] ∨ i < l.length) := by
      intro A a₀ l
      by_cases hl : l = []
      · simp [hl]
      · simp [hl]
    have hy := opt l₀ y
    have he := opt e₀ e
    have e1 : (load l₀ e₀ y e i (r :: X)).isSome = true ↔ (((if y = [] then some l₀ else y[i]?).isSome = true) ∧
        ((if e = [] then some e₀ else e[i]?).isSome = true)) ∧ (load l₀ e₀ y e (i + 1) X).isSome = true := by
      rw [show load l₀ e₀ y e i (r :: X) = match (if y = [] then some l₀ else y[i]?), (if e = [] then some e₀ else e[i]?),
          load l₀ e₀ y e (i + 1) X with
        | some l, some d, some rest => some ((r, l, d) :: rest)
        | _, _, _ => none from rfl]
      cases (if y = [] then some l₀ else y[i]?) <;> cases (if e = [] then some e₀ else e[i]?) <;> cases load l₀ e₀ y e (i + 1) X <;> simp
    rw [e1, hy, he, h]
    simp only [List.length_cons, List.cons_ne_nil, false_or]
    constructor
    · rintro ⟨⟨a, b⟩, c⟩
      rcases c with rfl | ⟨c, d⟩
      · simp only [List.length_nil]
        exact ⟨a.imp_right (by omega), b.imp_right (by omega)⟩
      · exact ⟨c.imp_right (by omega), d.imp_right (by omega)⟩
    · rintro ⟨a, b⟩
      exact ⟨⟨a.imp_right (by omega), b.imp_right (by omega)⟩, Or.inr ⟨a.imp_right (by omega), b.imp_right (by omega)⟩⟩

/-- If there is one label and one item per row, every row gets its own. -/
theorem load_together (l₀ : L) (e₀ : E) (y : List L) (e : List E) (i : Nat) (X : List R) (hy : i + X.length = y.length)
    (he : i + X.length = e.length) : load l₀ e₀ y e i X = some (together X (y.drop i) (e.drop i)) := by
  induction X generalizing i with
  | nil => simp [load, together]
  | cons r X ih =>
    simp only [List.length_cons] at hy he
    have h1 : i < y.length := by omega
    have h2 : i < e.length := by omega
    have y0 : y ≠ [] := by rintro rfl; simp at h1
    have e0 : e ≠ [] := by rintro rfl; simp at h2
    unfold load
    rw [if_neg y0, if_neg e0, List.getElem?_eq_getElem h1, List.getElem?_eq_getElem h2, ih (i + 1) (by omega) (by omega),
      List.drop_eq_getElem_cons h1, List.drop_eq_getElem_cons h2]
    rfl

/-- With labels and no extra data every row gets its own label and the default item. -/
theorem load_labels (l₀ : L) (e₀ : E) (y : List L) (i : Nat) (X : List R) (hy : i + X.length = y.length) :
    load l₀ e₀ y [] i X = some (together X (y.drop i) (X.map fun _ => e₀)) := by
  induction X generalizing i with
  | nil => simp [load, together]
  | cons r X ih =>
    simp only [List.length_cons] at hy
    have h1 : i < y.length := by omega
    have y0 : y ≠ [] := by rintro rfl; simp at h1
    unfold load
    rw [if_neg y0, if_pos rfl, List.getElem?_eq_getElem h1, ih (i + 1) (by omega), List.drop_eq_getElem_cons h1]
    rfl

/-- Without labels every row gets label 0 and its own item. -/
theorem load_items (l₀ : L) (e₀ : E) (e : List E) (i : Nat) (X : List R) (he : i + X.length = e.length) :
    load l₀ e₀ [] e i X = some (together X (X.map fun _ => l₀) (e.drop i)) := by
  induction X generalizing i with
  | nil => simp [load, together]
  | cons r X ih =>
    simp only [List.length_cons] at he
    have h1 : i < e.length := by omega
    have e0 : e ≠ [] := by rintro rfl; simp at h1
    unfold load
    rw [if_pos rfl, if_neg e0, List.getElem?_eq_getElem h1, ih (i + 1) (by omega), List.drop_eq_getElem_cons h1]
    rfl

/-! ### fit and score -/

/-- `fit` or `score`: `least` is 2 or 1. -/
theorem checked_lengths (least : Nat) (l₀ : L) (e₀ : E) (X : List R) (y : List L) (e : List E) (h : X.length ≠ y.length) :
    checked least l₀ e₀ X y e = .raises := by
  unfold checked
  split
  · rfl
  · split
    · rfl
    · rfl

theorem checked_same (least : Nat) (l₀ : L) (e₀ : E) (X : List R) (y : List L) (e : List E) (hl : 1 ≤ least) (h0 : least ≤ X.length)
    (h : X.length = y.length) : checked least l₀ e₀ X y e = pass l₀ e₀ X y e := by
  have : y ≠ [] := by rintro rfl; simp at h; subst h; simp at h0; omega
  unfold checked
  rw [if_neg (by omega), if_neg this, if_neg (by simpa using h)]

/-- C95 for tasks without extra data: different numbers of rows and labels are refused, as is extra data; otherwise every row gets its
own label. Nothing is undefined. -/
theorem plain_rows (least : Nat) (hl : 1 ≤ least) (l₀ : L) (e₀ : E) (X : List R) (y : List L) (ex : Option (List E)) :
    plainCall (checked least l₀ e₀) X y ex =
      if ex = none ∧ X.length = y.length ∧ least ≤ X.length then .ok (together X y (X.map fun _ => e₀)) else .raises := by
  cases ex with
  | some e => simp [plainCall, noExtra]
  | none =>
    simp only [plainCall, noExtra, true_and]
    by_cases h : X.length = y.length
    · by_cases h0 : least ≤ X.length
      · rw [if_pos ⟨h, h0⟩, checked_same least l₀ e₀ X y [] hl h0 h]
        unfold pass
        rw [load_labels l₀ e₀ y 0 X (by omega)]
        rfl
      · rw [if_neg (fun c => h0 c.2)]
        unfold checked
        exact if_pos (by omega)
    · rw [if_neg (fun c => h c.1), checked_lengths least l₀ e₀ X y [] h]

/-- C95 for costs per label and for treatments. -/
theorem target_rows (least : Nat) (hl : 1 ≤ least) (l₀ : L) (e₀ : E) (label : E → L) (X : List R) (ys : List E) :
    targetCall (checked least l₀ e₀) label X ys =
      if X.length = ys.length ∧ least ≤ X.length then .ok (together X (ys.map label) ys) else .raises := by
  unfold targetCall
  by_cases h : X.length = ys.length
  · by_cases h0 : least ≤ X.length
    · rw [if_pos ⟨h, h0⟩, checked_same least l₀ e₀ X _ ys hl h0 (by simpa using h)]
      unfold pass
      rw [load_together l₀ e₀ _ ys 0 X (by simpa using h) (by simpa using h)]
      rfl
    · rw [if_neg (fun c => h0 c.2)]
      unfold checked
      exact if_pos (by omega)
  · rw [if_neg (fun c => h c.1), checked_lengths least l₀ e₀ X _ ys (by simpa using h)]

/-- C95 for survival trees. -/
theorem survival_rows {V : Type} (least : Nat) (hl : 1 ≤ least) (l₀ : L) (e₀ : E) (wrap : V → E) (X : List R) (y : List (V × L)) :
    survivalCall (checked least l₀ e₀) wrap X y =
      if X.length = y.length ∧ least ≤ X.length then .ok (together X (y.map Prod.snd) (y.map fun p => wrap p.1)) else .raises := by
  unfold survivalCall
  by_cases h : X.length = y.length
  · rw [if_neg (by simpa using h)]
    by_cases h0 : least ≤ X.length
    · rw [if_pos ⟨h, h0⟩, checked_same least l₀ e₀ X _ _ hl h0 (by simpa using h)]
      unfold pass
      rw [load_together l₀ e₀ _ _ 0 X (by simpa using h) (by simpa using h)]
      rfl
    · rw [if_neg (fun c => h0 c.2)]
      unfold checked
      exact if_pos (by omega)
  · rw [if_pos h, if_neg (fun c => h c.1)]

/-- C95 for piecewise linear regression whose columns are taken from the rows. -/
theorem line_rows (least : Nat) (hl : 1 ≤ least) (l₀ : L) (e₀ : E) (cols : R → E) (X : List R) (y : List L) :
    lineCall (checked least l₀ e₀) cols X y none =
      if X.length = y.length ∧ least ≤ X.length then .ok (together X y (X.map cols)) else .raises := by
  simp only [lineCall, lineExtra]
  by_cases h : X.length = y.length
  · by_cases h0 : least ≤ X.length
    · rw [if_pos ⟨h, h0⟩, checked_same least l₀ e₀ X _ _ hl h0 h]
      unfold pass
      rw [load_together l₀ e₀ _ _ 0 X (by simpa using h) (by simp)]
      rfl
    · rw [if_neg (fun c => h0 c.2)]
      unfold checked
      exact if_pos (by omega)
  · rw [if_neg (fun c => h c.1), checked_lengths least l₀ e₀ X y _ h]

/-- C95 fails for piecewise linear regression with columns given as values: numbers of rows are not compared. The call is undefined
exactly if there are some values but fewer than rows. -/
theorem line_values_undefined (least : Nat) (hl : 1 ≤ least) (l₀ : L) (e₀ : E) (cols : R → E) (X : List R) (y : List L) (vals : List E) :
    lineCall (checked least l₀ e₀) cols X y (some vals) = .undef ↔
      X.length = y.length ∧ least ≤ X.length ∧ 0 < vals.length ∧ vals.length < X.length := by
  simp only [lineCall, lineExtra]
  by_cases h : X.length = y.length
  · by_cases h0 : least ≤ X.length
    · rw [checked_same least l₀ e₀ X _ _ hl h0 h]
      have key := load_some_iff l₀ e₀ y vals 0 X
      have X0 : X ≠ [] := by rintro rfl; simp at h0; omega
      have V0 : vals = [] ↔ vals.length = 0 := List.length_eq_zero_iff.symm
      unfold pass
      cases hload : load l₀ e₀ y vals 0 X with
      | none =>
        rw [hload] at key
        simp only [Option.isSome_none, Bool.false_eq_true, false_iff, not_or, not_and, V0] at key
        have := key.2 (Or.inr (by omega))
        simp only [true_iff]
        omega
      | some a =>
        rw [hload] at key
        have := (key.1 rfl).resolve_left X0
        rw [V0] at this
        simp only [reduceCtorEq, false_iff]
        omega
    · have : checked least l₀ e₀ X y vals = .raises := by unfold checked; exact if_pos (by omega)
      rw [this]
      simp only [reduceCtorEq, false_iff]
      omega
  · rw [checked_lengths least l₀ e₀ X y _ h]
    simp only [reduceCtorEq, false_iff]
    omega

/-! ### predict -/

/-- C95, the calls themselves, for tasks without extra data: `fit` needs two rows and `score` one, both need as many labels as rows, and
then every row gets its own label. -/
theorem fit_and_score_rows (l₀ : L) (e₀ : E) (X : List R) (y : List L) (ex : Option (List E)) :
    (plainCall (fitCall l₀ e₀) X y ex =
      if ex = none ∧ X.length = y.length ∧ 2 ≤ X.length then .ok (together X y (X.map fun _ => e₀)) else .raises) ∧
    (plainCall (scoreCall l₀ e₀) X y ex =
      if ex = none ∧ X.length = y.length ∧ 1 ≤ X.length then .ok (together X y (X.map fun _ => e₀)) else .raises) :=
  ⟨plain_rows 2 (by omega) l₀ e₀ X y ex, plain_rows 1 (by omega) l₀ e₀ X y ex⟩

/-- One row can be scored. -/
example : plainCall (scoreCall 0 ()) ["a"] [1] none = .ok [("a", 1, ())] := by
  rw [(fit_and_score_rows 0 () ["a"] [1] none).2]; rfl

/-- Predicting with as many items as rows gives every row its own item. -/
theorem predict_same (l₀ : L) (e₀ : E) (X : List R) (e : List E) (hX : X ≠ []) (h : X.length = e.length) :
    predictCall l₀ e₀ X e = .ok (together X (X.map fun _ => l₀) e) := by
  have : X.length ≠ 0 := fun c => hX (List.length_eq_zero_iff.1 c)
  unfold predictCall pass
  rw [if_neg (by omega), load_items l₀ e₀ e 0 X (by omega)]
  rfl

/-- C95 for `predict` without extra data, for all tasks: every row is predicted, an empty batch is refused. -/
theorem predict_rows {V : Type} (l₀ : L) (e₀ e₁ : E) (wrap : V → E) (cols : R → E) (X : List R) :
    (targetPredict l₀ e₀ e₁ X none = if X = [] then .raises else .ok (together X (X.map fun _ => l₀) (X.map fun _ => e₁))) ∧
    (survivalPredict l₀ e₀ e₁ wrap X none = if X = [] then .raises else .ok (together X (X.map fun _ => l₀) (X.map fun _ => e₁))) ∧
    linePredict l₀ e₀ cols X none = if X = [] then .raises else .ok (together X (X.map fun _ => l₀) (X.map cols)) := by
  by_cases hX : X = []
  · subst hX
    exact ⟨rfl, rfl, rfl⟩
  · simp only [if_neg hX, targetPredict, survivalPredict, linePredict, lineExtra, Option.getD_none]
    exact ⟨predict_same _ _ _ _ hX (by simp), predict_same _ _ _ _ hX (by simp), predict_same _ _ _ _ hX (by simp)⟩

/-- When `predict` with extra data is undefined: some items, but fewer than rows. -/
theorem predict_undefined (l₀ : L) (e₀ : E) (X : List R) (e : List E) :
    predictCall l₀ e₀ X e = .undef ↔ 0 < e.length ∧ e.length < X.length := by
  unfold predictCall
  by_cases hX : X.length < 1
  · rw [if_pos hX]
    simp only [reduceCtorEq, false_iff]
    omega
  · rw [if_neg hX]
    have key := load_some_iff l₀ e₀ ([] : List L) e 0 X
    have X0 : X ≠ [] := by rintro rfl; simp at hX
    have V0 : e = [] ↔ e.length = 0 := List.length_eq_zero_iff.symm
    unfold pass
    cases hload : load l₀ e₀ [] e 0 X with
    | none =>
      rw [hload] at key
      simp only [Option.isSome_none, Bool.false_eq_true, false_iff, not_or, not_and, V0] at key
      have := key.2 (Or.inl trivial)
      simp only [true_iff]
      omega
    | some a =>
      rw [hload] at key
      have := (key.1 rfl).resolve_left X0
      rw [V0] at this
      simp only [reduceCtorEq, false_iff]
      omega

/-- C95 fails for `predict` with extra data: costs, treatments, events and columns given for some, but not all rows are read out of
range. -/
theorem predict_with_extra_undefined {V : Type} (l₀ : L) (e₀ e₁ : E) (wrap : V → E) (cols : R → E) (X : List R) (e : List E) (ev : List V) :
    (targetPredict l₀ e₀ e₁ X (some e) = .undef ↔ 0 < e.length ∧ e.length < X.length) ∧
    (survivalPredict l₀ e₀ e₁ wrap X (some ev) = .undef ↔ 0 < ev.length ∧ ev.length < X.length) ∧
    (linePredict l₀ e₀ cols X (some e) = .undef ↔ 0 < e.length ∧ e.length < X.length) := by
  refine ⟨predict_undefined _ _ _ _, ?_, predict_undefined _ _ _ _⟩
  have := predict_undefined l₀ e₀ X (ev.map wrap)
  rw [List.length_map] at this
  exact this

/-- And too many, or an empty list, are accepted without a word. -/
theorem predict_extra_accepted (l₀ : L) (e₀ : E) (X : List R) (e : List E) (hX : X ≠ []) (h : e = [] ∨ X.length ≤ e.length) :
    ∃ is, predictCall l₀ e₀ X e = .ok is := by
  have X0 : X.length ≠ 0 := fun c => hX (List.length_eq_zero_iff.1 c)
  unfold predictCall pass
  rw [if_neg (by omega)]
  have := (load_some_iff l₀ e₀ ([] : List L) e 0 X).2 (Or.inr ⟨Or.inl rfl, h.imp_right (by omega)⟩)
  obtain ⟨is, his⟩ := Option.isSome_iff_exists.1 this
  exact ⟨is, by rw [his]⟩

/-! ### Cases -/

example : lineCall (fitCall 0 0) (fun r : Nat => r * 10) [1, 2, 3] [7, 8, 9] none = .ok [(1, 7, 10), (2, 8, 20), (3, 9, 30)] := by decide

example : lineCall (fitCall 0 0) (fun r : Nat => r * 10) [1, 2, 3] [7, 8, 9] (some [5, 6]) = .undef := by decide

example : targetCall (fitCall 0 0) (fun e : Nat => e % 2) [1, 2, 3] [4, 5] = .raises := by decide

example : targetCall (scoreCall 0 0) (fun e : Nat => e % 2) [1, 2] [4, 5] = .ok [(1, 0, 4), (2, 1, 5)] := by decide

example : targetPredict 0 0 0 [1, 2, 3] (some [4, 5]) = .undef := by decide

example : survivalCall (fitCall 0 0) (fun v : Bool => if v then 1 else 0) [1, 2] [(true, 30), (false, 40)] =
    .ok [(1, 30, 1), (2, 40, 0)] := by decide

end Rows

end Streed
