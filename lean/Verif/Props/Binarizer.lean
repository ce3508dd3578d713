import Verif.Model.Binarizer

/-!
# C49: binarisation is consistent

Numeric columns: every generated column is the test its name announces, on training rows and on new
rows alike (`columns_match_names`); the thresholds of a feature increase strictly
(`thresholds_increase`), so that its columns are nested (`columns_nested`); there are never more
than asked for (`thresholds_count`); and when a column has few enough values nothing is lost
(`binarisation_lossless`).

Categories: with three or more categories every training value satisfies exactly one of the tests
(`one_category`), and a value that was not seen satisfies none (`unseen_category`).  With two
categories the one test separates them (`two_categories`).
-/

namespace Streed

/-! ### Numeric columns -/

/-- The generated columns of a row are the tests `feature ≤ threshold` in the order of the column
names, for every row, training or new. -/
theorem columns_match_names (ths : List (List Rat)) (xs : List Rat) (hl : xs.length = ths.length) :
    transformRow ths xs = (thresholdNames ths).map fun n => decide (xs.getD n.1 0 ≤ n.2) := by
  have key : ∀ (ths : List (List Rat)) (pre xs : List Rat), xs.length = ths.length →
      transformRow ths xs = ((ths.zipIdx pre.length).flatMap fun p => p.1.map fun t => (p.2, t)).map
        fun n => decide ((pre ++ xs).getD n.1 0 ≤ n.2) := by
    intro ths
    induction ths with
    | nil => intro pre xs _; simp [transformRow]
    | cons ts ths ih =>
      intro pre xs hl
      cases xs with
      | nil => simp at hl
      | cons x xs =>
        have := ih (pre ++ [x]) xs (by simpa using hl)
        simp only [transformRow, List.zipIdx_cons, List.flatMap_cons, List.map_append, this,
          List.length_append, List.length_cons, List.length_nil, List.append_assoc,
          List.singleton_append, List.map_map]
        congr 1
        apply List.map_congr_left
        intro t _
        simp
  have := key ths [] xs hl
  rwa [List.nil_append] at this

theorem insertU_mem (x : Rat) : ∀ (l : List Rat) (y : Rat), y ∈ insertU x l ↔ y = x ∨ y ∈ l
  | [], y => by simp [insertU]
  | z :: l, y => by
    unfold insertU
    split
    · simp
    · split
      next h => subst h; simp
      · simp only [List.mem_cons, insertU_mem x l y]
        grind

theorem insertU_sorted (x : Rat) : ∀ (l : List Rat), l.Pairwise (· < ·) →
    (insertU x l).Pairwise (· < ·)
  | [], _ => by simp [insertU]
  | z :: l, h => by
    rw [List.pairwise_cons] at h
    unfold insertU
    split
    next hx =>
      refine List.pairwise_cons.2 ⟨?_, List.pairwise_cons.2 h⟩
      intro y hy
      rcases List.mem_cons.1 hy with rfl | hy
      · exact hx
      · have := h.1 y hy
        grind
    · split
      · exact List.pairwise_cons.2 h
      · refine List.pairwise_cons.2 ⟨?_, insertU_sorted x l h.2⟩
        intro y hy
        rcases (insertU_mem x l y).1 hy with rfl | hy
        · grind
        · exact h.1 y hy

theorem uniqueR_mem : ∀ (l : List Rat) (y : Rat), y ∈ uniqueR l ↔ y ∈ l
  | [], y => by simp [uniqueR]
  | x :: l, y => by simp [uniqueR, insertU_mem, uniqueR_mem l]

theorem uniqueR_sorted : ∀ (l : List Rat), (uniqueR l).Pairwise (· < ·)
  | [] => List.Pairwise.nil
  | x :: l => insertU_sorted x _ (uniqueR_sorted l)

theorem insertU_length (x : Rat) : ∀ l : List Rat, (insertU x l).length ≤ l.length + 1
  | [] => by simp [insertU]
  | z :: l => by
    have := insertU_length x l
    unfold insertU
    split
    · simp
    · split <;> simp <;> omega

theorem uniqueR_length : ∀ l : List Rat, (uniqueR l).length ≤ l.length
  | [] => by simp [uniqueR]
  | x :: l => by
    have := uniqueR_length l
    have := insertU_length x (uniqueR l)
    simp only [uniqueR, List.length_cons]
    omega

theorem midpoints_length : ∀ l : List Rat, (midpoints l).length = l.length - 1
  | [] => rfl
  | [x] => rfl
  | x :: y :: l => by
    have := midpoints_length (y :: l)
    simp only [midpoints, List.length_cons] at this ⊢
    omega

theorem midpoints_lower : ∀ (x : Rat) (l : List Rat), (x :: l).Pairwise (· < ·) →
    ∀ t ∈ midpoints (x :: l), x < t
  | x, [], _, t, ht => by simp [midpoints] at ht
  | x, y :: l, h, t, ht => by
    rw [List.pairwise_cons] at h
    have hxy := h.1 y (List.mem_cons_self ..)
    rcases List.mem_cons.1 ht with rfl | ht
    · grind
    · have := midpoints_lower y l h.2 t ht
      grind

theorem midpoints_sorted : ∀ l : List Rat, l.Pairwise (· < ·) → (midpoints l).Pairwise (· < ·)
  | [], _ => List.Pairwise.nil
  | [x], _ => List.Pairwise.nil
  | x :: y :: l, h => by
    rw [List.pairwise_cons] at h
    have hxy := h.1 y (List.mem_cons_self ..)
    refine List.pairwise_cons.2 ⟨fun t ht => ?_, midpoints_sorted _ h.2⟩
    have := midpoints_lower y l h.2 t ht
    grind

/-- Two neighbouring values are separated by their midpoint. -/
theorem midpoints_separate : ∀ (l : List Rat), l.Pairwise (· < ·) → ∀ x ∈ l, ∀ y ∈ l, x < y →
    ∃ t ∈ midpoints l, x ≤ t ∧ t < y
  | [], _, x, hx, _, _, _ => by cases hx
  | [a], _, x, hx, y, hy, h => by
    simp at hx hy
    subst hx; subst hy
    grind
  | a :: b :: l, hs, x, hx, y, hy, h => by
    have hs' := List.pairwise_cons.1 hs
    have hab := hs'.1 b (List.mem_cons_self ..)
    rcases List.mem_cons.1 hx with rfl | hx'
    · refine ⟨(x + b) / 2, List.mem_cons_self .., by grind, ?_⟩
      rcases List.mem_cons.1 hy with rfl | hy'
      · grind
      · rcases List.mem_cons.1 hy' with rfl | hy''
        · grind
        · have := (List.pairwise_cons.1 hs'.2).1 y hy''
          grind
    · rcases List.mem_cons.1 hy with rfl | hy'
      · have := hs'.1 x hx'
        grind
      · obtain ⟨t, ht, h1⟩ := midpoints_separate (b :: l) hs'.2 x hx' y hy' h
        exact ⟨t, List.mem_cons_of_mem _ ht, h1⟩

theorem insertS_mem (x : Rat) : ∀ (l : List Rat) (y : Rat), y ∈ insertS x l ↔ y = x ∨ y ∈ l
  | [], y => by simp [insertS]
  | z :: l, y => by
    unfold insertS
    split
    · simp
    · simp only [List.mem_cons, insertS_mem x l y]
      grind

theorem insertS_sorted (x : Rat) : ∀ (l : List Rat), l.Pairwise (· ≤ ·) →
    (insertS x l).Pairwise (· ≤ ·)
  | [], _ => by simp [insertS]
  | z :: l, h => by
    rw [List.pairwise_cons] at h
    unfold insertS
    split
    next hx =>
      refine List.pairwise_cons.2 ⟨?_, List.pairwise_cons.2 h⟩
      intro y hy
      rcases List.mem_cons.1 hy with rfl | hy
      · exact hx
      · have := h.1 y hy
        grind
    · refine List.pairwise_cons.2 ⟨?_, insertS_sorted x l h.2⟩
      intro y hy
      rcases (insertS_mem x l y).1 hy with rfl | hy
      · grind
      · exact h.1 y hy

theorem sortR_sorted : ∀ l : List Rat, (sortR l).Pairwise (· ≤ ·)
  | [] => List.Pairwise.nil
  | x :: l => insertS_sorted x _ (sortR_sorted l)

/-- With the strategies `quantile` and `uniform` the thresholds of a column increase strictly. -/
theorem thresholds_increase (n : Nat) (col : List Rat) :
    (cutpoints .quantile n col).Pairwise (· < ·) ∧ (cutpoints .uniform n col).Pairwise (· < ·) := by
  constructor <;>
  · unfold cutpoints
    dsimp only
    split
    · exact List.Pairwise.nil
    · split
      · exact midpoints_sorted _ (uniqueR_sorted _)
      · exact uniqueR_sorted _

/-- Every column gets thresholds, made from its own values, its own requested number and its own strategy. -/
theorem thresholds_of_column (st : Nat → Strategy) (ns : List Nat) (X : List (List Rat)) (hl : ns.length = X.length) :
    (fitThresholds st ns X).length = X.length ∧ ∀ j (hj : j < X.length),
      (fitThresholds st ns X)[j]? = some (cutpoints (st j) (ns[j]'(hl ▸ hj)) X[j]) := by
  constructor
  · simp [fitThresholds, hl]
  · intro j hj
    have hj' : j < ns.length := hl ▸ hj
    unfold fitThresholds
    simp [List.getElem?_zip_eq_some, hj, hj']
    exact ⟨_, _, ⟨rfl, rfl⟩, rfl⟩

/-- With the strategy `tree` the thresholds of a column with different values are those that scikit-learn's tree for this column has. -/
theorem tree_thresholds (st : Nat → Strategy) (ns : List Nat) (X : List (List Rat)) (hl : ns.length = X.length) (j : Nat) (hj : j < X.length)
    (t : List Rat) (hs : st j = .tree t) (hn : ns[j]'(hl ▸ hj) ≠ 0) (x y : Rat) (hx : x ∈ X[j]) (hy : y ∈ X[j]) (hxy : x ≠ y) :
    ∃ ts, (fitThresholds st ns X)[j]? = some ts ∧ ts.Pairwise (· ≤ ·) ∧ ∀ c, c ∈ ts ↔ c ∈ t := by
  refine ⟨_, (thresholds_of_column st ns X hl).2 j hj, ?_⟩
  have hu : ¬ ((ns[j]'(hl ▸ hj)) = 0 ∨ (uniqueR X[j]).length ≤ 1) := by
    rintro (h | h)
    · exact hn h
    · have h1 := (uniqueR_mem X[j] x).2 hx
      have h2 := (uniqueR_mem X[j] y).2 hy
      match hq : uniqueR X[j], h with
      | [], _ => rw [hq] at h1; cases h1
      | [a], _ =>
        rw [hq] at h1 h2
        rw [List.mem_singleton] at h1 h2
        exact hxy (h1.trans h2.symm)
  unfold cutpoints
  dsimp only
  rw [if_neg hu, hs]
  refine ⟨sortR_sorted t, fun c => ?_⟩
  show c ∈ sortR t ↔ c ∈ t
  clear hs
  induction t with
  | nil => rfl
  | cons a t ih => rw [sortR, insertS_mem, ih, List.mem_cons]

/-- The hypotheses are met. -/
example : (fitThresholds (fun j => if j = 0 then .quantile else .tree [3, 1]) [1, 2] [[1, 2], [0, 4]])[1]? = some [1, 3] := by decide +kernel

theorem thresholds_ordered (st : Strategy) (n : Nat) (col : List Rat) :
    (cutpoints st n col).Pairwise (· ≤ ·) := by
  have h := thresholds_increase n col
  cases st with
  | quantile => exact h.1.imp Rat.le_of_lt
  | uniform => exact h.2.imp Rat.le_of_lt
  | tree t =>
    unfold cutpoints
    dsimp only
    split
    · exact List.Pairwise.nil
    · exact sortR_sorted t

/-- The columns of one feature are nested: on every row, a column that holds is followed by columns
that hold. -/
theorem columns_nested (st : Strategy) (n : Nat) (col : List Rat) (x : Rat) (i j : Nat)
    (hij : i ≤ j) (hi : ((cutpoints st n col).map fun t => decide (x ≤ t))[i]? = some true)
    (hj : j < (cutpoints st n col).length) :
    ((cutpoints st n col).map fun t => decide (x ≤ t))[j]? = some true := by
  have hs := thresholds_ordered st n col
  generalize cutpoints st n col = ts at *
  rw [List.getElem?_map, List.getElem?_eq_getElem (by omega)] at hi
  rw [List.getElem?_map, List.getElem?_eq_getElem hj]
  simp only [Option.map_some, Option.some.injEq, decide_eq_true_eq] at hi ⊢
  rcases Nat.lt_or_eq_of_le hij with h | rfl
  · have := List.pairwise_iff_getElem.1 hs i j (by omega) hj h
    grind
  · exact hi

/-- A feature gets at most the requested number of columns. -/
theorem thresholds_count (n : Nat) (col : List Rat) :
    (cutpoints .quantile n col).length ≤ n ∧ (cutpoints .uniform n col).length ≤ n := by
  constructor <;>
  · unfold cutpoints
    dsimp only
    split
    · simp
    · split
      next h => rw [midpoints_length]; omega
      next h =>
        refine Nat.le_trans (uniqueR_length _) ?_
        simp [midpoints_length, linspace]

/-- When the column has at most one value more than the requested number of thresholds, any two
different values of the column differ in some generated column. -/
theorem binarisation_lossless (st : Strategy) (hst : st = .quantile ∨ st = .uniform) (n : Nat)
    (col : List Rat) (hn : (uniqueR col).length ≤ n + 1) (x y : Rat) (hx : x ∈ col) (hy : y ∈ col)
    (hne : ((cutpoints st n col).map fun t => decide (x ≤ t)) =
      (cutpoints st n col).map fun t => decide (y ≤ t)) : x = y := by
  have hx' := (uniqueR_mem col x).2 hx
  have hy' := (uniqueR_mem col y).2 hy
  by_cases hs : n = 0 ∨ (uniqueR col).length ≤ 1
  · have h1 : (uniqueR col).length ≤ 1 := by omega
    match hu : uniqueR col, h1 with
    | [], _ => rw [hu] at hx'; cases hx'
    | [z], _ =>
      rw [hu] at hx' hy'
      simp at hx' hy'
      rw [hx', hy']
  · have hc : cutpoints st n col = midpoints (uniqueR col) := by
      unfold cutpoints
      rcases hst with rfl | rfl <;> simp only [if_neg hs, if_pos hn]
    rw [hc] at hne
    have hall : ∀ t ∈ midpoints (uniqueR col), (x ≤ t ↔ y ≤ t) := by
      intro t ht
      obtain ⟨k, hk, rfl⟩ := List.getElem_of_mem ht
      have := congrArg (·[k]?) hne
      simp only [List.getElem?_map, List.getElem?_eq_getElem hk, Option.map_some,
        Option.some.injEq, decide_eq_decide] at this
      exact this
    have htri : x < y ∨ x = y ∨ y < x := by grind
    rcases htri with h | h | h
    · obtain ⟨t, ht, h1, h2⟩ := midpoints_separate _ (uniqueR_sorted col) x hx' y hy' h
      have := (hall t ht).1 h1
      grind
    · exact h
    · obtain ⟨t, ht, h1, h2⟩ := midpoints_separate _ (uniqueR_sorted col) y hy' x hx' h
      have := (hall t ht).2 h1
      grind

/-! ### Categories -/

theorem countInto_mem (v : Nat) : ∀ (l : List (Nat × Nat)) (w : Nat),
    w ∈ (countInto v l).map (·.1) ↔ w = v ∨ w ∈ l.map (·.1)
  | [], w => by simp [countInto]
  | (u, c) :: l, w => by
    unfold countInto
    split
    next h => subst h; simp
    · simp only [List.map_cons, List.mem_cons, countInto_mem v l w]
      grind

theorem countInto_nodup (v : Nat) : ∀ (l : List (Nat × Nat)), (l.map (·.1)).Nodup →
    ((countInto v l).map (·.1)).Nodup
  | [], _ => by simp [countInto]
  | (u, c) :: l, h => by
    rw [List.map_cons, List.nodup_cons] at h
    unfold countInto
    split
    · rw [List.map_cons, List.nodup_cons]; exact h
    next hne =>
      rw [List.map_cons, List.nodup_cons, countInto_mem]
      refine ⟨?_, countInto_nodup v l h.2⟩
      rintro (h' | h')
      · exact hne h'
      · exact h.1 h'

theorem counter_facts (col : List Nat) :
    ((counter col).map (·.1)).Nodup ∧ ∀ v, v ∈ (counter col).map (·.1) ↔ v ∈ col := by
  have key : ∀ (col : List Nat) (acc : List (Nat × Nat)), (acc.map (·.1)).Nodup →
      ((col.foldl (fun acc v => countInto v acc) acc).map (·.1)).Nodup ∧
      ∀ v, v ∈ (col.foldl (fun acc v => countInto v acc) acc).map (·.1) ↔
        v ∈ acc.map (·.1) ∨ v ∈ col := by
    intro col
    induction col with
    | nil => intro acc h; exact ⟨h, by simp⟩
    | cons a col ih =>
      intro acc h
      have := ih (countInto a acc) (countInto_nodup a acc h)
      refine ⟨this.1, fun v => ?_⟩
      rw [List.foldl_cons, this.2, countInto_mem]
      simp only [List.mem_cons]
      grind
  have := key col [] List.nodup_nil
  exact ⟨this.1, fun v => (this.2 v).trans (by simp)⟩

/-- The number of tests that hold. -/
def numHolding (ts : List CatTest) (x : Nat) : Nat := (transformCats ts x).count true

theorem count_eq_tests (x : Nat) : ∀ vs : List Nat, vs.Nodup →
    ((vs.map CatTest.eq).map (CatTest.holds x)).count true = if x ∈ vs then 1 else 0
  | [], _ => rfl
  | v :: vs, h => by
    rw [List.nodup_cons] at h
    simp only [List.map_cons, List.count_cons, count_eq_tests x vs h.2, CatTest.holds]
    by_cases hx : x = v
    · subst hx
      simp [h.1]
    · have hx' : (x == v) = false := by simpa using hx
      simp [hx, hx']

/-- With at least three categories, in the data and requested, every training value satisfies
exactly one test, and there are at most `n` tests. -/
theorem one_category (n : Nat) (col : List Nat) (hn : 3 ≤ n) (hc : 3 ≤ (counter col).length) :
    (fitCategories n col).length ≤ n ∧
    ∀ x ∈ col, numHolding (fitCategories n col) x = 1 := by
  have hf := counter_facts col
  have hdef : fitCategories n col = if ((counter col).map (·.1)).length > n then
      (((counter col).map (·.1)).take (n - 1)).map .eq ++
        [.mem (((counter col).map (·.1)).drop (n - 1))]
      else ((counter col).map (·.1)).map .eq := by
    unfold fitCategories
    dsimp only
    rw [if_neg (by omega), if_neg (by omega)]
  rw [hdef]
  generalize (counter col).map (·.1) = vs at hf
  split
  next hlt =>
    refine ⟨by simp; omega, fun x hx => ?_⟩
    have hx' := (hf.2 x).2 hx
    have hnd := hf.1
    rw [← List.take_append_drop (n - 1) vs] at hx' hnd
    rw [List.nodup_append] at hnd
    unfold numHolding transformCats
    rw [List.map_append, List.count_append, count_eq_tests x _ hnd.1]
    simp only [List.map_cons, List.map_nil, CatTest.holds]
    rcases List.mem_append.1 hx' with h | h
    · have hnot : x ∉ vs.drop (n - 1) := fun h' => hnd.2.2 x h x h' rfl
      have : (vs.drop (n - 1)).contains x = false := by simpa using hnot
      rw [this, if_pos h]
      rfl
    · have hnot : x ∉ vs.take (n - 1) := fun h' => hnd.2.2 x h' x h rfl
      have : (vs.drop (n - 1)).contains x = true := by simpa using h
      rw [this, if_neg hnot]
      rfl
  · refine ⟨by simp; omega, fun x hx => ?_⟩
    unfold numHolding transformCats
    rw [count_eq_tests x _ hf.1, if_pos ((hf.2 x).2 hx)]

/-- A value that does not occur in the training column satisfies no test. -/
theorem unseen_category (n : Nat) (col : List Nat) (x : Nat) (hx : x ∉ col) :
    ∀ b ∈ transformCats (fitCategories n col) x, b = false := by
  have hf := counter_facts col
  have hx' : x ∉ (counter col).map (·.1) := fun h => hx ((hf.2 x).1 h)
  have hmc : ∀ (l : List (Nat × Nat)) p, mostCommon l = some p → p ∈ l := by
    intro l
    induction l with
    | nil => intro p h; cases h
    | cons a l ih =>
      intro p h
      unfold mostCommon at h
      split at h
      · cases h; exact List.mem_cons_self ..
      next q hq =>
        split at h
        · cases h; exact List.mem_cons_of_mem _ (ih _ hq)
        · cases h; exact List.mem_cons_self ..
  have hsc : ∀ v, secondCommon (counter col) = some v → v ∈ (counter col).map (·.1) := by
    intro v hv
    unfold secondCommon at hv
    split at hv
    · cases hv
    next p hp =>
      cases hm : mostCommon ((counter col).filter fun q => q.1 ≠ p.1) with
      | none => rw [hm] at hv; cases hv
      | some q =>
        rw [hm] at hv
        cases hv
        exact List.mem_map.2 ⟨q, (List.mem_filter.1 (hmc _ _ hm)).1, rfl⟩
  intro b hb
  unfold transformCats at hb
  obtain ⟨t, ht, rfl⟩ := List.mem_map.1 hb
  have htest : (∃ v, t = .eq v ∧ v ∈ (counter col).map (·.1)) ∨
      ∃ vs, t = .mem vs ∧ ∀ v ∈ vs, v ∈ (counter col).map (·.1) := by
    unfold fitCategories at ht
    dsimp only at ht
    split at ht
    · cases ht
    · split at ht
      · split at ht
        next v hv =>
          rw [List.mem_singleton] at ht
          exact Or.inl ⟨v, ht, hsc v hv⟩
        · cases ht
      · split at ht
        · rcases List.mem_append.1 ht with h | h
          · obtain ⟨v, hv, rfl⟩ := List.mem_map.1 h
            exact Or.inl ⟨v, rfl, List.mem_of_mem_take hv⟩
          · rw [List.mem_singleton] at h
            exact Or.inr ⟨_, h, fun v hv => List.mem_of_mem_drop hv⟩
        · obtain ⟨v, hv, rfl⟩ := List.mem_map.1 ht
          exact Or.inl ⟨v, rfl, hv⟩
  rcases htest with ⟨v, rfl, hv⟩ | ⟨vs, rfl, hv⟩
  · simp only [CatTest.holds, beq_eq_false_iff_ne]
    rintro rfl
    exact hx' hv
  · simp only [CatTest.holds]
    cases hcs : vs.contains x with
    | false => rfl
    | true =>
      exfalso
      exact hx' (hv x (by simpa using hcs))

theorem mostCommon_some : ∀ (l : List (Nat × Nat)), l ≠ [] → ∃ p ∈ l, mostCommon l = some p
  | [], h => absurd rfl h
  | a :: l, _ => by
    unfold mostCommon
    cases hl : mostCommon l with
    | none => exact ⟨a, List.mem_cons_self .., rfl⟩
    | some q =>
      have hq : q ∈ l := by
        cases l with
        | nil => cases hl
        | cons b l =>
          obtain ⟨p, hp, hp'⟩ := mostCommon_some (b :: l) (by simp)
          rw [hp'] at hl
          cases hl
          exact hp
      dsimp only
      split
      · exact ⟨q, List.mem_cons_of_mem _ hq, rfl⟩
      · exact ⟨a, List.mem_cons_self .., rfl⟩

/-- When two categories occur there is one generated column, and it separates them. -/
theorem two_categories (n : Nat) (col : List Nat) (hn : 2 ≤ n) (hc : (counter col).length = 2) :
    ∃ v ∈ col, fitCategories n col = [.eq v] ∧
      ∀ x ∈ col, ∀ y ∈ col, transformCats (fitCategories n col) x =
        transformCats (fitCategories n col) y → x = y := by
  have hf := counter_facts col
  obtain ⟨a, b, hab⟩ : ∃ a b, counter col = [a, b] := by
    match h : counter col, hc with
    | [a, b], _ => exact ⟨a, b, rfl⟩
  have hne : a.1 ≠ b.1 := by
    have := hf.1
    rw [hab] at this
    simpa using this
  have hin : ∀ x ∈ col, x = a.1 ∨ x = b.1 := by
    intro x hx
    have := (hf.2 x).2 hx
    rw [hab] at this
    simpa using this
  have hsec : ∃ v, secondCommon (counter col) = some v ∧ (v = a.1 ∨ v = b.1) := by
    rw [hab]
    simp only [secondCommon, mostCommon]
    split
    next h => split at h <;> cases h
    next p h =>
      have hp : p = a ∨ p = b := by
        split at h <;> cases h <;> simp
      rcases hp with rfl | rfl
      · refine ⟨b.1, ?_, Or.inr rfl⟩
        simp [List.filter, Ne.symm hne, mostCommon]
      · refine ⟨a.1, ?_, Or.inl rfl⟩
        simp [List.filter, hne, mostCommon]
  obtain ⟨v, hv, hvab⟩ := hsec
  have hfit : fitCategories n col = [.eq v] := by
    unfold fitCategories
    dsimp only
    rw [if_neg (by omega), if_pos (Or.inr hc), hv]
  refine ⟨v, ?_, hfit, ?_⟩
  · have : v ∈ (counter col).map (·.1) := by
      rw [hab]
      simpa using hvab
    exact (hf.2 v).1 this
  · intro x hx y hy hxy
    rw [hfit] at hxy
    simp only [transformCats, List.map_cons, List.map_nil, CatTest.holds, List.cons.injEq,
      and_true] at hxy
    have h1 := hin x hx
    have h2 := hin y hy
    grind

/-! ### Instances -/

/-- Four different values and three thresholds: the midpoints. -/
example : cutpoints .quantile 3 [3, 1, 2, 1, 5] = [3 / 2, 5 / 2, 4] ∧
    transformRow [[3 / 2, 5 / 2, 4]] [2] = [false, true, true] := by decide +kernel

/-- More values than thresholds: quantiles, and equidistant points. -/
example : cutpoints .quantile 1 [0, 1, 2, 10] = [3 / 2] ∧
    cutpoints .uniform 2 [0, 1, 2, 10] = [5 / 2, 15 / 2] := by decide +kernel

/-- Repeated quantiles are merged. -/
example : cutpoints .quantile 2 [0, 0, 0, 0, 0, 0, 0, 1, 2, 3] = [0] := by decide +kernel

/-- Four categories into three tests, and two categories into one. -/
example : fitCategories 3 [7, 8, 7, 9, 5] = [.eq 7, .eq 8, .mem [9, 5]] ∧
    (counter [7, 8, 7, 9, 5]).length = 4 ∧
    transformCats (fitCategories 3 [7, 8, 7, 9, 5]) 5 = [false, false, true] ∧
    fitCategories 5 [4, 6, 6, 4, 6] = [.eq 4] := by decide +kernel

end Streed
