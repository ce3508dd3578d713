import Verif.Model.ResultSet
import Mathlib.Algebra.Order.Ring.Rat
import Mathlib.Tactic.Linarith
import Mathlib.Tactic.NormNum

/-!
# C32, C30: result set and hyper-parameter selection

C32: the vectors of a result set stay parallel: position by position they describe one added tree, its
score, depth and node count; and they are ordered by increasing score. `best_index` is always 0, so it
points at the lowest score. That is the best one for tasks that prefer small scores, and for results
with one solution; for tasks that prefer large scores it is the worst one (`best_index_wrong`).

C30: the selected configuration has the best average score; ties go to the first configuration,
except for the instance-cost-sensitive task, where they go to the last.
-/

namespace Streed

/-- All added solutions, ordered by increasing score, equal scores in order of addition. -/
structure Describes (r : ResultSet) (l : List (Tree × Rat)) : Prop where
  scores : r.scores = l.map (·.2)
  trees : r.trees = l.map (·.1)
  depths : r.depths = l.map (·.1.depth)
  nodes : r.nodes = l.map (·.1.nodes)
  best : r.best = 0

private theorem insertAt_map {α β : Type} (g : α → β) (i : Nat) (x : α) (l : List α) :
    insertAt i (g x) (l.map g) = (insertAt i x l).map g := by
  induction l generalizing i with
  | nil => cases i <;> rfl
  | cons y l ih => cases i with
    | zero => rfl
    | succ i => simp only [List.map_cons, insertAt, ih]

private theorem insertAt_perm {α : Type} (i : Nat) (x : α) (l : List α) :
    (insertAt i x l).Perm (x :: l) := by
  induction l generalizing i with
  | nil => cases i <;> exact List.Perm.refl _
  | cons y l ih => cases i with
    | zero => exact List.Perm.refl _
    | succ i => exact ((ih i).cons y).trans (List.Perm.swap x y l)

private theorem insertAt_sorted (x : Tree × Rat) (l : List (Tree × Rat))
    (h : l.Pairwise fun a b => a.2 ≤ b.2) :
    (insertAt (insertPos x.2 (l.map (·.2))) x l).Pairwise fun a b => a.2 ≤ b.2 := by
  induction l with
  | nil => simp [insertPos, insertAt]
  | cons y l ih =>
    have hy := List.pairwise_cons.1 h
    simp only [List.map_cons, insertPos]
    split
    · rename_i hlt
      refine List.pairwise_cons.2 ⟨?_, h⟩
      intro z hz
      rcases List.mem_cons.1 hz with rfl | hz
      · exact le_of_lt hlt
      · exact le_trans (le_of_lt hlt) (hy.1 z hz)
    · rename_i hlt
      refine List.pairwise_cons.2 ⟨?_, ih hy.2⟩
      intro z hz
      rcases List.mem_cons.1 ((insertAt_perm _ _ _).mem_iff.1 hz) with rfl | hz
      · exact not_lt.1 hlt
      · exact hy.1 z hz

/-- C32: after any sequence of added trees the vectors describe, position by position, exactly the
added trees with their own score, depth and node count, ordered by increasing score. -/
theorem result_set_paired (ps : List (Tree × Rat)) :
    ∃ l, l.Perm ps ∧ l.Pairwise (fun a b => a.2 ≤ b.2) ∧
      Describes (ResultSet.empty.addAll ps) l := by
  have key : ∀ (ps : List (Tree × Rat)) (r : ResultSet) (l : List (Tree × Rat)), Describes r l →
      l.Pairwise (fun a b => a.2 ≤ b.2) →
      ∃ l', l'.Perm (l ++ ps) ∧ l'.Pairwise (fun a b => a.2 ≤ b.2) ∧ Describes (r.addAll ps) l' := by
    intro ps
    induction ps with
    | nil => intro r l h hs; exact ⟨l, by simp, hs, h⟩
    | cons p ps ih =>
      intro r l h hs
      obtain ⟨l', h1, h2, h3⟩ := ih (r.add p.1 p.2) (insertAt (insertPos p.2 (l.map (·.2))) p l) (by
        constructor
        · show insertAt _ p.2 r.scores = _
          rw [h.scores]; exact insertAt_map (·.2) _ p l
        · show insertAt _ p.1 r.trees = _
          rw [h.scores, h.trees]; exact insertAt_map (·.1) _ p l
        · show insertAt _ p.1.depth r.depths = _
          rw [h.scores, h.depths]; exact insertAt_map (·.1.depth) _ p l
        · show insertAt _ p.1.nodes r.nodes = _
          rw [h.scores, h.nodes]; exact insertAt_map (·.1.nodes) _ p l
        · exact h.best) (insertAt_sorted p l hs)
      refine ⟨l', h1.trans ?_, h2, h3⟩
      refine ((insertAt_perm _ p l).append_right ps).trans ?_
      exact List.perm_middle.symm
  obtain ⟨l, h1, h2, h3⟩ := key ps ResultSet.empty [] ⟨rfl, rfl, rfl, rfl, rfl⟩ List.Pairwise.nil
  exact ⟨l, h1, h2, h3⟩

/-- `x` is at least as good as `y`. -/
def Better.AtLeast : Better → Rat → Rat → Prop
  | .larger, x, y => y ≤ x
  | .smaller, x, y => x ≤ y
  | .smallerEq, x, y => x ≤ y

/-- The score at the best index is at least as good, in the task's order, as every added score. -/
def BestAtIndex (b : Better) (r : ResultSet) : Prop :=
  r.scores ≠ [] → ∃ x, r.scores[r.best]? = some x ∧ ∀ y ∈ r.scores, b.AtLeast x y

/-- C32 for tasks that prefer small scores: the best index points at a best score. Missing for the full
property: tasks that prefer large scores, see `best_index_wrong`. -/
theorem best_index_partial (ps : List (Tree × Rat)) (b : Better) (hb : b ≠ .larger) :
    BestAtIndex b (ResultSet.empty.addAll ps) := by
  obtain ⟨l, _, h2, h3⟩ := result_set_paired ps
  intro hne
  rw [h3.scores] at hne
  rw [h3.best, h3.scores]
  cases l with
  | nil => exact absurd rfl hne
  | cons p l =>
    refine ⟨p.2, rfl, fun y hy => ?_⟩
    obtain ⟨q, hq, rfl⟩ := List.mem_map.1 hy
    have hle : p.2 ≤ q.2 := by
      rcases List.mem_cons.1 hq with rfl | hq
      · exact le_refl _
      · exact (List.pairwise_cons.1 h2).1 q hq
    cases b with
    | larger => exact absurd rfl hb
    | smaller => exact hle
    | smallerEq => exact hle

/-- With a single solution the best index is right for every task. -/
theorem best_index_one (t : Tree) (x : Rat) (b : Better) :
    BestAtIndex b (ResultSet.empty.addAll [(t, x)]) := by
  intro _
  refine ⟨x, rfl, fun y hy => ?_⟩
  have : y = x := by simpa [ResultSet.addAll, ResultSet.add, ResultSet.empty, insertPos, insertAt] using hy
  subst this
  cases b <;> exact le_refl _

/-- C32 fails for tasks that prefer large scores: with two solutions of different score the best
index points at the worse one. -/
theorem best_index_wrong :
    ∃ ps : List (Tree × Rat), ¬ BestAtIndex .larger (ResultSet.empty.addAll ps) := by
  refine ⟨[(.leaf 0, 0), (.leaf 1, 1)], ?_⟩
  intro h
  obtain ⟨x, hx, h⟩ := h (by decide)
  have h0 : (ResultSet.empty.addAll [(.leaf 0, 0), (.leaf 1, 1)]).scores = [0, 1] := by decide
  rw [h0] at hx h
  cases hx
  exact absurd (show (1 : Rat) ≤ 0 from h 1 (by simp)) (by decide)

/-- The paired structure on a concrete history with a tie. -/
example : (ResultSet.empty.addAll [(.leaf 0, 2), (.node 3 (.leaf 0) (.leaf 1), 1), (.leaf 1, 2)]).trees =
    [.node 3 (.leaf 0) (.leaf 1), .leaf 0, .leaf 1] := by decide

/-! ### C30 -/

private theorem selectFrom_spec (b : Better) (xs : List Rat) (c : Nat) (i : Nat) (y : Rat) :
    ∃ j z, selectFrom b c (some (i, y)) xs = some (j, z) ∧ b.AtLeast z y ∧
      (∀ x ∈ xs, b.AtLeast z x) ∧ ((j = i ∧ z = y) ∨ (c ≤ j ∧ xs[j - c]? = some z)) := by
  induction xs generalizing c i y with
  | nil => exact ⟨i, y, rfl, by cases b <;> exact le_refl _, by simp, .inl ⟨rfl, rfl⟩⟩
  | cons x xs ih =>
    rw [selectFrom]
    split
    · rename_i ht
      obtain ⟨j, z, h1, h2, h3, h4⟩ := ih (c + 1) c x
      refine ⟨j, z, h1, ?_, ?_, ?_⟩
      · cases b
        · exact le_trans (le_of_lt (of_decide_eq_true ht)) h2
        · exact le_trans h2 (le_of_lt (of_decide_eq_true ht))
        · exact le_trans h2 (of_decide_eq_true ht)
      · intro w hw
        rcases List.mem_cons.1 hw with rfl | hw
        · exact h2
        · exact h3 w hw
      · rcases h4 with ⟨rfl, rfl⟩ | ⟨h5, h6⟩
        · exact .inr ⟨le_refl _, by simp⟩
        · refine .inr ⟨by omega, ?_⟩
          rw [show j - c = (j - (c + 1)) + 1 by omega]
          simpa using h6
    · rename_i ht
      obtain ⟨j, z, h1, h2, h3, h4⟩ := ih (c + 1) i y
      refine ⟨j, z, h1, h2, ?_, ?_⟩
      · intro w hw
        rcases List.mem_cons.1 hw with rfl | hw
        · cases b
          · exact le_trans (not_lt.1 fun h => ht (decide_eq_true h)) h2
          · exact le_trans h2 (not_lt.1 fun h => ht (decide_eq_true h))
          · exact le_trans h2 (le_of_lt (not_le.1 fun h => ht (decide_eq_true h)))
        · exact h3 w hw
      · rcases h4 with h4 | ⟨h5, h6⟩
        · exact .inl h4
        · refine .inr ⟨by omega, ?_⟩
          rw [show j - c = (j - (c + 1)) + 1 by omega]
          simpa using h6

/-- The selection loop returns a configuration with the best score. -/
theorem selectBest_spec (b : Better) (xs : List Rat) (hne : xs ≠ []) :
    ∃ j z, selectBest b xs = some (j, z) ∧ xs[j]? = some z ∧ ∀ x ∈ xs, b.AtLeast z x := by
  cases xs with
  | nil => exact absurd rfl hne
  | cons x xs =>
    obtain ⟨j, z, h1, h2, h3, h4⟩ := selectFrom_spec b xs 1 0 x
    refine ⟨j, z, h1, ?_, ?_⟩
    · rcases h4 with ⟨rfl, rfl⟩ | ⟨h5, h6⟩
      · rfl
      · rw [show j = (j - 1) + 1 by omega]
        simpa using h6
    · intro w hw
      rcases List.mem_cons.1 hw with rfl | hw
      · exact h2
      · exact h3 w hw

/-- Strict comparison: the first of the best configurations wins. -/
theorem selectBest_first (b : Better) (hb : b ≠ .smallerEq) (xs : List Rat) (j : Nat) (z : Rat)
    (h : selectBest b xs = some (j, z)) (i : Nat) (hi : i < j) : xs[i]? ≠ some z := by
  have key : ∀ (xs : List Rat) (c k : Nat) (y : Rat), k < c →
      selectFrom b c (some (k, y)) xs = some (j, z) →
      (j = k ∧ z = y) ∨ (z ≠ y ∧ c ≤ j ∧ ∀ i, i < j - c → xs[i]? ≠ some z) := by
    intro xs
    induction xs with
    | nil =>
      intro c k y _ h
      simp only [selectFrom, Option.some.injEq, Prod.mk.injEq] at h
      exact .inl ⟨h.1.symm, h.2.symm⟩
    | cons x xs ih =>
      intro c k y hk h
      rw [selectFrom] at h
      have hx : ∀ z', b.AtLeast z' x → b.test x y = true → z' ≠ y := by
        intro z' h2 ht he
        subst he
        cases b
        · exact absurd (of_decide_eq_true ht) (not_lt.2 h2)
        · exact absurd (of_decide_eq_true ht) (not_lt.2 h2)
        · exact hb rfl
      split at h
      · rename_i ht
        obtain ⟨j', z', e, h2, _, _⟩ := selectFrom_spec b xs (c + 1) c x
        rw [h] at e
        simp only [Option.some.injEq, Prod.mk.injEq] at e
        obtain ⟨rfl, rfl⟩ := e
        rcases ih (c + 1) c x (by omega) h with ⟨rfl, rfl⟩ | ⟨h5, h6, h7⟩
        · exact .inr ⟨hx _ h2 ht, by omega, by intro i hi; omega⟩
        · refine .inr ⟨hx _ h2 ht, by omega, ?_⟩
          intro i hi
          cases i with
          | zero => simpa using fun h => h5 h.symm
          | succ i => simpa using h7 i (by omega)
      · rename_i ht
        rcases ih (c + 1) k y (by omega) h with h4 | ⟨h5, h6, h7⟩
        · exact .inl h4
        · obtain ⟨j', z', e, h2, h3, _⟩ := selectFrom_spec b xs (c + 1) k y
          rw [h] at e
          simp only [Option.some.injEq, Prod.mk.injEq] at e
          obtain ⟨rfl, rfl⟩ := e
          refine .inr ⟨h5, by omega, ?_⟩
          intro i hi
          cases i with
          | zero =>
            simp only [List.getElem?_cons_zero, ne_eq, Option.some.injEq]
            rintro rfl
            cases b
            · exact h5 (le_antisymm (not_lt.1 fun h => ht (decide_eq_true h)) h2)
            · exact h5 (le_antisymm h2 (not_lt.1 fun h => ht (decide_eq_true h)))
            · exact hb rfl
          | succ i => simpa using h7 i (by omega)
  cases xs with
  | nil => simp [selectBest, selectFrom] at h
  | cons x xs =>
    rcases key xs 1 0 x (by omega) h with ⟨rfl, _⟩ | ⟨h5, h6, h7⟩
    · omega
    · cases i with
      | zero => simpa using fun h => h5 h.symm
      | succ i => simpa using h7 i (by omega)

/-- Average validation score of configuration `c`, from the table of scores (one row per fold). -/
def averageOf (perf : List (List Rat)) (c : Nat) : Rat := average (perf.map fun row => row.getD c 0)

private theorem foldScores_length (worst : Rat) (skip : Bool) (m n : Nat) (inTime : Nat → Bool)
    (trial : Nat → Trial) (k c : Nat) (prev : Option Rat) (row : List Rat)
    (h : foldScores worst skip m n inTime trial k c prev = some row) : row.length = k := by
  induction k generalizing c prev row with
  | zero => simp only [foldScores, Option.some.injEq] at h; rw [← h]; rfl
  | succ k ih =>
    rw [foldScores] at h
    have step : ∀ (x : Rat) (p : Option Rat),
        (foldScores worst skip m n inTime trial k (c + 1) p).map (x :: ·) = some row →
        row.length = k + 1 := by
      intro x p h
      obtain ⟨r, hr, rfl⟩ := Option.map_eq_some_iff.1 h
      rw [List.length_cons, ih _ _ _ hr]
    split at h
    · exact step _ _ h
    · simp only at h
      split at h
      · split at h
        · simp at h
        · split at h
          · simp only [Option.some.injEq] at h; rw [← h]; simp
          · exact step _ _ h
      · exact step _ _ h

/-- Configuration `c` of a fold ends the evaluation of that fold: it is evaluated in time and its tree
already has the largest number of nodes that is tried. -/
def EndsFold (skip : Bool) (m : Nat) (f : (Nat → Bool) × (Nat → Trial)) (c : Nat) : Prop :=
  skip = true ∧ f.1 c = true ∧ (f.2 c).result.bestNodeCount = some m

/-- The scores a fold should give. A configuration that is evaluated in time and solved to proven
optimality gets the test score of its own tree. One that is evaluated without such a result, or not
evaluated because an earlier one ended the fold, gets the score of the configuration before it (the
worst score if there is none). One for which there is no time left gets the worst score. -/
structure FoldRow (worst : Rat) (skip : Bool) (m n : Nat) (f : (Nat → Bool) × (Nat → Trial))
    (row : List Rat) : Prop where
  length : row.length = n
  own : ∀ c < n, (∀ i < c, ¬ EndsFold skip m f i) → f.1 c = true → (f.2 c).result.scores ≠ [] →
    (f.2 c).proven = true → row[c]? = some (f.2 c).score
  late : ∀ c < n, (∀ i < c, ¬ EndsFold skip m f i) → f.1 c = false → row[c]? = some worst
  unsolved : ∀ c < n, (∀ i < c, ¬ EndsFold skip m f i) → f.1 c = true →
    ((f.2 c).result.scores = [] ∨ (f.2 c).proven = false) →
    row[c]? = if c = 0 then some worst else row[c - 1]?
  skipped : ∀ c < n, (∃ i < c, EndsFold skip m f i) → row[c]? = row[c - 1]?

/-- Entry `j` of the scores from configuration `c` on. -/
private def RowAt (worst : Rat) (skip : Bool) (m : Nat) (f : (Nat → Bool) × (Nat → Trial)) (c j : Nat)
    (prev : Option Rat) (row : List Rat) : Prop :=
    ((∀ i < c + j, ¬ EndsFold skip m f i) → f.1 (c + j) = true → (f.2 (c + j)).result.scores ≠ [] →
      (f.2 (c + j)).proven = true → row[j]? = some (f.2 (c + j)).score) ∧
    ((∀ i < c + j, ¬ EndsFold skip m f i) → f.1 (c + j) = false → row[j]? = some worst) ∧
    ((∀ i < c + j, ¬ EndsFold skip m f i) → f.1 (c + j) = true →
      ((f.2 (c + j)).result.scores = [] ∨ (f.2 (c + j)).proven = false) →
      row[j]? = if j = 0 then some (prev.getD worst) else row[j - 1]?) ∧
    ((∃ i < c + j, EndsFold skip m f i) → row[j]? = row[j - 1]?)

private theorem foldScores_row (worst : Rat) (skip : Bool) (m n : Nat)
    (f : (Nat → Bool) × (Nat → Trial)) (k c : Nat) (hk : c + k = n) (prev : Option Rat)
    (row : List Rat) (h : foldScores worst skip m n f.1 f.2 k c prev = some row)
    (hno : ∀ i < c, ¬ EndsFold skip m f i) (j : Nat) (hj : j < k) :
    RowAt worst skip m f c j prev row := by
  induction k generalizing c prev row j with
  | zero => omega
  | succ k ih =>
    rw [foldScores] at h
    have step : ∀ (x : Rat), ¬ EndsFold skip m f c →
        (f.1 c = true → x = trialScore worst prev (f.2 c)) → (f.1 c = false → x = worst) →
        (foldScores worst skip m n f.1 f.2 k (c + 1) (some x)).map (x :: ·) = some row →
        RowAt worst skip m f c j prev row := by
      intro x hc h1 h2 hr0
      obtain ⟨r, hr, rfl⟩ := Option.map_eq_some_iff.1 hr0
      exact (show RowAt worst skip m f c j prev (x :: r) from by
          cases j with
          | zero =>
            refine ⟨fun _ ht hs hp => ?_, fun _ ht => ?_, fun _ ht hu => ?_, fun _ => rfl⟩
            · rw [Nat.add_zero] at ht hs hp ⊢
              rw [h1 ht, trialScore, if_neg]
              · rfl
              · simp [hs, hp]
            · rw [Nat.add_zero] at ht
              rw [h2 ht]; rfl
            · rw [Nat.add_zero] at ht hu
              rw [h1 ht, trialScore, if_pos]
              · simp
              · simpa using hu
          | succ j =>
            have hno' : ∀ i < c + 1, ¬ EndsFold skip m f i := by
              intro i hi
              rcases Nat.lt_succ_iff_lt_or_eq.1 hi with hi | rfl
              · exact hno i hi
              · exact hc
            have := ih (c + 1) (by omega) (some x) r hr hno' j (by omega)
            rw [RowAt, show c + 1 + j = c + (j + 1) by omega] at this
            obtain ⟨a1, a2, a3, a4⟩ := this
            refine ⟨a1, a2, fun u1 u2 u3 => ?_, fun u1 => ?_⟩
            · have := a3 u1 u2 u3
              cases j with
              | zero => simpa using this
              | succ j => simpa using this
            · cases j with
              | zero =>
                obtain ⟨i, hi, he⟩ := u1
                exact absurd he (hno' i (by omega))
              | succ j => simpa using a4 u1)
    by_cases ht : f.1 c = false
    · rw [if_pos ht] at h
      exact step worst (fun he => by rw [he.2.1] at ht; cases ht)
        (fun h' => by rw [ht] at h'; cases h') (fun _ => rfl) h
    · rw [if_neg ht] at h
      have ht' : f.1 c = true := by simpa using ht
      simp only at h
      by_cases hs : skip = true
      · rw [if_pos hs] at h
        cases hb : (f.2 c).result.bestNodeCount with
        | none => rw [hb] at h; cases h
        | some b =>
          rw [hb] at h
          simp only at h
          by_cases hm : b = m ∧ c + 1 < n
          · rw [if_pos hm] at h
            simp only [Option.some.injEq] at h
            have hc : EndsFold skip m f c := ⟨hs, ht', by rw [hb, hm.1]⟩
            subst h
            cases j with
            | zero =>
              refine ⟨fun _ ht hs hp => ?_, fun _ ht => ?_, fun _ ht hu => ?_, fun _ => rfl⟩
              · rw [Nat.add_zero] at ht hs hp ⊢
                simp [trialScore, hs, hp]
              · rw [Nat.add_zero] at ht
                exact absurd ht (by simp [ht'])
              · rw [Nat.add_zero] at ht hu
                rw [trialScore, if_pos]
                · simp
                · simpa using hu
            | succ j =>
              refine ⟨fun hh => absurd hc (hh c (by omega)), fun hh => absurd hc (hh c (by omega)),
                fun hh => absurd hc (hh c (by omega)), fun _ => ?_⟩
              rw [List.getElem?_cons_succ, List.getElem?_replicate, if_pos (by omega)]
              cases j with
              | zero => rfl
              | succ j =>
                simp only [Nat.add_sub_cancel]
                rw [List.getElem?_cons_succ, List.getElem?_replicate, if_pos (by omega)]
          · rw [if_neg hm] at h
            by_cases hbm : b = m
            · -- the last configuration
              have hk0 : k = 0 := by
                by_contra hk0
                exact hm ⟨hbm, by omega⟩
              subst hk0
              simp only [foldScores, Option.map_some, Option.some.injEq] at h
              subst h
              have hj0 : j = 0 := by omega
              subst hj0
              refine ⟨fun _ ht hs hp => ?_, fun _ ht => ?_, fun _ ht hu => ?_, fun _ => rfl⟩
              · rw [Nat.add_zero] at ht hs hp ⊢
                simp [trialScore, hs, hp]
              · rw [Nat.add_zero] at ht
                exact absurd ht (by simp [ht'])
              · rw [Nat.add_zero] at ht hu
                rw [trialScore, if_pos]
                · simp
                · simpa using hu
            · exact step _ (fun he => hbm (by have := he.2.2; rw [hb] at this; exact Option.some.inj this))
                (fun _ => rfl) (fun h' => absurd h' ht) h
      · rw [if_neg hs] at h
        exact step _ (fun he => hs he.1) (fun _ => rfl) (fun h' => absurd h' ht) h

/-- C30: every entry of the score table of a fold is the one it should be. -/
theorem fold_scores_correct (worst : Rat) (skip : Bool) (m n : Nat)
    (f : (Nat → Bool) × (Nat → Trial)) (row : List Rat)
    (h : foldScores worst skip m n f.1 f.2 n 0 none = some row) : FoldRow worst skip m n f row := by
  have key := fun c hc => foldScores_row worst skip m n f n 0 (by omega) none row h (by omega) c hc
  simp only [RowAt, Nat.zero_add, Option.getD_none] at key
  exact ⟨foldScores_length _ _ _ _ _ _ _ _ _ _ h, fun c hc => (key c hc).1, fun c hc => (key c hc).2.1,
    fun c hc => (key c hc).2.2.1, fun c hc => (key c hc).2.2.2⟩

/-- Four configurations: a solved one, one without a proven result, one whose tree has the largest size,
and one that is skipped. -/
example : foldScores 0 true 1 4 (fun _ => true)
    (fun c => ⟨ResultSet.empty.add (if c < 2 then .leaf 0 else .node 0 (.leaf 0) (.leaf 1)) 1, c != 1,
      [1/2, 1, 3/4, 1].getD c 0⟩) 4 0 none = some [1/2, 1/2, 3/4, 3/4] := by decide +kernel

/-- C30: whenever a tuning phase finishes, every configuration has its score on every fold, and the chosen
configuration's average score is at least as good as that of every configuration; with a strict
comparison no earlier configuration has the same average. -/
theorem tuning_selects_best (b : Better) (worst : Rat) (skip : Bool) (m n : Nat) (hn : 0 < n)
    (folds : List ((Nat → Bool) × (Nat → Trial))) (res : Option (Nat × Rat))
    (h : tunePhase b worst skip m n folds = some res) :
    ∃ perf : List (List Rat), List.Forall₂ (FoldRow worst skip m n) folds perf ∧
      ∃ c, res = some (c, averageOf perf c) ∧ c < n ∧
        (∀ c' < n, b.AtLeast (averageOf perf c) (averageOf perf c')) ∧
        (b ≠ .smallerEq → ∀ c' < c, averageOf perf c' ≠ averageOf perf c) := by
  unfold tunePhase at h
  cases hp : folds.mapM fun f => foldScores worst skip m n f.1 f.2 n 0 none with
  | none => rw [hp] at h; simp at h
  | some perf =>
    rw [hp] at h
    simp only [Option.some.injEq] at h
    refine ⟨perf, ?_, ?_⟩
    · have key : ∀ (fs : List ((Nat → Bool) × (Nat → Trial))) (perf : List (List Rat)),
          (fs.mapM fun f => foldScores worst skip m n f.1 f.2 n 0 none) = some perf →
          List.Forall₂ (FoldRow worst skip m n) fs perf := by
        intro fs
        induction fs with
        | nil => intro perf h; simp at h; subst h; exact .nil
        | cons f fs ih =>
          intro perf h
          rw [List.mapM_cons] at h
          cases h1 : foldScores worst skip m n f.1 f.2 n 0 none with
          | none => rw [h1] at h; simp at h
          | some r =>
            cases h2 : fs.mapM fun f => foldScores worst skip m n f.1 f.2 n 0 none with
            | none => rw [h1, h2] at h; simp at h
            | some rs =>
              rw [h1, h2] at h
              simp at h
              rw [← h]
              exact .cons (fold_scores_correct worst skip m n f r h1) (ih rs h2)
      exact key folds perf hp
    · have hne : (List.range n).map (averageOf perf) ≠ [] := by
        intro e
        have := congrArg List.length e
        simp at this
        omega
      obtain ⟨c, z, h1, h2, h3⟩ := selectBest_spec b _ hne
      have hc : c < n ∧ z = averageOf perf c := by
        rw [List.getElem?_map, Option.map_eq_some_iff] at h2
        obtain ⟨a, ha, hz⟩ := h2
        have := List.getElem?_eq_some_iff.1 ha
        obtain ⟨hlt, he⟩ := this
        rw [List.getElem_range] at he
        rw [List.length_range] at hlt
        exact ⟨hlt, by rw [← hz, ← he]⟩
      refine ⟨c, ?_, hc.1, ?_, ?_⟩
      · rw [← h, ← hc.2]; exact h1
      · intro c' hc'
        rw [← hc.2]
        exact h3 _ (List.mem_map.2 ⟨c', List.mem_range.2 hc', rfl⟩)
      · intro hb c' hc' he
        refine selectBest_first b hb _ c z h1 c' hc' ?_
        rw [List.getElem?_map, List.getElem?_range (by omega)]
        simp only [Option.map_some, Option.some.injEq]
        rw [he, hc.2]

/-- Tuning does not always finish: with `skip_when_max_tree`, a training fold for which no tree is
feasible makes the code read the node count of a solution that does not exist. -/
theorem tuning_undefined : ∃ (folds : List ((Nat → Bool) × (Nat → Trial))),
    tunePhase .larger 0 true 3 2 folds = none :=
  ⟨[(fun _ => true, fun _ => ⟨ResultSet.empty, true, 0⟩)], rfl⟩

/-- Two folds, three configurations, a tie: the first of the two best is chosen. -/
example : tunePhase .larger 0 false 3 3
    [(fun _ => true, fun c => ⟨ResultSet.empty.add (.leaf 0) 1, true, [1/2, 1, 1].getD c 0⟩),
     (fun _ => true, fun c => ⟨ResultSet.empty.add (.leaf 0) 1, true, [1/2, 1/2, 1/2].getD c 0⟩)] =
    some (some (1, 3/4)) := by decide +kernel

end Streed
