import Verif.Lemmas.KMeansRow

/-!
# The loop over the number of clusters

`stopLoop_spec`: the loop returns the least of `opt k N + k * reg` over the allowed numbers of runs, and a number of runs
for which it is reached.
-/

namespace Streed.KM

variable {c : Nat → Nat → Rat}

/-- What holds of the row the loop starts from. -/
def Good (c : Nat → Nat → Rat) (N K k : Nat) (prev : KRow) : Prop :=
  prev.S (N - 1) = opt c k N ∧ (k + 1 < K →
    if N > 300 then (∀ i, 0 ≤ prev.S i) ∧ (opt c k N = 0 ∨ RowW c N k k prev) else RowOK c N k k prev)

theorem good_first (h : Seg c) {N K : Nat} (hN : 1 ≤ N) {c' : Nat → Nat → Rat} (hc : ∀ i, i < N → c' 0 i = closed c 0 i)
    (h0 : ∀ i, 0 ≤ c' 0 i) : Good c N K 0 (firstRow c') := by
  have e : ∀ i, i < N → (firstRow c').S i = opt c 0 (i + 1) := fun i hi => by
    rw [firstRow, opt]
    by_cases hi0 : i = 0
    · subst hi0
      exact (h.single 0).symm
    · exact (if_neg hi0).trans (hc i hi)
  have hn : ∀ i, 0 ≤ (firstRow c').S i := fun i => by
    rw [firstRow]
    dsimp only
    split
    · exact le_rfl
    · exact h0 i
  refine ⟨by rw [e _ (by omega), show N - 1 + 1 = N by omega], fun _ => ?_⟩
  split
  · refine ⟨hn, .inr ⟨hn, fun _ i hi => ⟨e i hi, rfl⟩,
      fun k hk => absurd hk (by omega), fun k hk => absurd hk (by omega)⟩⟩
  · exact fun i _ hi => ⟨e i hi, rfl⟩

theorem good_step (h : Seg c) {N K k : Nat} {prev : KRow} (hk : k + 1 < K) (hK : K ≤ N) (hg : Good c N K k prev) :
    0 ≤ (fillRow (closed c) N K (k + 1) prev).S (N - 1) ∧
      (opt c k N = 0 → (fillRow (closed c) N K (k + 1) prev).S (N - 1) = 0 →
        Good c N K (k + 1) (fillRow (closed c) N K (k + 1) prev)) ∧
      (0 < opt c k N → Good c N K (k + 1) (fillRow (closed c) N K (k + 1) prev)) := by
  obtain ⟨hval, hg⟩ := hg
  replace hg := hg hk
  have hmax : max 1 (k + 1) = k + 1 := by omega
  rw [fillRow, hmax]
  have hi1 : k + 1 ≤ (if k + 1 < K - 1 then k + 1 else N - 1) := by split <;> omega
  have hi2 : (if k + 1 < K - 1 then k + 1 else N - 1) ≤ N - 1 := by split <;> omega
  have hi3 : k + 1 + 1 < K → (if k + 1 < K - 1 then k + 1 else N - 1) = k + 1 := fun h => if_pos (by omega)
  have hi4 : (if k + 1 < K - 1 then k + 1 else N - 1) = k + 1 ∨ (if k + 1 < K - 1 then k + 1 else N - 1) = N - 1 := by
    split <;> simp
  generalize (if k + 1 < K - 1 then k + 1 else N - 1) = imin at hi1 hi2 hi3 hi4 ⊢
  by_cases hN : N > 300
  · rw [if_pos hN]
    rw [if_pos hN] at hg
    obtain ⟨hnn, hg⟩ := hg
    have hv : ∀ j i, 0 ≤ cutVal (closed c) prev j i := fun j i => add_nonneg (hnn _) (h.nonneg _ _)
    have hn := smawk_nonneg hv N imin (N - 1) 1 (List.range' (k + 1) (N - (k + 1))) .init fun _ => le_rfl
    refine ⟨hn _, fun h0 hz => ?_, fun hpos => ?_⟩
    · have h1 : opt c (k + 1) N = 0 := le_antisymm (h0 ▸ opt_more h k N) (opt_nonneg h _ _)
      refine ⟨by rw [hz, h1], fun _ => ?_⟩
      rw [if_pos hN]
      exact ⟨hn, .inl h1⟩
    · have hr := smawk_row h (hg.resolve_left hpos.ne') hpos hi1 hi2
      refine ⟨?_, fun hk2 => ?_⟩
      · have := hr.val k rfl (N - 1) hi2 (by omega) (by
          rw [show N - 1 + 1 = N by omega]
          cases k with
          | zero => exact .inl rfl
          | succ k => exact .inr (lt_of_lt_of_le hpos (opt_more h k N)))
        rw [this, show N - 1 + 1 = N by omega]
      · rw [if_pos hN]
        rw [hi3 hk2] at hr hn ⊢
        exact ⟨hn, .inr hr⟩
  · rw [if_neg hN]
    rw [if_neg hN] at hg
    have hl := fillLog_spec h hg (by omega) N imin (N - 1) (k + 1) (N - 1) .init (by omega) hi1 le_rfl
      (fun _ _ => .inl rfl) (fun h1 h2 => ?_) (fun _ h1 => absurd h1 (by omega))
    · dsimp only at hl
      have hS := (hl.2 (N - 1) hi2 le_rfl).1
      rw [show N - 1 + 1 = N by omega] at hS
      have hgood : Good c N K (k + 1) (fillLog (closed c) N (k + 1) prev N imin (N - 1) (k + 1) (N - 1) .init) := by
        refine ⟨hS, fun hk2 => ?_⟩
        rw [if_neg hN]
        rw [hi3 hk2] at hl ⊢
        exact fun i h1 h2 => hl.2 i h1 (by omega)
      exact ⟨hS ▸ opt_nonneg h _ _, fun _ _ => hgood, fun _ => hgood⟩
    · omega

/-- A number of runs at which the gain drops below `reg` is best. -/
theorem opt_best (h : Seg c) {N K k : Nat} {reg : Rat} (h1 : ∀ j < k, opt c (j + 1) N + reg ≤ opt c j N)
    (h2 : k + 1 < K → opt c k N ≤ opt c (k + 1) N + reg) (m : Nat) (hm : m < K) :
    opt c k N + k * reg ≤ opt c m N + m * reg := by
  rcases Nat.lt_or_ge k m with hlt | hge
  · have key : ∀ t, opt c (k + t) N ≤ opt c (k + t + 1) N + reg ∧ opt c k N ≤ opt c (k + t) N + t * reg := by
      intro t
      induction t with
      | zero => exact ⟨h2 (by omega), by simp⟩
      | succ t ih =>
        have := opt_convex h (k + t) N
        refine ⟨?_, ?_⟩
        · rw [show k + (t + 1) + 1 = k + t + 2 by omega, show k + (t + 1) = k + t + 1 by omega]
          linarith [ih.1]
        · rw [show k + (t + 1) = k + t + 1 by omega]
          push_cast
          linarith [ih.1, ih.2]
    have := (key (m - k)).2
    rw [show k + (m - k) = m by omega, Nat.cast_sub hlt.le] at this
    linarith
  · have key : ∀ t, t ≤ k → opt c k N + t * reg ≤ opt c (k - t) N := by
      intro t
      induction t with
      | zero => exact fun _ => by simp
      | succ t ih =>
        intro ht
        have g1 := ih (by omega)
        have g2 := h1 (k - (t + 1)) (by omega)
        rw [show k - (t + 1) + 1 = k - t by omega] at g2
        push_cast
        linarith
    have := key (k - m) (by omega)
    rw [show k - (k - m) = m by omega, Nat.cast_sub hge] at this
    linarith

theorem stopLoop_spec (h : Seg c) {N K : Nat} {reg : Rat} (hreg : 0 ≤ reg) (hK : K ≤ N) :
    ∀ (fuel k : Nat) (prev : KRow), K ≤ fuel + (k + 1) → k < K → Good c N K k prev →
      (∀ j < k, opt c (j + 1) N + reg ≤ opt c j N) →
      ∃ q < K, stopLoop (closed c) N K reg fuel (k + 1) prev = (opt c q N + q * reg, q) ∧
        ∀ m < K, opt c q N + q * reg ≤ opt c m N + m * reg := by
  intro fuel
  induction fuel with
  | zero =>
    intro k prev hf hk hg hd
    refine ⟨k, hk, ?_, opt_best h hd fun h1 => absurd h1 (by omega)⟩
    rw [stopLoop, hg.1]
    rfl
  | succ fuel ih =>
    intro k prev hf hk hg hd
    rw [stopLoop]
    by_cases hk2 : k + 1 < K
    · rw [if_pos hk2]
      obtain ⟨g0, g1, g2⟩ := good_step h hk2 hK hg
      dsimp only
      generalize fillRow (closed c) N K (k + 1) prev = row at *
      rw [hg.1]
      have hge := opt_nonneg h k N
      by_cases hs : opt c k N - row.S (N - 1) < reg
      · rw [if_pos hs]
        refine ⟨k, hk, rfl, opt_best h hd fun _ => ?_⟩
        rcases hge.eq_or_lt with he | hlt
        · have := opt_nonneg h (k + 1) N
          linarith
        · have := (g2 hlt).1
          linarith
      · rw [if_neg hs]
        have hgood : Good c N K (k + 1) row := by
          rcases hge.eq_or_lt with he | hlt
          · exact g1 he.symm (by linarith)
          · exact g2 hlt
        refine ih (k + 1) row (by omega) hk2 hgood fun j hj => ?_
        rcases Nat.lt_or_ge j k with hlt | hge'
        · exact hd j hlt
        · obtain rfl : j = k := by omega
          have := hgood.1
          linarith
    · rw [if_neg hk2]
      refine ⟨k, hk, ?_, opt_best h hd fun h1 => absurd h1 (by omega)⟩
      rw [hg.1]
      rfl

end Streed.KM
