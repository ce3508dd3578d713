import Verif.Lemmas.Segments
import Verif.Model.KMeans

/-!
# The divide-and-conquer row filler computes the best cuts
-/

namespace Streed.KM

variable {c : Nat → Nat → Rat}

/-- The cost of points `j` to `i`, both included, as `ssq` takes its arguments. -/
def closed (c : Nat → Nat → Rat) (j i : Nat) : Rat := c j (i + 1)

/-- Cutting before `j` is best for the prefix that ends at `i`, with `k + 1` runs before the cut. -/
def Arg (c : Nat → Nat → Rat) (k i j : Nat) : Prop :=
  k + 1 ≤ j ∧ j ≤ i ∧ opt c (k + 1) (i + 1) = opt c k j + c j (i + 1)

/-- Row `q` is right from column `imin` on. -/
def RowOK (c : Nat → Nat → Rat) (N : Nat) : Nat → Nat → KRow → Prop
  | 0, imin, r => ∀ i, imin ≤ i → i < N → r.S i = opt c 0 (i + 1) ∧ r.J i = 0
  | k + 1, imin, r => ∀ i, imin ≤ i → i < N → r.S i = opt c (k + 1) (i + 1) ∧ Arg c k i (r.J i)

theorem RowOK.val {N q imin : Nat} {r : KRow} (h : RowOK c N q imin r) {i : Nat} (h1 : imin ≤ i) (h2 : i < N) :
    r.S i = opt c q (i + 1) := by
  cases q with
  | zero => exact (h i h1 h2).1
  | succ k => exact (h i h1 h2).1

/-- A cut that is best for a shorter prefix is no worse than any cut before it. -/
theorem low_same (h : Seg c) {k i i' l b : Nat} (ha : Arg c k i l) (hi : i ≤ i') (hb : b ≤ l) :
    opt c k l + c l (i' + 1) ≤ opt c k b + c b (i' + 1) := by
  have h1 := opt_le c k (show b ≤ i + 1 by have := ha.2.1; omega)
  rw [ha.2.2] at h1
  have := h.monge hb (show i + 1 ≤ i' + 1 by omega)
  linarith

/-- A cut that is best for a longer prefix is no worse than any cut after it. -/
theorem high_same (h : Seg c) {k i i' u b : Nat} (ha : Arg c k i u) (hi : i' ≤ i) (hu : u ≤ b) (hb : b ≤ i') :
    opt c k u + c u (i' + 1) ≤ opt c k b + c b (i' + 1) := by
  have h1 := opt_le c k (show b ≤ i + 1 by omega)
  rw [ha.2.2] at h1
  have := h.monge hu (show i' + 1 ≤ i + 1 by omega)
  linarith

/-- A cut that is best with one run fewer is no worse than any cut before it. -/
theorem low_prev (h : Seg c) {k i l b : Nat} (ha : Arg c k i l) (hb : b ≤ l) :
    opt c (k + 1) l + c l (i + 1) ≤ opt c (k + 1) b + c b (i + 1) := by
  have h1 := opt_le c k (show b ≤ i + 1 by have := ha.2.1; omega)
  rw [ha.2.2] at h1
  have := opt_gain h k hb
  linarith

/-- Where a lower limit lies above an upper limit, cutting off the last point alone is best. -/
theorem crossed (h : Seg c) {k i u l m : Nat} (hu : k + 1 ≤ u) (hul : u < l) (hl : l ≤ i) (hm : i < m)
    (e : c l (i + 1) - c u (i + 1) = c l (m + 1) - c u (m + 1))
    (f : opt c k l + c l (i + 1) ≤ opt c k u + c u (i + 1))
    {i' : Nat} (h1 : i ≤ i') (h2 : i' < m) : opt c k i' + c i' (i' + 1) ≤ opt c k u + c u (i' + 1) := by
  have hz : c u (m + 1) = 0 := h.strict hul (by omega) (show i + 1 < m + 1 by omega) (by linarith)
  have hz' : ∀ {a n}, u ≤ a → n ≤ m + 1 → c a n = 0 := fun ha hn =>
    le_antisymm (hz ▸ h.mono ha hn) (h.nonneg _ _)
  rw [hz' (by omega) (by omega), hz' le_rfl (by omega)] at f
  rw [hz' (by omega) (by omega), hz' le_rfl (by omega), add_zero, add_zero]
  exact opt_flat h k (by omega) hul (by omega) (hz' le_rfl (by omega)) (by linarith)

/-- The loop finds the best cut between its two ends. -/
theorem pinch_spec (h : Seg c) {k i : Nat} {p : Nat → Rat} (hp : ∀ t, k + 1 ≤ t → t ≤ i → p (t - 1) = opt c k t) :
    ∀ (fuel j lo : Nat) (b : Rat × Nat), j + 1 ≤ lo + fuel → k + 1 ≤ lo → j ≤ i →
      let r := pinch (closed c) p i fuel j lo b
      r.1 ≤ b.1 ∧ (∀ t, lo ≤ t → t ≤ j → r.1 ≤ opt c k t + c t (i + 1)) ∧
        (r = b ∨ lo ≤ r.2 ∧ r.2 ≤ j ∧ r.1 = opt c k r.2 + c r.2 (i + 1)) := by
  intro fuel
  induction fuel with
  | zero =>
    intro j lo b hf hlo hj
    exact ⟨le_rfl, fun t h1 h2 => absurd h2 (by omega), .inl rfl⟩
  | succ fuel ih =>
    intro j lo b hf hlo hj
    dsimp only
    rw [pinch]
    split
    · exact ⟨le_rfl, fun t h1 h2 => absurd h2 (by omega), .inl rfl⟩
    · rename_i hjl
      have hjl : lo ≤ j := by omega
      rw [hp lo hlo (by omega), hp j (by omega) hj]
      by_cases hc : closed c j i + opt c k lo ≥ b.1
      · rw [if_pos hc]
        simp only [closed] at hc
        refine ⟨le_rfl, fun t h1 h2 => ?_, .inl rfl⟩
        have a1 : c j (i + 1) ≤ c t (i + 1) := h.mono h2 le_rfl
        have a2 := opt_mono h k h1
        linarith
      · rw [if_neg hc]
        simp only [closed] at hc ⊢
        generalize hb1 : better (c lo (i + 1) + opt c k lo) lo b = b1
        generalize hb2 : better (c j (i + 1) + opt c k j) j b1 = b2
        have g1 : b1.1 ≤ b.1 ∧ b1.1 ≤ opt c k lo + c lo (i + 1) ∧
            (b1 = b ∨ b1.2 = lo ∧ b1.1 = opt c k lo + c lo (i + 1)) := by
          rw [← hb1, better]
          split
          · rename_i hv
            exact ⟨hv.le, by dsimp only; linarith, .inr ⟨rfl, add_comm _ _⟩⟩
          · rename_i hv
            exact ⟨le_rfl, by linarith, .inl rfl⟩
        have g2 : b2.1 ≤ b1.1 ∧ b2.1 ≤ opt c k j + c j (i + 1) ∧
            (b2 = b1 ∨ b2.2 = j ∧ b2.1 = opt c k j + c j (i + 1)) := by
          rw [← hb2, better]
          split
          · rename_i hv
            exact ⟨hv.le, by dsimp only; linarith, .inr ⟨rfl, add_comm _ _⟩⟩
          · rename_i hv
            exact ⟨le_rfl, by linarith, .inl rfl⟩
        have := ih (j - 1) (lo + 1) b2 (by omega) (by omega) (by omega)
        dsimp only at this
        generalize pinch _ p i fuel (j - 1) (lo + 1) b2 = r at *
        obtain ⟨i1, i2, i3⟩ := this
        refine ⟨by linarith, fun t h1 h2 => ?_, ?_⟩
        · rcases h1.eq_or_lt with e | h1
          · subst e
            linarith
          · rcases h2.eq_or_lt with e | h2
            · subst e
              linarith
            · exact i2 t h1 (by omega)
        · rcases i3 with e | ⟨e1, e2, e3⟩
          · rcases g2.2.2 with f | ⟨f1, f2⟩
            · rcases g1.2.2 with f' | ⟨f1, f2⟩
              · exact .inl (e.trans (f.trans f'))
              · right
                rw [e, f, f1]
                exact ⟨le_rfl, hjl, f2⟩
            · right
              rw [e, f1]
              exact ⟨hjl, le_rfl, f2⟩
          · exact .inr ⟨by omega, by omega, e3⟩

/-- One column: the limits leave a best cut in reach. -/
theorem column (h : Seg c) {N k imin imax jmin jmax i : Nat} {prev : KRow} (hprev : RowOK c N k k prev)
    (hi : (imin + imax) / 2 = i) (hq : k + 1 ≤ imin) (hle : imin ≤ imax) (hN : imax ≤ N - 1) (hN1 : 1 ≤ N)
    (hlow : imin > k + 1 → jmin = k + 1 ∨ Arg c k (imin - 1) jmin)
    (hhigh : imax < N - 1 → Arg c k (imax + 1) jmax) :
    let b := pinch (closed c) prev.S i (i + 1) (if imax < N - 1 then min (i - 1) jmax else i - 1)
      (max (if imin > k + 1 then max (k + 1) jmin else k + 1) (prev.J i)) (prev.S (i - 1), i)
    b.1 = opt c (k + 1) (i + 1) ∧ Arg c k i b.2 := by
  dsimp only
  have hi1 : imin ≤ i := by omega
  have hi2 : i ≤ imax := by omega
  have hp : ∀ t, k + 1 ≤ t → t ≤ i → prev.S (t - 1) = opt c k t := fun t h1 h2 => by
    rw [hprev.val (by omega) (by omega), show t - 1 + 1 = t by omega]
  generalize hlo : max (if imin > k + 1 then max (k + 1) jmin else k + 1) (prev.J i) = lo at *
  generalize hhi : (if imax < N - 1 then min (i - 1) jmax else i - 1) = hi' at *
  have hklo : k + 1 ≤ lo := by
    rw [← hlo]
    split <;> omega
  have hhii : hi' ≤ i - 1 := by
    rw [← hhi]
    split <;> omega
  have hb := pinch_spec h hp (i + 1) hi' lo (prev.S (i - 1), i) (by omega) hklo (by omega)
  dsimp only at hb
  rw [hp i (by omega) le_rfl] at hb ⊢
  generalize pinch (closed c) prev.S i (i + 1) hi' lo (opt c k i, i) = b at *
  obtain ⟨b1, b2, b3⟩ := hb
  have hsing := h.single i
  -- whatever the loop returns is the value of a cut in range
  have hval : k + 1 ≤ b.2 ∧ b.2 ≤ i ∧ b.1 = opt c k b.2 + c b.2 (i + 1) := by
    rcases b3 with e | ⟨e1, e2, e3⟩
    · rw [e]
      exact ⟨by omega, le_rfl, by rw [hsing, add_zero]⟩
    · exact ⟨by omega, by omega, e3⟩
  suffices hle' : b.1 ≤ opt c (k + 1) (i + 1) by
    have := opt_le c k (show b.2 ≤ i + 1 by omega)
    have e : b.1 = opt c (k + 1) (i + 1) := by linarith [hval.2.2]
    exact ⟨e, hval.1, hval.2.1, by rw [← e, hval.2.2]⟩
  obtain ⟨t, ht1, ht2, et⟩ := opt_cut h k (show k + 1 ≤ i by omega)
  rw [et]
  -- cuts below `lo` are no better than `lo`
  have hL : lo ≤ i ∧ ∀ b', k + 1 ≤ b' → b' ≤ lo → opt c k lo + c lo (i + 1) ≤ opt c k b' + c b' (i + 1) := by
    have hsame : ∀ l, imin > k + 1 → Arg c k (imin - 1) l → l ≤ i ∧ ∀ b', k + 1 ≤ b' → b' ≤ l →
        opt c k l + c l (i + 1) ≤ opt c k b' + c b' (i + 1) := fun l h0 ha =>
      ⟨by have := ha.2.1; omega, fun b' _ h2 => low_same h ha (by omega) h2⟩
    have hbase : k + 1 ≤ i ∧ ∀ b', k + 1 ≤ b' → b' ≤ k + 1 →
        opt c k (k + 1) + c (k + 1) (i + 1) ≤ opt c k b' + c b' (i + 1) :=
      ⟨by omega, fun b' h1 h2 => by rw [show b' = k + 1 by omega]⟩
    have hfirst : ∀ l, l = (if imin > k + 1 then max (k + 1) jmin else k + 1) → l ≤ i ∧ ∀ b', k + 1 ≤ b' → b' ≤ l →
        opt c k l + c l (i + 1) ≤ opt c k b' + c b' (i + 1) := by
      intro l hl
      split at hl
      · rename_i h0
        rcases hlow h0 with e | ha
        · rw [e, max_self] at hl
          rw [hl]
          exact hbase
        · have := ha.1
          rw [max_eq_right this] at hl
          rw [hl]
          exact hsame _ h0 ha
      · rw [hl]
        exact hbase
    rcases max_choice (if imin > k + 1 then max (k + 1) jmin else k + 1) (prev.J i) with e | e
    · rw [hlo] at e
      exact hfirst lo e
    · rw [hlo] at e
      cases k with
      | zero =>
        have := (hprev i (by omega) (by omega)).2
        omega
      | succ k =>
        have ha := (hprev i (by omega) (by omega)).2
        rw [← e] at ha
        exact ⟨ha.2.1, fun b' _ h2 => low_prev h ha h2⟩
  -- cuts above `hi'`
  rcases Nat.lt_or_ge t lo with c1 | c1
  · have h1 := hL.2 t ht1 c1.le
    rcases Nat.lt_or_ge hi' lo with c2 | c2
    · rcases hL.1.eq_or_lt with e | hlt
      · subst e
        rw [hsing] at h1
        linarith
      · -- crossed
        have hx : imax < N - 1 ∧ hi' = jmax := by
          split at hhi
          · rename_i h0
            exact ⟨h0, by omega⟩
          · omega
        have hA := hhigh hx.1
        rw [← hx.2] at hA
        have hU := high_same h hA (show i ≤ imax + 1 by omega) c2.le hL.1
        have hLu := hL.2 hi' hA.1 c2.le
        have hcross : opt c k i + c i (i + 1) ≤ opt c k hi' + c hi' (i + 1) := by
          have hmid : opt c k hi' + c hi' (imax + 1 + 1) ≤ opt c k lo + c lo (imax + 1 + 1) := by
            have := opt_le c k (show lo ≤ imax + 1 + 1 by omega)
            rw [hA.2.2] at this
            exact this
          have hm := h.monge c2.le (show i + 1 ≤ imax + 1 + 1 by omega)
          refine crossed h hA.1 c2 hL.1 (show i < imax + 1 by omega) ?_ hLu le_rfl (by omega)
          linarith
        rw [hsing] at hcross
        linarith
    · have := b2 lo le_rfl c2
      linarith
  · rcases Nat.lt_or_ge hi' t with c2 | c2
    · rcases ht2.eq_or_lt with e | hlt
      · subst e
        rw [hsing]
        linarith
      · have hx : imax < N - 1 ∧ hi' = jmax := by
          split at hhi
          · rename_i h0
            exact ⟨h0, by omega⟩
          · omega
        have hA := hhigh hx.1
        rw [← hx.2] at hA
        have hU := high_same h hA (show i ≤ imax + 1 by omega) c2.le ht2
        rcases Nat.lt_or_ge hi' lo with c3 | c3
        · have hLu := hL.2 hi' hA.1 c3.le
          have hcross : opt c k i + c i (i + 1) ≤ opt c k hi' + c hi' (i + 1) := by
            have hmid : opt c k hi' + c hi' (imax + 1 + 1) ≤ opt c k lo + c lo (imax + 1 + 1) := by
              have := opt_le c k (show lo ≤ imax + 1 + 1 by omega)
              rw [hA.2.2] at this
              exact this
            have hm := h.monge c3.le (show i + 1 ≤ imax + 1 + 1 by omega)
            have hU' := high_same h hA (show i ≤ imax + 1 by omega) c3.le hL.1
            refine crossed h hA.1 c3 hL.1 (show i < imax + 1 by omega) ?_ hLu le_rfl (by omega)
            linarith
          rw [hsing] at hcross
          linarith
        · have := b2 hi' c3 le_rfl
          linarith
    · exact b2 t c1 c2

theorem set_S (r : KRow) (i k : Nat) (s : Rat) (j : Nat) : (r.set i s j).S k = if k = i then s else r.S k := rfl

theorem set_J (r : KRow) (i k : Nat) (s : Rat) (j : Nat) : (r.set i s j).J k = if k = i then j else r.J k := rfl

/-- The recursion fills its range of columns and leaves the others alone. -/
theorem fillLog_spec (h : Seg c) {N k : Nat} {prev : KRow} (hprev : RowOK c N k k prev) (hN1 : 1 ≤ N) :
    ∀ (fuel imin imax jmin jmax : Nat) (r : KRow), imax + 1 ≤ imin + fuel → k + 1 ≤ imin → imax ≤ N - 1 →
      (imin ≤ imax → imin > k + 1 → jmin = k + 1 ∨ Arg c k (imin - 1) jmin) →
      (imin < imax → imin > k + 1 → Arg c k (imin - 1) (r.J (imin - 1))) →
      (imin ≤ imax → imax < N - 1 → Arg c k (imax + 1) jmax ∧ Arg c k (imax + 1) (r.J (imax + 1))) →
      let r' := fillLog (closed c) N (k + 1) prev fuel imin imax jmin jmax r
      (∀ i, i < imin ∨ imax < i → r'.S i = r.S i ∧ r'.J i = r.J i) ∧
        ∀ i, imin ≤ i → i ≤ imax → r'.S i = opt c (k + 1) (i + 1) ∧ Arg c k i (r'.J i) := by
  intro fuel
  induction fuel with
  | zero =>
    intro imin imax jmin jmax r hf _ _ _ _ _
    exact ⟨fun i _ => ⟨rfl, rfl⟩, fun i h1 h2 => absurd h1 (by omega)⟩
  | succ fuel ih =>
    intro imin imax jmin jmax r hf hq hN hlow hlow2 hhigh
    dsimp only
    rw [fillLog]
    split
    · exact ⟨fun i _ => ⟨rfl, rfl⟩, fun i h1 h2 => absurd h1 (by omega)⟩
    · rename_i hle
      have hle : imin ≤ imax := by omega
      dsimp only
      generalize hi : (imin + imax) / 2 = i
      have hcol := column h hprev hi hq hle hN hN1 (hlow hle) (fun h0 => (hhigh hle h0).1)
      dsimp only at hcol
      generalize hb : pinch (closed c) prev.S i (i + 1) (if imax < N - 1 then min (i - 1) jmax else i - 1)
        (max (if imin > k + 1 then max (k + 1) jmin else k + 1) (prev.J i)) (prev.S (i - 1), i) = b at *
      generalize hr1 : r.set i b.1 b.2 = r1
      have hr1S : ∀ x, r1.S x = if x = i then b.1 else r.S x := fun x => by rw [← hr1]; rfl
      have hr1J : ∀ x, r1.J x = if x = i then b.2 else r.J x := fun x => by rw [← hr1]; rfl
      have hi1 : imin ≤ i := by omega
      have hi2 : i ≤ imax := by omega
      have hJi : Arg c k i (r1.J i) := by
        rw [hr1J, if_pos rfl]
        exact hcol.2
      have hleft := ih imin (i - 1) (if imin > k + 1 then r1.J (imin - 1) else k + 1) (r1.J i) r1 (by omega) hq
        (by omega) (fun h1 h2 => by
          right
          rw [if_pos h2, hr1J, if_neg (by omega)]
          exact hlow2 (by omega) h2)
        (fun h1 h2 => by
          rw [hr1J, if_neg (by omega)]
          exact hlow2 (by omega) h2)
        (fun h1 _ => by
          rw [show i - 1 + 1 = i by omega]
          exact ⟨hJi, hJi⟩)
      dsimp only at hleft
      generalize hr2 : fillLog (closed c) N (k + 1) prev fuel imin (i - 1)
        (if imin > k + 1 then r1.J (imin - 1) else k + 1) (r1.J i) r1 = r2 at *
      obtain ⟨l1, l2⟩ := hleft
      have hJ2 : Arg c k i (r2.J i) := by
        rw [(l1 i (.inr (by omega))).2]
        exact hJi
      have hright := ih (i + 1) imax (r2.J i) (if imax < N - 1 then r2.J (imax + 1) else imax) r2 (by omega) (by omega)
        hN (fun h1 h2 => .inr hJ2) (fun h1 h2 => hJ2)
        (fun h1 h2 => by
          rw [if_pos h2, (l1 (imax + 1) (.inr (by omega))).2, hr1J, if_neg (by omega)]
          exact ⟨(hhigh hle h2).2, (hhigh hle h2).2⟩)
      dsimp only at hright
      generalize fillLog (closed c) N (k + 1) prev fuel (i + 1) imax (r2.J i)
        (if imax < N - 1 then r2.J (imax + 1) else imax) r2 = r3 at *
      obtain ⟨m1, m2⟩ := hright
      constructor
      · intro x hx
        have h2 := m1 x (by omega)
        have h1 := l1 x (by omega)
        rw [h2.1, h2.2, h1.1, h1.2, hr1S, hr1J, if_neg (by omega), if_neg (by omega)]
        exact ⟨rfl, rfl⟩
      · intro x hx1 hx2
        rcases Nat.lt_or_ge x i with hc | hc
        · have h2 := m1 x (by omega)
          rw [h2.1, h2.2]
          exact l2 x hx1 (by omega)
        · rcases hc.eq_or_lt with e | hc
          · subst e
            have h2 := m1 i (.inl (by omega))
            have h1 := l1 i (.inr (by omega))
            rw [h2.1, h2.2, h1.1, h1.2, hr1S, hr1J, if_pos rfl, if_pos rfl]
            exact hcol
          · exact m2 x (by omega) hx2

end Streed.KM
