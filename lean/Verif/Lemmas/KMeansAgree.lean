import Verif.Lemmas.KMeansStop

/-!
# The table only reads the costs of runs of points that exist

`stopLoop_agree`: two cost functions that agree on points below `N` give the same result. In particular the running sums
are never read past their end.
-/

namespace Streed.KM

/-- The two cost functions agree on the first `N` points. -/
def Agree (N : Nat) (c c' : Nat → Nat → Rat) : Prop := ∀ j i, j < N → i < N → c j i = c' j i

variable {N : Nat} {c c' : Nat → Nat → Rat}

theorem pinch_agree (h : Agree N c c') {p : Nat → Rat} {i : Nat} (hi : i < N) : ∀ (fuel j lo : Nat) (b : Rat × Nat),
    j < N → pinch c p i fuel j lo b = pinch c' p i fuel j lo b := by
  intro fuel
  induction fuel with
  | zero => exact fun _ _ _ _ => rfl
  | succ fuel ih =>
    intro j lo b hj
    rw [pinch, pinch]
    by_cases hl : j < lo
    · rw [if_pos hl, if_pos hl]
    · rw [if_neg hl, if_neg hl, h j i hj hi, h lo i (by omega) hi, ih _ _ _ (by omega)]

theorem fillLog_agree (h : Agree N c c') {q : Nat} {prev : KRow} (hN : 1 ≤ N) :
    ∀ (fuel imin imax jmin jmax : Nat) (r : KRow), imax ≤ N - 1 →
      fillLog c N q prev fuel imin imax jmin jmax r = fillLog c' N q prev fuel imin imax jmin jmax r := by
  intro fuel
  induction fuel with
  | zero => exact fun _ _ _ _ _ _ => rfl
  | succ fuel ih =>
    intro imin imax jmin jmax r hm
    rw [fillLog, fillLog]
    by_cases hc : imin > imax
    · rw [if_pos hc, if_pos hc]
    · rw [if_neg hc, if_neg hc]
      dsimp only
      have hi : (imin + imax) / 2 < N := by omega
      have hh : (if imax < N - 1 then min ((imin + imax) / 2 - 1) jmax else (imin + imax) / 2 - 1) < N := by
        split <;> omega
      rw [pinch_agree h hi _ _ _ _ hh, ih imin _ _ _ _ (show (imin + imax) / 2 - 1 ≤ N - 1 by omega), ih _ imax _ _ _ hm]

/-- Two tables of values that agree for rows and columns below `N`. -/
theorem cutVal_agree (h : Agree N c c') (prev : KRow) : Agree N (cutVal c prev) (cutVal c' prev) :=
  fun j i hj hi => by rw [cutVal, cutVal, h j i hj hi]

theorem reduceLoop_agree {v v' : Nat → Nat → Rat} (h : Agree N v v') {row : Nat → Nat} {n : Nat}
    (hrow : ∀ p, p < n → row p < N) (hn : 1 ≤ n) : ∀ (fuel : Nat) (stk rest : List Nat), (∀ j ∈ stk, j < N) →
      (∀ j ∈ rest, j < N) → stk.length < n →
      reduceLoop v row n fuel stk rest = reduceLoop v' row n fuel stk rest ∧
        ∀ j ∈ reduceLoop v row n fuel stk rest, j < N := by
  intro fuel
  induction fuel with
  | zero =>
    intro stk rest h1 h2 _
    refine ⟨rfl, fun j hj => ?_⟩
    rw [reduceLoop, List.mem_append, List.mem_reverse] at hj
    exact hj.elim (h1 j) (h2 j)
  | succ fuel ih =>
    intro stk rest h1 h2 hl
    have hap : ∀ j ∈ stk.reverse ++ rest, j < N := fun j hj => by
      rw [List.mem_append, List.mem_reverse] at hj
      exact hj.elim (h1 j) (h2 j)
    unfold reduceLoop
    by_cases hc : stk.length + rest.length ≤ n
    · rw [if_pos hc, if_pos hc]
      exact ⟨rfl, hap⟩
    · rw [if_neg hc, if_neg hc]
      match rest, h2, hap with
      | [], _, hap => exact ⟨rfl, hap⟩
      | [_], _, hap => exact ⟨rfl, hap⟩
      | j :: j1 :: rs, h2, _ =>
        have hj : j < N := h2 j (by simp)
        have hj1 : j1 < N := h2 j1 (by simp)
        have hrs : ∀ x ∈ rs, x < N := fun x hx => h2 x (by simp [hx])
        have hr := hrow _ hl
        dsimp only
        rw [← h j _ hj hr, ← h j1 _ hj1 hr]
        by_cases c1 : v j (row stk.length) < v j1 (row stk.length) ∧ stk.length < n - 1
        · rw [if_pos c1, if_pos c1]
          exact ih _ _ (by simpa using ⟨hj, h1⟩) (by simpa using ⟨hj1, hrs⟩) (by rw [List.length_cons]; omega)
        · rw [if_neg c1, if_neg c1]
          by_cases c2 : v j (row stk.length) < v j1 (row stk.length) ∧ stk.length = n - 1
          · rw [if_pos c2, if_pos c2]
            exact ih _ _ h1 (by simpa using ⟨hj, hrs⟩) hl
          · rw [if_neg c2, if_neg c2]
            match stk, h1, hl with
            | [], _, _ => exact ih _ _ (by simp) (by simpa using ⟨hj1, hrs⟩) (by rw [List.length_nil]; omega)
            | s :: stk', h1, hl =>
              refine ih _ _ (fun x hx => h1 x (by simp [hx])) ?_ (by rw [List.length_cons] at hl; omega)
              have := h1 s (by simp)
              simpa using ⟨this, hj1, hrs⟩

theorem scanMin_agree {v v' : Nat → Nat → Rat} (h : Agree N v v') {pj i : Nat} (hi : i < N) :
    ∀ (l : List Nat) (b : Rat × Nat), (∀ j ∈ l, j < N) → scanMin v pj i l b = scanMin v' pj i l b := by
  intro l
  induction l with
  | nil => exact fun _ _ => rfl
  | cons j l ih =>
    intro b hl
    have h2 : ∀ x ∈ l, x < N := fun x hx => hl x (by simp [hx])
    rw [scanMin, scanMin, h j i (hl j (by simp)) hi, ih _ h2, ih _ h2]

theorem scanEven_agree {v v' : Nat → Nat → Rat} (h : Agree N v v') {p : Nat → Rat} {pj i jm : Nat} {sm : Rat}
    (hi : i < N) : ∀ (l : List Nat) (b : Rat × Nat), (∀ j ∈ l, j < N) →
      scanEven v p pj i jm sm l b = scanEven v' p pj i jm sm l b ∧ ∀ j ∈ (scanEven v p pj i jm sm l b).1, j < N := by
  intro l
  induction l with
  | nil => exact fun _ h => ⟨rfl, h⟩
  | cons x l ih =>
    intro b hl
    cases l with
    | nil => exact ⟨rfl, hl⟩
    | cons j l =>
      have h2 : ∀ x ∈ j :: l, x < N := fun y hy => hl y (List.mem_cons_of_mem _ hy)
      rw [scanEven, scanEven, ← h j i (hl j (by simp)) hi]
      repeat' split
      all_goals first
        | exact ⟨rfl, hl⟩
        | exact ih _ h2

theorem evenLoop_agree (h : Agree N c c') {prev : KRow} {imax step last : Nat} (hm : imax < N) :
    ∀ (fuel i : Nat) (suf : List Nat) (jl : Nat) (r : KRow), (∀ j ∈ suf, j < N) →
      evenLoop c prev imax step last fuel i suf jl r = evenLoop c' prev imax step last fuel i suf jl r := by
  intro fuel
  induction fuel with
  | zero => exact fun _ _ _ _ _ => rfl
  | succ fuel ih =>
    intro i suf jl r hs
    rw [evenLoop, evenLoop]
    by_cases hc : i > imax
    · rw [if_pos hc, if_pos hc]
    · rw [if_neg hc, if_neg hc]
      dsimp only
      have hi : i < N := by omega
      have hs2 : ∀ j ∈ suf.dropWhile (· < jl), j < N := fun j hj => hs j (List.dropWhile_sublist _ |>.subset hj)
      generalize suf.dropWhile (· < jl) = suf2 at hs2
      have h0 : suf2.headD 0 < N := by
        cases suf2 with
        | nil => exact show 0 < N by omega
        | cons a l => exact hs2 a (by simp)
      have hv := cutVal_agree h prev
      generalize (if i + step ≤ imax then r.J (i + step) else last) = jh
      rw [← hv _ i h0 hi, ← h (min jh i) i (by omega) hi]
      obtain ⟨g1, g2⟩ := scanEven_agree (p := prev.S) (pj := prev.J i) (jm := min jh i) (sm := c (min jh i) i) hv hi suf2
        (cutVal c prev (suf2.headD 0) i, suf2.headD 0) hs2
      rw [← g1]
      exact ih _ _ _ _ g2

theorem smawk_agree (h : Agree N c c') {prev : KRow} : ∀ (fuel imin imax step : Nat) (js : List Nat) (r : KRow),
    1 ≤ step → imin < N → imax < N → (∃ m, imax = imin + m * step) → (∀ j ∈ js, j < N) →
    smawk c prev fuel imin imax step js r = smawk c' prev fuel imin imax step js r := by
  intro fuel
  induction fuel with
  | zero => exact fun _ _ _ _ _ _ _ _ _ _ => rfl
  | succ fuel ih =>
    intro imin imax step js r hst hi hm hd hjs
    have hv := cutVal_agree h prev
    rw [smawk, smawk]
    by_cases hc : imax ≤ imin
    · rw [if_pos hc, if_pos hc]
      dsimp only
      have h0 : js.headD 0 < N := by
        cases js with
        | nil => exact show 0 < N by omega
        | cons a l => exact hjs a (by simp)
      rw [hv _ imin h0 hi, scanMin_agree hv hi _ _ fun j hj => hjs j (List.mem_of_mem_tail hj)]
    · rw [if_neg hc, if_neg hc]
      dsimp only
      have hred := reduceLoop_agree (row := fun p => imin + p * step) (n := (imax - imin) / step + 1) hv
        (fun p hp => by
          have h1 : p * step ≤ (imax - imin) / step * step := Nat.mul_le_mul_right _ (by omega)
          have h2 := Nat.div_mul_le_self (imax - imin) step
          rw [Nat.mul_comm] at h2
          rw [Nat.mul_comm ((imax - imin) / step)] at h1
          show imin + p * step < N
          omega) (Nat.le_add_left _ _) (2 * js.length) [] js (by simp) hjs (by simp)
      rw [← hred.1]
      obtain ⟨m, hd⟩ := hd
      have hs1 : imin + step ≤ imax := by
        cases m with
        | zero => omega
        | succ m =>
          rw [Nat.succ_mul] at hd
          omega
      rw [ih _ _ _ _ _ (by omega) (by omega) ?_ ⟨_, rfl⟩ ?_, evenLoop_agree h hm _ _ _ _ _ hjs]
      · have h2 := Nat.div_mul_le_self (imax - (imin + step)) (2 * step)
        omega
      · split
        · exact hjs
        · exact hred.2

theorem fillRow_agree (h : Agree N c c') {K q : Nat} {prev : KRow} (h1 : 1 ≤ q) (hq : q < N) :
    fillRow c N K q prev = fillRow c' N K q prev := by
  rw [fillRow, fillRow]
  rw [fillLog_agree h (by omega) _ _ _ _ _ _ le_rfl, smawk_agree h _ _ _ _ _ _ le_rfl ?_ (by omega) ?_ ?_]
  · split <;> omega
  · refine ⟨N - 1 - (if q < K - 1 then max 1 q else N - 1), ?_⟩
    split <;> omega
  · intro j hj
    rw [List.mem_range'_1] at hj
    omega

theorem stopLoop_agree (h : Agree N c c') {K : Nat} {reg : Rat} (hK : K ≤ N) : ∀ (fuel q : Nat) (prev : KRow), 1 ≤ q →
    stopLoop c N K reg fuel q prev = stopLoop c' N K reg fuel q prev := by
  intro fuel
  induction fuel with
  | zero => exact fun _ _ _ => rfl
  | succ fuel ih =>
    intro q prev h1
    rw [stopLoop, stopLoop]
    by_cases hq : q < K
    · rw [if_pos hq, if_pos hq, fillRow_agree h h1 (by omega)]
      dsimp only
      rw [ih _ _ (by omega)]
    · rw [if_neg hq, if_neg hq]

end Streed.KM
