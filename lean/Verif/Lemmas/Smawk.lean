import Verif.Lemmas.KMeansLog

/-!
# SMAWK finds the best cuts where it matters

`Env` collects what the proof needs of the value `v j i` of cut `j` in row `i`. `R i` is the last best cut of row `i`.
Rows from `β` on are right. In rows from `α` to `β - 1` only the value is right. In earlier rows nothing is promised, and
indeed such rows can come out wrong when points are equal.
-/

namespace Streed.KM

/-- The facts about one row of the table that make SMAWK work. -/
structure Env (v : Nat → Nat → Rat) (c : Nat → Nat → Rat) (p : Nat → Rat) (pj R : Nat → Nat) (α β N : Nat)
    (col : Nat → Prop) : Prop where
  val : ∀ j i, v j i = p (j - 1) + c j i
  tm : ∀ {a b i i'}, a ≤ b → i ≤ i' → v b i' - v a i' ≤ v b i - v a i
  least : ∀ {i j}, col j → v (R i) i ≤ v j i
  last : ∀ {i j}, col j → R i < j → v (R i) i < v j i
  mono : ∀ {i i'}, i ≤ i' → R i ≤ R i'
  dom : ∀ {s z i}, col s → s < z → α ≤ z → z ≤ β → v z i ≤ v s i
  bad : ∀ {i}, i < β → R i = β
  good : ∀ {i}, β ≤ i → i < N → R i ≤ i ∧ α ≤ pj i ∧ pj i ≤ R i
  semi : ∀ {i}, α ≤ i → i < β → pj i = α
  pm : ∀ {j j'}, col j → col j' → α ≤ j → j ≤ j' → p (j - 1) ≤ p (j' - 1)
  cm : ∀ {j j' i}, j ≤ j' → c j' i ≤ c j i

/-- For a row between `α` and `β`, some candidate is in reach. -/
def Reach (α i : Nat) (js : List Nat) : Prop := (∃ e ∈ js, α ≤ e ∧ e ≤ i) ∨ ∀ x ∈ js, α ≤ x

/-- What is promised about row `i`. -/
structure RowDone (v : Nat → Nat → Rat) (R : Nat → Nat) (α β : Nat) (js : List Nat) (r : KRow) (i : Nat) : Prop where
  mem : r.J i ∈ js
  val : r.S i = v (r.J i) i
  le : r.J i ≤ R i
  good : β ≤ i → r.J i = R i
  semi : α ≤ i → i < β → α ≤ r.J i

/-! ### `reduce_in_place` -/

/-- Every kept column beats the next one in its row. -/
def Beats (v : Nat → Nat → Rat) (row : Nat → Nat) : List Nat → Nat → Prop
  | [], _ => True
  | s :: l, h => v s (row l.length) < v h (row l.length) ∧ Beats v row l s

variable {v c : Nat → Nat → Rat} {p : Nat → Rat} {pj R : Nat → Nat} {α β N : Nat} {col : Nat → Prop}

theorem reduce_spec (E : Env v c p pj R α β N col) {row : Nat → Nat} (hrow : Monotone row) {n : Nat} (hn : 1 ≤ n) :
    ∀ (fuel : Nat) (stk rest : List Nat), stk.length ≤ n - 1 → Beats v row stk (rest.headD 0) →
      (stk.reverse ++ rest).Pairwise (· < ·) → (∀ j ∈ stk.reverse ++ rest, col j) →
      let o := reduceLoop v row n fuel stk rest
      o.Sublist (stk.reverse ++ rest) ∧
        (∀ k, k < n → R (row k) ∈ stk.reverse ++ rest → R (row k) ∈ o) ∧
        ∀ i, α ≤ i → i < β → Reach α i (stk.reverse ++ rest) → Reach α i o := by
  intro fuel
  induction fuel with
  | zero =>
    intro stk rest _ _ _ _
    exact ⟨List.Sublist.refl _, fun _ _ h => h, fun _ _ _ h => h⟩
  | succ fuel ih =>
    intro stk rest hs hb hp hcol
    dsimp only
    unfold reduceLoop
    by_cases hc : stk.length + rest.length ≤ n
    · rw [if_pos hc]
      exact ⟨List.Sublist.refl _, fun _ _ h => h, fun _ _ _ h => h⟩
    rw [if_neg hc]
    match rest, hb, hp, hcol with
    | [], _, _, _ => exact ⟨List.Sublist.refl _, fun _ _ h => h, fun _ _ _ h => h⟩
    | [x], _, _, _ => exact ⟨List.Sublist.refl _, fun _ _ h => h, fun _ _ _ h => h⟩
    | j :: j1 :: rs, hb, hp, hcol =>
      have hjj : j < j1 := by
        have := (List.pairwise_append.1 hp).2.1
        exact (List.pairwise_cons.1 this).1 j1 (by simp)
      have hj : col j := hcol j (by simp)
      have hj1 : col j1 := hcol j1 (by simp)
      simp only [List.headD_cons] at hb
      by_cases c1 : v j (row stk.length) < v j1 (row stk.length) ∧ stk.length < n - 1
      · dsimp only
        rw [if_pos c1]
        have := ih (j :: stk) (j1 :: rs) (by simp only [List.length_cons]; omega) ⟨c1.1, hb⟩
          (by simpa using hp) (by simpa using hcol)
        simpa using this
      dsimp only
      rw [if_neg c1]
      by_cases c2 : v j (row stk.length) < v j1 (row stk.length) ∧ stk.length = n - 1
      · -- delete `j1`
        rw [if_pos c2]
        have hsub : (stk.reverse ++ j :: rs).Sublist (stk.reverse ++ j :: j1 :: rs) := by simp
        have hnot : ∀ k, k < n → R (row k) ≠ j1 := fun k hk he => by
          have h1 := E.tm hjj.le (hrow (show k ≤ stk.length by omega))
          have h2 := E.least (i := row k) hj
          rw [he] at h2
          linarith [c2.1]
        have := ih stk (j :: rs) hs (by simpa using hb) (hp.sublist hsub) fun x hx => hcol x (hsub.subset hx)
        dsimp only at this
        obtain ⟨i1, i2, i3⟩ := this
        refine ⟨i1.trans hsub, fun k hk hm => i2 k hk ?_, fun i h1 h2 hr => i3 i h1 h2 ?_⟩
        · have := hnot k hk
          simp only [List.mem_append, List.mem_cons] at hm ⊢
          tauto
        · rcases hr with ⟨e, he, h3, h4⟩ | hall
          · left
            refine ⟨e, ?_, h3, h4⟩
            have hne : e ≠ j1 := fun hc => by
              have := E.dom (i := row stk.length) hj hjj (hc ▸ h3) (by omega)
              linarith [c2.1]
            simp only [List.mem_append, List.mem_cons] at he ⊢
            tauto
          · exact .inr fun x hx => hall x (hsub.subset hx)
      · -- delete `j`
        rw [if_neg c2]
        have hge : v j1 (row stk.length) ≤ v j (row stk.length) := by
          by_contra hlt
          have hlt := not_le.1 hlt
          rcases Nat.lt_or_ge stk.length (n - 1) with h | h
          · exact c1 ⟨hlt, h⟩
          · exact c2 ⟨hlt, by omega⟩
        have hup : ∀ k, stk.length ≤ k → R (row k) ≠ j := fun k hk he => by
          have h1 := E.tm hjj.le (hrow hk)
          have h2 := E.last (i := row k) hj1 (by rw [he]; exact hjj)
          rw [he] at h2
          linarith
        match stk, hs, hb, hp, hcol, hup with
        | [], hs, hb, hp, hcol, hup =>
          dsimp only
          have hsub : (j1 :: rs).Sublist ([].reverse ++ j :: j1 :: rs) := by simp
          have := ih [] (j1 :: rs) hs trivial (hp.sublist hsub) fun x hx => hcol x (hsub.subset hx)
          dsimp only at this
          obtain ⟨i1, i2, i3⟩ := this
          refine ⟨i1.trans hsub, fun k hk hm => i2 k hk ?_, fun i h1 h2 hr => i3 i h1 h2 ?_⟩
          · have := hup k (by simp)
            simp only [List.reverse_nil, List.nil_append, List.mem_cons] at hm ⊢
            tauto
          · rcases hr with ⟨e, he, h3, h4⟩ | hall
            · simp only [List.reverse_nil, List.nil_append, List.mem_cons] at he
              rcases he with he | he
              · right
                intro x hx
                have : j < x := by
                  have := (List.pairwise_append.1 hp).2.1
                  exact (List.pairwise_cons.1 this).1 x (by simpa using hx)
                omega
              · left
                exact ⟨e, by simpa using he, h3, h4⟩
            · exact .inr fun x hx => hall x (hsub.subset hx)
        | s :: stk', hs, hb, hp, hcol, hup =>
          dsimp only
          have hsj : s < j := by
            rw [List.reverse_cons, List.append_assoc] at hp
            have := (List.pairwise_append.1 hp).2.1
            exact (List.pairwise_cons.1 this).1 j (by simp)
          have hsc : col s := hcol s (by simp)
          have hsub : (stk'.reverse ++ s :: j1 :: rs).Sublist ((s :: stk').reverse ++ j :: j1 :: rs) := by simp
          have := ih stk' (s :: j1 :: rs) (by simp only [List.length_cons] at hs; omega) (by simpa using hb.2)
            (hp.sublist hsub) fun x hx => hcol x (hsub.subset hx)
          dsimp only at this
          obtain ⟨i1, i2, i3⟩ := this
          refine ⟨i1.trans hsub, fun k hk hm => i2 k hk ?_, fun i h1 h2 hr => i3 i h1 h2 ?_⟩
          · have hne : R (row k) ≠ j := by
              rcases Nat.lt_or_ge k (s :: stk').length with h | h
              · intro he
                simp only [List.length_cons] at h
                have h1 := E.tm hsj.le (hrow (show k ≤ stk'.length by omega))
                have h2 := E.least (i := row k) hsc
                rw [he] at h2
                linarith [hb.1]
              · exact hup k h
            simp only [List.reverse_cons, List.append_assoc, List.mem_append, List.mem_cons] at hm ⊢
            simp only [List.not_mem_nil, or_false] at hm
            tauto
          · rcases hr with ⟨e, he, h3, h4⟩ | hall
            · left
              refine ⟨e, ?_, h3, h4⟩
              have hne : e ≠ j := fun hc => by
                have := E.dom (i := row stk'.length) hsc hsj (hc ▸ h3) (by omega)
                linarith [hb.1]
              simp only [List.reverse_cons, List.append_assoc, List.mem_append, List.mem_cons] at he ⊢
              simp only [List.not_mem_nil, or_false] at he
              tauto
            · exact .inr fun x hx => hall x (hsub.subset hx)

/-! ### One row -/

/-- The state of a search through the candidates `l` that are left. -/
structure Cur (v : Nat → Nat → Rat) (R : Nat → Nat) (α β : Nat) (col : Nat → Prop) (i jm : Nat) (l : List Nat)
    (b : Rat × Nat) : Prop where
  col : col b.2
  val : b.1 = v b.2 i
  le : b.2 ≤ R i
  lt : ∀ x ∈ l, b.2 < x
  good : β ≤ i → b.2 = R i ∨ R i ∈ l
  semi : α ≤ i → i < β → α ≤ b.2 ∨ ∃ e ∈ l, α ≤ e ∧ e ≤ jm

theorem Cur.skip (E : Env v c p pj R α β N col) {i jm j : Nat} {l : List Nat} {b : Rat × Nat}
    (h : Cur v R α β col i jm (j :: l) b) (hN : i < N) (hj : j < pj i) : Cur v R α β col i jm l b where
  col := h.col
  val := h.val
  le := h.le
  lt x hx := h.lt x (List.mem_cons_of_mem _ hx)
  good hi := by
    rcases h.good hi with e | e
    · exact .inl e
    · right
      rcases List.mem_cons.1 e with e | e
      · have := (E.good hi hN).2.2
        omega
      · exact e
  semi h1 h2 := by
    rcases h.semi h1 h2 with e | ⟨e, he, h3, h4⟩
    · exact .inl e
    · right
      refine ⟨e, ?_, h3, h4⟩
      rcases List.mem_cons.1 he with e' | e'
      · have := E.semi h1 h2
        omega
      · exact e'

theorem Cur.take (E : Env v c p pj R α β N col) {i jm j : Nat} {l : List Nat} {b : Rat × Nat}
    (h : Cur v R α β col i jm (j :: l) b) (hs : (j :: l).Pairwise (· < ·)) (hcol : col j) (hj : j ≤ i)
    (hv : v j i ≤ b.1) : Cur v R α β col i jm l (v j i, j) := by
  have hbj : b.2 < j := h.lt j (by simp)
  have hsort := (List.pairwise_cons.1 hs).1
  have hR : β ≤ i → R i ∈ j :: l := fun hi => by
    rcases h.good hi with e | e
    · have := E.last (i := i) hcol (by omega)
      rw [h.val, e] at hv
      linarith
    · exact e
  refine ⟨hcol, rfl, ?_, hsort, fun hi => ?_, fun h1 h2 => ?_⟩
  · show j ≤ R i
    rcases Nat.lt_or_ge i β with hi | hi
    · rw [E.bad hi]
      omega
    · rcases List.mem_cons.1 (hR hi) with e | e
      · omega
      · exact (hsort _ e).le
  · rcases List.mem_cons.1 (hR hi) with e | e
    · exact .inl e.symm
    · exact .inr e
  · rcases h.semi h1 h2 with e | ⟨e, he, h3, h4⟩
    · left
      show α ≤ j
      omega
    · rcases List.mem_cons.1 he with e' | e'
      · left
        show α ≤ j
        omega
      · exact .inr ⟨e, e', h3, h4⟩

theorem Cur.pass (E : Env v c p pj R α β N col) {i jm j : Nat} {l : List Nat} {b : Rat × Nat}
    (h : Cur v R α β col i jm (j :: l) b) (hcol : col j) (hjm : jm ≤ i) (hv : ¬ v j i ≤ b.1) :
    Cur v R α β col i jm l b where
  col := h.col
  val := h.val
  le := h.le
  lt x hx := h.lt x (List.mem_cons_of_mem _ hx)
  good hi := by
    rcases h.good hi with e | e
    · exact .inl e
    · right
      rcases List.mem_cons.1 e with e | e
      · have := E.least (i := i) h.col
        rw [h.val, ← e] at hv
        exact absurd this hv
      · exact e
  semi h1 h2 := by
    rcases h.semi h1 h2 with e | ⟨e, he, h3, h4⟩
    · exact .inl e
    · right
      refine ⟨e, ?_, h3, h4⟩
      rcases List.mem_cons.1 he with e' | e'
      · subst e'
        rw [h.val] at hv
        exact absurd (E.dom (i := i) h.col (h.lt e (by simp)) h3 (by omega)) hv
      · exact e'

/-- The search ends: nothing in reach is left. -/
theorem Cur.stop {i jm : Nat} {l : List Nat} {b : Rat × Nat} (h : Cur v R α β col i jm l b)
    (h1 : β ≤ i → R i ∉ l) (h2 : α ≤ i → i < β → ∀ e ∈ l, α ≤ e → ¬ e ≤ jm) : Cur v R α β col i jm [] b where
  col := h.col
  val := h.val
  le := h.le
  lt x hx := by simp at hx
  good hi := .inl ((h.good hi).resolve_right (h1 hi))
  semi a b := .inl ((h.semi a b).resolve_right fun ⟨e, he, h3, h4⟩ => h2 a b e he h3 h4)

theorem scanMin_spec (E : Env v c p pj R α β N col) {i : Nat} (hN : i < N) : ∀ (l : List Nat) (b : Rat × Nat),
    l.Pairwise (· < ·) → (∀ j ∈ l, col j) → Cur v R α β col i i l b →
      let o := scanMin v (pj i) i l b
      Cur v R α β col i i [] o ∧ (o = b ∨ o.2 ∈ l) := by
  intro l
  induction l with
  | nil => exact fun b _ _ h => ⟨h, .inl rfl⟩
  | cons j l ih =>
    intro b hs hcol h
    have hs' := (List.pairwise_cons.1 hs)
    have hc' : ∀ x ∈ l, col x := fun x hx => hcol x (List.mem_cons_of_mem _ hx)
    have more : ∀ {o : Rat × Nat} {b' : Rat × Nat}, (o = b' ∨ o.2 ∈ l) → (b' = b ∨ b'.2 = j) → o = b ∨ o.2 ∈ j :: l := by
      intro o b' h1 h2
      rcases h1 with h1 | h1
      · subst h1
        rcases h2 with h2 | h2
        · exact .inl h2
        · exact .inr (h2 ▸ List.mem_cons_self ..)
      · exact .inr (List.mem_cons_of_mem _ h1)
    dsimp only
    rw [scanMin]
    by_cases c1 : j < pj i
    · rw [if_pos c1]
      have := ih b hs'.2 hc' (h.skip E hN c1)
      exact ⟨this.1, more this.2 (.inl rfl)⟩
    rw [if_neg c1]
    by_cases c2 : j > i
    · rw [if_pos c2]
      refine ⟨h.stop (fun hi hm => ?_) fun h1 h2 e he h3 h4 => ?_, .inl rfl⟩
      · have := (E.good hi hN).1
        rcases List.mem_cons.1 hm with e | e
        · omega
        · have := hs'.1 _ e
          omega
      · rcases List.mem_cons.1 he with e' | e'
        · omega
        · have := hs'.1 _ e'
          omega
    rw [if_neg c2]
    by_cases c3 : v j i ≤ b.1
    · rw [if_pos c3]
      have := ih (v j i, j) hs'.2 hc' (h.take E hs (hcol j (by simp)) (by omega) c3)
      exact ⟨this.1, more this.2 (.inr rfl)⟩
    · rw [if_neg c3]
      have := ih b hs'.2 hc' (h.pass E (hcol j (by simp)) le_rfl c3)
      exact ⟨this.1, more this.2 (.inl rfl)⟩

theorem scanEven_spec (E : Env v c p pj R α β N col) {i jh : Nat} (hN : i < N)
    (hjh : β ≤ i → R i ≤ jh) :
    ∀ (l : List Nat) (x : Nat) (b : Rat × Nat),
    (x :: l).Pairwise (· < ·) → (∀ j ∈ l, col j) → Cur v R α β col i (min jh i) l b →
      let o := scanEven v p (pj i) i (min jh i) (c (min jh i) i) (x :: l) b
      Cur v R α β col i (min jh i) [] o.2 ∧ (o.2 = b ∨ o.2.2 ∈ l) ∧ o.1 <:+ x :: l ∧
        ∃ y l', o.1 = y :: l' ∧ (y = x ∨ y ≤ jh) := by
  intro l
  induction l with
  | nil => exact fun x b _ _ h => ⟨h, .inl rfl, List.suffix_refl _, x, [], rfl, .inl rfl⟩
  | cons j l ih =>
    intro x b hs hcol h
    have hs1 := (List.pairwise_cons.1 hs).2
    have hs' := (List.pairwise_cons.1 hs1)
    have hc' : ∀ x ∈ l, col x := fun x hx => hcol x (List.mem_cons_of_mem _ hx)
    have hj : col j := hcol j (by simp)
    have hmi : min jh i ≤ i := min_le_right ..
    have more : ∀ {o : List Nat × Rat × Nat} {b' : Rat × Nat}, j ≤ jh → (b' = b ∨ b'.2 = j) →
        (Cur v R α β col i (min jh i) [] o.2 ∧ (o.2 = b' ∨ o.2.2 ∈ l) ∧ o.1 <:+ j :: l ∧
          ∃ y l', o.1 = y :: l' ∧ (y = j ∨ y ≤ jh)) →
        Cur v R α β col i (min jh i) [] o.2 ∧ (o.2 = b ∨ o.2.2 ∈ j :: l) ∧ o.1 <:+ x :: j :: l ∧
          ∃ y l', o.1 = y :: l' ∧ (y = x ∨ y ≤ jh) := by
      intro o b' hjj hb' ⟨a1, a2, a3, y, l', a4, a5⟩
      refine ⟨a1, ?_, a3.trans (List.suffix_cons ..), y, l', a4, .inr (by omega)⟩
      rcases a2 with e | e
      · rcases hb' with e' | e'
        · exact .inl (e.trans e')
        · right
          rw [e, e']
          exact List.mem_cons_self ..
      · exact .inr (List.mem_cons_of_mem _ e)
    have out : ∀ (b' : Rat × Nat), Cur v R α β col i (min jh i) [] b' → b' = b →
        Cur v R α β col i (min jh i) [] b' ∧ (b' = b ∨ b'.2 ∈ j :: l) ∧ (x :: j :: l) <:+ x :: j :: l ∧
          ∃ y l', x :: j :: l = y :: l' ∧ (y = x ∨ y ≤ jh) :=
      fun b' a1 a2 => ⟨a1, .inl a2, List.suffix_refl _, x, _, rfl, .inl rfl⟩
    dsimp only
    rw [scanEven]
    by_cases c1 : j > min jh i
    · rw [if_pos c1]
      refine out b (h.stop (fun hi hm => ?_) fun h1 h2 e he h3 h4 => ?_) rfl
      · have g1 := (E.good hi hN).1
        have g2 := hjh hi
        rcases List.mem_cons.1 hm with e | e
        · omega
        · have := hs'.1 _ e
          omega
      · rcases List.mem_cons.1 he with e' | e'
        · omega
        · have := hs'.1 _ e'
          omega
    rw [if_neg c1, if_neg (by omega)]
    have hjjh : j ≤ jh := by omega
    by_cases c2 : j < pj i
    · rw [if_pos c2]
      exact more hjjh (.inl rfl) (ih j b hs1 hc' (h.skip E hN c2))
    rw [if_neg c2]
    by_cases c3 : v j i ≤ b.1
    · rw [if_pos c3]
      exact more hjjh (.inr rfl) (ih j (v j i, j) hs1 hc' (h.take E hs1 hj (by omega) c3))
    rw [if_neg c3]
    by_cases c4 : p (j - 1) + c (min jh i) i > b.1
    · rw [if_pos c4]
      refine out b ((h.pass E hj hmi c3).stop (fun hi hm => ?_) fun h1 h2 e he h3 h4 => ?_) rfl
      · have g1 := (E.good hi hN).1
        have g2 := hjh hi
        have g3 := (E.good hi hN).2.1
        have g4 := E.pm hj (hc' _ hm) (by omega) (hs'.1 _ hm).le
        have g5 := E.cm (i := i) (show R i ≤ min jh i by omega)
        have g6 := E.least (i := i) h.col
        rw [E.val, ← h.val] at g6
        linarith
      · have e1 := E.semi h1 h2
        have e2 := E.dom (i := i) h.col (h.lt j (by simp)) (by omega) (by omega)
        rw [h.val] at c3
        exact c3 e2
    · rw [if_neg c4]
      exact more hjjh (.inl rfl) (ih j b hs1 hc' (h.pass E hj hmi c3))

/-! ### `fill_even_positions` and `SMAWK` -/

theorem mem_dropWhile {x jl : Nat} (h : jl ≤ x) : ∀ {l : List Nat}, x ∈ l → x ∈ l.dropWhile (· < jl) := by
  intro l
  induction l with
  | nil => exact fun h => h
  | cons a l ih =>
    intro hm
    by_cases ha : a < jl
    · rw [List.dropWhile_cons_of_pos (by simpa using ha)]
      rcases List.mem_cons.1 hm with e | e
      · omega
      · exact ih e
    · rw [List.dropWhile_cons_of_neg (by simpa using ha)]
      exact hm

theorem mem_suffix {js suf : List Nat} {y x : Nat} {l : List Nat} (hs : js.Pairwise (· < ·)) (h : suf <:+ js)
    (he : suf = y :: l) (hx : x ∈ js) (hy : y ≤ x) : x ∈ suf := by
  obtain ⟨a, rfl⟩ := h
  rcases List.mem_append.1 hx with h1 | h1
  · have := (List.pairwise_append.1 hs).2.2 x h1 y (by rw [he]; simp)
    omega
  · exact h1

theorem head_le {y x : Nat} {l : List Nat} (hs : (y :: l).Pairwise (· < ·)) (hx : x ∈ y :: l) : y ≤ x := by
  rcases List.mem_cons.1 hx with e | e
  · omega
  · exact ((List.pairwise_cons.1 hs).1 x e).le

theorem le_getLast {js : List Nat} (hs : js.Pairwise (· < ·)) {x : Nat} (hx : x ∈ js) : x ≤ js.getLastD 0 := by
  induction js generalizing x with
  | nil => simp at hx
  | cons a l ih =>
    have h := List.pairwise_cons.1 hs
    cases l with
    | nil =>
      simp only [List.mem_singleton] at hx
      simp [hx]
    | cons b l =>
      have e : (a :: b :: l).getLastD 0 = (b :: l).getLastD 0 := by simp
      rw [e]
      rcases List.mem_cons.1 hx with e' | e'
      · have h1 := h.1 b (by simp)
        have h2 := ih h.2 (List.mem_cons_self ..)
        omega
      · exact ih h.2 e'

variable {prev : KRow}

theorem evenLoop_spec (E : Env (cutVal c prev) c prev.S prev.J R α β N col) {imax step : Nat} (hN : imax < N)
    (hst : 1 ≤ step)     {js : List Nat} (hs : js.Pairwise (· < ·)) (hcol : ∀ j ∈ js, col j) :
    ∀ (fuel i : Nat) (suf : List Nat) (jl : Nat) (r : KRow), imax + 1 ≤ i + fuel → suf <:+ js →
      (i ≤ imax → ∃ y l, suf = y :: l ∧ y ≤ R i) → (i ≤ imax → jl ≤ R i) →
      (∀ k, i + k * step ≤ imax → R (i + k * step) ∈ js) →
      (∀ k, i + k * step ≤ imax → α ≤ i + k * step → i + k * step < β → Reach α (i + k * step) js) →
      (∀ k, i + step + 2 * k * step ≤ imax → RowDone (cutVal c prev) R α β js r (i + step + 2 * k * step)) →
      let r' := evenLoop c prev imax step (js.getLastD 0) fuel i suf jl r
      (∀ x, (∀ k, i + 2 * k * step ≤ imax → x ≠ i + 2 * k * step) → r'.S x = r.S x ∧ r'.J x = r.J x) ∧
        ∀ k, i + 2 * k * step ≤ imax → RowDone (cutVal c prev) R α β js r' (i + 2 * k * step) := by
  intro fuel
  induction fuel with
  | zero =>
    intro i suf jl r hf _ _ _ _ _ _
    exact ⟨fun x _ => ⟨rfl, rfl⟩, fun k hk => absurd hk (by omega)⟩
  | succ fuel ih =>
    intro i suf jl r hf hsuf hhead hjl hR hreach hodd
    dsimp only
    rw [evenLoop]
    by_cases hi : i > imax
    · rw [if_pos hi]
      exact ⟨fun x _ => ⟨rfl, rfl⟩, fun k hk => absurd hk (by omega)⟩
    rw [if_neg hi]
    have hi : i ≤ imax := by omega
    obtain ⟨y, l, e0, hy⟩ := hhead hi
    have hRi : R i ∈ js := by simpa using hR 0 (by simpa using hi)
    have hRs : R i ∈ suf := mem_suffix hs hsuf e0 hRi hy
    have hRd := mem_dropWhile (hjl hi) hRs
    dsimp only
    have hsuf' : suf.dropWhile (· < jl) <:+ js := (List.dropWhile_suffix _).trans hsuf
    generalize suf.dropWhile (· < jl) = suf' at *
    match suf', hRd, hsuf' with
    | y' :: l', hRd, hsuf' =>
      simp only [List.headD_cons]
      have hs' : (y' :: l').Pairwise (· < ·) := hs.sublist hsuf'.sublist
      have hy' : y' ≤ R i := head_le hs' hRd
      have hcol' : ∀ j ∈ y' :: l', col j := fun j hj => hcol j (hsuf'.subset hj)
      -- the upper end
      generalize hjh : (if i + step ≤ imax then r.J (i + step) else js.getLastD 0) = jh
      have hodd0 : i + step ≤ imax → RowDone (cutVal c prev) R α β js r (i + step) := fun h => by
        simpa using hodd 0 (by simpa using h)
      have hjhR : β ≤ i → R i ≤ jh := fun hb => by
        rw [← hjh]
        split
        · rename_i h
          rw [(hodd0 h).good (by omega)]
          exact E.mono (by omega)
        · exact le_getLast hs hRi
      have hcur : Cur (cutVal c prev) R α β col i (min jh i) l' (cutVal c prev y' i, y') := by
        refine ⟨hcol' y' (by simp), rfl, hy', (List.pairwise_cons.1 hs').1, fun _ => ?_, fun h1 h2 => ?_⟩
        · rcases List.mem_cons.1 hRd with e | e
          · exact .inl e.symm
          · exact .inr e
        · rcases Nat.lt_or_ge y' α with hlt | hge
          · right
            have hre : Reach α i js := by simpa using hreach 0 (by simpa using hi) (by simpa using h1) (by simpa using h2)
            rcases hre with ⟨e, he, h3, h4⟩ | hall
            · have key : ∃ e ∈ js, α ≤ e ∧ e ≤ i ∧ e ≤ jh := by
                by_cases hx : i + step ≤ imax
                · rw [if_pos hx] at hjh
                  have hd := hodd0 hx
                  rcases Nat.lt_or_ge (i + step) β with hb | hb
                  · have h5 := hd.semi (by omega) hb
                    rcases Nat.lt_or_ge i (r.J (i + step)) with h6 | h6
                    · exact ⟨e, he, h3, h4, by omega⟩
                    · exact ⟨_, hd.mem, h5, h6, by omega⟩
                  · have h5 := hd.good hb
                    have h6 : R i ≤ R (i + step) := E.mono (by omega)
                    rw [E.bad h2] at h6
                    exact ⟨e, he, h3, h4, by omega⟩
                · rw [if_neg hx] at hjh
                  exact ⟨e, he, h3, h4, hjh ▸ le_getLast hs he⟩
              obtain ⟨e, he, h3, h4, h5⟩ := key
              have := mem_suffix hs hsuf' rfl he (show y' ≤ e by omega)
              rcases List.mem_cons.1 this with e' | e'
              · omega
              · exact ⟨e, e', h3, by omega⟩
            · exact absurd (hall y' (hsuf'.subset (by simp))) (by omega)
          · exact .inl hge
      have hscan := scanEven_spec E (show i < N by omega) hjhR l' y' (cutVal c prev y' i, y') hs'
        (fun j hj => hcol' j (List.mem_cons_of_mem _ hj)) hcur
      dsimp only at hscan
      generalize scanEven (cutVal c prev) prev.S (prev.J i) i (min jh i) (c (min jh i) i) (y' :: l')
        (cutVal c prev y' i, y') = o at *
      obtain ⟨s1, s2, s3, y2, l2, s4, s5⟩ := hscan
      have hmem : o.2.2 ∈ js := by
        rcases s2 with e | e
        · rw [e]
          exact hsuf'.subset (by simp)
        · exact hsuf'.subset (List.mem_cons_of_mem _ e)
      generalize hr1 : r.set i o.2.1 o.2.2 = r1
      have hr1S : ∀ x, r1.S x = if x = i then o.2.1 else r.S x := fun x => by rw [← hr1]; rfl
      have hr1J : ∀ x, r1.J x = if x = i then o.2.2 else r.J x := fun x => by rw [← hr1]; rfl
      have hjhle : i + step ≤ imax → jh ≤ R (i + step) := fun h => by
        rw [← hjh, if_pos h]
        exact (hodd0 h).le
      have hdone : RowDone (cutVal c prev) R α β js r1 i := by
        refine ⟨?_, ?_, ?_, fun hb => ?_, fun h1 h2 => ?_⟩
        · rw [hr1J, if_pos rfl]
          exact hmem
        · rw [hr1J, hr1S, if_pos rfl, if_pos rfl]
          exact s1.val
        · rw [hr1J, if_pos rfl]
          exact s1.le
        · rw [hr1J, if_pos rfl]
          simpa using s1.good hb
        · rw [hr1J, if_pos rfl]
          simpa using s1.semi h1 h2
      have step2 : ∀ k, i + 2 * step + k * step = i + (k + 2) * step := fun k => by ring
      have hrec := ih (i + 2 * step) o.1 jh r1 (by omega) (s3.trans hsuf')
        (fun h => ⟨y2, l2, s4, by
          rcases s5 with e | e
          · rw [e]
            exact hy'.trans (E.mono (by omega))
          · exact e.trans ((hjhle (by omega)).trans (E.mono (by omega)))⟩)
        (fun h => (hjhle (by omega)).trans (E.mono (by omega)))
        (fun k hk => by
          rw [step2] at hk ⊢
          exact hR _ hk)
        (fun k hk h1 h2 => by
          rw [step2] at hk h1 h2 ⊢
          exact hreach _ hk h1 h2)
        (fun k hk => by
          have e : i + 2 * step + step + 2 * k * step = i + step + 2 * (k + 1) * step := by ring
          rw [e] at hk ⊢
          have hd := hodd (k + 1) hk
          have hne : i + step + 2 * (k + 1) * step ≠ i := by omega
          exact ⟨by rw [hr1J, if_neg hne]; exact hd.mem, by rw [hr1J, hr1S, if_neg hne, if_neg hne]; exact hd.val,
            by rw [hr1J, if_neg hne]; exact hd.le, by rw [hr1J, if_neg hne]; exact hd.good,
            by rw [hr1J, if_neg hne]; exact hd.semi⟩)
      dsimp only at hrec
      generalize evenLoop c prev imax step (js.getLastD 0) fuel (i + 2 * step) o.1 jh r1 = r2 at *
      obtain ⟨t1, t2⟩ := hrec
      have e2 : ∀ k, i + 2 * step + 2 * k * step = i + 2 * (k + 1) * step := fun k => by ring
      constructor
      · intro x hx
        have h1 := t1 x fun k hk => by
          rw [e2] at hk ⊢
          exact hx (k + 1) hk
        have hne : x ≠ i := by simpa using hx 0 (by simpa using hi)
        rw [h1.1, h1.2, hr1S, hr1J, if_neg hne, if_neg hne]
        exact ⟨rfl, rfl⟩
      · intro k hk
        cases k with
        | zero =>
          have h1 := t1 i fun k _ => by
            have : 0 < 2 * step := by omega
            omega
          rw [show i + 2 * 0 * step = i by ring]
          exact ⟨by rw [h1.2]; exact hdone.mem, by rw [h1.1, h1.2]; exact hdone.val, by rw [h1.2]; exact hdone.le,
            by rw [h1.2]; exact hdone.good, by rw [h1.2]; exact hdone.semi⟩
        | succ k =>
          rw [← e2] at hk ⊢
          exact t2 k hk

theorem RowDone.mono {js js' : List Nat} {r : KRow} {i : Nat} (h : RowDone v R α β js r i) (hs : js.Sublist js') :
    RowDone v R α β js' r i := ⟨hs.subset h.mem, h.val, h.le, h.good, h.semi⟩

theorem smawk_spec (E : Env (cutVal c prev) c prev.S prev.J R α β N col) :
    ∀ (fuel imin m step : Nat) (js : List Nat) (r : KRow), m + 1 ≤ fuel → 1 ≤ step →
      imin + m * step < N → js.Pairwise (· < ·) →
      (∀ j ∈ js, col j) → (∀ k, k ≤ m → R (imin + k * step) ∈ js) →
      (∀ k, k ≤ m → α ≤ imin + k * step → imin + k * step < β → Reach α (imin + k * step) js) →
      let r' := smawk c prev fuel imin (imin + m * step) step js r
      (∀ x, (∀ k, k ≤ m → x ≠ imin + k * step) → r'.S x = r.S x ∧ r'.J x = r.J x) ∧
        ∀ k, k ≤ m → RowDone (cutVal c prev) R α β js r' (imin + k * step) := by
  intro fuel
  induction fuel with
  | zero =>
    intro imin m step js r hf
    exact absurd hf (by omega)
  | succ fuel ih =>
    intro imin m step js r hf hst hN hs hcol hR hreach
    dsimp only
    rw [smawk]
    cases m with
    | zero =>
      simp only [Nat.zero_mul, Nat.add_zero, le_refl, if_true]
      have hRi : R imin ∈ js := by simpa using hR 0 le_rfl
      match js, hs, hcol, hRi, hreach with
      | y :: l, hs, hcol, hRi, hreach =>
        simp only [List.headD_cons, List.tail_cons]
        have hcur : Cur (cutVal c prev) R α β col imin imin l (cutVal c prev y imin, y) := by
          refine ⟨hcol y (by simp), rfl, head_le hs hRi, (List.pairwise_cons.1 hs).1, fun _ => ?_, fun h1 h2 => ?_⟩
          · rcases List.mem_cons.1 hRi with e | e
            · exact .inl e.symm
            · exact .inr e
          · rcases Nat.lt_or_ge y α with hlt | hge
            · right
              have hre : Reach α imin (y :: l) := by
                simpa using hreach 0 le_rfl (by simpa using h1) (by simpa using h2)
              rcases hre with ⟨e, he, h3, h4⟩ | hall
              · rcases List.mem_cons.1 he with e' | e'
                · omega
                · exact ⟨e, e', h3, h4⟩
              · exact absurd (hall y (by simp)) (by omega)
            · exact .inl hge
        have hscan := scanMin_spec E (show imin < N by omega) l (cutVal c prev y imin, y) (List.pairwise_cons.1 hs).2
          (fun j hj => hcol j (List.mem_cons_of_mem _ hj)) hcur
        dsimp only at hscan
        generalize scanMin (cutVal c prev) (prev.J imin) imin l (cutVal c prev y imin, y) = o at *
        obtain ⟨s1, s2⟩ := hscan
        constructor
        · intro x hx
          have hne : x ≠ imin := by simpa using hx 0 le_rfl
          rw [set_S, set_J, if_neg hne, if_neg hne]
          exact ⟨rfl, rfl⟩
        · intro k hk
          rw [show imin + k * step = imin by rw [show k = 0 by omega]; ring]
          refine ⟨?_, ?_, ?_, fun hb => ?_, fun h1 h2 => ?_⟩
          · rw [set_J, if_pos rfl]
            rcases s2 with e | e
            · rw [e]
              simp
            · exact List.mem_cons_of_mem _ e
          · rw [set_J, set_S, if_pos rfl, if_pos rfl]
            exact s1.val
          · rw [set_J, if_pos rfl]
            exact s1.le
          · rw [set_J, if_pos rfl]
            simpa using s1.good hb
          · rw [set_J, if_pos rfl]
            simpa using s1.semi h1 h2
    | succ m =>
      have hpos : 0 < (m + 1) * step := Nat.mul_pos (by omega) (by omega)
      rw [if_neg (by omega)]
      dsimp only
      have hn : (imin + (m + 1) * step - imin) / step + 1 = m + 2 := by
        rw [Nat.add_sub_cancel_left, Nat.mul_div_cancel _ (by omega)]
      rw [hn]
      -- the reduced columns
      generalize hjo : (if m + 2 ≥ js.length then js
        else reduceLoop (cutVal c prev) (fun p => imin + p * step) (m + 2) (2 * js.length) [] js) = jo
      have hred : jo.Sublist js ∧ (∀ k, k < m + 2 → R (imin + k * step) ∈ js → R (imin + k * step) ∈ jo) ∧
          ∀ i, α ≤ i → i < β → Reach α i js → Reach α i jo := by
        rw [← hjo]
        split
        · exact ⟨List.Sublist.refl _, fun _ _ h => h, fun _ _ _ h => h⟩
        · have hrow : Monotone fun p => imin + p * step := fun a b hab =>
            Nat.add_le_add_left (Nat.mul_le_mul_right _ hab) _
          simpa using reduce_spec E hrow (n := m + 2) (by omega) (2 * js.length) [] js (by simp) trivial (by simpa using hs)
            (by simpa using hcol)
      obtain ⟨r1, r2, r3⟩ := hred
      -- the odd rows
      have hb : (imin + (m + 1) * step - (imin + step)) / (2 * step) * (2 * step) = (m / 2) * (2 * step) := by
        have : imin + (m + 1) * step - (imin + step) = m * step := by
          rw [Nat.add_mul]
          omega
        rw [this, Nat.mul_comm 2 step, ← Nat.div_div_eq_div_mul, Nat.mul_div_cancel _ (by omega)]
      rw [hb]
      have hN' : imin + step + m / 2 * (2 * step) < N := by
        have h1 : imin + step + m / 2 * (2 * step) = imin + (2 * (m / 2) + 1) * step := by ring
        have h2 : (2 * (m / 2) + 1) * step ≤ (m + 1) * step := Nat.mul_le_mul_right _ (by omega)
        omega
      have hodd := ih (imin + step) (m / 2) (2 * step) jo r (by omega) (by omega) hN' (hs.sublist r1)
        (fun j hj => hcol j (r1.subset hj))
        (fun k hk => by
          have e : imin + step + k * (2 * step) = imin + (2 * k + 1) * step := by ring
          rw [e]
          exact r2 _ (by omega) (hR _ (by omega)))
        (fun k hk h1 h2 => by
          have e : imin + step + k * (2 * step) = imin + (2 * k + 1) * step := by ring
          rw [e] at h1 h2 ⊢
          exact r3 _ h1 h2 (hreach _ (by omega) h1 h2))
      dsimp only at hodd
      generalize smawk c prev fuel (imin + step) (imin + step + m / 2 * (2 * step)) (2 * step) jo r = q1 at *
      obtain ⟨o1, o2⟩ := hodd
      have hRi : R imin ∈ js := by simpa using hR 0 (by omega)
      have hex : ∃ y l, js = y :: l := by
        cases js with
        | nil => simp at hRi
        | cons y l => exact ⟨y, l, rfl⟩
      obtain ⟨y, l, ejs⟩ := hex
      have hy : y ≤ R imin := by
        rw [ejs] at hs hRi
        exact head_le hs hRi
      have hbound : ∀ {k}, imin + k * step ≤ imin + (m + 1) * step → k ≤ m + 1 := fun {k} hk =>
        Nat.le_of_mul_le_mul_right (by omega : k * step ≤ (m + 1) * step) (by omega)
      have heven := evenLoop_spec E hN hst hs hcol (imax := imin + (m + 1) * step) (imin + (m + 1) * step + 1) imin js
        (js.headD 0) q1 (by omega) (List.suffix_refl _) (fun _ => ⟨y, l, ejs, hy⟩)
        (fun _ => by rw [ejs]; exact hy) (fun k hk => hR k (hbound hk)) (fun k hk => hreach k (hbound hk))
        (fun k hk => by
          have e : imin + step + 2 * k * step = imin + (2 * k + 1) * step := by ring
          have e' : imin + step + 2 * k * step = imin + step + k * (2 * step) := by ring
          have := hbound (e ▸ hk)
          rw [e']
          exact (o2 k (by omega)).mono r1)
      dsimp only at heven
      generalize evenLoop c prev (imin + (m + 1) * step) step (js.getLastD 0) (imin + (m + 1) * step + 1) imin js
        (js.headD 0) q1 = q2 at *
      obtain ⟨e1, e2⟩ := heven
      constructor
      · intro x hx
        have h1 := e1 x fun k hk => hx (2 * k) (hbound hk)
        have h2 := o1 x fun k hk => by
          have e : imin + step + k * (2 * step) = imin + (2 * k + 1) * step := by ring
          rw [e]
          exact hx _ (by omega)
        rw [h1.1, h1.2, h2.1, h2.2]
        exact ⟨rfl, rfl⟩
      · intro k hk
        rcases Nat.even_or_odd' k with ⟨t, e | e⟩
        · subst e
          exact e2 t (Nat.add_le_add_left (Nat.mul_le_mul_right _ hk) _)
        · subst e
          have h1 := e1 (imin + (2 * t + 1) * step) fun k' _ => by
            intro hc
            have := Nat.eq_of_mul_eq_mul_right (by omega : 0 < step) (Nat.add_left_cancel hc)
            omega
          have hd := (o2 t (by omega)).mono r1
          have e' : imin + step + t * (2 * step) = imin + (2 * t + 1) * step := by ring
          rw [e'] at hd
          exact ⟨by rw [h1.2]; exact hd.mem, by rw [h1.1, h1.2]; exact hd.val, by rw [h1.2]; exact hd.le,
            by rw [h1.2]; exact hd.good, by rw [h1.2]; exact hd.semi⟩

end Streed.KM
