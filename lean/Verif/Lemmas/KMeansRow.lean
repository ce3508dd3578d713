import Verif.Lemmas.Smawk
import Mathlib.Data.Finset.Max

/-!
# A row filled by SMAWK

Where points are equal, SMAWK may write values that are too large into columns whose best value is zero. `RowW` says which
columns can be trusted, and `smawk_row` that the next row can be trusted in the same way.
-/

namespace Streed.KM

variable {c : Nat → Nat → Rat}

/-- `β` is the first point for which `k + 1` runs no longer cost nothing. -/
def First (c : Nat → Nat → Rat) (k β : Nat) : Prop := opt c k β = 0 ∧ 0 < opt c k (β + 1)

theorem first_exists (h : Seg c) {k N : Nat} (hpos : 0 < opt c k N) : ∃ β, β < N ∧ First c k β := by
  classical
  have hex : ∃ n, 0 < opt c k n := ⟨N, hpos⟩
  have h0 : Nat.find hex ≠ 0 := fun h0 => by
    have := Nat.find_spec hex
    rw [h0, opt_few h k (Nat.zero_le _)] at this
    exact lt_irrefl _ this
  have hN := Nat.find_min' hex hpos
  refine ⟨Nat.find hex - 1, by omega, ?_, ?_⟩
  · have := Nat.find_min hex (show Nat.find hex - 1 < Nat.find hex by omega)
    exact le_antisymm (not_lt.1 this) (opt_nonneg h _ _)
  · rw [show Nat.find hex - 1 + 1 = Nat.find hex by omega]
    exact Nat.find_spec hex

theorem First.lt (h : Seg c) {k β n : Nat} (hf : First c k β) (hn : 0 < opt c k n) : β < n := by
  by_contra hc
  have := opt_mono h k (show n ≤ β by omega)
  rw [hf.1] at this
  linarith

theorem First.pos (h : Seg c) {k β n : Nat} (hf : First c k β) (hn : β < n) : 0 < opt c k n :=
  lt_of_lt_of_le hf.2 (opt_mono h k hn)

theorem First.zero (h : Seg c) {k β n : Nat} (hf : First c k β) (hn : n ≤ β) : opt c k n = 0 :=
  le_antisymm (hf.1 ▸ opt_mono h k hn) (opt_nonneg h _ _)

/-- One more run helps, unless nothing is left to gain. -/
theorem opt_strict (h : Seg c) {k n : Nat} (hpos : 0 < opt c k n) : opt c (k + 1) n < opt c k n := by
  by_contra hc
  have e : opt c (k + 1) n = opt c k n := le_antisymm (opt_more h k n) (not_lt.1 hc)
  have key : ∀ m, opt c (k + m) n = opt c k n ∧ opt c (k + m + 1) n = opt c k n := by
    intro m
    induction m with
    | zero => exact ⟨rfl, e⟩
    | succ m ih =>
      refine ⟨ih.2, le_antisymm ?_ ?_⟩
      · have := opt_more h (k + m + 1) n
        rw [ih.2] at this
        exact this
      · have := opt_convex h (k + m) n
        rw [ih.1, ih.2] at this
        have e' : k + (m + 1) + 1 = k + m + 2 := by omega
        rw [e']
        linarith
  have := (key n).1
  rw [opt_few h (k + n) (by omega)] at this
  linarith

/-- What can be trusted of row `q`, from column `imin` on. -/
structure RowW (c : Nat → Nat → Rat) (N q imin : Nat) (r : KRow) : Prop where
  nonneg : ∀ i, 0 ≤ r.S i
  zero : q = 0 → ∀ i, i < N → r.S i = opt c 0 (i + 1) ∧ r.J i = 0
  val : ∀ k, q = k + 1 → ∀ i, imin ≤ i → i < N → (k = 0 ∨ 0 < opt c (k - 1) (i + 1)) → r.S i = opt c q (i + 1)
  arg : ∀ k, q = k + 1 → ∀ i, imin ≤ i → i < N → 0 < opt c k (i + 1) →
    Arg c k i (r.J i) ∧ ∀ j, r.J i < j → j ≤ i → opt c (k + 1) (i + 1) < opt c k j + c j (i + 1)

/-- The last best column of a row. -/
theorem last_best (v : Nat → Rat) {a N : Nat} (h : a < N) :
    ∃ j, (a ≤ j ∧ j < N) ∧ (∀ t, a ≤ t ∧ t < N → v j ≤ v t) ∧ ∀ t, a ≤ t ∧ t < N → j < t → v j < v t := by
  obtain ⟨m, hm, hmin⟩ := (Finset.Ico a N).exists_min_image v ⟨a, by simpa using h⟩
  obtain ⟨j, hj, hmax⟩ := ((Finset.Ico a N).filter fun j => v j = v m).exists_max_image id
    ⟨m, Finset.mem_filter.2 ⟨hm, rfl⟩⟩
  rw [Finset.mem_filter, Finset.mem_Ico] at hj
  refine ⟨j, hj.1, fun t ht => ?_, fun t ht hlt => ?_⟩
  · rw [hj.2]
    exact hmin t (by simpa using ht)
  · rw [hj.2]
    refine lt_of_le_of_ne (hmin t (by simpa using ht)) fun he => ?_
    have := hmax t (Finset.mem_filter.2 ⟨by simpa using ht, he.symm⟩)
    simp only [id] at this
    omega

/-- The start of the columns that can be trusted. -/
structure Start (c : Nat → Nat → Rat) (N k : Nat) (prev : KRow) (α β : Nat) : Prop where
  le : α ≤ β
  val : ∀ j, α ≤ j → k + 1 ≤ j → j < N → prev.S (j - 1) = opt c k j
  const : ∀ i, α ≤ i → i < β → c α (i + 1) = 0
  semi : ∀ i, α ≤ i → i < β → prev.J i = α
  low : ∀ i, β ≤ i → i < N → α ≤ prev.J i ∧ prev.J i ≤ i ∧
    ∀ b, b ≤ prev.J i → opt c k (prev.J i) + c (prev.J i) (i + 1) ≤ opt c k b + c b (i + 1)
  iff : ∀ i, i < N → (α ≤ i ↔ (k = 0 ∨ 0 < opt c (k - 1) (i + 1)))

theorem start (h : Seg c) {N k β : Nat} {prev : KRow} (hp : RowW c N k k prev) (hβ : First c k β) (hβN : β < N) :
    ∃ α, Start c N k prev α β := by
  cases k with
  | zero =>
    have hz := hp.zero rfl
    refine ⟨0, Nat.zero_le _, fun j _ h1 h2 => ?_, fun i _ hi => ?_, fun i _ hi => (hz i (by omega)).2,
      fun i hi hN => ?_, fun i _ => ?_⟩
    · rw [(hz (j - 1) (by omega)).1, show j - 1 + 1 = j by omega]
    · exact hβ.zero h (n := i + 1) hi
    · rw [(hz i hN).2]
      exact ⟨le_rfl, Nat.zero_le _, fun b hb => by rw [show b = 0 by omega]⟩
    · simp
  | succ k =>
    obtain ⟨α, hαN, hα⟩ := first_exists h (lt_of_lt_of_le (hβ.pos h hβN) (opt_more h k N))
    have hαk : k + 1 ≤ α := by
      by_contra hc
      have := hα.2
      rw [opt_few h k (by omega)] at this
      exact lt_irrefl _ this
    have hle : α ≤ β := by
      by_contra hc
      have h1 := opt_more h k (β + 1)
      rw [hα.zero h (show β + 1 ≤ α by omega)] at h1
      linarith [hβ.2]
    have hcut : ∀ i m, α ≤ i → i < β → opt c (k + 1) (i + 1) = opt c k m + c m (i + 1) →
        opt c k m = 0 ∧ c m (i + 1) = 0 ∧ m ≤ α := fun i m h1 h2 e => by
      rw [hβ.zero h (n := i + 1) h2] at e
      have g1 := opt_nonneg h k m
      have g2 := h.nonneg m (i + 1)
      refine ⟨by linarith, by linarith, ?_⟩
      by_contra hc
      have := hα.pos h (show α < m by omega)
      linarith
    refine ⟨α, hle, fun j h1 h2 h3 => ?_, fun i h1 h2 => ?_, fun i h1 h2 => ?_, fun i h1 h2 => ?_, fun i hi => ?_⟩
    · rw [hp.val k rfl (j - 1) (by omega) (by omega), show j - 1 + 1 = j by omega]
      rw [show j - 1 + 1 = j by omega]
      cases k with
      | zero => exact .inl rfl
      | succ k =>
        right
        by_contra hc
        have h0 : opt c k α = 0 :=
          le_antisymm (le_trans (opt_mono h k h1) (not_lt.1 hc)) (opt_nonneg h _ _)
        have := opt_le c k (show α ≤ α + 1 by omega)
        rw [h0, h.single, add_zero] at this
        linarith [hα.2]
    · obtain ⟨m, hm, e⟩ := opt_ex c k (i + 1)
      obtain ⟨_, g2, g3⟩ := hcut i m h1 h2 e
      exact le_antisymm (g2 ▸ h.mono g3 le_rfl) (h.nonneg _ _)
    · obtain ⟨ha, _⟩ := hp.arg k rfl i (by omega) (by omega) (hα.pos h (by omega))
      obtain ⟨g1, g2, g3⟩ := hcut i _ h1 h2 ha.2.2
      by_contra hne
      have := opt_flat h k (by have := ha.1; omega) (show prev.J i < α by omega) (show α ≤ i + 1 by omega) g2
        (by rw [g1, hα.1])
      rw [g1] at this
      linarith [hα.pos h (show α < i + 1 by omega)]
    · obtain ⟨ha, hr⟩ := hp.arg k rfl i (by omega) (by omega) (hα.pos h (by omega))
      refine ⟨?_, ha.2.1, fun b hb => low_prev h ha hb⟩
      by_contra hc
      have h3 := hr α (by omega) (by omega)
      rw [hα.1, ha.2.2] at h3
      have h4 : c α (i + 1) ≤ c (prev.J i) (i + 1) := h.mono (by omega) le_rfl
      have h5 := opt_nonneg h k (prev.J i)
      linarith
    · rw [show k + 1 - 1 = k by omega]
      exact ⟨fun h1 => .inr (hα.pos h (by omega)), fun h1 => by
        have := hα.lt h (h1.resolve_left (by omega))
        omega⟩

/-- All the facts SMAWK needs, for one row. -/
theorem row_env (h : Seg c) {N k α β : Nat} {prev : KRow} (hnn : ∀ i, 0 ≤ prev.S i) (hβ : First c k β) (hβN : β < N)
    (hs : Start c N k prev α β) :
    ∃ R, Env (cutVal (closed c) prev) (closed c) prev.S prev.J R α β N (fun j => k + 1 ≤ j ∧ j < N) ∧
      (∀ i, k + 1 ≤ R i ∧ R i < N) ∧
      ∀ i, β ≤ i → i < N → cutVal (closed c) prev (R i) i = opt c (k + 1) (i + 1) ∧ Arg c k i (R i) ∧
        ∀ j, R i < j → j ≤ i → opt c (k + 1) (i + 1) < opt c k j + c j (i + 1) := by
  have hβk : k + 1 ≤ β := by
    by_contra hc
    have := hβ.2
    rw [opt_few h k (by omega)] at this
    exact lt_irrefl _ this
  have hcolβ : k + 1 ≤ β ∧ β < N := ⟨hβk, hβN⟩
  choose R hR hleast hlast using fun i => last_best (fun j => cutVal (closed c) prev j i) (show k + 1 < N by omega)
  have hv : ∀ j i, α ≤ j → k + 1 ≤ j → j < N → cutVal (closed c) prev j i = opt c k j + c j (i + 1) :=
    fun j i h1 h2 h3 => by rw [cutVal, hs.val j h1 h2 h3, closed]
  have hge : ∀ j i, c j (i + 1) ≤ cutVal (closed c) prev j i := fun j i => by
    have := hnn (j - 1)
    rw [cutVal, closed]
    linarith
  have hdom : ∀ {s z i}, (k + 1 ≤ s ∧ s < N) → s < z → α ≤ z → z ≤ β →
      cutVal (closed c) prev z i ≤ cutVal (closed c) prev s i := fun {s z i} h1 h2 h3 h4 => by
    rw [hv z i h3 (by omega) (by omega), hβ.zero h h4, zero_add]
    exact le_trans (h.mono h2.le le_rfl) (hge s i)
  have hRα : ∀ i, α ≤ R i := fun i => by
    by_contra hc
    have h1 := hdom (i := i) (hR i) (show R i < α by omega) le_rfl hs.le
    have h2 := hlast i α ⟨by have := (hR i).1; omega, by have := hs.le; omega⟩ (by omega)
    linarith
  have hopt : ∀ i, β ≤ i → i < N → cutVal (closed c) prev (R i) i ≤ opt c (k + 1) (i + 1) := fun i h1 h2 => by
    obtain ⟨j, hj1, hj2, e⟩ := opt_cut h k (show k + 1 ≤ i by omega)
    have hle := hs.le
    rcases Nat.lt_or_ge j α with hc | hc
    · have g1 := hleast i α ⟨by omega, by omega⟩
      rw [hv α i le_rfl (by omega) (by omega), hβ.zero h hle] at g1
      have g2 : c α (i + 1) ≤ c j (i + 1) := h.mono hc.le le_rfl
      have g3 := opt_nonneg h k j
      rw [e]
      linarith
    · have g1 := hleast i j ⟨hj1, by omega⟩
      rw [hv j i hc hj1 (by omega)] at g1
      rw [e]
      exact g1
  have hRle : ∀ i, β ≤ i → i < N → R i ≤ i := fun i h1 h2 => by
    by_contra hc
    have g1 := hopt i h1 h2
    rw [hv (R i) i (hRα i) (hR i).1 (hR i).2, h.empty (show i + 1 ≤ R i by omega), add_zero] at g1
    have g2 := opt_mono h k (show i + 1 ≤ R i by omega)
    have g3 := opt_strict h (hβ.pos h (show β < i + 1 by omega))
    linarith
  have htm : ∀ {a b i i'}, a ≤ b → i ≤ i' → cutVal (closed c) prev b i' - cutVal (closed c) prev a i' ≤
      cutVal (closed c) prev b i - cutVal (closed c) prev a i := fun {a b i i'} h1 h2 => by
    simp only [cutVal, closed]
    have := h.monge h1 (show i + 1 ≤ i' + 1 by omega)
    linarith
  refine ⟨R, ⟨fun j i => rfl, htm, fun {i j} hj => hleast i j hj, fun {i j} hj => hlast i j hj, fun {i i'} hi => ?_,
    hdom, fun {i} hi => ?_, fun {i} h1 h2 => ?_, fun {i} h1 h2 => hs.semi i h1 h2, fun {j j'} h1 h2 h3 h4 => ?_,
    fun {j j' i} hj => h.mono hj le_rfl⟩, hR, fun i h1 h2 => ?_⟩
  · by_contra hc
    have g1 := htm (show R i' ≤ R i by omega) hi
    have g2 := hleast i (R i') (hR i')
    have g3 := hlast i' (R i) (hR i) (by omega)
    linarith
  · have hvβ : cutVal (closed c) prev β i = 0 := by
      rw [hv β i hs.le hβk hβN, hβ.1, h.empty (show i + 1 ≤ β by omega), add_zero]
    rcases lt_trichotomy (R i) β with hc | hc | hc
    · have g1 := hlast i β hcolβ hc
      have g2 := hge (R i) i
      have g3 := h.nonneg (R i) (i + 1)
      rw [hvβ] at g1
      linarith
    · exact hc
    · have g1 := hleast i β hcolβ
      rw [hvβ, hv (R i) i (hRα i) (hR i).1 (hR i).2] at g1
      have g2 := hβ.pos h hc
      have g3 := h.nonneg (R i) (i + 1)
      linarith
  · obtain ⟨g1, g2, g3⟩ := hs.low i h1 h2
    refine ⟨hRle i h1 h2, g1, ?_⟩
    by_contra hc
    have g4 := g3 (R i) (by omega)
    have g5 := hlast i (prev.J i) ⟨by have := (hR i).1; omega, by omega⟩ (by omega)
    rw [hv (R i) i (hRα i) (hR i).1 (hR i).2, hv (prev.J i) i g1 (by have := (hR i).1; omega) (by omega)] at g5
    linarith
  · rw [hs.val j h3 h1.1 h1.2, hs.val j' (by omega) h2.1 h2.2]
    exact opt_mono h k h4
  · have g0 := hv (R i) i (hRα i) (hR i).1 (hR i).2
    have g1 := hopt i h1 h2
    have g2 := opt_le c k (show R i ≤ i + 1 by have := hRle i h1 h2; omega)
    have g3 : cutVal (closed c) prev (R i) i = opt c (k + 1) (i + 1) := le_antisymm g1 (g0 ▸ g2)
    refine ⟨g3, ⟨(hR i).1, hRle i h1 h2, by rw [← g3, g0]⟩, fun j h3 h4 => ?_⟩
    have g4 := hlast i j ⟨by have := (hR i).1; omega, by omega⟩ h3
    rw [g3, hv j i (by have := hRα i; omega) (by have := (hR i).1; omega) (by omega)] at g4
    exact g4

/-! ### Values are never negative -/

theorem scanMin_nonneg {v : Nat → Nat → Rat} (hv : ∀ j i, 0 ≤ v j i) {pj i : Nat} : ∀ (l : List Nat) (b : Rat × Nat),
    0 ≤ b.1 → 0 ≤ (scanMin v pj i l b).1 := by
  intro l
  induction l with
  | nil => exact fun b h => h
  | cons j l ih =>
    intro b h
    rw [scanMin]
    split
    · exact ih b h
    · split
      · exact h
      · split
        · exact ih _ (hv _ _)
        · exact ih b h

theorem scanEven_nonneg {v : Nat → Nat → Rat} (hv : ∀ j i, 0 ≤ v j i) {p : Nat → Rat} {pj i jm : Nat} {sm : Rat} :
    ∀ (l : List Nat) (b : Rat × Nat), 0 ≤ b.1 → 0 ≤ (scanEven v p pj i jm sm l b).2.1 := by
  intro l
  induction l with
  | nil => exact fun b h => h
  | cons x l ih =>
    intro b h
    cases l with
    | nil => exact h
    | cons j l =>
      rw [scanEven]
      split
      · exact h
      · split
        · exact h
        · split
          · exact ih b h
          · split
            · exact ih _ (hv _ _)
            · split
              · exact h
              · exact ih b h

theorem set_nonneg {r : KRow} (h : ∀ i, 0 ≤ r.S i) {i j : Nat} {s : Rat} (hs : 0 ≤ s) (k : Nat) :
    0 ≤ (r.set i s j).S k := by
  rw [set_S]
  split
  · exact hs
  · exact h k

theorem evenLoop_nonneg {cc : Nat → Nat → Rat} {prev : KRow} (hv : ∀ j i, 0 ≤ cutVal cc prev j i)
    {imax step last : Nat} : ∀ (fuel i : Nat) (suf : List Nat) (jl : Nat) (r : KRow), (∀ x, 0 ≤ r.S x) →
      ∀ x, 0 ≤ (evenLoop cc prev imax step last fuel i suf jl r).S x := by
  intro fuel
  induction fuel with
  | zero => exact fun i suf jl r h => h
  | succ fuel ih =>
    intro i suf jl r h
    rw [evenLoop]
    split
    · exact h
    · exact ih _ _ _ _ (set_nonneg h (scanEven_nonneg hv _ _ (hv _ _)))

theorem smawk_nonneg {cc : Nat → Nat → Rat} {prev : KRow} (hv : ∀ j i, 0 ≤ cutVal cc prev j i) :
    ∀ (fuel imin imax step : Nat) (js : List Nat) (r : KRow), (∀ x, 0 ≤ r.S x) →
      ∀ x, 0 ≤ (smawk cc prev fuel imin imax step js r).S x := by
  intro fuel
  induction fuel with
  | zero => exact fun imin imax step js r h => h
  | succ fuel ih =>
    intro imin imax step js r h
    rw [smawk]
    split
    · exact set_nonneg h (scanMin_nonneg hv _ _ (hv _ _))
    · exact evenLoop_nonneg hv _ _ _ _ _ (ih _ _ _ _ _ h)

/-- The next row can be trusted in the same way, as long as something is left to gain. -/
theorem smawk_row (h : Seg c) {N k imin : Nat} {prev : KRow} (hp : RowW c N k k prev) (hpos : 0 < opt c k N)
    (hi : k + 1 ≤ imin) (hN : imin ≤ N - 1) :
    RowW c N (k + 1) imin (smawk (closed c) prev N imin (N - 1) 1 (List.range' (k + 1) (N - (k + 1))) .init) := by
  obtain ⟨β, hβN, hβ⟩ := first_exists h hpos
  obtain ⟨α, hs⟩ := start h hp hβ hβN
  obtain ⟨R, E, hR, hgood⟩ := row_env h hp.nonneg hβ hβN hs
  have hmem : ∀ j, j ∈ List.range' (k + 1) (N - (k + 1)) ↔ k + 1 ≤ j ∧ j < N := fun j => by
    rw [List.mem_range'_1]
    omega
  have hsm := smawk_spec E N imin (N - 1 - imin) 1 (List.range' (k + 1) (N - (k + 1))) .init (by omega) le_rfl (by omega)
    List.pairwise_lt_range' (fun j hj => (hmem j).1 hj) (fun m _ => (hmem _).2 (hR _))
    (fun m hm h1 _ => .inl ⟨imin + m * 1, (hmem _).2 (by omega), h1, le_rfl⟩)
  rw [show imin + (N - 1 - imin) * 1 = N - 1 by omega] at hsm
  have hv : ∀ j i, 0 ≤ cutVal (closed c) prev j i := fun j i => add_nonneg (hp.nonneg _) (h.nonneg _ _)
  have hnn := smawk_nonneg hv N imin (N - 1) 1 (List.range' (k + 1) (N - (k + 1))) .init fun _ => le_rfl
  generalize smawk (closed c) prev N imin (N - 1) 1 (List.range' (k + 1) (N - (k + 1))) .init = r at *
  dsimp only at hsm
  have hdone : ∀ i, imin ≤ i → i < N →
      RowDone (cutVal (closed c) prev) R α β (List.range' (k + 1) (N - (k + 1))) r i := fun i h1 h2 => by
    have := hsm.2 (i - imin) (by omega)
    rwa [show imin + (i - imin) * 1 = i by omega] at this
  refine ⟨hnn, fun h0 => absurd h0 (by omega), fun k' e i h1 h2 h3 => ?_, fun k' e i h1 h2 h3 => ?_⟩
  · obtain rfl : k = k' := by omega
    have hd := hdone i h1 h2
    rcases Nat.lt_or_ge i β with hb | hb
    · have hα := (hs.iff i h2).2 h3
      have hJ := (hmem _).1 hd.mem
      have hJα := hd.semi hα hb
      have hJβ := hd.le
      rw [E.bad hb] at hJβ
      rw [hd.val, cutVal, hs.val _ hJα hJ.1 hJ.2, hβ.zero h hJβ, zero_add, closed]
      have g1 : c (r.J i) (i + 1) ≤ c α (i + 1) := h.mono hJα le_rfl
      rw [hs.const i hα hb] at g1
      have g2 := opt_more h k (i + 1)
      rw [hβ.zero h (show i + 1 ≤ β by omega)] at g2
      rw [le_antisymm g1 (h.nonneg _ _), le_antisymm g2 (opt_nonneg h _ _)]
    · rw [hd.val, hd.good hb]
      exact (hgood i hb h2).1
  · obtain rfl : k = k' := by omega
    have hb := hβ.lt h h3
    have hd := hdone i h1 h2
    rw [hd.good (by omega)]
    exact (hgood i (by omega) h2).2

end Streed.KM
