import Verif.Lemmas.ApxTop
import Mathlib.Tactic.Ring

/-! How often the search can lose a factor. -/

namespace Streed.Apx

/-- How far a path can be continued. -/
structure Height (c : Cfg) (T : Data) (M : Nat) where
  r : Branch → ℤ
  ok : Branch → Nat → Prop
  child : ∀ b f x d d', ok b d → f < c.P.nF → without f (sel b T) ≠ [] → having f (sel b T) ≠ [] → d' + 1 ≤ d →
    r (b.child f x) + 1 ≤ r b ∧ ok (b.child f x) d'
  small : ∀ b d d', ok b d → d' ≤ d → ok b d'
  link : c.useDs = true → ∀ b b', sel b T = sel b' T → r b = r b'
  nonneg : ∀ b d, ok b d → 0 ≤ r b ∧ d ≤ M

/-- The exponents that belong to a height. -/
def weight (lb : Bool) (k r : ℤ) (d n : Nat) : ℤ := if lb then (r + 1) * k - d - n else r

/-- With lower bounds one more factor may be lost for each budget. -/
def Height.rank {c : Cfg} {T : Data} {M : Nat} (h : Height c T M) (N : Nat) : Rank c T where
  w := fun b => weight c.useLB (M + N + 1) (h.r b)
  ok := fun b d n => h.ok b d ∧ n ≤ N
  anti := fun b d n d' n' hd hn => by
    unfold weight; split
    · have : (d : ℤ) ≤ d' := by exact_mod_cast hd
      have : (n : ℤ) ≤ n' := by exact_mod_cast hn
      omega
    · exact le_refl _
  strict := fun hl b d n d' n' hd hn hne => by
    unfold weight; rw [if_pos hl, if_pos hl]
    have : d ≠ d' ∨ n ≠ n' := by
      by_contra hc
      push Not at hc
      exact hne (by rw [hc.1, hc.2])
    omega
  child := fun b f x d n d' n' hok hf h1 h2 hd hn => by
    obtain ⟨g1, g2⟩ := h.child b f x d d' hok.1 hf h1 h2 hd
    refine ⟨?_, g2, by have := hok.2; omega⟩
    have hM := (h.nonneg b d hok.1).2
    have hN := hok.2
    unfold weight; split
    · have h3 : (h.r (b.child f x) + 1) * ((M : ℤ) + N + 1) ≤ h.r b * ((M : ℤ) + N + 1) :=
        Int.mul_le_mul_of_nonneg_right g1 (by omega)
      have h4 : (h.r b + 1) * ((M : ℤ) + N + 1) = h.r b * ((M : ℤ) + N + 1) + (M + N + 1) := by ring
      rw [h4]
      omega
    · exact g1
  small := fun b d n d' n' hok hd hn => ⟨h.small b d d' hok.1 hd, Nat.le_trans hn hok.2⟩
  link := fun hu b b' he => by rw [h.link hu b b' he]
  nonneg := fun b d n hok => by
    obtain ⟨h1, h2⟩ := h.nonneg b d hok.1
    have := hok.2
    unfold weight; split
    · have h3 : 1 * ((M : ℤ) + N + 1) ≤ (h.r b + 1) * ((M : ℤ) + N + 1) := Int.mul_le_mul_of_nonneg_right (by omega) (by omega)
      omega
    · exact h1

theorem insertCode_length (c : Nat) (b : List Nat) : (insertCode c b).length = b.length + 1 := by
  induction b with
  | nil => rfl
  | cons x xs ih =>
    unfold insertCode
    split
    · rfl
    · simp [ih]

/-- Paths are no longer than the depth limit. -/
def pathHeight (c : Cfg) (T : Data) (M : Nat) (hds : c.useDs = false) : Height c T M where
  r := fun b => (M : ℤ) - b.length
  ok := fun b d => b.length + d ≤ M
  child := fun b f x d d' hok _ _ _ hd => by
    have : (b.child f x).length = b.length + 1 := insertCode_length _ b
    rw [this]
    constructor
    · omega
    · omega
  small := fun b d d' h hd => by omega
  link := fun h => by rw [hds] at h; simp at h
  nonneg := fun b d h => by constructor <;> omega

/-- A feature with both values. -/
def varies (D : Data) (f : Nat) : Bool := !(without f D).isEmpty && !(having f D).isEmpty

theorem varies_iff {D : Data} {f : Nat} : varies D f = true ↔ without f D ≠ [] ∧ having f D ≠ [] := by
  unfold varies
  cases without f D <;> cases having f D <;> simp

theorem varies_mono {D D' : Data} (h : List.Sublist D D') {f : Nat} (hv : varies D f = true) : varies D' f = true := by
  rw [varies_iff] at hv ⊢
  obtain ⟨h1, h2⟩ := hv
  have s1 : List.Sublist (without f D) (without f D') := h.filter _
  have s2 : List.Sublist (having f D) (having f D') := h.filter _
  constructor
  · intro e; rw [e] at s1; exact h1 (List.sublist_nil.1 s1)
  · intro e; rw [e] at s2; exact h2 (List.sublist_nil.1 s2)

theorem side_sublist (f : Nat) (x : Bool) (D : Data) : List.Sublist (Streed.side f x D) D := by
  cases x
  · rw [side_false]; exact List.filter_sublist
  · rw [side_true]; exact List.filter_sublist

theorem side_not_varies (f : Nat) (x : Bool) (D : Data) : varies (Streed.side f x D) f = false := by
  unfold varies
  cases x
  · rw [side_false]
    have : having f (without f D) = [] := by
      unfold having without
      rw [List.filter_filter]
      apply List.filter_eq_nil_iff.2
      intro a _
      cases a.feat f <;> simp
    rw [this]; simp
  · rw [side_true]
    have : without f (having f D) = [] := by
      unfold having without
      rw [List.filter_filter]
      apply List.filter_eq_nil_iff.2
      intro a _
      cases a.feat f <;> simp
    rw [this]; simp

/-- The number of features that vary. -/
def varying (nF : Nat) (D : Data) : Nat := (List.range nF).countP (varies D)

theorem varying_le (nF : Nat) (D : Data) : varying nF D ≤ nF := by
  have := List.countP_le_length (l := List.range nF) (p := varies D)
  rw [List.length_range] at this; exact this

theorem countP_lt {α : Type} {p q : α → Bool} {l : List α} (h : ∀ a ∈ l, p a = true → q a = true) {a : α} (ha : a ∈ l)
    (hp : p a = false) (hq : q a = true) : l.countP p + 1 ≤ l.countP q := by
  induction l with
  | nil => cases ha
  | cons x l ih =>
    have hl : l.countP p ≤ l.countP q := List.countP_mono_left fun b hb => h b (List.mem_cons_of_mem _ hb)
    rcases List.mem_cons.1 ha with rfl | ha
    · rw [List.countP_cons_of_pos hq, List.countP_cons_of_neg (by rw [hp]; simp)]; omega
    · have h1 := ih (fun b hb => h b (List.mem_cons_of_mem _ hb)) ha
      have h2 := h x List.mem_cons_self
      simp only [List.countP_cons]
      cases hpx : p x with
      | false => cases q x <;> simp <;> omega
      | true => rw [h2 hpx]; simp; omega

/-- Every split makes one feature constant. -/
def featureHeight (c : Cfg) (T : Data) (M : Nat) : Height c T M where
  r := fun b => varying c.P.nF (sel b T)
  ok := fun _ d => d ≤ M
  child := fun b f x d d' hok hf h1 h2 hd => by
    refine ⟨?_, by omega⟩
    rw [sel_child]
    have := countP_lt (l := List.range c.P.nF) (p := varies (Streed.side f x (sel b T))) (q := varies (sel b T))
      (fun g _ hg => varies_mono (side_sublist f x _) hg) (List.mem_range.2 hf) (side_not_varies f x _) (varies_iff.2 ⟨h1, h2⟩)
    unfold varying
    exact_mod_cast this
  small := fun b d d' h hd => by omega
  link := fun _ b b' h => by rw [h]
  nonneg := fun b d h => ⟨by omega, h⟩

/-- The number of factors that a run can lose. -/
def losses (c : Cfg) (t : Top) : Nat :=
  let r := if c.useDs then c.P.nF else t.maxDepth
  if c.useLB then (r + 1) * (t.maxDepth + t.maxNodes + 1) + 1 else r + 1

theorem weight_le {lb : Bool} {k r R : ℤ} (hk : 0 ≤ k) (hr : r ≤ R) (d n : Nat) :
    weight lb k r d n + 1 ≤ (if lb then (R + 1) * k + 1 else R + 1) := by
  unfold weight
  cases lb
  · simp only [Bool.false_eq_true, if_false]; omega
  · simp only [if_true]
    have : (r + 1) * k ≤ (R + 1) * k := Int.mul_le_mul_of_nonneg_right (by omega) hk
    omega

/-- **The search with tolerant comparisons.** If the run reports an optimal result, then the reported value is at most a factor
above the cost of every allowed tree. -/
theorem solve_within {c : Cfg} {T : Data} (G : Good c T) (hsim : c.simLB = false) (hmd : c.md = 0) (t : Top) (hm : c.mls ≤ T.length)
    (hclk : Monotone c.clock) (hfit : t.maxNodes + 1 ≤ 2 ^ t.maxDepth)
    (hterm : c.useTerm = true → t.maxNodes + 1 = 2 ^ t.maxDepth ∧ (t.allTrees = true → t.maxNodes ≤ 1))
    (hbig : ∀ D, ViewOf T D → ∀ x : Tree, x.Legal c.P c.mls D → tol ^ losses c t * (x.cost c.P D : ℚ) < (c.worst : ℚ)) :
    RunOK c t T (Tol.solve c t T).1 ∧
    ((Tol.solve c t T).2 = true → Settled c t T (tol ^ losses c t) t.maxDepth t.maxNodes (Tol.solve c t T).1.result) := by
  have main : ∀ (h : Height c T t.maxDepth) (R : Nat), (∀ b d, h.ok b d → h.r b ≤ R) → h.ok [] t.maxDepth →
      R = (if c.useDs then c.P.nF else t.maxDepth) → 
      RunOK c t T (Tol.solve c t T).1 ∧
      ((Tol.solve c t T).2 = true → Settled c t T (tol ^ losses c t) t.maxDepth t.maxNodes (Tol.solve c t T).1.result) := by
    intro h R hR h0 hRe
    have hle : ∀ b d n, h.ok b d → (h.rank t.maxNodes).w b d n + 1 ≤ (losses c t : ℕ) := by
      intro b d n hok
      have h1 := weight_le (lb := c.useLB) (k := (t.maxDepth : ℤ) + t.maxNodes + 1) (by omega) (hR b d hok) d n
      refine le_trans h1 (le_of_eq ?_)
      unfold losses
      rw [← hRe]
      cases c.useLB <;> simp
    have pos : ∀ D, ViewOf T D → Pos c D := fun D hD x => G.cost_nonneg hD x
    have S : Setting c T (h.rank t.maxNodes) := {
      good := G
      sim := hsim
      md := hmd
      flat := fun hs b d n d' n' => by
        have := (G.sparse hs).1
        change weight c.useLB _ _ d n = weight c.useLB _ _ d' n'
        unfold weight; rw [this]; rfl
      big := fun b d n hok x hx => by
        have h1 := hbig (sel b T) (sel_view b T) x hx
        have h2 := scale_mono (pos _ (sel_view b T)) (hle b d n hok.1) x
        rw [zpow_natCast] at h2
        exact lt_of_le_of_lt h2 h1 }
    obtain ⟨h1, h2⟩ := solve_spec S t hm ⟨h0, Nat.le_refl _⟩ hclk hfit hterm
    refine ⟨h1, fun ho x hx hub => ?_⟩
    have h3 : total (h.rank t.maxNodes) * (x.cost c.P T : ℚ) ≤ tol ^ losses c t * (x.cost c.P T : ℚ) := by
      have := scale_mono (pos T (List.Sublist.refl T)) (hle [] 0 0 (h.small _ _ _ h0 (Nat.zero_le _))) x
      rw [zpow_natCast] at this
      exact this
    obtain ⟨h4, h5⟩ := (h2 ho).2 x hx (le_trans h3 hub)
    exact ⟨h4, le_trans h5 h3⟩
  cases hds : c.useDs with
  | false =>
    exact main (pathHeight c T t.maxDepth hds) t.maxDepth (fun b d _ => by simp [pathHeight]) (by simp [pathHeight])
      (by rw [hds]; rfl)
  | true =>
    exact main (featureHeight c T t.maxDepth) c.P.nF (fun b d _ => by
      have := varying_le c.P.nF (sel b T)
      simp only [featureHeight]; exact_mod_cast this) (Nat.le_refl _) (by rw [hds]; rfl)

end Streed.Apx
