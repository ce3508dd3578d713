import Verif.Model.Policy
import Verif.Lemmas.Tasks

/-! Folds over the instances of all labels. -/

namespace Streed.PolicyLemmas

theorem byLabels_perm_lt (n : Nat) (D : Data) : (byLabels n D).Perm (D.filter fun i => i.label < n) := by
  induction n with
  | zero => simp [byLabels]
  | succ n ih =>
    have e : byLabels (n + 1) D = byLabels n D ++ D.filter fun i => i.label = n := by
      simp [byLabels, List.range_succ, List.flatMap_append]
    rw [e]
    refine (ih.append_right _).trans ?_
    refine List.Perm.trans (List.Perm.of_eq ?_)
      (List.filter_append_perm (fun i : Inst => decide (i.label < n)) (D.filter fun i => i.label < n + 1))
    rw [List.filter_filter, List.filter_filter]
    congr 1
    · apply List.filter_congr
      intro i _
      rw [Bool.eq_iff_iff]; simp only [Bool.and_eq_true, decide_eq_true_eq]; omega
    · apply List.filter_congr
      intro i _
      rw [Bool.eq_iff_iff]
      simp only [Bool.and_eq_true, Bool.not_eq_true', decide_eq_true_eq, decide_eq_false_iff_not]; omega

theorem byLabels_perm {n : Nat} {D : Data} (h : ∀ i ∈ D, i.label < n) : (byLabels n D).Perm D := by
  have := byLabels_perm_lt n D
  rwa [List.filter_eq_self.2 (by simpa using h)] at this

theorem foldl_add {S α : Type} [AddCommMonoid S] (f : α → S) (l : List α) (s : S) :
    l.foldl (fun r i => r + f i) s = s + (l.map f).sum := by
  induction l generalizing s with
  | nil => simp
  | cons a l ih => simp [ih, add_assoc]

theorem foldl_byLabels {S : Type} [AddCommMonoid S] (f : Inst → S) {n : Nat} {D : Data}
    (h : ∀ i ∈ D, i.label < n) : (byLabels n D).foldl (fun r i => r + f i) 0 = (D.map f).sum := by
  rw [foldl_add, zero_add]
  exact ((byLabels_perm h).map f).sum_eq

/-- A fold that only lowers its value. -/
theorem foldl_min_le {α : Type} (f : α → Rat → Rat) (hf : ∀ a v, f a v ≤ v) (l : List α) (v : Rat) :
    l.foldl (fun v a => f a v) v ≤ v := by
  induction l generalizing v with
  | nil => exact le_refl _
  | cons a l ih => exact le_trans (ih _) (hf a v)

theorem foldl_min_mem {α : Type} (f : α → Rat → Rat) (hf : ∀ a v, f a v ≤ v) (l : List α) (v : Rat) (a : α)
    (b : Rat) (hb : ∀ v, f a v ≤ b) (h : a ∈ l) : l.foldl (fun v a => f a v) v ≤ b := by
  induction l generalizing v with
  | nil => cases h
  | cons c l ih =>
    rcases List.mem_cons.1 h with e | h
    · subst e; exact le_trans (foldl_min_le f hf l _) (hb v)
    · exact ih _ h

/-- A fold that only raises its value. -/
theorem foldl_max_ge {α : Type} (f : α → Rat → Rat) (hf : ∀ a v, v ≤ f a v) (l : List α) (v : Rat) :
    v ≤ l.foldl (fun v a => f a v) v := by
  induction l generalizing v with
  | nil => exact le_refl _
  | cons a l ih => exact le_trans (hf a v) (ih _)

theorem foldl_max_mem {α : Type} (f : α → Rat → Rat) (hf : ∀ a v, v ≤ f a v) (l : List α) (v : Rat) (a : α)
    (b : Rat) (hb : ∀ v, b ≤ f a v) (h : a ∈ l) : b ≤ l.foldl (fun v a => f a v) v := by
  induction l generalizing v with
  | nil => cases h
  | cons c l ih =>
    rcases List.mem_cons.1 h with e | h
    · subst e; exact le_trans (hb v) (foldl_max_ge f hf l _)
    · exact ih _ h

theorem minScore_le {ext : Inst → Treatment} {m : Teacher} {nL : Nat} {D : Data} {i : Inst} (hi : i ∈ D)
    (hl : i.label < nL) {k : Nat} (hk : k < nL) : minScore ext m nL D ≤ (ext i).score m k := by
  unfold minScore
  have h1 : ∀ (i : Inst) (k : Nat) (v : Rat), min ((ext i).score m k) v ≤ v := fun _ _ _ => min_le_right _ _
  refine foldl_min_mem (fun i v => (List.range nL).foldl (fun v k => min ((ext i).score m k) v) v)
    (fun i v => foldl_min_le _ (h1 i) _ v) _ _ i _ (fun v => ?_) ?_
  · exact foldl_min_mem _ (h1 i) _ _ k _ (fun v => min_le_left _ _) (List.mem_range.2 hk)
  · simp only [byLabels, List.mem_flatMap, List.mem_range]
    exact ⟨i.label, hl, by simp [hi]⟩

theorem costRow_found {g : Inst → Nat → Rat} (l : Data) (rows : List (Nat × (Nat → Rat)))
    (hn : (l.map Inst.id).Nodup) {i : Inst} (hi : i ∈ l) :
    costRow (l.foldl (fun rows i => (i.id, g i) :: rows) rows) i.id = g i := by
  have keep : ∀ (l : Data) (rows : List (Nat × (Nat → Rat))) (x : Nat), (∀ j ∈ l, j.id ≠ x) →
      costRow (l.foldl (fun rows i => (i.id, g i) :: rows) rows) x = costRow rows x := by
    intro l
    induction l with
    | nil => intros; rfl
    | cons j l ih =>
      intro rows x h
      rw [List.foldl_cons, ih _ _ fun a ha => h a (List.mem_cons_of_mem _ ha)]
      have := h j (List.mem_cons_self ..)
      simp [costRow, this]
  induction l generalizing rows with
  | nil => cases hi
  | cons j l ih =>
    rw [List.map_cons, List.nodup_cons] at hn
    rcases List.mem_cons.1 hi with e | h
    · subst e
      rw [List.foldl_cons, keep]
      · simp [costRow]
      · intro a ha e
        exact hn.1 (List.mem_map.2 ⟨a, ha, e⟩)
    · exact ih _ hn.2 h

theorem costRow_eq {ext : Inst → Treatment} {m : Teacher} {nL : Nat} {D : Data} (hl : ∀ i ∈ D, i.label < nL)
    (hn : (D.map Inst.id).Nodup) {i : Inst} (hi : i ∈ D) (k : Nat) :
    costRow (costRows ext m nL D) i.id k = (ext i).score m k - minScore ext m nL D := by
  have p := byLabels_perm hl
  unfold costRows
  rw [costRow_found (g := fun i k => (ext i).score m k - minScore ext m nL D) _ _
    ((p.map Inst.id).nodup_iff.2 hn) (p.mem_iff.2 hi)]

/-- The scan of one label. -/
def scanOne (ext : Inst → Treatment) (m : Teacher) (nL : Nat) (D : Data) (k : Nat) (v : Rat) : Rat :=
  (D.filter fun i => i.label = k).foldl (fun v i =>
      (List.range nL).foldl (fun v k2 => if (ext i).score m k2 > v then (ext i).score m k2 else v) v) v

theorem scanOne_ge {ext : Inst → Treatment} {m : Teacher} {nL : Nat} {D : Data} {i : Inst} (hi : i ∈ D) {k2 : Nat}
    (hk : k2 < nL) (v : Rat) : (ext i).score m k2 ≤ scanOne ext m nL D i.label v := by
  have h1 : ∀ (i : Inst) (k : Nat) (v : Rat), v ≤ if (ext i).score m k > v then (ext i).score m k else v := by
    intro i k v; split
    · exact le_of_lt ‹_›
    · exact le_refl _
  unfold scanOne
  refine foldl_max_mem (fun i v => (List.range nL).foldl
      (fun v k2 => if (ext i).score m k2 > v then (ext i).score m k2 else v) v)
    (fun i v => foldl_max_ge _ (h1 i) _ v) _ _ i _ (fun v => ?_) (by simp [hi])
  refine foldl_max_mem _ (h1 i) _ _ k2 _ (fun v => ?_) (List.mem_range.2 hk)
  split
  · exact le_refl _
  · exact le_of_not_gt ‹_›

theorem scan_inv (ext : Inst → Treatment) (m : Teacher) (nL : Nat) (D : Data) (w : List Rat) (n : Nat) :
    n ≤ ((List.range n).foldl (fun w k =>
        (w ++ [-2147483647]).set k (scanOne ext m nL D k ((w ++ [-2147483647]).getD k 0))) w).length ∧
    ∀ k < n, ∃ v, ((List.range n).foldl (fun w k =>
        (w ++ [-2147483647]).set k (scanOne ext m nL D k ((w ++ [-2147483647]).getD k 0))) w).getD k 0 =
          scanOne ext m nL D k v := by
  induction n with
  | zero => simp
  | succ n ih =>
    rw [List.range_succ, List.foldl_append]
    simp only [List.foldl_cons, List.foldl_nil]
    generalize (List.range n).foldl _ w = u at ih
    obtain ⟨hlen, h⟩ := ih
    refine ⟨by simp; omega, fun k hk => ?_⟩
    by_cases e : k = n
    · subst e
      refine ⟨(u ++ [-2147483647]).getD k 0, ?_⟩
      rw [List.getD_eq_getElem?_getD, List.getElem?_set_self (by simp; omega)]
      rfl
    · obtain ⟨v, hv⟩ := h k (by omega)
      refine ⟨v, ?_⟩
      rw [← hv, List.getD_eq_getElem?_getD, List.getElem?_set_ne (by omega),
        List.getElem?_append_left (by omega), ← List.getD_eq_getElem?_getD]

theorem sub_inv (c : Rat) (w : List Rat) (n : Nat) (h : n ≤ w.length) (j : Nat) :
    ((List.range n).foldl (fun w k => w.set k (w.getD k 0 - c)) w).getD j 0 =
      if j < n then w.getD j 0 - c else w.getD j 0 := by
  induction n with
  | zero => simp
  | succ n ih =>
    rw [List.range_succ, List.foldl_append]
    simp only [List.foldl_cons, List.foldl_nil]
    have hlen : ∀ (l : List Nat) (w : List Rat), (l.foldl (fun w k => w.set k (w.getD k 0 - c)) w).length = w.length := by
      intro l
      induction l with
      | nil => intros; rfl
      | cons a l ih => intro w; rw [List.foldl_cons, ih]; simp
    have hl := hlen (List.range n) w
    have ih := ih (by omega)
    have ihn : ((List.range n).foldl (fun w k => w.set k (w.getD k 0 - c)) w).getD n 0 = w.getD n 0 := by
      have : ∀ (l : List Nat) (w : List Rat), n ∉ l →
          (l.foldl (fun w k => w.set k (w.getD k 0 - c)) w).getD n 0 = w.getD n 0 := by
        intro l
        induction l with
        | nil => intros; rfl
        | cons a l ih =>
          intro w hn
          rw [List.foldl_cons, ih _ fun h => hn (List.mem_cons_of_mem _ h)]
          rw [List.getD_eq_getElem?_getD, List.getElem?_set_ne (fun e => hn (by simp [e])),
            ← List.getD_eq_getElem?_getD]
      exact this _ _ (by simp)
    by_cases e : j = n
    · subst e
      rw [if_pos (by omega), List.getD_eq_getElem?_getD, List.getElem?_set_self (by omega)]
      simp only [Option.getD_some]
      rw [ihn]
    · rw [List.getD_eq_getElem?_getD, List.getElem?_set_ne (by omega), ← List.getD_eq_getElem?_getD, ih]
      by_cases hj : j < n
      · rw [if_pos hj, if_pos (by omega)]
      · rw [if_neg hj, if_neg (by omega)]

end Streed.PolicyLemmas
