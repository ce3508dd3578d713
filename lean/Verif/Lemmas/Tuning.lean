import Verif.Model.Tuning
import Verif.Lemmas.Regression
import Mathlib.Data.List.Sort
import Mathlib.Data.List.GetD

/-! The merging loop on values: ids, groups and totals. -/

namespace Streed.RegLemmas

/-- Id and group. -/
def key (i : RInst) : Nat × Nat := (i.id, i.group)

theorem key_close (p : PSt) : key p.close = key p.first := rfl

theorem pFold_sub (l : List RInst) (p : PSt) :
    List.Sublist (((l.foldl pStep p).done ++ [(l.foldl pStep p).close]).map key)
      ((p.done ++ [p.close]).map key ++ l.map key) := by
  induction l generalizing p with
  | nil => simp
  | cons c l ih =>
    rw [List.foldl_cons]
    refine (ih _).trans ?_
    unfold pStep
    split
    · simp only [List.map_append, List.map_cons, List.map_nil, List.append_assoc]
      refine List.Sublist.append (List.Sublist.refl _) ?_
      show List.Sublist ([key p.first] ++ List.map key l) ([key p.first] ++ key c :: List.map key l)
      exact List.Sublist.append (List.Sublist.refl _) (List.sublist_cons_self ..)
    · simp only [List.map_append, List.map_cons, List.map_nil, List.append_assoc]
      exact List.Sublist.refl _

/-- Merging keeps some of the rows. -/
theorem pMerge_sub (l : List RInst) : List.Sublist ((pMerge l).map key) (l.map key) := by
  cases l with
  | nil => exact List.Sublist.refl _
  | cons a l => exact (pFold_sub l _)

theorem pFold_same (l : List RInst) (p : PSt) (h1 : p.close = p.first)
    (h : ((p.first :: l).map RInst.group).Nodup) :
    (l.foldl pStep p).done ++ [(l.foldl pStep p).close] = p.done ++ p.first :: l := by
  induction l generalizing p with
  | nil => simp [h1]
  | cons c l ih =>
    rw [List.foldl_cons]
    have hne : p.first.group ≠ c.group := by
      intro e
      simp [e] at h
    have e : pStep p c = ⟨p.done ++ [p.close], c, c.y, c.ysq, c.w⟩ := by rw [pStep, if_neg hne]
    rw [e, ih _ rfl (by simp only [List.map_cons] at h ⊢; exact (List.nodup_cons.1 h).2), h1]
    simp

/-- Rows with different features stay as they are. -/
theorem pMerge_same {l : List RInst} (h : (l.map RInst.group).Nodup) : pMerge l = l := by
  cases l with
  | nil => rfl
  | cons a l => exact pFold_same l _ rfl h

theorem pFold_total (l : List RInst) (p : PSt) :
    (((l.foldl pStep p).done ++ [(l.foldl pStep p).close]).map stat).sum =
      ((p.done ++ [p.close]).map stat).sum + (l.map stat).sum := by
  induction l generalizing p with
  | nil => simp
  | cons c l ih =>
    rw [List.foldl_cons, ih]
    simp only [List.map_cons, List.sum_cons, ← add_assoc]
    congr 1
    unfold pStep
    split <;> simp [PSt.close, stat, add_assoc]

/-- Merging keeps the totals. -/
theorem pMerge_total (l : List RInst) : ((pMerge l).map stat).sum = (l.map stat).sum := by
  cases l with
  | nil => rfl
  | cons a l =>
    show ((_ ++ [_]).map stat).sum = _
    rw [pFold_total]
    simp [PSt.close, stat]

theorem pFold_pos (l : List RInst) (p : PSt) (h1 : ∀ i ∈ p.done ++ [p.close], 0 < i.w) (h2 : ∀ i ∈ l, 0 < i.w) :
    ∀ i ∈ (l.foldl pStep p).done ++ [(l.foldl pStep p).close], 0 < i.w := by
  induction l generalizing p with
  | nil => exact h1
  | cons c l ih =>
    rw [List.foldl_cons]
    refine ih _ ?_ fun i hi => h2 i (List.mem_cons_of_mem _ hi)
    have hc := h2 c (by simp)
    intro i hi
    unfold pStep at hi
    split at hi
    · rcases List.mem_append.1 hi with hi | hi
      · exact h1 i (List.mem_append_left _ hi)
      · rw [List.mem_singleton] at hi
        rw [hi]
        show 0 < p.n + c.w
        omega
    · rcases List.mem_append.1 hi with hi | hi
      · exact h1 i hi
      · rw [List.mem_singleton] at hi
        rw [hi]
        exact hc

theorem pMerge_pos {l : List RInst} (h : ∀ i ∈ l, 0 < i.w) : ∀ i ∈ pMerge l, 0 < i.w := by
  cases l with
  | nil => simp [pMerge]
  | cons a l =>
    refine pFold_pos l _ ?_ fun i hi => h i (List.mem_cons_of_mem _ hi)
    intro i hi
    simp only [List.nil_append, List.mem_singleton] at hi
    rw [hi]
    exact h a (by simp)

theorem pMerge_ne {l : List RInst} (h : l ≠ []) : pMerge l ≠ [] := by
  cases l with
  | nil => exact absurd rfl h
  | cons a l => simp [pMerge]

theorem pMerge_groups {l : List RInst} (h : l.Pairwise fun a b => a.group ≤ b.group) :
    ((pMerge l).map RInst.group).Nodup := by
  cases l with
  | nil => simp [pMerge]
  | cons a l =>
    rw [List.pairwise_cons] at h
    exact pFold_groups l _ (by simp) (by simp) h.1 h.2

theorem sum_stat (l : List RInst) :
    (l.map stat).sum = ((l.map RInst.y).sum, (l.map RInst.ysq).sum, (l.map RInst.w).sum) := by
  induction l with
  | nil => rfl
  | cons a l ih => simp [ih, stat]

theorem priceNorm_eq (m : InstStore) (view : List Nat) :
    priceNorm m view = (((vals m view).map stat).sum).2.1 -
      (((vals m view).map stat).sum).1 * (((vals m view).map stat).sum).1 / (((vals m view).map stat).sum).2.2 := by
  rw [sum_stat]
  show (fun s : Rat × Rat × Nat => s.1 - s.2.1 * s.2.1 / s.2.2) (ccrSums (vals m view)) = _
  rw [ccrSums_eq]

/-- The price depends on the totals. -/
theorem priceNorm_congr {m m' : InstStore} {v v' : List Nat}
    (h : ((vals m v).map stat).sum = ((vals m' v').map stat).sum) : priceNorm m v = priceNorm m' v' := by
  rw [priceNorm_eq, priceNorm_eq, h]

/-! ### The group of every merged row -/

theorem pFold_first (l : List RInst) (p : PSt) (h : (p.first :: l).Pairwise fun a b => a.id < b.id)
    (hg : (p.first :: l).Pairwise fun a b => a.group ≤ b.group) (rows : List RInst)
    (h0 : ∀ d ∈ p.done, ∃ r ∈ rows, key r = key d ∧ ∀ r' ∈ rows, r'.group = r.group → r.id ≤ r'.id)
    (h1 : p.first ∈ rows ∧ ∀ r' ∈ rows, r'.group = p.first.group → p.first.id ≤ r'.id)
    (h2 : ∀ r ∈ l, r ∈ rows) (h3 : ∀ r ∈ rows, r ∈ l ∨ r.group ≤ p.first.group) :
    ∀ d ∈ (l.foldl pStep p).done ++ [(l.foldl pStep p).close],
      ∃ r ∈ rows, key r = key d ∧ ∀ r' ∈ rows, r'.group = r.group → r.id ≤ r'.id := by
  induction l generalizing p with
  | nil =>
    intro d hd
    rcases List.mem_append.1 hd with hd | hd
    · exact h0 d hd
    · rw [List.mem_singleton] at hd
      rw [hd]
      exact ⟨p.first, h1.1, rfl, h1.2⟩
  | cons c l ih =>
    rw [List.foldl_cons]
    rw [List.pairwise_cons] at h hg
    by_cases e : p.first.group = c.group
    · have es : pStep p c = { p with n := p.n + c.w, y := p.y + c.y, ysq := p.ysq + c.ysq } := by rw [pStep, if_pos e]
      rw [es]
      refine ih _ ?_ ?_ h0 h1 (fun r hr => h2 r (List.mem_cons_of_mem _ hr)) ?_
      · exact List.pairwise_cons.2 ⟨fun r hr => h.1 r (List.mem_cons_of_mem _ hr), (List.pairwise_cons.1 h.2).2⟩
      · exact List.pairwise_cons.2 ⟨fun r hr => hg.1 r (List.mem_cons_of_mem _ hr), (List.pairwise_cons.1 hg.2).2⟩
      · intro r hr
        rcases h3 r hr with h | h
        · rcases List.mem_cons.1 h with h | h
          · right; rw [h, ← e]
          · exact Or.inl h
        · exact Or.inr h
    · have es : pStep p c = ⟨p.done ++ [p.close], c, c.y, c.ysq, c.w⟩ := by rw [pStep, if_neg e]
      rw [es]
      have lt : p.first.group < c.group := lt_of_le_of_ne (hg.1 c (by simp)) e
      refine ih _ h.2 hg.2 ?_ ?_ (fun r hr => h2 r (List.mem_cons_of_mem _ hr)) ?_
      · intro d hd
        rcases List.mem_append.1 hd with hd | hd
        · exact h0 d hd
        · rw [List.mem_singleton] at hd
          rw [hd]
          exact ⟨p.first, h1.1, rfl, h1.2⟩
      · refine ⟨h2 c (by simp), fun r' hr' e' => ?_⟩
        rcases h3 r' hr' with h' | h'
        · rcases List.mem_cons.1 h' with h' | h'
          · rw [h']
          · exact ((List.pairwise_cons.1 h.2).1 r' h').le
        · dsimp only at e'
          omega
      · intro r hr
        rcases h3 r hr with h' | h'
        · rcases List.mem_cons.1 h' with h' | h'
          · right; rw [h']
          · exact Or.inl h'
        · right
          dsimp only
          omega

/-- Every merged row has the id of the first row of its group. -/
theorem pMerge_first {l : List RInst} (h : l.Pairwise fun a b => a.id < b.id)
    (hg : l.Pairwise fun a b => a.group ≤ b.group) :
    ∀ d ∈ pMerge l, ∃ r ∈ l, key r = key d ∧ ∀ r' ∈ l, r'.group = r.group → r.id ≤ r'.id := by
  cases l with
  | nil => simp [pMerge]
  | cons a l =>
    refine pFold_first l _ h hg (a :: l) (by simp) ⟨by simp, ?_⟩ (fun r hr => List.mem_cons_of_mem _ hr) ?_
    · intro r' hr' _
      rcases List.mem_cons.1 hr' with e | e
      · rw [e]
      · exact ((List.pairwise_cons.1 h).1 r' e).le
    · intro r hr
      rcases List.mem_cons.1 hr with e | e
      · right; rw [e]
      · exact Or.inl e

theorem pFold_all (l : List RInst) (p : PSt) :
    ∀ g, (g ∈ (p.done ++ [p.close]).map RInst.group ∨ g ∈ l.map RInst.group) →
      g ∈ ((l.foldl pStep p).done ++ [(l.foldl pStep p).close]).map RInst.group := by
  induction l generalizing p with
  | nil => intro g hg; simpa using hg
  | cons c l ih =>
    intro g hg
    rw [List.foldl_cons]
    refine ih _ g ?_
    unfold pStep
    split
    · rename_i e
      rcases hg with hg | hg
      · left
        simpa [PSt.close] using hg
      · rcases List.mem_cons.1 hg with e' | e'
        · left; simp [PSt.close, e, e']
        · right; exact e'
    · rcases hg with hg | hg
      · left
        simp only [List.map_append, List.mem_append] at hg ⊢
        exact Or.inl hg
      · rcases List.mem_cons.1 hg with e' | e'
        · left; simp [PSt.close, e']
        · right; exact e'

theorem pMerge_all (l : List RInst) : ∀ g ∈ l.map RInst.group, g ∈ (pMerge l).map RInst.group := by
  cases l with
  | nil => simp
  | cons a l =>
    intro g hg
    refine pFold_all l _ g ?_
    rcases List.mem_cons.1 hg with e | e
    · left; simp [PSt.close, e]
    · exact Or.inr e

theorem pFold_last (l : List RInst) (p : PSt) :
    (l.foldl pStep p).first.group = ((p.first :: l).getLast (by simp)).group := by
  induction l generalizing p with
  | nil => rfl
  | cons c l ih =>
    rw [List.foldl_cons, ih]
    by_cases e : p.first.group = c.group
    · have es : pStep p c = { p with n := p.n + c.w, y := p.y + c.y, ysq := p.ysq + c.ysq } := by rw [pStep, if_pos e]
      rw [List.getLast_cons (by simp : c :: l ≠ [])]
      cases l with
      | nil => simp [es, e]
      | cons d l => simp [es]
    · have es : pStep p c = ⟨p.done ++ [p.close], c, c.y, c.ysq, c.w⟩ := by rw [pStep, if_neg e]
      simp [es]

end Streed.RegLemmas
