import Verif.Model.Difference

/-! Helper lemmas about the merge loop. -/

namespace Streed

/-- The instances of `A` whose id does not occur in `B`. -/
def minus (A B : Data) : Data := A.filter (fun i => !B.any (fun j => j.id == i.id))

/-- Strictly increasing ids. -/
def IdSorted (D : Data) : Prop := D.Pairwise (fun a b => a.id < b.id)

theorem IdSorted.filter {D : Data} (h : IdSorted D) (p : Inst → Bool) : IdSorted (D.filter p) :=
  List.Pairwise.filter p h

theorem minus_nil (A : Data) : minus A [] = A := by
  simp [minus]

theorem minus_cons_of_not (A B : Data) (x : Inst) (h : ∀ i ∈ A, i.id ≠ x.id) :
    minus A (x :: B) = minus A B := by
  unfold minus
  apply List.filter_congr
  intro i hi
  have := h i hi
  simp [Ne.symm this]

theorem minus_cons_keep (A B : Data) (x : Inst) (h : ∀ i ∈ B, i.id ≠ x.id) :
    minus (x :: A) B = x :: minus A B := by
  unfold minus
  rw [List.filter_cons_of_pos]
  simpa using h

theorem minus_cons_drop (A B : Data) (x y : Inst) (hy : y ∈ B) (h : y.id = x.id) :
    minus (x :: A) B = minus A B := by
  unfold minus
  rw [List.filter_cons_of_neg]
  simp only [Bool.not_eq_true, Bool.not_eq_false', List.any_eq_true, beq_iff_eq]
  exact ⟨y, hy, h⟩

theorem mergeDiff_eq (old new : Data) (ho : IdSorted old) (hn : IdSorted new) :
    mergeDiff old new = (minus new old, minus old new) := by
  induction old generalizing new with
  | nil => rw [minus_nil]; rfl
  | cons o os iho =>
    have ho' := List.pairwise_cons.1 ho
    show mergeDiffAt o (o :: os) (mergeDiff os) new = _
    induction new with
    | nil => rw [minus_nil]; rfl
    | cons n ns ihn =>
      have hn' := List.pairwise_cons.1 hn
      unfold mergeDiffAt
      by_cases h : n.id < o.id
      · rw [if_pos h, ihn hn'.2]
        have h1 : ∀ i ∈ (o :: os : Data), i.id ≠ n.id := by
          intro i hi
          rcases List.mem_cons.1 hi with rfl | hi
          · omega
          · have := ho'.1 i hi; omega
        rw [minus_cons_keep _ _ _ h1, minus_cons_of_not _ _ _ h1]
      · rw [if_neg h]
        by_cases h2 : n.id > o.id
        · rw [if_pos h2, iho _ ho'.2 hn]
          have h1 : ∀ i ∈ (n :: ns : Data), i.id ≠ o.id := by
            intro i hi
            rcases List.mem_cons.1 hi with rfl | hi
            · omega
            · have := hn'.1 i hi; omega
          rw [minus_cons_keep _ _ _ h1, minus_cons_of_not _ _ _ h1]
        · have e : o.id = n.id := by omega
          rw [if_neg h2, iho _ ho'.2 hn'.2]
          have h1 : ∀ i ∈ ns, i.id ≠ o.id := by
            intro i hi; have := hn'.1 i hi; omega
          have h2 : ∀ i ∈ os, i.id ≠ n.id := by
            intro i hi; have := ho'.1 i hi; omega
          rw [minus_cons_drop _ _ n o (by simp) e, minus_cons_of_not _ _ _ h1,
            minus_cons_drop _ _ o n (by simp) e.symm, minus_cons_of_not _ _ _ h2]

theorem mergeCount_eq (old new : Data) :
    mergeCount old new =
      ((mergeDiff old new).1.length + (mergeDiff old new).2.length, (mergeDiff old new).2.length) := by
  induction old generalizing new with
  | nil => simp [mergeCount, mergeDiff]
  | cons o os iho =>
    show mergeCountAt o (o :: os) (mergeCount os) new = _
    show _ = ((mergeDiffAt o (o :: os) (mergeDiff os) new).1.length +
      (mergeDiffAt o (o :: os) (mergeDiff os) new).2.length,
      (mergeDiffAt o (o :: os) (mergeDiff os) new).2.length)
    induction new with
    | nil => simp [mergeCountAt, mergeDiffAt]
    | cons n ns ihn =>
      unfold mergeDiffAt mergeCountAt
      split
      · rw [ihn]; simp; omega
      · split
        · rw [iho]; simp; omega
        · rw [iho]

end Streed

namespace Streed

theorem IdSorted.nodup {D : Data} (h : IdSorted D) : D.Nodup := by
  unfold IdSorted at h
  exact h.imp (by intro a b h e; subst e; omega)

/-- Instances with the same id are the same instance. -/
def Consistent (A B : Data) : Prop := ∀ a ∈ A, ∀ b ∈ B, a.id = b.id → a = b

theorem minus_perm (A B : Data) (hA : IdSorted A) (hB : IdSorted B) (hc : Consistent A B) :
    (B ++ minus A B).Perm (A ++ minus B A) := by
  have e1 : (A.filter (fun i => B.any (fun j => j.id == i.id))).Perm
      (B.filter (fun i => A.any (fun j => j.id == i.id))) := by
    rw [List.perm_ext_iff_of_nodup (hA.nodup.sublist List.filter_sublist)
      (hB.nodup.sublist List.filter_sublist)]
    intro i
    simp only [List.mem_filter, List.any_eq_true, beq_iff_eq]
    constructor
    · rintro ⟨hi, j, hj, e⟩
      have := hc i hi j hj e.symm
      subst this
      exact ⟨hj, i, hi, rfl⟩
    · rintro ⟨hi, j, hj, e⟩
      have := hc j hj i hi e
      subst this
      exact ⟨hj, j, hi, rfl⟩
  have eA := List.filter_append_perm (fun i => B.any (fun j => j.id == i.id)) A
  have eB := List.filter_append_perm (fun i => A.any (fun j => j.id == i.id)) B
  have hA' : (A ++ minus B A).Perm
      (A.filter (fun i => B.any (fun j => j.id == i.id)) ++ minus A B ++ minus B A) :=
    List.Perm.append_right _ eA.symm
  have hB' : (B ++ minus A B).Perm
      (B.filter (fun i => A.any (fun j => j.id == i.id)) ++ minus B A ++ minus A B) :=
    List.Perm.append_right _ eB.symm
  refine hB'.trans (List.Perm.trans ?_ hA'.symm)
  rw [List.append_assoc, List.append_assoc]
  exact List.Perm.append e1.symm List.perm_append_comm

theorem flatMap_congr' {α β : Type} (l : List α) (f g : α → List β) (h : ∀ a ∈ l, f a = g a) :
    l.flatMap f = l.flatMap g := by
  induction l with
  | nil => rfl
  | cons a l ih =>
    simp only [List.flatMap_cons]
    rw [h a (by simp), ih fun b hb => h b (List.mem_cons_of_mem _ hb)]

theorem byLabel_flat_perm (nL : Nat) (D : Data) (hl : ∀ i ∈ D, i.label < nL) :
    ((List.range nL).flatMap fun k => byLabel D k).Perm D := by
  induction D with
  | nil => simp [byLabel]
  | cons x D ih =>
    have ih := ih fun i hi => hl i (List.mem_cons_of_mem _ hi)
    have hx := hl x (by simp)
    refine List.Perm.trans ?_ (ih.cons x)
    clear ih hl
    obtain ⟨m, rfl⟩ : ∃ m, nL = x.label + (m + 1) := ⟨nL - x.label - 1, by omega⟩
    rw [List.range_add, List.range_succ_eq_map]
    simp only [List.flatMap_append, List.map_cons, List.flatMap_cons]
    have e1 : ((List.range x.label).flatMap fun k => byLabel (x :: D) k) =
        (List.range x.label).flatMap fun k => byLabel D k := by
      apply flatMap_congr'
      intro k hk
      have := List.mem_range.1 hk
      simp [byLabel, show x.label ≠ k by omega]
    have e2 : ((List.map (x.label + ·) (List.map Nat.succ (List.range m))).flatMap
        fun k => byLabel (x :: D) k) =
        (List.map (x.label + ·) (List.map Nat.succ (List.range m))).flatMap fun k => byLabel D k := by
      apply flatMap_congr'
      intro k hk
      simp only [List.mem_map, List.mem_range] at hk
      obtain ⟨a, ⟨b, _, rfl⟩, rfl⟩ := hk
      simp [byLabel]
    rw [e1, e2]
    simp only [Nat.add_zero]
    have e3 : byLabel (x :: D) x.label = x :: byLabel D x.label := by simp [byLabel]
    rw [e3, List.cons_append]
    exact List.perm_middle

end Streed
