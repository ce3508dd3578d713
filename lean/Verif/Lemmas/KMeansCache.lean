import Verif.Lemmas.KMeansGroups

/-!
# The bounds kept for one branch

Every entry that a call stores is a bound for the number of nodes it is stored under, and every call returns such a bound.
-/

open Finset

namespace Streed.KM

/-- The largest entry of the cache for one branch. -/
def top (useK : Bool) : Nat := (if useK then 50 else 1) - 1

/-- `b` is what a call with `n` nodes may return. -/
structure Full (useK : Bool) (bc : Rat) (D : List RInst) (n : Nat) (b : Rat) : Prop where
  low : n < top useK → Below bc D n b
  all : top useK ≤ n → ∀ k, Below bc D k b
  exact : useK = true → (n < top useK ∨ (groups D).2.length < 50) → D.Pairwise (fun a b => a.group ≤ b.group) →
    Cluster bc D (min n (top useK)) b

theorem Full.idx {useK : Bool} {bc : Rat} {D : List RInst} {n : Nat} {b : Rat} :
    Full useK bc D (min n (top useK)) b ↔ Full useK bc D n b := by
  rcases Nat.lt_or_ge n (top useK) with h | h
  · rw [min_eq_left h.le]
  · rw [min_eq_right h]
    refine ⟨fun F => ⟨fun h1 => absurd h1 (by omega), fun _ => F.all le_rfl, fun hu h1 hs => ?_⟩,
      fun F => ⟨fun h1 => absurd h1 (by omega), fun _ => F.all h, fun hu h1 hs => ?_⟩⟩
    · have := F.exact hu (.inr (h1.resolve_left (by omega))) hs
      rw [min_self] at this
      rwa [min_eq_right h]
    · have := F.exact hu (.inr (h1.resolve_left (by omega))) hs
      rw [min_eq_right h] at this
      rwa [min_self]

theorem Full.below {useK : Bool} {bc : Rat} {D : List RInst} {n : Nat} {b : Rat} (F : Full useK bc D n b) :
    Below bc D n b := by
  rcases Nat.lt_or_ge n (top useK) with h | h
  · exact F.low h
  · exact F.all h n

theorem card_groups {D : List RInst} (hD : D ≠ []) (hw : ∀ i ∈ D, 0 < i.w) :
    ((D.map RInst.group).toFinset).card ≤ (groups D).2.length ∧
      (D.Pairwise (fun a b => a.group ≤ b.group) → ((D.map RInst.group).toFinset).card = (groups D).2.length) ∧
      0 < (groups D).2.length := by
  obtain ⟨T, hT, hne, _, _, htags, hsort⟩ := groups_spec hD hw
  have e : (D.map RInst.group).toFinset = (T.map Prod.fst).toFinset := by
    ext g
    rw [List.mem_toFinset, List.mem_toFinset, htags]
  have hl : (groups D).2.length = (T.map Prod.fst).length := by rw [← hT, List.length_map, List.length_map]
  rw [e, hl]
  refine ⟨List.toFinset_card_le _, fun hs => List.toFinset_card_of_nodup ?_, ?_⟩
  · rw [List.nodup_iff_pairwise_ne, List.pairwise_map]
    exact (hsort hs).imp fun h => h.ne
  · rw [List.length_map]
    exact List.length_pos_of_ne_nil hne

theorem one_group {bc : Rat} (hbc : 0 ≤ bc) {D : List RInst} (hD : D ≠ []) (hw : ∀ i ∈ D, 0 < i.w)
    (h1 : (groups D).2.length = 1) (hs : D.Pairwise (fun a b => a.group ≤ b.group)) : Cluster bc D 0 (groups D).1 := by
  obtain ⟨_, _, h⟩ := table_spec hbc hD hw le_rfl h1.ge
  have hl : ((groups D).2.insertionSort fun p r => p.x ≤ r.x).length = 1 :=
    (List.perm_insertionSort _ _).length_eq.trans h1
  have e : dynamicStop ((groups D).2.insertionSort fun p r => p.x ≤ r.x) 1 bc = (0, 0) := by
    simp [dynamicStop, stopLoop, firstRow, hl]
  have := h hs
  rw [e, add_zero] at this
  exact this

theorem getD_pad (l : List Rat) (k i : Nat) : (l ++ List.replicate k 0).getD i 0 = l.getD i 0 := by
  rcases Nat.lt_or_ge i l.length with h | h
  · rw [List.getD_append _ _ _ _ h]
  · rw [List.getD_append_right _ _ _ _ h, List.getD_eq_default l 0 h]
    rcases Nat.lt_or_ge (i - l.length) k with h2 | h2
    · rw [List.getD_eq_getElem _ _ (by rwa [List.length_replicate]), List.getElem_replicate]
    · rw [List.getD_eq_default _ _ (by rwa [List.length_replicate])]

/-- Every entry is zero or a bound. -/
def Entries (useK : Bool) (bc : Rat) (D : List RInst) (sols : List Rat) : Prop :=
  ∀ i, sols.getD i 0 ≠ 0 → i ≤ top useK ∧ Full useK bc D i (sols.getD i 0)

theorem Entries.set {useK : Bool} {bc : Rat} {D : List RInst} {sols : List Rat} (h : Entries useK bc D sols) {n : Nat}
    {v : Rat} (hv : Full useK bc D n v) : Entries useK bc D (sols.set (min n (top useK)) v) := by
  intro i hi
  by_cases he : i = min n (top useK)
  · subst he
    rw [List.getD_eq_getElem?_getD, List.getElem?_set] at hi ⊢
    rw [if_pos rfl] at hi ⊢
    split at hi
    · rename_i hl
      rw [if_pos hl]
      exact ⟨min_le_right _ _, Full.idx.2 hv⟩
    · exact absurd rfl hi
  · have e : (sols.set (min n (top useK)) v).getD i 0 = sols.getD i 0 := by
      rw [List.getD_eq_getElem?_getD, List.getD_eq_getElem?_getD, List.getElem?_set_ne (Ne.symm he)]
    rw [e] at hi ⊢
    exact h i hi

theorem Entries.store {bc : Rat} {D : List RInst} {sols : List Rat} (h : Entries true bc D sols) {a b : Nat} {v : Rat}
    (hv : ∀ i, a ≤ i → i < b → i ≤ top true ∧ Full true bc D i v) : Entries true bc D (storeRange sols a b v) := by
  intro i hi
  rw [storeRange, List.getD_eq_getElem?_getD, List.getElem?_mapIdx] at hi ⊢
  have h0 := h i
  rw [List.getD_eq_getElem?_getD] at h0
  cases hs : sols[i]? with
  | none =>
    rw [hs] at hi
    exact absurd rfl hi
  | some x =>
    rw [hs] at hi h0
    simp only [Option.map_some, Option.getD_some] at hi h0 ⊢
    split at hi
    · rename_i hc
      rw [if_pos hc]
      exact hv i hc.1 hc.2
    · rename_i hc
      rw [if_neg hc]
      exact h0 hi

/-- One call. -/
theorem entries_step {useK : Bool} {bc : Rat} (hbc : 0 ≤ bc) {D : List RInst} (hD : D ≠ []) (hw : ∀ i ∈ D, 0 < i.w)
    {sols : List Rat} (h : Entries useK bc D sols) (n : Nat) :
    Full useK bc D n (regressionLB useK bc sols D n).1 ∧ Entries useK bc D (regressionLB useK bc sols D n).2 := by
  have hidx : min (if useK then 50 else 1) (n + 1) - 1 = min n (top useK) := by
    rw [top]
    split <;> omega
  obtain ⟨hcard, _, hN⟩ := card_groups hD hw
  rw [regressionLB]
  dsimp only
  rw [hidx]
  have hpad : Entries useK bc D (if sols.length ≤ min n (top useK) then
      sols ++ List.replicate (min n (top useK) + 1 - sols.length) 0 else sols) := by
    split
    · intro i hi
      rw [getD_pad] at hi ⊢
      exact h i hi
    · exact h
  generalize (if sols.length ≤ min n (top useK) then
      sols ++ List.replicate (min n (top useK) + 1 - sols.length) 0 else sols) = s at hpad
  have hg : ∀ k, Below bc D k (groups D).1 := below_groups hbc hD hw
  by_cases h1 : s.getD (min n (top useK)) 0 ≠ 0
  · rw [if_pos h1]
    exact ⟨Full.idx.1 (hpad _ h1).2, hpad⟩
  rw [if_neg h1]
  by_cases h2 : (useK && decide ((groups D).2.length ≠ 1)) = true
  · rw [if_pos h2]
    rw [Bool.and_eq_true, decide_eq_true_eq] at h2
    obtain ⟨rfl, hN1⟩ := h2
    have htop : top true = 49 := rfl
    simp only [if_true]
    generalize hKe : min (n + 1) (groups D).2.length = K
    by_cases h3 : s.getD (min 50 K - 1) 0 ≠ 0
    · rw [if_pos h3]
      have hF : Full true bc D n (s.getD (min 50 K - 1) 0) := by
        obtain ⟨_, F⟩ := hpad _ h3
        generalize s.getD (min 50 K - 1) 0 = b at F
        by_cases hc : K = n + 1
        · rw [hc, show min 50 (n + 1) - 1 = min n (top true) by rw [htop]; omega] at F
          exact Full.idx.1 F
        · by_cases hc2 : K < 50
          · rw [show min 50 K - 1 = K - 1 by omega] at F
            have hall := (F.low (by rw [htop]; omega)).all hbc (hcard.trans (show _ ≤ K by omega))
            refine ⟨fun _ => hall n, fun _ k => hall k, fun hu _ hs => ?_⟩
            exact (F.exact hu (.inl (by rw [htop]; omega)) hs).mono (by rw [htop]; omega)
          · rw [show min 50 K - 1 = min n (top true) by rw [htop]; omega] at F
            exact Full.idx.1 F
      exact ⟨hF, hpad.set hF⟩
    · rw [if_neg h3]
      by_cases h4 : K < 50
      · rw [if_pos h4]
        obtain ⟨t1, t2, t3⟩ := table_spec hbc hD hw (show 1 ≤ K by omega) (show K ≤ (groups D).2.length by omega)
        generalize dynamicStop ((groups D).2.insertionSort fun p r => p.x ≤ r.x) K bc = b at t1 t2 t3
        have hF : Full true bc D n ((groups D).1 + b.1) := by
          refine ⟨fun _ => ?_, fun h5 => ?_, fun hu _ hs => (t3 hs).mono (by rw [htop]; omega)⟩
          · by_cases hc : K = n + 1
            · exact t2.mono (by omega)
            · exact t2.all hbc (hcard.trans (show _ ≤ K by omega)) n
          · rw [htop] at h5
            exact t2.all hbc (hcard.trans (show _ ≤ K by omega))
        refine ⟨hF, (hpad.store fun i i1 i2 => ⟨by rw [htop]; omega, ?_⟩).set hF⟩
        exact ⟨fun _ => t2.mono (by omega), fun h5 => absurd h5 (by rw [htop]; omega),
          fun hu _ hs => (t3 hs).mono (by rw [htop]; omega)⟩
      · rw [if_neg h4]
        have hF : Full true bc D n (groups D).1 := by
          refine ⟨fun _ => hg n, fun _ => hg, fun hu h5 hs => ?_⟩
          rw [htop] at h5
          omega
        exact ⟨hF, hpad.set hF⟩
  · rw [if_neg h2]
    have hF : Full useK bc D n (groups D).1 := by
      refine ⟨fun _ => hg n, fun _ => hg, fun hu _ hs => ?_⟩
      have : (groups D).2.length = 1 := by
        by_contra hc
        exact h2 (by rw [hu]; simp [hc])
      exact (one_group hbc hD hw this hs).mono (Nat.zero_le _)
    exact ⟨hF, hpad.set hF⟩

end Streed.KM
