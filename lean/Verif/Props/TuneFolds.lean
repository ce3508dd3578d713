import Verif.Props.Tuning

/-!
# The rows that tuning trains and tests on (C78)
-/

namespace Streed

open RegLemmas TuneLemmas

namespace TuneLemmas

theorem filter_group {l : List RInst} (h : (l.map RInst.group).Nodup) {z : RInst} (hz : z ∈ l) :
    (l.filter fun r => r.group = z.group) = [z] := by
  induction l with
  | nil => simp at hz
  | cons a l ih =>
    simp only [List.map_cons, List.nodup_cons] at h
    rcases List.mem_cons.1 hz with e | e
    · subst e
      rw [List.filter_cons_of_pos (by simp)]
      congr 1
      rw [List.filter_eq_nil_iff]
      intro b hb e
      exact h.1 (List.mem_map.2 ⟨b, hb, by simpa using e⟩)
    · rw [List.filter_cons_of_neg]
      · exact ih h.2 e
      · intro e'
        exact h.1 (List.mem_map.2 ⟨z, e, by simpa using (by simpa using e' : a.group = z.group).symm⟩)

/-- The rows fetched by the ids of the merged view: the group of each, and what it is. -/
theorem fetched {m m' : InstStore} {view t : List Nat} (hm : Rows m) (hv : view.Perm (List.range m.length))
    (e : preprocessTrain m view = some (m', t)) (F : List RInst)
    (hF : F = (t.map fun a => (m'.getD a default).id).map fun i => m'.getD i default) :
    F.map RInst.group = (pMerge m).map RInst.group ∧
    ∀ z ∈ F, (z.group ≠ (m.getLast hm.some).group → z ∈ m ∧ ∀ r ∈ m, r.group = z.group → z.id ≤ r.id) ∧
      (z.group = (m.getLast hm.some).group → stat z = groupStat z.group m) := by
  obtain ⟨e1, f, hf, p, h1, h2, h3, a, l, h4, h5⟩ :=
    preprocess_spec e (hv.nodup_iff.2 List.nodup_range) (view_lt hv) (view_w hm hv)
  rw [sorted_view hm hv, vals_range] at e1 h4
  have hfl := view_lt hv f hf
  have hid : p.first.id = f := by rw [← h1, id_of hm hfl]
  have hpm : pMerge m = p.done ++ [p.close] := by rw [h4, h5]; rfl
  have hlast : p.first.group = (m.getLast hm.some).group := by
    have e : ∀ (l : List RInst) (h : l ≠ []), l = m → (l.getLast h).group = (m.getLast hm.some).group := by
      rintro l h rfl; rfl
    rw [h5, pFold_last]
    exact e _ _ h4.symm
  have hnd := pMerge_groups hm.groups
  -- memory at the address of an id
  have hmem : ∀ r ∈ m, m'.getD r.id default = if r.id = f then p.close else r := by
    intro r hr
    obtain ⟨i, hi, rfl⟩ := List.mem_iff_getElem.1 hr
    have hi' : m[i].id = i := by rw [← getD_getElem hi, id_of hm hi]
    rw [hi']
    split
    · rename_i h; rw [h, h3]
    · rename_i h
      have := pre_get h2 hi
      rw [List.getD_eq_getElem?_getD, List.getElem?_set_ne (Ne.symm h), ← List.getD_eq_getElem?_getD] at this
      rw [this, getD_getElem hi]
  have hkey : ∀ r ∈ m, key (if r.id = f then p.close else r) = key r := by
    intro r hr
    split
    · rename_i h
      rw [key_close]
      obtain ⟨i, hi, rfl⟩ := List.mem_iff_getElem.1 hr
      have hi' : m[i].id = i := by rw [← getD_getElem hi, id_of hm hi]
      rw [hi'] at h
      rw [← h1, ← h, getD_getElem hi]
    · rfl
  have hF' : F = (pMerge m).map fun d => m'.getD d.id default := by
    rw [hF, ← e1, vals, List.map_map, List.map_map]; rfl
  have hfirst := pMerge_first (ids_pairwise hm) hm.groups
  refine ⟨?_, ?_⟩
  · rw [hF', List.map_map]
    apply List.map_congr_left
    intro d hd
    obtain ⟨r, hr, hk, _⟩ := hfirst d hd
    have e1 : r.id = d.id := congrArg Prod.fst hk
    have e2 : r.group = d.group := congrArg Prod.snd hk
    show (m'.getD d.id default).group = d.group
    rw [← e1, hmem r hr, ← e2]
    exact congrArg Prod.snd (hkey r hr)
  · intro z hz
    rw [hF'] at hz
    obtain ⟨d, hd, rfl⟩ := List.mem_map.1 hz
    obtain ⟨r, hr, hk, hmin⟩ := hfirst d hd
    have e1 : r.id = d.id := congrArg Prod.fst hk
    have e2 : r.group = d.group := congrArg Prod.snd hk
    have hzg : (m'.getD d.id default).group = d.group := by
      rw [← e1, hmem r hr, ← e2]
      exact congrArg Prod.snd (hkey r hr)
    rw [hzg]
    refine ⟨fun hne => ?_, fun heq => ?_⟩
    · have : r.id ≠ f := by
        intro h
        apply hne
        have := congrArg Prod.snd (hkey r hr)
        rw [if_pos h] at this
        rw [← e2, ← hlast]
        exact this.symm
      rw [← e1, hmem r hr, if_neg this]
      exact ⟨hr, fun r' hr' h => hmin r' hr' (h.trans e2.symm)⟩
    · have hcl : p.close ∈ pMerge m := by rw [hpm]; simp
      have hdc : d = p.close := by
        have a1 := filter_group hnd hd
        have a2 := filter_group hnd hcl
        rw [show p.close.group = d.group from by rw [heq, ← hlast]; rfl, a1] at a2
        simpa using a2
      have : m'.getD d.id default = p.close := by
        rw [hdc]
        show m'.getD p.first.id default = _
        rw [hid, h3]
      rw [this]
      have hg := pMerge_stat d.group m
      rw [← hg, groupStat, hdc, filter_group hnd hcl]
      simp

end TuneLemmas

/-- **C78**, what tuning uses for a merging task: together, the test parts of the folds hold one row for every feature
vector. For the last feature vector this row carries the sums over all its rows; for every other one it is the first
row alone, and the other rows with these features are in no fold. Training and test part of each fold hold the same rows
together. -/
theorem tuning_rows (m : InstStore) (view : List Nat) (s : SplitCfg) (k : Nat) (hm : Rows m)
    (hv : view.Perm (List.range m.length)) (hs : s.OK) (hk : 0 < k) (res : List (List RInst × List RInst))
    (h : tuneFolds m view s k = some res) :
    res.length = k ∧
    (∀ r ∈ m, r.group ≠ (m.getLast hm.some).group → ∃ z ∈ m, z.group = r.group ∧ (∀ r' ∈ m, r'.group = r.group → z.id ≤ r'.id) ∧
      ((res.map (·.2)).flatten.filter fun x => x.group = r.group) = [z]) ∧
    (∀ g, g = (m.getLast hm.some).group → ∃ z, (z.y, z.ysq, z.w) = viewSums m view g ∧
      ((res.map (·.2)).flatten.filter fun x => x.group = g) = [z]) ∧
    (∀ p ∈ res, (p.1 ++ p.2).Perm (res.map (·.2)).flatten) := by
  unfold tuneFolds at h
  obtain ⟨m', t, e, e2⟩ := first_merge hm hv
  rw [e] at h
  simp only [Option.bind_eq_bind, Option.bind_some] at h
  cases hkf : kFold s k [t.map fun a => (m'.getD a default).id] with
  | none => rw [hkf] at h; cases h
  | some fs =>
    rw [hkf] at h
    simp only [Option.bind_some, Option.some.injEq] at h
    obtain ⟨F, hF⟩ : ∃ F, F = (t.map fun a => (m'.getD a default).id).map fun i => m'.getD i default := ⟨_, rfl⟩
    obtain ⟨f1, f2⟩ := fetched hm hv e F hF
    obtain ⟨g1, g2⟩ := kfold_tests_once s hs k hk _ (by simp) fs hkf
    have ht : (res.map (·.2)).flatten.Perm F := by
      rw [← h, List.map_map]
      have := g2.map fun i => m'.getD i default
      rw [List.map_flatten, List.map_map] at this
      rw [hF]
      refine List.Perm.trans ?_ (this.trans (by simp))
      exact List.Perm.refl _
    have hnd : (F.map RInst.group).Nodup := by rw [f1]; exact pMerge_groups hm.groups
    have pick : ∀ g ∈ m.map RInst.group, ∃ z ∈ F, z.group = g ∧
        ((res.map (·.2)).flatten.filter fun x => x.group = g) = [z] := by
      intro g hg
      have := pMerge_all m g hg
      rw [← f1] at this
      obtain ⟨z, hz, rfl⟩ := List.mem_map.1 this
      refine ⟨z, hz, rfl, ?_⟩
      have := ht.filter fun x => decide (x.group = z.group)
      rw [filter_group hnd hz] at this
      exact List.perm_singleton.1 this
    refine ⟨by rw [← h, List.length_map, g1], ?_, ?_, ?_⟩
    · intro r hr hne
      obtain ⟨z, hz, e1, e2⟩ := pick r.group (List.mem_map.2 ⟨r, hr, rfl⟩)
      obtain ⟨a1, a2⟩ := (f2 z hz).1 (by rw [e1]; exact hne)
      exact ⟨z, a1, e1, fun r' hr' h' => a2 r' hr' (h'.trans e1.symm), e2⟩
    · intro g hg
      obtain ⟨z, hz, e1, e2⟩ := pick g (by rw [hg]; exact List.mem_map.2 ⟨_, List.getLast_mem _, rfl⟩)
      refine ⟨z, ?_, e2⟩
      have := (f2 z hz).2 (by rw [e1]; exact hg)
      rw [e1] at this
      refine this.trans ?_
      exact ((((vals_perm hv).filter fun i => decide (i.group = g)).map stat).sum_eq).symm
    · intro p hp
      rw [← h] at hp
      obtain ⟨q, hq, rfl⟩ := List.mem_map.1 hp
      have := (kfold_train_is_rest s hs k hk _ (by simp) fs hkf q hq).map fun i => m'.getD i default
      rw [List.map_append] at this
      refine (this.trans ?_).trans ht.symm
      rw [hF]; simp

/-- What holds of **C78**: when no two rows have the same features, every row is tested in exactly one fold, and trained
on in all others. -/
theorem tuning_rows_partial (m : InstStore) (view : List Nat) (s : SplitCfg) (k : Nat) (hm : Rows m)
    (hv : view.Perm (List.range m.length)) (hs : s.OK) (hk : 0 < k) (hd : (m.map RInst.group).Nodup)
    (res : List (List RInst × List RInst)) (h : tuneFolds m view s k = some res) :
    (res.map (·.2)).flatten.Perm m ∧ ∀ p ∈ res, (p.1 ++ p.2).Perm m := by
  have key : (res.map (·.2)).flatten.Perm m := by
    unfold tuneFolds at h
    obtain ⟨m', t, e, e2⟩ := first_merge hm hv
    rw [e] at h
    simp only [Option.bind_eq_bind, Option.bind_some] at h
    cases hkf : kFold s k [t.map fun a => (m'.getD a default).id] with
    | none => rw [hkf] at h; cases h
    | some fs =>
      rw [hkf] at h
      simp only [Option.bind_some, Option.some.injEq] at h
      obtain ⟨g1, g2⟩ := kfold_tests_once s hs k hk _ (by simp) fs hkf
      have hids : (t.map fun a => (m'.getD a default).id) = List.range m.length := by
        have := congrArg (List.map RInst.id) e2
        rw [pMerge_same hd, hm.ids, vals, List.map_map] at this
        exact this
      have hm' : ∀ i < m.length, m'.getD i default = m.getD i default := by
        intro i hi
        obtain ⟨_, f, hf, p, h1, h2, h3, a, l, h4, h5⟩ :=
          preprocess_spec e (hv.nodup_iff.2 List.nodup_range) (view_lt hv) (view_w hm hv)
        by_cases hif : i = f
        · rw [hif, h3, h1]
          rw [sorted_view hm hv, vals_range] at h4
          have e3 : pMerge m = m := pMerge_same hd
          have hcl : p.close ∈ m := by
            rw [← e3, h4, h5]
            show _ ∈ _ ++ [_]
            simp
          have hfi := id_of hm (view_lt hv f hf)
          obtain ⟨j, hj, hj2⟩ := List.mem_iff_getElem.1 hcl
          have hij : j = f := by
            have := id_of hm hj
            rw [getD_getElem hj, hj2] at this
            rw [← this]
            show p.first.id = f
            rw [← h1, hfi]
          rw [← h1, ← hij, getD_getElem hj, hj2]
        · have := pre_get h2 hi
          rw [List.getD_eq_getElem?_getD, List.getElem?_set_ne (Ne.symm hif), ← List.getD_eq_getElem?_getD] at this
          rw [this]
      rw [← h, List.map_map]
      have := g2.map fun i => m'.getD i default
      rw [List.map_flatten, List.map_map] at this
      have e4 : ([List.map (fun a => (m'.getD a default).id) t].flatten).map (fun i => m'.getD i default) = m := by
        rw [hids]
        simp only [List.flatten_cons, List.flatten_nil, List.append_nil]
        refine Eq.trans ?_ (vals_range m)
        exact List.map_congr_left fun i hi => hm' i (List.mem_range.1 hi)
      rw [e4] at this
      exact this
  refine ⟨key, fun p hp => ?_⟩
  exact ((tuning_rows m view s k hm hv hs hk res h).2.2.2 p hp).trans key

/-- The folds exist: with real-valued labels and no stratification nothing goes wrong. -/
theorem tuning_folds_defined (m : InstStore) (view : List Nat) (s : SplitCfg) (k : Nat) (hm : Rows m)
    (hv : view.Perm (List.range m.length)) (hk : 0 < k) (hr : s.regression = true) (hst : s.stratify = false) :
    ∃ res, tuneFolds m view s k = some res := by
  obtain ⟨m', t, e, _⟩ := first_merge hm hv
  unfold tuneFolds
  rw [e]
  simp only [Option.bind_eq_bind, Option.bind_some]
  obtain ⟨fs, h⟩ := kfold_defined_values s k hk (t.map fun a => (m'.getD a default).id) hr hst
  rw [h]
  exact ⟨_, rfl⟩

/-- Four rows, three of them with the same features. -/
def foldRows : InstStore := [⟨0, 0, 5, 25, 1⟩, ⟨1, 0, 0, 0, 1⟩, ⟨2, 0, 1, 1, 1⟩, ⟨3, 1, 2, 4, 1⟩]

theorem foldRows_rows : Rows foldRows := by constructor <;> decide +kernel

/-- No shuffling. -/
def plainSplit : SplitCfg := ⟨fun _ => 0, true, false, fun _ l => l, fun l => l⟩

theorem plainSplit_ok : plainSplit.OK := ⟨fun _ _ => List.Perm.refl _, fun _ => List.Perm.refl _⟩

/-- **C78** refuted: of four rows, two are in no fold. -/
theorem tuning_rows_lost : ¬ ∀ (m : InstStore) (view : List Nat) (s : SplitCfg) (k : Nat) (res : List (List RInst × List RInst)),
    Rows m → view.Perm (List.range m.length) → s.OK → 0 < k → tuneFolds m view s k = some res →
    ((res.map (·.2)).flatten.map RInst.w).sum = m.length := by
  intro h
  have := h foldRows [0, 1, 2, 3] plainSplit 2 [([⟨3, 1, 2, 4, 1⟩], [⟨0, 0, 5, 25, 1⟩]), ([⟨0, 0, 5, 25, 1⟩], [⟨3, 1, 2, 4, 1⟩])]
    foldRows_rows (List.Perm.refl _) plainSplit_ok (by decide) (by decide +kernel)
  revert this
  decide

/-- Rows with different features meet the hypotheses of the partial theorem, and the folds exist. -/
example : (tuneRows.map RInst.group).Nodup ∧ ∃ res, tuneFolds tuneRows [1, 0] plainSplit 2 = some res ∧
    ∀ p ∈ res, (p.1 ++ p.2).Perm tuneRows := by
  have hv : [1, 0].Perm (List.range tuneRows.length) := by decide
  obtain ⟨res, h⟩ := tuning_folds_defined tuneRows [1, 0] plainSplit 2 tuneRows_rows hv (by decide) rfl rfl
  exact ⟨by decide, res, h, (tuning_rows_partial tuneRows [1, 0] plainSplit 2 tuneRows_rows hv plainSplit_ok (by decide)
    (by decide) res h).2⟩

end Streed
