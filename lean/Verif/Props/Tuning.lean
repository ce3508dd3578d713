import Verif.Lemmas.Tuning
import Verif.Props.Regression
import Verif.Props.Folds

/-!
# Tuning: the tuned price, and the rows that the trials use (C77, C78)
-/

namespace Streed

open RegLemmas

/-- The rows of a new training set after `PreprocessData`: ids are positions, rows with equal features (equal `group`)
are neighbours, every weight is one. -/
structure Rows (m : InstStore) : Prop where
  some : m ≠ []
  ids : m.map RInst.id = List.range m.length
  groups : m.Pairwise fun a b => a.group ≤ b.group
  weight : ∀ r ∈ m, r.w = 1
  square : ∀ r ∈ m, r.ysq = r.y * r.y

/-- Sum of squared distances to the mean. -/
def variation (ys : List Rat) : Rat := (ys.map fun y => (y - ys.sum / ys.length) * (y - ys.sum / ys.length)).sum

namespace TuneLemmas

theorem getD_getElem {m : InstStore} {i : Nat} (h : i < m.length) : m.getD i default = m[i] := by
  rw [List.getD_eq_getElem?_getD, List.getElem?_eq_getElem h]; rfl

theorem vals_range (m : InstStore) : vals m (List.range m.length) = m := by
  apply List.ext_getElem
  · simp [vals]
  · intro i h1 h2
    simp only [vals, List.getElem_map, List.getElem_range]
    exact getD_getElem h2

variable {m : InstStore} {view : List Nat}

theorem id_of (hm : Rows m) {i : Nat} (h : i < m.length) : (m.getD i default).id = i := by
  have e := congrArg (fun l => l[i]?) hm.ids
  simp only [List.getElem?_map, List.getElem?_range h, List.getElem?_eq_getElem h, Option.map_some, Option.some.injEq] at e
  rw [getD_getElem h, e]

theorem sorted_view (hm : Rows m) (hv : view.Perm (List.range m.length)) :
    (view.insertionSort fun a b => (m.getD a default).id ≤ (m.getD b default).id) = List.range m.length := by
  have hp : (view.insertionSort fun a b => (m.getD a default).id ≤ (m.getD b default).id).Perm view :=
    List.perm_insertionSort ..
  have hp2 := hp.trans hv
  have hs : (view.insertionSort fun a b => (m.getD a default).id ≤ (m.getD b default).id).Pairwise
      fun a b => (m.getD a default).id ≤ (m.getD b default).id := by
    have : Std.Total (fun a b : Nat => (m.getD a default).id ≤ (m.getD b default).id) := ⟨fun a b => Nat.le_total _ _⟩
    have : IsTrans Nat (fun a b : Nat => (m.getD a default).id ≤ (m.getD b default).id) :=
      ⟨fun a b c => Nat.le_trans⟩
    exact List.pairwise_insertionSort _ _
  generalize view.insertionSort (fun a b => (m.getD a default).id ≤ (m.getD b default).id) = l at *
  have hl : l.Pairwise (· ≤ ·) := by
    refine hs.imp_of_mem ?_
    intro a b ha hb h
    rw [id_of hm (List.mem_range.1 (hp2.mem_iff.1 ha)), id_of hm (List.mem_range.1 (hp2.mem_iff.1 hb))] at h
    exact h
  exact hp2.eq_of_pairwise (fun a b _ _ h1 h2 => Nat.le_antisymm h1 h2) hl List.pairwise_le_range

theorem view_lt (hv : view.Perm (List.range m.length)) : ∀ a ∈ view, a < m.length :=
  fun _ h => List.mem_range.1 (hv.mem_iff.1 h)

theorem view_w (hm : Rows m) (hv : view.Perm (List.range m.length)) : ∀ a ∈ view, 0 < (m.getD a default).w := by
  intro a ha
  have h := view_lt hv a ha
  rw [getD_getElem h, hm.weight _ (List.getElem_mem h)]
  exact Nat.one_pos

theorem view_ne (hm : Rows m) (hv : view.Perm (List.range m.length)) : view ≠ [] := by
  rintro rfl
  have := hv.length_eq
  simp only [List.length_nil, List.length_range] at this
  exact hm.some (List.length_eq_zero_iff.1 this.symm)

theorem vals_perm (hv : view.Perm (List.range m.length)) : (vals m view).Perm m := by
  have := hv.map fun a => m.getD a default
  rwa [show (List.range m.length).map (fun a => m.getD a default) = m from vals_range m] at this

theorem norm_eq (hm : Rows m) (hv : view.Perm (List.range m.length)) :
    priceNorm m view = variation (m.map RInst.y) := by
  have e : ((vals m view).map stat).sum = (m.map stat).sum := ((vals_perm hv).map stat).sum_eq
  have hl : (m.map RInst.y).length ≠ 0 := by simpa using hm.some
  rw [priceNorm_eq, e, sum_stat, variation, sq_mean _ hl]
  have h1 : (m.map RInst.ysq).sum = ((m.map RInst.y).map fun y => y * y).sum := by
    rw [List.map_map]
    congr 1
    exact List.map_congr_left fun r hr => hm.square r hr
  have h2 : (m.map RInst.w).sum = m.length := by
    have : m.map RInst.w = m.map fun _ => 1 := List.map_congr_left fun r hr => hm.weight r hr
    rw [this]; simp
  rw [h1, h2, List.length_map]

/-- What the first preprocessing leaves. -/
theorem first_merge (hm : Rows m) (hv : view.Perm (List.range m.length)) :
    ∃ m' t, preprocessTrain m view = some (m', t) ∧ vals m' t = pMerge m := by
  have hs := sorted_view hm hv
  have hd : ∃ m' t, preprocessTrain m view = some (m', t) := by
    unfold preprocessTrain
    rw [hs]
    cases h : List.range m.length with
    | nil => rw [List.range_eq_nil] at h; exact absurd (List.length_eq_zero_iff.1 h) hm.some
    | cons a l => exact ⟨_, _, rfl⟩
  obtain ⟨m', t, e⟩ := hd
  have := (preprocess_spec e (hv.nodup_iff.2 List.nodup_range) (view_lt hv) (view_w hm hv)).1
  rw [hs, vals_range] at this
  exact ⟨m', t, e, this⟩

/-- Ids in memory never change. -/
theorem ids_kept {m' : InstStore} {t : List Nat} (hm : Rows m) (hv : view.Perm (List.range m.length))
    (e : preprocessTrain m view = some (m', t)) : ∀ a < m.length, (m'.getD a default).id = (m.getD a default).id := by
  obtain ⟨_, f, hf, p, h1, h2, h3, _⟩ := preprocess_spec e (hv.nodup_iff.2 List.nodup_range) (view_lt hv) (view_w hm hv)
  intro a ha
  by_cases h : a = f
  · rw [h, h3, h1]; rfl
  · have := pre_get h2 ha
    rw [List.getD_eq_getElem?_getD, List.getElem?_set_ne (Ne.symm h), ← List.getD_eq_getElem?_getD] at this
    rw [this]

theorem ids_pairwise (hm : Rows m) : m.Pairwise fun a b => a.id < b.id := by
  have : (m.map RInst.id).Pairwise (· < ·) := by rw [hm.ids]; exact List.pairwise_lt_range
  exact List.pairwise_map.1 this

/-- The merged rows are merged no further. -/
theorem second_merge {m' : InstStore} {t : List Nat} (hm : Rows m) (e : vals m' t = pMerge m) :
    ∃ m'' t'', preprocessTrain m' t = some (m'', t'') ∧ vals m'' t'' = pMerge m := by
  have hid : (pMerge m).Pairwise fun a b => a.id < b.id := by
    have h1 : ((pMerge m).map key).Pairwise fun a b => a.1 < b.1 := by
      refine List.Pairwise.sublist (pMerge_sub m) ?_
      exact List.pairwise_map.2 (ids_pairwise hm)
    rw [List.pairwise_map] at h1
    exact h1
  have hidv : t.Pairwise fun a b => (m'.getD a default).id < (m'.getD b default).id := by
    rw [← e, vals, List.pairwise_map] at hid
    exact hid
  have hw : ∀ a ∈ t, 0 < (m'.getD a default).w := by
    intro a ha
    have : m'.getD a default ∈ vals m' t := List.mem_map.2 ⟨a, ha, rfl⟩
    rw [e] at this
    exact pMerge_pos (fun i hi => by rw [hm.weight i hi]; exact Nat.one_pos) _ this
  have hlt : ∀ a ∈ t, a < m'.length := by
    intro a ha
    by_contra h
    have := hw a ha
    rw [List.getD_eq_getElem?_getD, List.getElem?_eq_none (by omega)] at this
    exact absurd this (by decide)
  have hnd : t.Nodup := hidv.imp (fun {a b} h e => by rw [e] at h; exact absurd h (lt_irrefl _))
  have hs : (t.insertionSort fun a b => (m'.getD a default).id ≤ (m'.getD b default).id) = t :=
    (hidv.imp fun h => Nat.le_of_lt h).insertionSort_eq
  have hne : t ≠ [] := by
    rintro rfl
    exact pMerge_ne hm.some e.symm
  have hd : ∃ m'' t'', preprocessTrain m' t = some (m'', t'') := by
    unfold preprocessTrain
    rw [hs]
    cases t with
    | nil => exact absurd rfl hne
    | cons a l => exact ⟨_, _, rfl⟩
  obtain ⟨m'', t'', e2⟩ := hd
  have := (preprocess_spec e2 hnd hlt hw).1
  rw [hs, e, pMerge_same (pMerge_groups hm.groups)] at this
  exact ⟨m'', t'', e2, this⟩

/-- When the solver takes the merged view for the original one. -/
theorem same_iff {m' : InstStore} {t : List Nat} (hm : Rows m) (hv : view.Perm (List.range m.length))
    (e : preprocessTrain m view = some (m', t)) (e2 : vals m' t = pMerge m) :
    sameView m' view t = true ↔ view = List.range m.length ∧ (m.map RInst.group).Nodup := by
  have hne : t ≠ [] := by
    rintro rfl
    exact pMerge_ne hm.some e2.symm
  have hview : (view.map fun x => (m'.getD x default).id) = view := by
    conv_rhs => rw [← List.map_id view]
    apply List.map_congr_left
    intro a ha
    rw [ids_kept hm hv e a (view_lt hv a ha), id_of hm (view_lt hv a ha)]; rfl
  have ht : (t.map fun x => (m'.getD x default).id) = ((pMerge m).map key).map Prod.fst := by
    rw [← e2, vals, List.map_map, List.map_map]; rfl
  have hmm : (m.map key).map Prod.fst = List.range m.length := by
    rw [List.map_map, ← hm.ids]; rfl
  unfold sameView
  rw [hview, ht]
  simp only [Bool.and_eq_true, Bool.not_eq_true', beq_iff_eq]
  have en : ∀ l : List Nat, l ≠ [] → l.isEmpty = false := by intro l h; simpa using h
  rw [en _ (view_ne hm hv), en _ hne]
  simp only [true_and]
  constructor
  · intro h
    have hl : ((pMerge m).map key).length = (m.map key).length := by
      have := congrArg List.length h
      rw [hv.length_eq] at this
      simpa using this.symm
    have hk := (pMerge_sub m).eq_of_length hl
    rw [hk, hmm] at h
    refine ⟨h, ?_⟩
    have hg := pMerge_groups hm.groups
    have : (pMerge m).map RInst.group = m.map RInst.group := by
      have := congrArg (List.map Prod.snd) hk
      rw [List.map_map, List.map_map] at this
      exact this
    rwa [this] at hg
  · rintro ⟨h1, h2⟩
    rw [pMerge_same h2, hmm, h1]

end TuneLemmas

open TuneLemmas

/-! ### C77 -/

/-- **C77**, without tuning: the search charges the cost-complexity parameter times the number of rows
(classification), or times the variation of the targets. -/
theorem plain_price (kind : TuneKind) (m : InstStore) (view : List Nat) (cc : Rat) (hm : Rows m)
    (hv : view.Perm (List.range m.length)) :
    ∃ s, plainFit kind m view cc = some s ∧
      s.charged kind = cc * if kind = .perUse then (m.length : Rat) else variation (m.map RInst.y) := by
  have hn : sameView m [] view = false := rfl
  cases kind with
  | perUse =>
    refine ⟨_, by simp [plainFit, initSolver, freshSolver, hn, prepView]; rfl, ?_⟩
    simp [TuneSt.charged, hv.length_eq]
  | merging =>
    obtain ⟨m', t, e, _⟩ := first_merge hm hv
    refine ⟨_, by simp [plainFit, initSolver, freshSolver, hn, prepView, e]; rfl, ?_⟩
    simp [TuneSt.charged, norm_eq hm hv]
  | scaling =>
    refine ⟨_, by simp [plainFit, initSolver, freshSolver, hn, prepView, view_ne hm hv]; rfl, ?_⟩
    simp [TuneSt.charged, norm_eq hm hv]

/-- **C77** for classification with a complexity price: after tuning, the search charges the tuned parameter. -/
theorem tuned_price_accuracy (m : InstStore) (view : List Nat) (cc₀ cc : Rat) (hm : Rows m)
    (hv : view.Perm (List.range m.length)) :
    ∃ s, tunedFit .perUse m view cc₀ cc = some s ∧ s.charged .perUse = cc * m.length := by
  have hn : sameView m [] view = false := rfl
  have e : initSolver .perUse cc₀ (freshSolver m) view false = some ⟨m, cc₀, view, List.range m.length,
      cc₀ * priceNorm m view⟩ := by
    unfold initSolver freshSolver
    dsimp only
    rw [hn]
    simp only [prepView, sorted_view hm hv, Bool.and_false, Bool.false_eq_true, if_false]
  unfold tunedFit
  rw [e]
  simp only [Option.bind_eq_bind, Option.bind_some]
  unfold initSolver
  dsimp only
  split
  · exact ⟨_, rfl, by simp [TuneSt.charged]⟩
  · refine ⟨_, rfl, ?_⟩
    simp [TuneSt.charged]

/-- **C77** fails for piecewise-linear regression, on every training set: after tuning, the search charges the price of
the parameter that the user gave before tuning, whatever value tuning selects. -/
theorem tuned_price_linear (m : InstStore) (view : List Nat) (cc₀ cc : Rat) (hm : Rows m)
    (hv : view.Perm (List.range m.length)) :
    ∃ s, tunedFit .scaling m view cc₀ cc = some s ∧ s.charged .scaling = cc₀ * variation (m.map RInst.y) := by
  have hn : sameView m [] view = false := rfl
  have hne := view_ne hm hv
  have e : initSolver .scaling cc₀ (freshSolver m) view false = some ⟨m ++ view.map fun a => m.getD a default, cc₀, view,
      (List.range view.length).map (m.length + ·), cc₀ * priceNorm m view⟩ := by
    simp [initSolver, freshSolver, hn, prepView, hne]
  have es : sameView (m ++ view.map fun a => m.getD a default) view ((List.range view.length).map (m.length + ·)) = true := by
    unfold sameView
    have h1 : view.isEmpty = false := by simpa using hne
    have h2 : ((List.range view.length).map (m.length + ·)).isEmpty = false := by
      simpa using hne
    rw [h1, h2]
    simp only [Bool.not_false, Bool.true_and, beq_iff_eq]
    apply List.ext_getElem
    · simp
    · intro i h3 h4
      have h5 : i < view.length := by simpa using h3
      simp only [List.getElem_map, List.getElem_range]
      have h6 := view_lt hv view[i] (List.getElem_mem h5)
      rw [List.getD_eq_getElem?_getD, List.getElem?_append_left h6, ← List.getD_eq_getElem?_getD,
        List.getD_eq_getElem?_getD (l := _ ++ _), List.getElem?_append_right (by omega)]
      simp [h5]
  unfold tunedFit
  rw [e]
  simp only [Option.bind_eq_bind, Option.bind_some]
  unfold initSolver
  dsimp only
  rw [es]
  refine ⟨_, rfl, ?_⟩
  simp [TuneSt.charged, norm_eq hm hv]

/-- **C77** for cost-complexity regression and simple linear regression: after tuning, the search charges the tuned
parameter, except when the rows were passed in the solver's own order and no two have the same features: then it charges
the parameter from before tuning. -/
theorem tuned_price_merging (m : InstStore) (view : List Nat) (cc₀ cc : Rat) (hm : Rows m)
    (hv : view.Perm (List.range m.length)) :
    ∃ s, tunedFit .merging m view cc₀ cc = some s ∧
      s.charged .merging = (if view = List.range m.length ∧ (m.map RInst.group).Nodup then cc₀ else cc) *
        variation (m.map RInst.y) := by
  have hn : sameView m [] view = false := rfl
  obtain ⟨m', t, e, e2⟩ := first_merge hm hv
  have e1 : initSolver .merging cc₀ (freshSolver m) view false = some ⟨m', cc₀, view, t, cc₀ * priceNorm m view⟩ := by
    simp [initSolver, freshSolver, hn, prepView, e]
  unfold tunedFit
  rw [e1]
  simp only [Option.bind_eq_bind, Option.bind_some]
  have hs := same_iff hm hv e e2
  by_cases h : view = List.range m.length ∧ (m.map RInst.group).Nodup
  · rw [if_pos h]
    unfold initSolver
    dsimp only
    rw [hs.2 h]
    refine ⟨_, rfl, ?_⟩
    simp [TuneSt.charged, norm_eq hm hv]
  · rw [if_neg h]
    have hs' : sameView m' view t = false := by
      cases h' : sameView m' view t with
      | false => rfl
      | true => exact absurd (hs.1 h') h
    obtain ⟨m'', t'', e3, _⟩ := second_merge hm e2
    have en : priceNorm m' t = variation (m.map RInst.y) := by
      rw [← norm_eq hm hv]
      apply priceNorm_congr
      rw [e2, pMerge_total]
      exact ((vals_perm hv).map stat).sum_eq.symm
    unfold initSolver
    dsimp only
    rw [hs']
    simp only [prepView, e3, Bool.not_false, Bool.and_false, Bool.false_eq_true, if_false]
    refine ⟨_, rfl, ?_⟩
    simp [TuneSt.charged, en]

/-- **C77**: tuning does not change the data of the final search: it runs on the same merged rows as a fit without
tuning, with the sums of every feature vector as in the data. -/
theorem tuned_data_merging (m : InstStore) (view : List Nat) (cc₀ cc : Rat) (hm : Rows m)
    (hv : view.Perm (List.range m.length)) (s₁ s₂ : TuneSt) (h₁ : plainFit .merging m view cc = some s₁)
    (h₂ : tunedFit .merging m view cc₀ cc = some s₂) :
    (s₂.train.map fun a => s₂.store.getD a default) = (s₁.train.map fun a => s₁.store.getD a default) ∧
    (∀ g, viewSums s₂.store s₂.train g = viewSums m view g) := by
  have hn : sameView m [] view = false := rfl
  obtain ⟨m', t, e, e2⟩ := first_merge hm hv
  have h1 : vals s₁.store s₁.train = pMerge m := by
    simp [plainFit, initSolver, freshSolver, hn, prepView, e] at h₁
    rw [← h₁]
    exact e2
  have h2 : vals s₂.store s₂.train = pMerge m := by
    have e1 : initSolver .merging cc₀ (freshSolver m) view false = some ⟨m', cc₀, view, t, cc₀ * priceNorm m view⟩ := by
      simp [initSolver, freshSolver, hn, prepView, e]
    unfold tunedFit at h₂
    rw [e1] at h₂
    simp only [Option.bind_eq_bind, Option.bind_some] at h₂
    unfold initSolver at h₂
    dsimp only at h₂
    split at h₂
    · cases h₂
      exact e2
    · obtain ⟨m'', t'', e3, e4⟩ := second_merge hm e2
      simp only [prepView, e3] at h₂
      cases h₂
      exact e4
  refine ⟨h2.trans h1.symm, fun g => ?_⟩
  show (((vals s₂.store s₂.train).filter _).map stat).sum = (((vals m view).filter _).map stat).sum
  rw [h2]
  refine (pMerge_stat g m).trans ?_
  exact ((((vals_perm hv).filter _).map stat).sum_eq).symm

/-- Two rows with different features. -/
def tuneRows : InstStore := [⟨0, 0, 0, 0, 1⟩, ⟨1, 1, 2, 4, 1⟩]

theorem tuneRows_rows : Rows tuneRows := by
  constructor <;> decide +kernel

/-- **C77** in full, refuted: not every task charges the tuned price after tuning. -/
theorem tuned_price_wrong : ¬ ∀ (kind : TuneKind) (m : InstStore) (view : List Nat) (cc₀ cc : Rat), Rows m →
    view.Perm (List.range m.length) → ∃ s₁ s₂, plainFit kind m view cc = some s₁ ∧ tunedFit kind m view cc₀ cc = some s₂ ∧
      s₂.charged kind = s₁.charged kind := by
  intro h
  obtain ⟨s₁, s₂, h1, h2, h3⟩ := h .merging tuneRows [0, 1] (1 / 100) (1 / 10) tuneRows_rows (List.Perm.refl _)
  obtain ⟨s, e, e2⟩ := plain_price .merging tuneRows [0, 1] (1 / 10) tuneRows_rows (List.Perm.refl _)
  obtain ⟨s', e', e2'⟩ := tuned_price_merging tuneRows [0, 1] (1 / 100) (1 / 10) tuneRows_rows (List.Perm.refl _)
  rw [h1] at e
  rw [h2] at e'
  cases e
  cases e'
  rw [e2, e2'] at h3
  revert h3
  decide +kernel

/-- What holds of **C77**: the tuned price is charged by classification, and by the merging tasks when the rows come in
another order or repeat a feature vector. -/
theorem tuned_price_partial (kind : TuneKind) (m : InstStore) (view : List Nat) (cc₀ cc : Rat) (hm : Rows m)
    (hv : view.Perm (List.range m.length)) (hk : kind ≠ .scaling)
    (hd : kind = .merging → view ≠ List.range m.length ∨ ¬ (m.map RInst.group).Nodup) :
    ∃ s₁ s₂, plainFit kind m view cc = some s₁ ∧ tunedFit kind m view cc₀ cc = some s₂ ∧
      s₂.charged kind = s₁.charged kind := by
  obtain ⟨s₁, e1, e2⟩ := plain_price kind m view cc hm hv
  cases kind with
  | scaling => exact absurd rfl hk
  | perUse =>
    obtain ⟨s₂, e3, e4⟩ := tuned_price_accuracy m view cc₀ cc hm hv
    exact ⟨s₁, s₂, e1, e3, by rw [e2, e4]; simp⟩
  | merging =>
    obtain ⟨s₂, e3, e4⟩ := tuned_price_merging m view cc₀ cc hm hv
    refine ⟨s₁, s₂, e1, e3, ?_⟩
    rw [e2, e4, if_neg]
    · simp
    · rintro ⟨h1, h2⟩
      rcases hd rfl with h | h
      · exact h h1
      · exact h h2

/-- The same rows in the other order meet the hypotheses of the partial theorem. -/
example : Rows tuneRows ∧ [1, 0].Perm (List.range tuneRows.length) ∧ [1, 0] ≠ List.range tuneRows.length ∧
    variation (tuneRows.map RInst.y) = 2 := by
  refine ⟨tuneRows_rows, ?_, by decide, by decide +kernel⟩
  decide

/-- The ridge penalty of simple linear regression does nothing, and the lasso penalty takes its place. -/
theorem simple_ridge_ignored (lasso r₁ r₂ : Rat) : simpleRidge lasso r₁ = simpleRidge lasso r₂ ∧
    simpleRidge lasso r₁ = lasso := ⟨rfl, rfl⟩

end Streed
