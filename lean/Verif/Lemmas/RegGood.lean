import Verif.Lemmas.RegCost

/-!
The search for cost-complexity regression meets the conditions of the search theorems.
-/

namespace Streed

theorem regPredict_congr {nF : Nat} {t : RegTree} (ht : t.Over nF) {a b : Nat → Bool} (h : ∀ f < nF, a f = b f) :
    t.predict a = t.predict b := by
  induction t with
  | leaf v => rfl
  | node f l r ihl ihr =>
    simp only [RegTree.predict, h f ht.1, ihl ht.2.1, ihr ht.2.2]

theorem runInst_stands (tg : Nat → Rat) (r : List EInst) : StandsFor (runInst tg r) (r.map fun e => tg e.inst.label) := by
  refine ⟨rfl, ?_, ?_⟩
  · simp only [runInst, List.map_map]; rfl
  · simp [runInst]

section
variable {nF : Nat} {R : List (List EInst)} (hR : Runs nF R)
include hR

/-- The error that a tree makes on a view is the error of a value for every group. -/
theorem viewInsts_error (tg : Nat → Rat) {D : Data} (hD : ∀ i ∈ D, i ∈ R.map mergedInst) {t : RegTree} (ht : t.Over nF) :
    ∃ f, KM.errAll (viewInsts tg R D) f = totalError tg (expand R D) t := by
  refine ⟨fun g => match R.flatten.find? (fun e => e.gid == g) with
    | some e => t.predict e.inst.feat
    | none => 0, ?_⟩
  unfold KM.errAll viewInsts totalError expand
  rw [List.map_map, List.map_flatMap, List.flatMap_def, List.sum_flatten, List.map_map]
  congr 1
  refine List.map_congr_left fun i hi => ?_
  obtain ⟨r, hr, rfl⟩ := List.mem_map.1 (hD i hi)
  simp only [Function.comp_apply]
  rw [rowsWith_merged hR hr, err_targets (runInst_stands tg r), List.map_map, List.map_map]
  congr 1
  refine List.map_congr_left fun e he => ?_
  simp only [Function.comp_apply]
  have hg : (runInst tg r).group = e.gid := by
    cases r with
    | nil => simp at he
    | cons a r => exact hR.gid _ hr a (by simp) e he
  rw [hg]
  have hmem : e ∈ R.flatten := List.mem_flatten.2 ⟨r, hr, he⟩
  cases hf : R.flatten.find? (fun x => x.gid == e.gid) with
  | none =>
    have := List.find?_eq_none.1 hf e hmem
    simp at this
  | some x =>
    have h1 := List.find?_some hf
    have h2 := List.mem_of_find?_eq_some hf
    dsimp only
    rw [regPredict_congr ht (hR.cross x h2 e hmem (by simpa using h1))]

theorem viewInsts_weight (tg : Nat → Rat) {D : Data} (hD : ∀ i ∈ D, i ∈ R.map mergedInst) :
    ∀ i ∈ viewInsts tg R D, 0 < i.w := by
  intro i hi
  obtain ⟨j, hj, rfl⟩ := List.mem_map.1 hi
  obtain ⟨r, hr, rfl⟩ := List.mem_map.1 (hD j hj)
  rw [rowsWith_merged hR hr]
  exact List.length_pos_of_ne_nil (hR.ne r hr)

omit hR in
theorem expand_sublist {D E : Data} (h : D.Sublist E) : (expand R D).Sublist (expand R E) := by
  unfold expand
  induction h with
  | slnil => exact List.Sublist.refl _
  | cons a h ih => exact ih.trans (List.sublist_append_right _ _)
  | cons_cons a h ih => exact List.Sublist.append (List.Sublist.refl _) ih

end

theorem equiv_bound (bc : Rat) (D : List RInst) : (KM.regressionLB false bc [] D 0).1 = (KM.groups D).1 := by
  simp [KM.regressionLB]

/-- The equivalent-points bound is at most the error of any tree. -/
theorem regLB_le {nF q : Nat} {R : List (List EInst)} (hR : Runs nF R) (tg : Nat → Rat) (bc : Rat) {D : Data}
    (hD : ∀ i ∈ D, i ∈ R.map mergedInst) {t : RegTree} (ht : t.Over nF) :
    (regLB q tg R bc none D : Rat) ≤ q * totalError tg (expand R D) t := by
  unfold regLB
  dsimp only
  rw [equiv_bound]
  refine le_trans (by exact_mod_cast Rat.floor_le _) ?_
  refine mul_le_mul_of_nonneg_left ?_ (Nat.cast_nonneg q)
  cases hD' : viewInsts tg R D with
  | nil => exact totalError_nonneg _ _ _
  | cons a l =>
    rw [← hD']
    obtain ⟨f, hf⟩ := viewInsts_error hR tg hD ht
    obtain ⟨L, -, -, hpos, hc, -⟩ := KM.groups_spec (D := viewInsts tg R D) (by rw [hD']; simp) (viewInsts_weight hR tg hD)
    rw [← hf, hc f]
    have : 0 ≤ KM.dist L f := by
      refine List.sum_nonneg fun z hz => ?_
      obtain ⟨y, hy, rfl⟩ := List.mem_map.1 hz
      have := (hpos y hy).le
      positivity
    linarith

/-- Everything fits into a double: no two targets are further apart than the root of `B`. -/
def Fits (ccp : Rat) (tg : Nat → Rat) (T : Data) (B : Rat) : Prop :=
  (∀ i ∈ T, ∀ j ∈ T, (tg i.label - tg j.label) ^ 2 ≤ B) ∧ (T.length : Rat) * (B + regPrice ccp tg T) < largestDouble

theorem sorted_labels {nF : Nat} {P : Problem} {T S : Data} (hS : SortedByFeatures nF (preprocess P 1 T) S) :
    LabelsIn T ((assignGroups nF S).map (·.inst)) := by
  intro i hi
  have h1 := ((assignGroups_rows nF S).trans hS.sameRows)
  have h2 : (i.feat, i.label) ∈ (preprocess P 1 T).map fun i => (i.feat, i.label) :=
    List.Perm.mem_iff h1 |>.1 (List.mem_map.2 ⟨i, hi, rfl⟩)
  obtain ⟨j, hj, hji⟩ := List.mem_map.1 h2
  obtain ⟨k, hk, rfl⟩ := List.mem_map.1 hj
  simp only [Prod.mk.injEq] at hji
  exact ⟨k, hk, hji.2.symm⟩

theorem sorted_length {nF : Nat} {P : Problem} {T S : Data} (hS : SortedByFeatures nF (preprocess P 1 T) S) :
    ((assignGroups nF S).map (·.inst)).length = T.length := by
  rw [(assignGroups_rows nF S).length, hS.sameRows.length, preprocess_length]

theorem value_close {tg : Nat → Rat} {T : Data} {B : Rat} (hB : ∀ i ∈ T, ∀ j ∈ T, (tg i.label - tg j.label) ^ 2 ≤ B) {i : Inst}
    (hi : i ∈ T) {v : Rat} (hv : v ∈ leafValues tg T) : (tg i.label - v) ^ 2 ≤ B := by
  obtain ⟨l, hl, rfl⟩ := List.mem_map.1 hv
  obtain ⟨h1, h2⟩ := List.mem_filter.1 hl
  have h3 := List.mem_sublists.1 h1
  have hne : l ≠ [] := by
    rintro rfl
    simp at h2
  have := mean_close hne (x := tg i.label) (b := B) fun y hy => by
    obtain ⟨j, hj, rfl⟩ := List.mem_map.1 (h3.subset hy)
    exact hB j hj i hi
  rw [← neg_sub, neg_sq]
  exact this

theorem predict_value {nF : Nat} {vals : List Rat} {t : Tree} (ht : t.Over nF vals.length) (x : Nat → Bool) :
    (valueTree vals t).predict x ∈ vals := by
  induction t with
  | leaf k =>
    simp only [valueTree, RegTree.predict]
    rw [List.getD_eq_getElem _ _ ht]
    exact List.getElem_mem _
  | node f l r ihl ihr =>
    simp only [valueTree, RegTree.predict]
    split
    · exact ihr ht.2.2
    · exact ihl ht.2.1

theorem totalError_le {tg : Nat → Rat} {D : Data} {t : RegTree} {B : Rat}
    (h : ∀ i ∈ D, (tg i.label - t.predict i.feat) ^ 2 ≤ B) : totalError tg D t ≤ D.length * B := by
  unfold totalError
  induction D with
  | nil => simp
  | cons i D ih =>
    have h1 := h i (by simp)
    have h2 := ih fun j hj => h j (List.mem_cons_of_mem _ hj)
    simp only [List.map_cons, List.sum_cons, List.length_cons]
    push_cast
    linarith

theorem merged_flatten (nF : Nat) (S : Data) : (runsOf (assignGroups nF S)).flatten.map (·.inst) = (assignGroups nF S).map (·.inst) := by
  rw [(runsOf_spec _).1]

section
variable {nF q : Nat} {ccp B : Rat} {tg : Nat → Rat} {T S : Data} (hU : Units q ccp tg T) (hp : 0 ≤ regPrice ccp tg T)
  (hS : SortedByFeatures nF (preprocess (userProblem nF q ccp tg T) 1 T) S)

include hS in
theorem view_labels {D : Data} (hD : D.Sublist (mergedData nF S)) :
    LabelsIn T (expand (runsOf (assignGroups nF S)) D) ∧ (expand (runsOf (assignGroups nF S)) D).length ≤ T.length := by
  have h1 := expand_sublist (R := runsOf (assignGroups nF S)) hD
  unfold mergedData at h1
  rw [expand_all (runs_groups nF S), merged_flatten] at h1
  refine ⟨fun i hi => sorted_labels hS i (h1.subset hi), ?_⟩
  rw [← sorted_length hS]
  exact h1.length_le

include hU hp hS in
theorem merged_le (hF : ∀ i ∈ T, ∀ j ∈ T, (tg i.label - tg j.label) ^ 2 ≤ B) {D : Data} (hD : D.Sublist (mergedData nF S)) {t : Tree}
    (ht : t.Legal (mergedProblem (userProblem nF q ccp tg T) (runsOf (assignGroups nF S))) 1 D) :
    ((t.cost (mergedProblem (userProblem nF q ccp tg T) (runsOf (assignGroups nF S))) D : Int) : Rat) ≤
      q * (T.length * (B + regPrice ccp tg T)) := by
  have ho : t.Over nF (leafValues tg T).length := legal_over_of (P := mergedProblem (userProblem nF q ccp tg T) _) ht
  obtain ⟨e1, e2⟩ := tree_expand (runs_groups nF S) (P := userProblem nF q ccp tg T) t (D := D) (fun i hi => hD.subset hi) ho
  obtain ⟨h1, h2⟩ := view_labels hS hD
  have h3 := legal_nodes (Nat.le_refl 1) (e2.1 ht)
  rw [e1]
  have hq : (0 : Rat) < q := by exact_mod_cast hU.pos
  have h4 : totalError tg (expand (runsOf (assignGroups nF S)) D) (valueTree (leafValues tg T) t) ≤ (expand (runsOf (assignGroups nF S)) D).length * B := by
    refine totalError_le fun i hi => ?_
    obtain ⟨j, hj, e⟩ := h1 i hi
    rw [e]
    exact value_close hF hj (predict_value ho _)
  have hB : 0 ≤ B := by
    have : 0 < (expand (runsOf (assignGroups nF S)) D).length := by omega
    obtain ⟨i, hi⟩ := List.exists_mem_of_length_pos this
    obtain ⟨j, hj, _⟩ := h1 i hi
    exact le_trans (sq_nonneg _) (hF j hj j hj)
  have h5 : ((expand (runsOf (assignGroups nF S)) D).length : Rat) ≤ T.length := by exact_mod_cast h2
  have h6 : (t.nodes : Rat) ≤ T.length := by
    have : t.nodes ≤ T.length := by omega
    exact_mod_cast this
  rw [user_treeCost hU t h1 ho]
  refine mul_le_mul_of_nonneg_left ?_ hq.le
  have a := mul_le_mul_of_nonneg_right h5 hB
  have b := mul_le_mul_of_nonneg_right h6 hp
  linarith

include hU hp hS in
theorem merged_small (hF : Fits ccp tg T B) {D : Data} (hD : D.Sublist (mergedData nF S)) {t : Tree}
    (ht : t.Legal (mergedProblem (userProblem nF q ccp tg T) (runsOf (assignGroups nF S))) 1 D) :
    t.cost (mergedProblem (userProblem nF q ccp tg T) (runsOf (assignGroups nF S))) D < (q * largestDouble : Nat) := by
  have hq : (0 : Rat) < q := by exact_mod_cast hU.pos
  have h7 : ((t.cost (mergedProblem (userProblem nF q ccp tg T) (runsOf (assignGroups nF S))) D : Int) : Rat) <
      ((q * largestDouble : Nat) : Int) := by
    refine lt_of_le_of_lt (merged_le hU hp hS hF.1 hD ht) ?_
    push_cast
    exact mul_lt_mul_of_pos_left hF.2 hq
  exact_mod_cast h7

include hU hS in
theorem merged_custom {D : Data} (hD : D.Sublist (mergedData nF S)) {t : Tree}
    (ht : t.Legal (mergedProblem (userProblem nF q ccp tg T) (runsOf (assignGroups nF S))) 1 D) :
    (t.nodes : Rat) * (q * regPrice ccp tg T) + (regLB q tg (runsOf (assignGroups nF S)) (regPrice ccp tg T) none D : Rat) ≤
      (t.cost (mergedProblem (userProblem nF q ccp tg T) (runsOf (assignGroups nF S))) D : Rat) := by
  have ho : t.Over nF (leafValues tg T).length := legal_over_of (P := mergedProblem (userProblem nF q ccp tg T) _) ht
  rw [(tree_expand (runs_groups nF S) (P := userProblem nF q ccp tg T) t (D := D) (fun i hi => hD.subset hi) ho).1,
    user_treeCost hU t (view_labels hS hD).1 ho]
  have := regLB_le (q := q) (runs_groups nF S) tg (regPrice ccp tg T) (D := D) (fun i hi => hD.subset hi)
    (valueTree_shape (leafValues tg T) t ho).1
  linarith

include hU hp hS in
theorem regCfg_good (hF : Fits ccp tg T B) (hT : T ≠ []) {o : Options} (ho : ∀ D f, f ∈ o.order D ↔ f < nF)
    (hlb : o.useLB = false) (hub : o.useUB = true) (hsim : o.simLB = false) :
    Good (fitCfg nF q ccp tg none o T S) (mergedData nF S) where
  labels := values_pos hT
  bc := by
    have h1 := user_bc (nF := nF) hU
    have h2 : (0 : Rat) ≤ q * regPrice ccp tg T := mul_nonneg (Nat.cast_nonneg _) hp
    rw [← h1] at h2
    show 0 ≤ (userProblem nF q ccp tg T).bc
    exact_mod_cast h2
  bcLB := fun h => by rw [show (fitCfg nF q ccp tg none o T S).useLB = o.useLB from rfl, hlb] at h; simp at h
  nonneg := fun i hi k => by
    refine List.sum_nonneg fun z hz => ?_
    obtain ⟨e, _, rfl⟩ := List.mem_map.1 hz
    exact user_nonneg nF q ccp tg T e.inst k
  small := fun D hD t ht => merged_small hU hp hS hF hD ht
  mls := Nat.le_refl 1
  term := fun _ => ⟨rfl, hub⟩
  sim := fun _ => rfl
  sparse := fun _ => ⟨hlb, hub⟩
  custom := fun D hD t ht => by
    have h1 := merged_custom hU hS hD ht
    have h2 : (0 : Rat) ≤ t.nodes * (q * regPrice ccp tg T) := by positivity
    have h3 : (regLB q tg (runsOf (assignGroups nF S)) (regPrice ccp tg T) none D : Rat) ≤
      (t.cost (mergedProblem (userProblem nF q ccp tg T) (runsOf (assignGroups nF S))) D : Rat) := by linarith
    exact_mod_cast h3
  md := ⟨Int.le_refl 0, by show (0 : Int) ≤ 1; decide⟩
  sorted := merged_sorted (runs_groups nF S)
  inRange := fun i hi => by
    obtain ⟨r, hr, rfl⟩ := List.mem_map.1 hi
    obtain ⟨e, _, e1⟩ := merged_head (runs_groups nF S) hr
    rw [e1]
    exact values_pos hT
  order := ho
  redundant := fun f hf => by
    right
    have h1 := preprocess_redundant hf
    have h2 : SameRows (having f ((assignGroups nF S).map (·.inst))) (having f (preprocess (userProblem nF q ccp tg T) 1 T)) :=
      ((assignGroups_rows nF S).trans hS.sameRows).filter fun g => g f
    have h3 := h2.length
    rw [h1] at h3
    have h4 := List.length_eq_zero_iff.1 h3
    rw [having, List.filter_eq_nil_iff] at h4 ⊢
    intro i hi
    obtain ⟨r, hr, rfl⟩ := List.mem_map.1 hi
    obtain ⟨e, he, e1⟩ := merged_head (runs_groups nF S) hr
    rw [e1]
    refine h4 e.inst (List.mem_map.2 ⟨e, ?_, rfl⟩)
    rw [← (runsOf_spec (assignGroups nF S)).1]
    exact List.mem_flatten.2 ⟨r, hr, he⟩
  simInst := fun h => by rw [show (fitCfg nF q ccp tg none o T S).simLB = o.simLB from rfl, hsim] at h; simp at h
  worstPer := fun h => by rw [show (fitCfg nF q ccp tg none o T S).simLB = o.simLB from rfl, hsim] at h; simp at h

theorem user_featureFree (nF q : Nat) (ccp : Rat) (tg : Nat → Rat) (T : Data) : FeatureFree (userProblem nF q ccp tg T) :=
  fun _ _ _ => rfl

theorem merged_nonempty (hT : T ≠ []) (hS : SortedByFeatures nF (preprocess (userProblem nF q ccp tg T) 1 T) S) :
    1 ≤ (mergedData nF S).length := by
  have h := expand_length (runs_groups nF S) (D := mergedData nF S) (fun i hi => hi)
  rw [h, mergedData, expand_all (runs_groups nF S), merged_flatten, sorted_length hS]
  exact List.length_pos_of_ne_nil hT

include hS in
/-- The optimum on the merged data is the optimum on the input. -/
theorem regression_isOpt {d n : Nat} {v : Int}
    (h : IsOpt (mergedProblem (userProblem nF q ccp tg T) (runsOf (assignGroups nF S))) 1 d n (mergedData nF S) v) :
    IsOpt (userProblem nF q ccp tg T) 1 d n T v := by
  refine (preprocess_optimum (user_featureFree nF q ccp tg T) (fun _ _ => rfl) (Nat.le_refl 1) T _ _ _).1 ?_
  have hm := merged_isOpt (runs_groups nF S) (P := userProblem nF q ccp tg T) rfl h
  rw [merged_flatten] at hm
  exact ((assignGroups_rows nF S).trans hS.sameRows).isOpt (fun i j k hij => by
    simp only [userProblem, regProblem, hij]) hm

include hU hp hS in
/-- From the merged data back to the input. -/
theorem regression_back (hF : Fits ccp tg T B) (hT : T ≠ []) {t : Top} (htub : ((q * largestDouble : Nat) : Int) ≤ t.ub) {v : Node}
    (h1 : v.isEmpty = false → Real (mergedProblem (userProblem nF q ccp tg T) (runsOf (assignGroups nF S))) 1 t.maxDepth (mergedData nF S) v ∧
      v.numNodes ≤ t.maxNodes)
    (h4 : ∀ x, Allowed (mergedProblem (userProblem nF q ccp tg T) (runsOf (assignGroups nF S))) 1 t.maxDepth t.maxNodes (mergedData nF S) x →
      x.cost (mergedProblem (userProblem nF q ccp tg T) (runsOf (assignGroups nF S))) (mergedData nF S) ≤ t.ub →
      v.isEmpty = false ∧ v.sol ≤ x.cost (mergedProblem (userProblem nF q ccp tg T) (runsOf (assignGroups nF S))) (mergedData nF S)) :
    v.isEmpty = false ∧ IsOpt (userProblem nF q ccp tg T) 1 t.maxDepth t.maxNodes T v.sol := by
  have hset : ∀ x, Allowed (mergedProblem (userProblem nF q ccp tg T) (runsOf (assignGroups nF S))) 1 t.maxDepth t.maxNodes (mergedData nF S) x →
      v.isEmpty = false ∧ v.sol ≤ x.cost (mergedProblem (userProblem nF q ccp tg T) (runsOf (assignGroups nF S))) (mergedData nF S) := by
    intro x hx
    refine h4 x hx ?_
    exact Int.le_trans (Int.le_of_lt (merged_small hU hp hS hF (List.Sublist.refl _) hx.2.2)) htub
  have hne := (hset (.leaf 0) ⟨Nat.zero_le _, Nat.zero_le _, values_pos hT, merged_nonempty hT hS⟩).1
  obtain ⟨h5, h6⟩ := h1 hne
  exact ⟨hne, regression_isOpt hS ⟨h5.attained h6, fun x hx => (hset x hx).2⟩⟩

end

end Streed
