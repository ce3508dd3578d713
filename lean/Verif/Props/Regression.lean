import Verif.Lemmas.Regression

/-!
# Regression leaves and the merging of equal instances (C42, C43, C19)
-/

namespace Streed
open RegLemmas

/-- The sum of squared errors of predicting `c` for all targets. -/
def sse (ys : List Rat) (c : Rat) : Rat := (ys.map fun y => (y - c) * (y - c)).sum

/-! ### C42 -/

/-- **C42**: a regression leaf predicts the constant with the smallest sum of squared errors, its cost is that sum,
and evaluating the leaf on the same data gives that cost again. -/
theorem regression_leaf (ys : List Rat) (h : ys ≠ []) : ∃ label cost, regLeaf ys = some (label, cost) ∧
    cost = sse ys label ∧ (∀ c, cost ≤ sse ys c) ∧ regLeafCosts ys label = cost := by
  have hl : ys.length ≠ 0 := by simpa using h
  refine ⟨ys.sum / ys.length, (ys.map fun y => y * y).sum - ys.sum * ys.sum / ys.length, ?_, ?_, ?_, ?_⟩
  · simp only [regLeaf, regSums_eq, if_neg hl]
  · exact (sq_mean ys hl).symm
  · exact fun c => sq_mean_le ys hl c
  · rw [regLeafCosts_eq, sq_mean ys hl]

/-- **C42**: the depth-two solver's sums give the same cost and the same label. -/
theorem regression_pairwise (ys : List Rat) (h : ys ≠ []) :
    regLeaf ys = some (regLabel (ys.foldl (fun s y => s.add (regD2 y 1)) ⟨0, 0⟩) ys.length,
      regCompute (ys.foldl (fun s y => s.add (regD2 y 1)) ⟨0, 0⟩) ys.length) := by
  have hl : ys.length ≠ 0 := by simpa using h
  have e : ∀ (ys : List Rat) (s : RegD2), ys.foldl (fun s y => s.add (regD2 y 1)) s =
      ⟨s.ys + ys.sum, s.yys + (ys.map fun y => y * y).sum⟩ := by
    intro ys
    induction ys with
    | nil => simp
    | cons y ys ih => intro s; rw [List.foldl_cons, ih]; simp [RegD2.add, regD2, add_assoc]
  rw [e]
  simp only [regLeaf, regSums_eq, regLabel, regCompute, if_neg hl, zero_add]
  have : ¬ (ys.map fun y => y * y).sum - ys.sum * ys.sum / ys.length < 0 := by
    rw [← sq_mean ys hl]; exact not_lt.2 (sq_nonneg_sum ys _)
  rw [if_neg this]

/-- **C42**, the missing case: a leaf without instances has neither label nor cost, while the depth-two solver gives it
label 0 and cost 0. -/
theorem regression_empty_leaf : regLeaf [] = none ∧ regCompute ⟨0, 0⟩ 0 = 0 ∧ regLabel ⟨0, 0⟩ 0 = 0 := by
  decide +kernel

/-- `i` stands for the targets `ts`: their sum, their sum of squares and their number. -/
def StandsFor (i : RInst) (ts : List Rat) : Prop := i.y = ts.sum ∧ i.ysq = (ts.map fun y => y * y).sum ∧ i.w = ts.length

private theorem sums_targets (D : List RInst) (ts : RInst → List Rat) (h : ∀ i ∈ D, StandsFor i (ts i)) :
    (D.map RInst.ysq).sum = ((D.flatMap ts).map fun y => y * y).sum ∧ (D.map RInst.y).sum = (D.flatMap ts).sum ∧
      (D.map RInst.w).sum = (D.flatMap ts).length := by
  induction D with
  | nil => simp
  | cons i D ih =>
    obtain ⟨a, b, c⟩ := ih fun j hj => h j (List.mem_cons_of_mem _ hj)
    obtain ⟨x, y, z⟩ := h i (List.mem_cons_self ..)
    simp only [List.map_cons, List.sum_cons, List.flatMap_cons, List.map_append, List.sum_append, List.length_append,
      a, b, c, x, y, z]
    simp

/-- **C42** for merged instances: the leaf is the best constant for all the targets that the instances stand for, and
both evaluation and the depth-two solver give its cost. -/
theorem merged_leaf (D : List RInst) (ts : RInst → List Rat) (h : ∀ i ∈ D, StandsFor i (ts i)) (minLeaf : Nat)
    (hm : 0 < minLeaf) (hs : minLeaf ≤ (D.flatMap ts).length) : ∃ label cost, ccrLeaf minLeaf D = some (label, cost) ∧
    cost = sse (D.flatMap ts) label ∧ (∀ c, cost ≤ sse (D.flatMap ts) c) ∧
    (∀ c, ccrLeafCosts D c = sse (D.flatMap ts) c) ∧
    ∀ count, 0 < count → ccrCompute (D.foldl (fun s i => s.add (ccrD2 i 1)) ⟨0, 0, 0⟩) count = some cost := by
  obtain ⟨e1, e2, e3⟩ := sums_targets D ts h
  have hl : (D.flatMap ts).length ≠ 0 := by omega
  have hnn : 0 ≤ ((D.flatMap ts).map fun y => y * y).sum -
      (D.flatMap ts).sum * (D.flatMap ts).sum / (D.flatMap ts).length := by
    rw [← sq_mean _ hl]; exact sq_nonneg_sum _ _
  refine ⟨(D.flatMap ts).sum / (D.flatMap ts).length, ((D.flatMap ts).map fun y => y * y).sum -
      (D.flatMap ts).sum * (D.flatMap ts).sum / (D.flatMap ts).length, ?_, (sq_mean _ hl).symm,
      fun c => sq_mean_le _ hl c, ?_, ?_⟩
  · simp only [ccrLeaf, ccrSums_eq, e1, e2, e3]
    rw [if_neg (by omega), max_eq_right hnn]
  · intro c
    simp only [ccrLeafCosts, ccrSums_eq, e1, e2, e3]
    rw [← sq_expand, max_eq_right (sq_nonneg_sum _ _)]; rfl
  · intro count hc
    have e : ∀ (D : List RInst) (s : CcrD2), D.foldl (fun s i => s.add (ccrD2 i 1)) s =
        ⟨s.ys + (D.map RInst.y).sum, s.yys + (D.map RInst.ysq).sum, s.weight + ((D.map RInst.w).sum : Nat)⟩ := by
      intro D
      induction D with
      | nil => simp
      | cons i D ih => intro s; rw [List.foldl_cons, ih]; simp [CcrD2.add, ccrD2, add_assoc]
    rw [e]
    simp only [ccrCompute, e1, e2, e3, zero_add]
    rw [if_neg (by omega)]
    push_cast
    rw [if_neg (not_lt.2 hnn)]

/-! ### C43 -/

/-- The sum of the targets, the sum of their squares and the weight of the instances of a view that have feature
vector `g`. -/
def viewSums (m : InstStore) (view : List Nat) (g : Nat) : Rat × Rat × Nat :=
  (((view.map fun a => m.getD a default).filter fun i => i.group = g).map fun i => (i.y, i.ysq, i.w)).sum

/-- **C43**: merging keeps, for every feature vector, the target sum, the sum of squares and the weight. When the ids
order the instances by feature vector, every feature vector is left exactly once. Objects outside the view keep their
content. -/
theorem merge_keeps (m m' : InstStore) (view view' : List Nat) (h : preprocessTrain m view = some (m', view'))
    (hn : view.Nodup) (hlt : ∀ a ∈ view, a < m.length) (hw : ∀ a ∈ view, 0 < (m.getD a default).w) :
    (∀ g, viewSums m' view' g = viewSums m view g) ∧
    ((∀ a ∈ view, ∀ b ∈ view, (m.getD a default).id ≤ (m.getD b default).id →
        (m.getD a default).group ≤ (m.getD b default).group) →
      (view'.map fun a => (m'.getD a default).group).Nodup) ∧
    (∀ a < m.length, a ∉ view → m'.getD a default = m.getD a default) := by
  obtain ⟨e, f, hf, p, _, hpre, _⟩ := preprocess_spec h hn hlt hw
  have hp : (view.insertionSort fun a b => (m.getD a default).id ≤ (m.getD b default).id).Perm view :=
    List.perm_insertionSort ..
  refine ⟨?_, ?_, ?_⟩
  · intro g
    show groupStat g (vals m' view') = groupStat g (vals m view)
    rw [e, pMerge_stat]
    exact ((((hp.map fun a => m.getD a default).filter _).map stat).sum_eq)
  · intro hg
    have : (view'.map fun a => (m'.getD a default).group) = (vals m' view').map RInst.group := by
      simp [vals]
    rw [this, e]
    have hs : (view.insertionSort fun a b => (m.getD a default).id ≤ (m.getD b default).id).Pairwise
        fun a b => (m.getD a default).id ≤ (m.getD b default).id := by
      have tot : Std.Total fun a b : Nat => (m.getD a default).id ≤ (m.getD b default).id := ⟨fun a b => Nat.le_total _ _⟩
      have tr : IsTrans Nat fun a b : Nat => (m.getD a default).id ≤ (m.getD b default).id :=
        ⟨fun a b c => Nat.le_trans⟩
      exact List.pairwise_insertionSort ..
    have hs2 : (vals m (view.insertionSort fun a b => (m.getD a default).id ≤ (m.getD b default).id)).Pairwise
        fun a b => a.group ≤ b.group := by
      unfold vals
      rw [List.pairwise_map]
      exact hs.imp_of_mem fun ha hb hab => hg _ (hp.mem_iff.1 ha) _ (hp.mem_iff.1 hb) hab
    generalize vals m (view.insertionSort fun a b => (m.getD a default).id ≤ (m.getD b default).id) = L at hs2
    cases L with
    | nil => simp [pMerge]
    | cons a l =>
      rw [List.pairwise_cons] at hs2
      exact pFold_groups l _ (by simp) (by simp) hs2.1 hs2.2
  · intro a ha hv
    have hne : f ≠ a := fun e => hv (e ▸ hf)
    rw [← pre_get hpre ha, List.getD_eq_getElem?_getD, List.getD_eq_getElem?_getD, List.getElem?_set_ne hne]

/-- **C43**, negation of "repeating the preprocessing gives the same result": two instances with the same features and
targets 1 and 3. The first run leaves one instance of weight 2 and sum 4. The object that carries it is the first
instance itself, so the second run finds weight 3 and sum 7. -/
theorem merge_twice_wrong : ∃ (m m1 m2 : InstStore) (view v1 v2 : List Nat), view.Nodup ∧ (∀ a ∈ view, a < m.length) ∧
    (∀ a ∈ view, (m.getD a default).w = 1) ∧
    preprocessTrain m view = some (m1, v1) ∧ preprocessTrain m1 view = some (m2, v2) ∧
    viewSums m1 v1 0 = (4, 10, 2) ∧ viewSums m2 v2 0 = (7, 19, 3) := by
  refine ⟨[⟨0, 0, 1, 1, 1⟩, ⟨1, 0, 3, 9, 1⟩], [⟨0, 0, 4, 10, 2⟩, ⟨1, 0, 3, 9, 1⟩], [⟨0, 0, 7, 19, 3⟩, ⟨1, 0, 3, 9, 1⟩],
    [0, 1], [0], [0], by decide, by decide, by decide, by decide +kernel, by decide +kernel, by decide +kernel,
    by decide +kernel⟩

/-- **C43**, what does hold for repeated preprocessing: when the last instance in id order is the only one of its
feature vector, a second run on the same view gives the same merged instances. -/
theorem merge_twice_partial (m m1 m2 : InstStore) (view v1 v2 : List Nat) (h1 : preprocessTrain m view = some (m1, v1))
    (h2 : preprocessTrain m1 view = some (m2, v2))
    (hn : view.Nodup) (hlt : ∀ a ∈ view, a < m.length) (hw : ∀ a ∈ view, 0 < (m.getD a default).w)
    (z : Nat) (hz : z ∈ view) (hlast : ∀ a ∈ view, a ≠ z → (m.getD a default).id < (m.getD z default).id ∧
      (m.getD a default).group ≠ (m.getD z default).group) :
    (v2.map fun a => m2.getD a default) = v1.map fun a => m1.getD a default := by
  obtain ⟨e1, f, hf, p, hpf, hpre, hcl, a, l, hal, hpl⟩ := preprocess_spec h1 hn hlt hw
  have hp : (view.insertionSort fun a b => (m.getD a default).id ≤ (m.getD b default).id).Perm view :=
    List.perm_insertionSort ..
  have tot : Std.Total fun a b : Nat => (m.getD a default).id ≤ (m.getD b default).id := ⟨fun a b => Nat.le_total _ _⟩
  have tr : IsTrans Nat fun a b : Nat => (m.getD a default).id ≤ (m.getD b default).id := ⟨fun a b c => Nat.le_trans⟩
  have hs : (view.insertionSort fun a b => (m.getD a default).id ≤ (m.getD b default).id).Pairwise
      fun a b => (m.getD a default).id ≤ (m.getD b default).id := List.pairwise_insertionSort ..
  -- the sorted view ends in `z`
  have hend : ∃ l0, (view.insertionSort fun a b => (m.getD a default).id ≤ (m.getD b default).id) = l0 ++ [z] := by
    generalize view.insertionSort (fun a b => (m.getD a default).id ≤ (m.getD b default).id) = L at hp hs
    obtain ⟨l0, l1, rfl⟩ := List.append_of_mem (hp.mem_iff.2 hz)
    cases l1 with
    | nil => exact ⟨l0, rfl⟩
    | cons b l1 =>
      exfalso
      have nd := hp.nodup_iff.2 hn
      have hzb := (List.pairwise_append.1 hs).2.1
      rw [List.pairwise_cons] at hzb
      have h1 := hzb.1 b (by simp)
      have hb : b ∈ view := hp.mem_iff.1 (by simp)
      have hne : b ≠ z := by
        rintro rfl
        have := (List.nodup_append.1 nd).2.1
        simp at this
      have := (hlast b hb hne).1
      omega
  -- so the last group is `z` alone
  have hsame : p.close = p.first := by
    obtain ⟨l0, hl0⟩ := hend
    have hl0' : ∀ x ∈ l0, x ∈ view ∧ x ≠ z := by
      intro x hx
      refine ⟨hp.mem_iff.1 (by rw [hl0]; simp [hx]), ?_⟩
      rintro rfl
      have := hp.nodup_iff.2 hn
      rw [hl0, List.nodup_append] at this
      exact this.2.2 x hx x (by simp) rfl
    rw [hl0] at hal
    have hval : vals m (l0 ++ [z]) = vals m l0 ++ [m.getD z default] := by simp [vals]
    rw [hval] at hal
    rw [hpl]
    cases hL : vals m l0 with
    | nil =>
      rw [hL] at hal
      simp only [List.nil_append, List.cons.injEq] at hal
      rw [← hal.2]
      rfl
    | cons b l1 =>
      rw [hL] at hal
      simp only [List.cons_append, List.cons.injEq] at hal
      rw [← hal.2, List.foldl_append, List.foldl_cons, List.foldl_nil]
      have hg : (l1.foldl pStep ⟨[], a, a.y, a.ysq, a.w⟩).first ∈ a :: l1 := by
        have : ∀ (l : List RInst) (q : PSt), (l.foldl pStep q).first ∈ q.first :: l := by
          intro l
          induction l with
          | nil => intro q; simp
          | cons c l ih =>
            intro q
            rw [List.foldl_cons]
            rcases List.mem_cons.1 (ih (pStep q c)) with e | e
            · rw [e]; unfold pStep; split <;> simp
            · exact List.mem_cons_of_mem _ (List.mem_cons_of_mem _ e)
        exact this l1 _
      have hmem : ∀ i ∈ a :: l1, i.group ≠ (m.getD z default).group := by
        intro i hi
        rw [← hal.1, ← hL] at hi
        obtain ⟨x, hx, rfl⟩ := List.mem_map.1 hi
        exact (hlast x (hl0' x hx).1 (hl0' x hx).2).2
      have := hmem _ hg
      generalize l1.foldl pStep _ = q at this
      unfold pStep
      rw [if_neg this]
      rfl
  have hpre' : m <+: m1 := by
    have e : m1.set f (m.getD f default) = m1 := by
      rw [hpf, ← hsame, ← hcl]
      by_cases hb : f < m1.length
      · rw [List.getD_eq_getElem?_getD, List.getElem?_eq_getElem hb]; simp
      · exact List.set_eq_of_length_le (by omega)
    rwa [e] at hpre
  have same : ∀ x ∈ view, m1.getD x default = m.getD x default := fun x hx => pre_get hpre' (hlt x hx)
  obtain ⟨e2, _⟩ := preprocess_spec h2 hn (fun x hx => lt_of_lt_of_le (hlt x hx) hpre'.length_le)
    (fun x hx => by rw [same x hx]; exact hw x hx)
  show vals m2 v2 = vals m1 v1
  rw [e1, e2]
  congr 1
  have hsort : (view.insertionSort fun a b => (m1.getD a default).id ≤ (m1.getD b default).id) =
      view.insertionSort fun a b => (m.getD a default).id ≤ (m.getD b default).id := by
    have := List.map_insertionSort (r := fun a b : Nat => (m1.getD a default).id ≤ (m1.getD b default).id)
      (s := fun a b : Nat => (m.getD a default).id ≤ (m.getD b default).id) id view
      (fun a ha b hb => by simp only [id]; rw [same a ha, same b hb])
    simpa using this
  rw [hsort]
  apply List.map_congr_left
  intro x hx
  exact same x (hp.mem_iff.1 hx)

/-- A view of three instances, the last of which is alone: the hypotheses of `merge_twice_partial` hold. -/
example : ∃ m1 v1 m2 v2, preprocessTrain [⟨0, 0, 1, 1, 1⟩, ⟨1, 0, 3, 9, 1⟩, ⟨2, 1, 5, 25, 1⟩] [0, 1, 2] = some (m1, v1) ∧
    preprocessTrain m1 [0, 1, 2] = some (m2, v2) ∧ viewSums m2 v2 0 = (4, 10, 2) ∧ v1.length = 2 := by
  refine ⟨_, _, _, _, rfl, rfl, by decide +kernel, by decide +kernel⟩

/-! ### C19 for regression -/

/-- **C19**: for an instance that stands for equal targets, the declared worst value times its weight bounds its
contribution to a leaf whose label lies in the range of the targets. -/
theorem regression_worst_partial (mn mx : Rat) (i : RInst) (t : Rat) (h : StandsFor i (List.replicate i.w t))
    (hw : 0 < i.w) (c : Rat) (hc : mn ≤ c ∧ c ≤ mx) :
    sse (List.replicate i.w t) c ≤ ccrRemoved (mn, mx) i := by
  obtain ⟨hy, _, _⟩ := h
  have hwq : (0 : Rat) < i.w := by exact_mod_cast hw
  have e : i.y / i.w = t := by
    rw [hy]; simp only [List.sum_replicate, nsmul_eq_mul]; field_simp
  have e2 : sse (List.replicate i.w t) c = i.w * ((t - c) * (t - c)) := by
    simp [sse, List.map_replicate, List.sum_replicate]
  rw [e2, ccrRemoved, e]
  apply mul_le_mul_of_nonneg_left _ hwq.le
  unfold ccrWorst
  simp only
  split
  · rename_i hh
    nlinarith [mul_nonneg (sub_nonneg.2 hc.1) (sub_nonneg.2 hc.2)]
  · rename_i hh
    have hh : t - mn ≤ mx - t := not_lt.1 hh
    nlinarith

/-- **C19**, negation for merged instances: the targets 0 and 10 of two equal instances become one instance of mean 5.
The declared worst value only counts the distance of the mean, and what the pair really adds to a leaf is more. -/
theorem regression_worst_wrong : ∃ (i : RInst) (ts : List Rat) (c : Rat), StandsFor i ts ∧ (∀ t ∈ ts, 0 ≤ t ∧ t ≤ 10) ∧
    0 ≤ c ∧ c ≤ 10 ∧ ccrRemoved (0, 10) i < sse ts c := by
  refine ⟨⟨0, 0, 10, 100, 2⟩, [0, 10], 10, ⟨by decide +kernel, by decide +kernel, by decide⟩, by decide +kernel,
    by decide +kernel, by decide +kernel, by decide +kernel⟩

/-- **C18**, negation for cost-complexity regression: three instances with target 10 and the merged pair of the
previous theorem. The optimal leaf costs 80; without the pair it costs 0; the bound taken from the old leaf is 80 - 50. -/
theorem regression_similarity_wrong : ∃ (pair : RInst) (rest : List RInst) (lo hi : Rat × Rat),
    ccrLeaf 1 (pair :: rest) = some lo ∧ ccrLeaf 1 rest = some hi ∧
    hi.2 < lo.2 - ccrRemoved (ccrRange ⟨0, 0, 0, 0, 1⟩ [⟨0, 0, 0, 0, 1⟩, ⟨1, 0, 10, 100, 1⟩, ⟨2, 1, 10, 100, 1⟩,
      ⟨3, 2, 10, 100, 1⟩, ⟨4, 3, 10, 100, 1⟩]) pair := by
  refine ⟨⟨0, 0, 10, 100, 2⟩, [⟨2, 1, 10, 100, 1⟩, ⟨3, 2, 10, 100, 1⟩, ⟨4, 3, 10, 100, 1⟩], (8, 80), (10, 0),
    by decide +kernel, by decide +kernel, by decide +kernel⟩

end Streed
