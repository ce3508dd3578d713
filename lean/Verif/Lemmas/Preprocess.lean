import Verif.Model.Preprocess
import Verif.Lemmas.Basic

/-! Preprocessing keeps the set of costs of legal trees. -/

namespace Streed

theorem posCount_eq (f : Nat) (T : Data) : posCount f T = (having f T).length := by
  unfold posCount having; rw [List.countP_eq_length_filter]

/-- What the loops establish about the marks. -/
theorem redundant_spec (P : Problem) (mls : Nat) (T : Data) :
    (∀ f, f < P.nF → nearConstant P mls T f = true → isRedundant P mls T f = true) ∧
    (∀ f, isRedundant P mls T f = true → nearConstant P mls T f = true ∨
      ∃ g, g < P.nF ∧ isRedundant P mls T g = false ∧ sameFeature (T.map (flipInst (flipped P T))) g f = true) := by
  generalize hT : T.map (flipInst (flipped P T)) = T1
  -- first part
  have h0 : ∀ L : List Nat, ∀ r : Tbl Bool, ∀ f, Tbl.get (L.foldl (fun r f => if nearConstant P mls T f then Tbl.set r f true else r) r) f false
      = (Tbl.get r f false || (decide (f ∈ L) && nearConstant P mls T f)) := by
    intro L
    induction L with
    | nil => intro r f; simp
    | cons a L ih =>
      intro r f
      simp only [List.foldl_cons]
      rw [ih]
      by_cases hn : nearConstant P mls T a = true
      · rw [if_pos hn, Tbl.get_set]
        by_cases hf : f = a
        · subst hf; simp [hn]
        · simp [hf]
      · rw [if_neg hn]
        by_cases hf : f = a
        · subst hf; simp [hn]
        · simp [hf]
  generalize hr0 : (List.range P.nF).foldl (fun r f => if nearConstant P mls T f then Tbl.set r f true else r) ([] : Tbl Bool) = r0
  have h1 : ∀ f, Tbl.get r0 f false = (decide (f < P.nF) && nearConstant P mls T f) := by
    intro f; rw [← hr0, h0]; simp [Tbl.get, List.mem_range]
  -- inner loop
  have inner : ∀ (f : Nat) (L : List Nat) (r : Tbl Bool), (∀ g ∈ L, f < g) →
      (∀ g, g ≤ f → Tbl.get (L.foldl (markDup T1 f) r) g false = Tbl.get r g false) ∧
      (∀ g, Tbl.get r g false = true → Tbl.get (L.foldl (markDup T1 f) r) g false = true) ∧
      (∀ g, Tbl.get (L.foldl (markDup T1 f) r) g false = true → Tbl.get r g false = true ∨ sameFeature T1 f g = true) := by
    intro f L
    induction L with
    | nil => intro r _; exact ⟨fun _ _ => rfl, fun _ h => h, fun _ h => .inl h⟩
    | cons a L ih =>
      intro r hL
      have ha := hL a (List.mem_cons_self ..)
      obtain ⟨i1, i2, i3⟩ := ih (markDup T1 f r a) fun g hg => hL g (List.mem_cons_of_mem _ hg)
      simp only [List.foldl_cons]
      have m1 : ∀ g, Tbl.get (markDup T1 f r a) g false = Tbl.get r g false ∨
          (g = a ∧ Tbl.get (markDup T1 f r a) g false = true ∧ sameFeature T1 f g = true) := by
        intro g
        unfold markDup
        split
        · exact .inl rfl
        · split
          · rename_i hs
            rw [Tbl.get_set]
            by_cases hg : g = a
            · right; subst hg; exact ⟨rfl, by simp, hs⟩
            · left; rw [if_neg hg]
          · exact .inl rfl
      refine ⟨fun g hg => ?_, fun g hg => ?_, fun g hg => ?_⟩
      · rw [i1 g hg]
        rcases m1 g with h | h
        · exact h
        · omega
      · apply i2
        rcases m1 g with h | h
        · rw [h]; exact hg
        · exact h.2.1
      · rcases i3 g hg with h | h
        · rcases m1 g with h' | h'
          · left; rw [← h']; exact h
          · exact .inr h'.2.2
        · exact .inr h
  -- outer loop
  have outer : ∀ (m k : Nat) (r : Tbl Bool), k + m = P.nF - 1 →
      (∀ f, f < P.nF → nearConstant P mls T f = true → Tbl.get r f false = true) →
      (∀ f, Tbl.get r f false = true → nearConstant P mls T f = true ∨
        ∃ g, g < k ∧ g < P.nF ∧ Tbl.get r g false = false ∧ sameFeature T1 g f = true) →
      (∀ f, f < P.nF → nearConstant P mls T f = true → Tbl.get ((List.range' k m).foldl (dupStep P.nF T1) r) f false = true) ∧
      (∀ f, Tbl.get ((List.range' k m).foldl (dupStep P.nF T1) r) f false = true → nearConstant P mls T f = true ∨
        ∃ g, g < P.nF ∧ Tbl.get ((List.range' k m).foldl (dupStep P.nF T1) r) g false = false ∧ sameFeature T1 g f = true) := by
    intro m
    induction m with
    | zero =>
      intro k r hk ha hb
      refine ⟨ha, fun f hf => ?_⟩
      rcases hb f hf with h | ⟨g, _, h⟩
      · exact .inl h
      · exact .inr ⟨g, h⟩
    | succ m ih =>
      intro k r hk ha hb
      simp only [List.range'_succ, List.foldl_cons]
      apply ih (k + 1) _ (by omega)
      · intro f hf hn
        unfold dupStep
        split
        · exact ha f hf hn
        · exact (inner k _ r fun g hg => by have := List.mem_range'_1.1 hg; omega).2.1 f (ha f hf hn)
      · intro f hf
        unfold dupStep at hf ⊢
        split at hf
        · rename_i hred
          rw [if_pos hred]
          rcases hb f hf with h | ⟨g, hg, h⟩
          · exact .inl h
          · exact .inr ⟨g, by omega, h⟩
        · rename_i hred
          rw [if_neg hred]
          obtain ⟨i1, i2, i3⟩ := inner k (List.range' (k + 1) (P.nF - 1 - k)) r
            fun g hg => by have := List.mem_range'_1.1 hg; omega
          rcases i3 f hf with h | h
          · rcases hb f h with h' | ⟨g, hg, h1, h2, h3⟩
            · exact .inl h'
            · exact .inr ⟨g, by omega, h1, by rw [i1 g (by omega)]; exact h2, h3⟩
          · exact .inr ⟨k, by omega, by omega, by rw [i1 k (Nat.le_refl _)]; simpa using hred, h⟩
  have := outer (P.nF - 1) 0 r0 (by omega) (fun f hf hn => by rw [h1]; simp [hf, hn])
    (fun f hf => by rw [h1] at hf; simp at hf; exact .inl hf.2)
  rw [← List.range_eq_range'] at this
  unfold isRedundant redundantTbl
  dsimp only
  rw [hT, hr0]
  exact this

/-- Costs do not look at the features. -/
def FeatureFree (P : Problem) : Prop := ∀ i g k, P.cost { i with feat := g } k = P.cost i k

theorem leafCost_prep {P : Problem} (hP : FeatureFree P) (fl red : Nat → Bool) (D : Data) (k : Nat) :
    leafCost P (D.map (prepInst fl red)) k = leafCost P D k := by
  unfold leafCost
  rw [List.map_map]
  congr 1
  exact List.map_congr_left fun i _ => hP i _ k

theorem side_prep (fl red : Nat → Bool) (f g : Nat) (x y : Bool) (D : Data)
    (h : ∀ i ∈ D, ((prepInst fl red i).feat g == y) = (i.feat f == x)) :
    side g y (D.map (prepInst fl red)) = (side f x D).map (prepInst fl red) := by
  unfold side
  rw [List.filter_map]
  congr 1
  exact List.filter_congr fun i hi => h i hi

section
variable {P : Problem} {mls : Nat} {T : Data} (hP : FeatureFree P)
include hP

/-- Every legal tree on the raw data has a twin on the preprocessed data. -/
theorem prep_forward (hmay : ∀ f, f < P.nF → P.may f = true) (t : Tree) (D : Data) (hD : D.Sublist T)
    (ht : t.Legal P mls D) :
    ∃ t' : Tree, t'.Legal P mls (D.map (prepInst (flipped P T) (isRedundant P mls T))) ∧ t'.depth = t.depth ∧ t'.nodes = t.nodes ∧
      t'.cost P (D.map (prepInst (flipped P T) (isRedundant P mls T))) = t.cost P D := by
  induction t generalizing D with
  | leaf k => exact ⟨.leaf k, ⟨ht.1, by rw [List.length_map]; exact ht.2⟩, rfl, rfl, leafCost_prep hP _ _ D k⟩
  | node f l r ihl ihr =>
    obtain ⟨hf, hm, hl, hr⟩ := ht
    obtain ⟨l', a1, a2, a3, a4⟩ := ihl (without f D) ((without_sublist f D).trans hD) hl
    obtain ⟨r', b1, b2, b3, b4⟩ := ihr (having f D) ((having_sublist f D).trans hD) hr
    obtain ⟨s1, s2⟩ := redundant_spec P mls T
    -- the feature is not nearly constant
    have hnc : nearConstant P mls T f = false := by
      have h1 := hl.length
      have h2 := hr.length
      have h3 : (without f D).length ≤ (without f T).length := (hD.filter _).length_le
      have h4 : (having f D).length ≤ (having f T).length := (hD.filter _).length_le
      have h5 := length_split f T
      unfold nearConstant
      rw [posCount_eq]
      simp; intro _; omega
    obtain ⟨g, hg, hgr, hsame⟩ : ∃ g, g < P.nF ∧ isRedundant P mls T g = false ∧
        ∀ i ∈ D, (prepInst (flipped P T) (isRedundant P mls T) i).feat g = Bool.xor (i.feat f) (flipped P T f) := by
      cases hred : isRedundant P mls T f with
      | false => exact ⟨f, hf, hred, fun i _ => by simp [prepInst, hred]⟩
      | true =>
        rcases s2 f hred with h | ⟨g, hg, hgr, hs⟩
        · rw [hnc] at h; simp at h
        · refine ⟨g, hg, hgr, fun i hi => ?_⟩
          unfold sameFeature at hs
          have h1 := List.all_eq_true.1 hs (flipInst (flipped P T) i) (List.mem_map_of_mem (hD.subset hi))
          simp only [flipInst, beq_iff_eq] at h1
          simp [prepInst, hgr, h1]
    have hgm := hmay g hg
    cases hfl : flipped P T f with
    | false =>
      have e0 : without g (D.map (prepInst (flipped P T) (isRedundant P mls T))) =
          (without f D).map (prepInst (flipped P T) (isRedundant P mls T)) := by
        rw [← side_false, ← side_false]
        exact side_prep _ _ _ _ _ _ _ fun i hi => by rw [hsame i hi, hfl]; simp
      have e1 : having g (D.map (prepInst (flipped P T) (isRedundant P mls T))) =
          (having f D).map (prepInst (flipped P T) (isRedundant P mls T)) := by
        rw [← side_true, ← side_true]
        exact side_prep _ _ _ _ _ _ _ fun i hi => by rw [hsame i hi, hfl]; simp
      refine ⟨.node g l' r', ⟨hg, hgm, by rw [e0]; exact a1, by rw [e1]; exact b1⟩, ?_, ?_, ?_⟩
      · simp only [Tree.depth, a2, b2]
      · simp only [Tree.nodes, a3, b3]
      · simp only [Tree.cost, e0, e1, a4, b4]
    | true =>
      have e0 : without g (D.map (prepInst (flipped P T) (isRedundant P mls T))) =
          (having f D).map (prepInst (flipped P T) (isRedundant P mls T)) := by
        rw [← side_false, ← side_true]
        exact side_prep _ _ _ _ _ _ _ fun i hi => by rw [hsame i hi, hfl]; cases i.feat f <;> rfl
      have e1 : having g (D.map (prepInst (flipped P T) (isRedundant P mls T))) =
          (without f D).map (prepInst (flipped P T) (isRedundant P mls T)) := by
        rw [← side_false, ← side_true]
        exact side_prep _ _ _ _ _ _ _ fun i hi => by rw [hsame i hi, hfl]; cases i.feat f <;> rfl
      refine ⟨.node g r' l', ⟨hg, hgm, by rw [e0]; exact b1, by rw [e1]; exact a1⟩, ?_, ?_, ?_⟩
      · simp only [Tree.depth, a2, b2]; omega
      · simp only [Tree.nodes, a3, b3]; omega
      · simp only [Tree.cost, e0, e1, a4, b4]; omega

omit hP in
theorem unflip_depth (fl : Nat → Bool) (t : Tree) : (unflip fl t).depth = t.depth := by
  induction t with
  | leaf k => rfl
  | node f l r ihl ihr => unfold unflip; split <;> simp only [Tree.depth, ihl, ihr]; omega

omit hP in
theorem unflip_nodes (fl : Nat → Bool) (t : Tree) : (unflip fl t).nodes = t.nodes := by
  induction t with
  | leaf k => rfl
  | node f l r ihl ihr => unfold unflip; split <;> simp only [Tree.nodes, ihl, ihr]; omega

/-- A legal tree on preprocessed data, with its flips undone, is legal on the raw data and costs the same. -/
theorem prep_backward (hmls : 1 ≤ mls) (fl red : Nat → Bool) (t : Tree) (D : Data)
    (ht : t.Legal P mls (D.map (prepInst fl red))) :
    (unflip fl t).Legal P mls D ∧ (unflip fl t).cost P D = t.cost P (D.map (prepInst fl red)) := by
  induction t generalizing D with
  | leaf k =>
    refine ⟨⟨ht.1, ?_⟩, (leafCost_prep hP _ _ D k).symm⟩
    have := ht.2; rwa [List.length_map] at this
  | node f l r ihl ihr =>
    obtain ⟨hf, hm, hl, hr⟩ := ht
    have hred : red f = false := by
      cases h : red f with
      | false => rfl
      | true =>
        have h1 := hr.length
        have h2 : having f (D.map (prepInst fl red)) = [] := by
          unfold having
          apply List.filter_eq_nil_iff.2
          intro i hi
          obtain ⟨j, _, rfl⟩ := List.mem_map.1 hi
          simp [prepInst, h]
        rw [h2] at h1; simp at h1; omega
    unfold unflip
    cases hfl : fl f with
    | false =>
      have e0 : without f (D.map (prepInst fl red)) = (without f D).map (prepInst fl red) := by
        rw [← side_false, ← side_false]
        exact side_prep _ _ _ _ _ _ _ fun i hi => by simp [prepInst, hred, hfl]
      have e1 : having f (D.map (prepInst fl red)) = (having f D).map (prepInst fl red) := by
        rw [← side_true, ← side_true]
        exact side_prep _ _ _ _ _ _ _ fun i hi => by simp [prepInst, hred, hfl]
      rw [e0] at hl; rw [e1] at hr
      obtain ⟨a1, a2⟩ := ihl _ hl
      obtain ⟨b1, b2⟩ := ihr _ hr
      refine ⟨⟨hf, hm, a1, b1⟩, ?_⟩
      simp only [Bool.false_eq_true, if_false, Tree.cost, e0, e1, a2, b2]
    | true =>
      have e0 : without f (D.map (prepInst fl red)) = (having f D).map (prepInst fl red) := by
        rw [← side_false, ← side_true]
        exact side_prep _ _ _ _ _ _ _ fun i hi => by simp only [prepInst, hred, hfl]; cases i.feat f <;> rfl
      have e1 : having f (D.map (prepInst fl red)) = (without f D).map (prepInst fl red) := by
        rw [← side_false, ← side_true]
        exact side_prep _ _ _ _ _ _ _ fun i hi => by simp only [prepInst, hred, hfl]; cases i.feat f <;> rfl
      rw [e0] at hl; rw [e1] at hr
      obtain ⟨a1, a2⟩ := ihl _ hl
      obtain ⟨b1, b2⟩ := ihr _ hr
      refine ⟨⟨hf, hm, b1, a1⟩, ?_⟩
      simp only [if_true, Tree.cost, e0, e1, a2, b2]; omega

end
end Streed
