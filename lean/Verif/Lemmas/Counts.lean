import Verif.Model.Counts
import Verif.Lemmas.Difference
import Verif.Lemmas.Basic
import Mathlib.Tactic.Linarith
import Mathlib.Tactic.Ring

/-! Helper lemmas for the pair statistics. -/

namespace Streed

/-! ### The triangular index -/

theorem tri_succ (r : Nat) : (r + 1) * (r + 1 + 1) / 2 = r * (r + 1) / 2 + (r + 1) := by
  have : (r + 1) * (r + 1 + 1) = r * (r + 1) + (r + 1) * 2 := by ring
  rw [this, Nat.add_mul_div_right _ _ (by decide)]

theorem tri_le (r : Nat) : r * (r + 1) / 2 ≤ r * r := by
  induction r with
  | zero => simp
  | succ r ih => rw [tri_succ]; nlinarith

/-- First index of row `r`. -/
def rowStart (n r : Nat) : Nat := n * r + r - r * (r + 1) / 2

theorem rowStart_succ (n r : Nat) (h : r < n) : rowStart n (r + 1) = rowStart n r + (n - r) := by
  unfold rowStart
  rw [tri_succ]
  have h1 := tri_le r
  have h2 : r * r ≤ n * r := Nat.mul_le_mul_right _ (by omega)
  have h3 : n * (r + 1) = n * r + n := by ring
  omega

theorem rowStart_mono (n r r' : Nat) (h : r < r') (h' : r' ≤ n) :
    rowStart n r + (n - r) ≤ rowStart n r' := by
  induction r' with
  | zero => omega
  | succ m ih =>
    rw [rowStart_succ n m (by omega)]
    rcases Nat.lt_or_ge r m with h1 | h1
    · have := ih h1 (by omega); omega
    · have : r = m := by omega
      subst this; omega

theorem symIndex_eq (n r c : Nat) (h : r ≤ c) (h' : c < n) :
    symIndex n r c = rowStart n r + (c - r) := by
  unfold symIndex rowStart
  have h1 := tri_le r
  have h2 : r * r ≤ n * r := Nat.mul_le_mul_right _ (by omega)
  omega

theorem rowStart_self (n : Nat) : rowStart n n = numElements n := by
  unfold rowStart numElements
  have h1 : n * (n + 1) = n * n + n := by ring
  have h2 : 2 ∣ n * (n + 1) := (Nat.even_mul_succ_self n).two_dvd
  omega

theorem symIndex_inj' (n r c r' c' : Nat) (h1 : r ≤ c) (h2 : c < n) (h3 : r' ≤ c') (h4 : c' < n)
    (e : symIndex n r c = symIndex n r' c') : r = r' ∧ c = c' := by
  rw [symIndex_eq n r c h1 h2, symIndex_eq n r' c' h3 h4] at e
  rcases Nat.lt_trichotomy r r' with h | h | h
  · have := rowStart_mono n r r' h (by omega); omega
  · subst h; omega
  · have := rowStart_mono n r' r h (by omega); omega

/-! ### Pairs of present features -/

theorem mem_pairsOf (fs : List Nat) (hs : fs.Pairwise (· < ·)) (f g : Nat) :
    (f, g) ∈ pairsOf fs ↔ f ∈ fs ∧ g ∈ fs ∧ f ≤ g := by
  induction fs with
  | nil => simp [pairsOf]
  | cons a fs ih =>
    have h := List.pairwise_cons.1 hs
    simp only [pairsOf, List.mem_append, List.mem_map, Prod.mk.injEq, ih h.2, List.mem_cons]
    constructor
    · rintro (⟨x, hx, rfl, rfl⟩ | ⟨h1, h2, h3⟩)
      · refine ⟨Or.inl rfl, hx, ?_⟩
        rcases hx with rfl | hx
        · exact Nat.le_refl _
        · exact Nat.le_of_lt (h.1 _ hx)
      · exact ⟨Or.inr h1, Or.inr h2, h3⟩
    · rintro ⟨rfl | h1, h2, h3⟩
      · exact Or.inl ⟨g, h2, rfl, rfl⟩
      · rcases h2 with rfl | h2
        · have := h.1 _ h1; omega
        · exact Or.inr ⟨h1, h2, h3⟩

theorem nodup_pairsOf (fs : List Nat) (hs : fs.Pairwise (· < ·)) : (pairsOf fs).Nodup := by
  induction fs with
  | nil => simp [pairsOf]
  | cons a fs ih =>
    have h := List.pairwise_cons.1 hs
    have hn : (a :: fs).Nodup := hs.imp (by intro x y; omega)
    rw [pairsOf, List.nodup_append]
    refine ⟨?_, ih h.2, ?_⟩
    · unfold List.Nodup
      rw [List.pairwise_map]
      exact hn.imp (by intro x y hxy e; exact hxy (Prod.mk.inj e).2)
    · intro x hx y hy e
      subst e
      obtain ⟨g, hg, rfl⟩ := List.mem_map.1 hx
      have := (mem_pairsOf fs h.2 _ _).1 hy
      have := h.1 _ this.1
      omega

theorem present_sorted (nF : Nat) (i : Inst) : (presentFeatures nF i).Pairwise (· < ·) :=
  List.Pairwise.filter _ List.pairwise_lt_range

theorem mem_present (nF : Nat) (i : Inst) (f : Nat) :
    f ∈ presentFeatures nF i ↔ f < nF ∧ i.feat f = true := by
  simp [presentFeatures]

theorem nodup_map_on {α β : Type} (l : List α) (g : α → β) (hn : l.Nodup)
    (hi : ∀ a ∈ l, ∀ b ∈ l, g a = g b → a = b) : (l.map g).Nodup := by
  unfold List.Nodup
  rw [List.pairwise_map]
  exact List.Pairwise.imp_of_mem (fun {a b} ha hb hab e => hab (hi a ha b hb e)) hn

theorem pairIndices_nodup (nF : Nat) (i : Inst) : (pairIndices nF i).Nodup := by
  unfold pairIndices
  apply nodup_map_on _ _ (nodup_pairsOf _ (present_sorted nF i))
  rintro ⟨a, b⟩ hab ⟨a', b'⟩ hab' e
  have h := (mem_pairsOf _ (present_sorted nF i) _ _).1 hab
  have h' := (mem_pairsOf _ (present_sorted nF i) _ _).1 hab'
  have := symIndex_inj' nF a b a' b' h.2.2 ((mem_present _ _ _).1 h.2.1).1 h'.2.2
    ((mem_present _ _ _).1 h'.2.1).1 e
  simp [this.1, this.2]

theorem mem_pairIndices (nF : Nat) (i : Inst) (f g : Nat) (h : f ≤ g) (hg : g < nF) :
    symIndex nF f g ∈ pairIndices nF i ↔ i.feat f = true ∧ i.feat g = true := by
  unfold pairIndices
  simp only [List.mem_map, Prod.exists]
  constructor
  · rintro ⟨a, b, hab, e⟩
    have h' := (mem_pairsOf _ (present_sorted nF i) _ _).1 hab
    have ha := (mem_present _ _ _).1 h'.1
    have hb := (mem_present _ _ _).1 h'.2.1
    obtain ⟨rfl, rfl⟩ := symIndex_inj' nF a b f g h'.2.2 hb.1 h hg e
    exact ⟨ha.2, hb.2⟩
  · rintro ⟨hf, hg'⟩
    exact ⟨f, g, (mem_pairsOf _ (present_sorted nF i) _ _).2
      ⟨(mem_present _ _ _).2 ⟨by omega, hf⟩, (mem_present _ _ _).2 ⟨hg, hg'⟩, h⟩, rfl⟩

theorem count_touched_pair (nF : Nat) (i : Inst) (f g : Nat) (h : f ≤ g) (hg : g < nF) :
    ((touched nF false i).count (symIndex nF f g) : Int) = if i.feat f && i.feat g then 1 else 0 := by
  simp only [touched, Bool.false_eq_true, if_false]
  rw [(pairIndices_nodup nF i).count]
  simp only [mem_pairIndices nF i f g h hg]
  by_cases h1 : i.feat f = true <;> by_cases h2 : i.feat g = true <;> simp [h1, h2]

theorem count_touched_diag (nF : Nat) (one : Bool) (i : Inst) (f : Nat) (hf : f < nF) :
    ((touched nF one i).count (symIndex nF f f) : Int) = if i.feat f then 1 else 0 := by
  cases one with
  | false => rw [count_touched_pair nF i f f (Nat.le_refl _) hf]; simp
  | true =>
    simp only [touched, if_true]
    have hn : ((presentFeatures nF i).map fun f => symIndex nF f f).Nodup := by
      apply nodup_map_on
      · exact (present_sorted nF i).imp (by intro x y; omega)
      · intro a ha b hb e
        exact (symIndex_inj' nF a a b b (Nat.le_refl _) ((mem_present _ _ _).1 ha).1
          (Nat.le_refl _) ((mem_present _ _ _).1 hb).1 e).1
    rw [hn.count]
    have : (symIndex nF f f ∈ (presentFeatures nF i).map fun f => symIndex nF f f) ↔
        i.feat f = true := by
      simp only [List.mem_map]
      constructor
      · rintro ⟨a, ha, e⟩
        have ha := (mem_present _ _ _).1 ha
        obtain ⟨rfl, _⟩ := symIndex_inj' nF a a f f (Nat.le_refl _) ha.1 (Nat.le_refl _) hf e
        exact ha.2
      · intro h; exact ⟨f, (mem_present _ _ _).2 ⟨hf, h⟩, rfl⟩
    by_cases h : i.feat f = true <;> simp [this, h]

/-! ### Effect of the update loops -/

theorem foldl_bump (L : List Nat) (a : Nat → Int) (v : Int) (y : Nat) :
    (L.foldl (fun a x => bump a v x) a) y = a y + v * (L.count y : Int) := by
  induction L generalizing a with
  | nil => simp
  | cons x L ih =>
    simp only [List.foldl_cons, ih, List.count_cons]
    unfold bump
    by_cases h : y = x
    · subst h; simp; ring
    · have : (x == y) = false := by simpa using Ne.symm h
      simp [h, this]

/-- `T` is `S` with the contribution of instance `i` added `mult` times. -/
def AddedInst (P : Problem) (one : Bool) (mult : Int) (i : Inst) (S T : Storage) : Prop :=
  T.tot = S.tot ∧ (∀ x, T.cnt x = S.cnt x + mult * ((touched P.nF one i).count x : Int)) ∧
  (∀ l, l < P.nL → T.ctot l = S.ctot l + mult * P.cost i l) ∧
  (∀ l, l < P.nL → ∀ x, T.cst l x = S.cst l x + mult * P.cost i l * ((touched P.nF one i).count x : Int))

/-- The body of the label loop. -/
def labelStep (P : Problem) (one : Bool) (mult : Int) (first : Nat) (i : Inst) (S : Storage) (l : Nat) :
    Storage :=
  let costs := mult * P.cost i l
  if costs = 0 then
    (if first < l then S else updateCountCost P.nF one true false i l costs mult S)
  else if first < l then updateCountCost P.nF one false true i l costs mult S
  else updateCountCost P.nF one true true i l costs mult S

theorem labelStep_tot (P : Problem) (one : Bool) (mult : Int) (first : Nat) (i : Inst) (S : Storage)
    (l : Nat) : (labelStep P one mult first i S l).tot = S.tot := by
  unfold labelStep updateCountCost; simp only; split <;> (split <;> rfl)

theorem labelStep_cnt (P : Problem) (one : Bool) (mult : Int) (first : Nat) (i : Inst) (S : Storage)
    (l x : Nat) : (labelStep P one mult first i S l).cnt x =
      if first < l then S.cnt x else S.cnt x + mult * ((touched P.nF one i).count x : Int) := by
  unfold labelStep updateCountCost
  simp only
  by_cases h : first < l <;> by_cases h2 : mult * P.cost i l = 0 <;>
    simp [h, h2, foldl_bump]

theorem labelStep_ctot (P : Problem) (one : Bool) (mult : Int) (first : Nat) (i : Inst) (S : Storage)
    (l l' : Nat) : (labelStep P one mult first i S l).ctot l' =
      if l' = l then S.ctot l' + mult * P.cost i l else S.ctot l' := by
  unfold labelStep updateCountCost bump
  simp only
  by_cases h : first < l <;> by_cases h2 : mult * P.cost i l = 0 <;> simp [h, h2]

theorem labelStep_cst (P : Problem) (one : Bool) (mult : Int) (first : Nat) (i : Inst) (S : Storage)
    (l l' x : Nat) : (labelStep P one mult first i S l).cst l' x =
      if l' = l then S.cst l' x + mult * P.cost i l * ((touched P.nF one i).count x : Int)
      else S.cst l' x := by
  unfold labelStep updateCountCost
  simp only
  by_cases h : first < l <;> by_cases h2 : mult * P.cost i l = 0 <;> by_cases h3 : l' = l <;>
    simp [h, h2, h3, foldl_bump]

theorem labelFold_tail (P : Problem) (one : Bool) (mult : Int) (first : Nat) (i : Inst) (L : List Nat)
    (hL : ∀ l ∈ L, first < l) (hn : L.Nodup) (S : Storage) :
    (L.foldl (labelStep P one mult first i) S).tot = S.tot ∧
    (∀ x, (L.foldl (labelStep P one mult first i) S).cnt x = S.cnt x) ∧
    (∀ l, (L.foldl (labelStep P one mult first i) S).ctot l =
      if l ∈ L then S.ctot l + mult * P.cost i l else S.ctot l) ∧
    (∀ l x, (L.foldl (labelStep P one mult first i) S).cst l x =
      if l ∈ L then S.cst l x + mult * P.cost i l * ((touched P.nF one i).count x : Int)
      else S.cst l x) := by
  induction L generalizing S with
  | nil => simp
  | cons a L ih =>
    have hn' := List.nodup_cons.1 hn
    obtain ⟨h1, h2, h3, h4⟩ := ih (fun l hl => hL l (List.mem_cons_of_mem _ hl)) hn'.2
      (labelStep P one mult first i S a)
    simp only [List.foldl_cons]
    refine ⟨by rw [h1, labelStep_tot], fun x => by rw [h2, labelStep_cnt, if_pos (hL a (by simp))],
      fun l => ?_, fun l x => ?_⟩
    · rw [h3, labelStep_ctot]
      by_cases e : l = a
      · subst e; simp [hn'.1]
      · simp [e]
    · rw [h4, labelStep_cst]
      by_cases e : l = a
      · subst e; simp [hn'.1]
      · simp [e]

theorem storeLabels_spec (nL : Nat) (zeroTrue : Bool) (org : Nat) (h1 : 0 < nL) :
    ∃ a L, storeLabels nL zeroTrue org = a :: L ∧ (∀ l ∈ L, a < l) ∧ L.Nodup ∧
      ∀ l, l < nL → (l ∈ (a :: L) ∨ (zeroTrue = true ∧ l = org)) := by
  unfold storeLabels
  by_cases h : nL > 1
  · rw [if_pos h]
    have hs : ((List.range nL).filter fun l => !zeroTrue || l != org).Pairwise (· < ·) :=
      List.Pairwise.filter _ List.pairwise_lt_range
    have hm : ∀ l, l < nL → (l ∈ (List.range nL).filter fun l => !zeroTrue || l != org) ∨
        (zeroTrue = true ∧ l = org) := by
      intro l hl
      by_cases h2 : zeroTrue = true ∧ l = org
      · exact Or.inr h2
      · left
        simp only [List.mem_filter, List.mem_range, hl, true_and, Bool.or_eq_true, Bool.not_eq_true',
          bne_iff_ne, ne_eq]
        by_cases h3 : zeroTrue = true
        · right; exact fun e => h2 ⟨h3, e⟩
        · left; simpa using h3
    generalize hg : (List.range nL).filter (fun l => !zeroTrue || l != org) = G at hs hm
    cases G with
    | nil =>
      exfalso
      have a0 := hm 0 (by omega)
      have a1 := hm 1 (by omega)
      simp at a0 a1
      omega
    | cons a L =>
      have := List.pairwise_cons.1 hs
      exact ⟨a, L, rfl, this.1, this.2.imp (by intro x y; omega), hm⟩
  · rw [if_neg h]
    refine ⟨0, [], rfl, by simp, by simp, fun l hl => Or.inl ?_⟩
    simp; omega

theorem updateInst_spec (P : Problem) (zeroTrue one : Bool) (mult : Int) (i : Inst) (S : Storage)
    (hL : 0 < P.nL) (hz : zeroTrue = true → P.cost i i.label = 0) :
    AddedInst P one mult i S (updateInst P zeroTrue one mult i.label i S) := by
  obtain ⟨a, L, e, h1, h2, h3⟩ := storeLabels_spec P.nL zeroTrue i.label hL
  have e2 : updateInst P zeroTrue one mult i.label i S =
      (a :: L).foldl (labelStep P one mult a i) S := by
    unfold updateInst; simp only [e, List.headD_cons]; rfl
  rw [e2, List.foldl_cons]
  obtain ⟨t1, t2, t3, t4⟩ := labelFold_tail P one mult a i L h1 h2 (labelStep P one mult a i S a)
  refine ⟨by rw [t1, labelStep_tot], fun x => by rw [t2, labelStep_cnt]; simp, fun l hl => ?_,
    fun l hl x => ?_⟩
  · rw [t3, labelStep_ctot]
    by_cases e : l = a
    · subst e
      have : l ∉ L := fun h => absurd (h1 l h) (by omega)
      simp [this]
    · rcases h3 l hl with h | ⟨hzt, rfl⟩
      · have : l ∈ L := by simpa [e] using h
        simp [this, e]
      · rw [hz hzt]; simp [e]
  · rw [t4, labelStep_cst]
    by_cases e : l = a
    · subst e
      have : l ∉ L := fun h => absurd (h1 l h) (by omega)
      simp [this]
    · rcases h3 l hl with h | ⟨hzt, rfl⟩
      · have : l ∈ L := by simpa [e] using h
        simp [this, e]
      · rw [hz hzt]; simp [e]

/-- `T` is `S` with the contribution of all instances of `D` added `mult` times (totals apart). -/
def AddedData (P : Problem) (one : Bool) (mult : Int) (D : Data) (S T : Storage) : Prop :=
  T.tot = S.tot ∧
  (∀ x, T.cnt x = S.cnt x + mult * (D.map fun i => ((touched P.nF one i).count x : Int)).sum) ∧
  (∀ l, l < P.nL → T.ctot l = S.ctot l + mult * (D.map fun i => P.cost i l).sum) ∧
  (∀ l, l < P.nL → ∀ x, T.cst l x = S.cst l x +
    mult * (D.map fun i => P.cost i l * ((touched P.nF one i).count x : Int)).sum)

theorem AddedData.nil (P : Problem) (one : Bool) (mult : Int) (S : Storage) :
    AddedData P one mult [] S S := by simp [AddedData]

theorem AddedData.append {P : Problem} {one : Bool} {mult : Int} {D D' : Data} {S T U : Storage}
    (h : AddedData P one mult D S T) (h' : AddedData P one mult D' T U) :
    AddedData P one mult (D ++ D') S U := by
  obtain ⟨a1, a2, a3, a4⟩ := h
  obtain ⟨b1, b2, b3, b4⟩ := h'
  refine ⟨by rw [b1, a1], fun x => ?_, fun l hl => ?_, fun l hl x => ?_⟩
  · rw [b2, a2, List.map_append, List.sum_append]; ring
  · rw [b3 l hl, a3 l hl, List.map_append, List.sum_append]; ring
  · rw [b4 l hl, a4 l hl, List.map_append, List.sum_append]; ring

theorem foldInst_spec (P : Problem) (zeroTrue one : Bool) (mult : Int) (k : Nat) (D : Data)
    (hk : ∀ i ∈ D, i.label = k) (hL : 0 < P.nL)
    (hz : zeroTrue = true → ∀ i ∈ D, P.cost i i.label = 0) (S : Storage) :
    AddedData P one mult D S (D.foldl (fun S i => updateInst P zeroTrue one mult k i S) S) := by
  induction D generalizing S with
  | nil => exact AddedData.nil _ _ _ _
  | cons i D ih =>
    have hi := hk i (by simp)
    have h1 := updateInst_spec P zeroTrue one mult i S hL (fun h => hz h i (by simp))
    rw [hi] at h1
    have h2 := ih (fun j hj => hk j (List.mem_cons_of_mem _ hj))
      (fun h j hj => hz h j (List.mem_cons_of_mem _ hj)) (updateInst P zeroTrue one mult k i S)
    have h3 : AddedData P one mult [i] S (updateInst P zeroTrue one mult k i S) := by
      obtain ⟨a1, a2, a3, a4⟩ := h1
      exact ⟨a1, fun x => by rw [a2]; simp, fun l hl => by rw [a3 l hl]; simp,
        fun l hl x => by rw [a4 l hl]; simp; ring⟩
    exact h3.append h2

theorem foldLabels_spec (P : Problem) (zeroTrue one : Bool) (mult : Int) (D : Data) (ks : List Nat)
    (hL : 0 < P.nL) (hz : zeroTrue = true → ∀ i ∈ D, P.cost i i.label = 0) (S : Storage) :
    AddedData P one mult (ks.flatMap fun k => byLabel D k) S
      (ks.foldl (fun S k => (byLabel D k).foldl (fun S i => updateInst P zeroTrue one mult k i S) S) S) := by
  induction ks generalizing S with
  | nil => exact AddedData.nil _ _ _ _
  | cons k ks ih =>
    simp only [List.flatMap_cons, List.foldl_cons]
    refine AddedData.append (foldInst_spec P zeroTrue one mult k (byLabel D k) ?_ hL ?_ S) (ih _)
    · intro i hi; simpa using (List.mem_filter.1 hi).2
    · intro h i hi; exact hz h i (List.mem_filter.1 hi).1

theorem AddedData.perm {P : Problem} {one : Bool} {mult : Int} {D D' : Data} {S T : Storage}
    (h : AddedData P one mult D S T) (hp : D.Perm D') : AddedData P one mult D' S T := by
  obtain ⟨a1, a2, a3, a4⟩ := h
  have e : ∀ g : Inst → Int, (D.map g).sum = (D'.map g).sum := fun g => perm_map_sum hp g
  exact ⟨a1, fun x => by rw [a2, e], fun l hl => by rw [a3 l hl, e], fun l hl x => by rw [a4 l hl, e]⟩

/-- Storage holding exactly the statistics of `D`. -/
def Holds (P : Problem) (one : Bool) (D : Data) (S : Storage) : Prop :=
  S.tot = D.length ∧
  (∀ x, S.cnt x = (D.map fun i => ((touched P.nF one i).count x : Int)).sum) ∧
  (∀ l, l < P.nL → S.ctot l = (D.map fun i => P.cost i l).sum) ∧
  (∀ l, l < P.nL → ∀ x, S.cst l x =
    (D.map fun i => P.cost i l * ((touched P.nF one i).count x : Int)).sum)

theorem updateCosts_spec (P : Problem) (zeroTrue one : Bool) (mult : Int) (D : Data) (S : Storage)
    (hL : 0 < P.nL) (hl : ∀ i ∈ D, i.label < P.nL)
    (hz : zeroTrue = true → ∀ i ∈ D, P.cost i i.label = 0) :
    AddedData P one mult D { S with tot := S.tot + D.length * mult }
      (updateCosts P zeroTrue one mult D S) := by
  have h := (foldLabels_spec P zeroTrue one mult D (List.range P.nL) hL hz S).perm
    (byLabel_flat_perm P.nL D hl)
  obtain ⟨a1, a2, a3, a4⟩ := h
  unfold updateCosts
  exact ⟨by simp only [a1], a2, a3, a4⟩

theorem holds_recount (P : Problem) (zeroTrue one : Bool) (D : Data) (hL : 0 < P.nL)
    (hl : ∀ i ∈ D, i.label < P.nL) (hz : zeroTrue = true → ∀ i ∈ D, P.cost i i.label = 0) :
    Holds P one D (updateCosts P zeroTrue one 1 D Storage.zero) := by
  obtain ⟨a1, a2, a3, a4⟩ := updateCosts_spec P zeroTrue one 1 D Storage.zero hL hl hz
  refine ⟨by rw [a1]; simp [Storage.zero], fun x => by rw [a2]; simp [Storage.zero],
    fun l hl => by rw [a3 l hl]; simp [Storage.zero],
    fun l hl x => by rw [a4 l hl]; simp [Storage.zero]⟩

theorem sum_map_add_sub {D A R E : Data} (hp : (E ++ R).Perm (D ++ A)) (g : Inst → Int) :
    (D.map g).sum + 1 * (A.map g).sum + (-1) * (R.map g).sum = (E.map g).sum := by
  have := perm_map_sum hp g
  rw [List.map_append, List.map_append, List.sum_append, List.sum_append] at this
  omega

theorem holds_incremental (P : Problem) (zeroTrue one : Bool) (D E A R : Data) (S : Storage)
    (hS : Holds P one D S) (hL : 0 < P.nL)
    (hA : ∀ i ∈ A, i.label < P.nL) (hR : ∀ i ∈ R, i.label < P.nL)
    (hzA : zeroTrue = true → ∀ i ∈ A, P.cost i i.label = 0)
    (hzR : zeroTrue = true → ∀ i ∈ R, P.cost i i.label = 0)
    (hp : (E ++ R).Perm (D ++ A)) :
    Holds P one E (updateCosts P zeroTrue one (-1) R (updateCosts P zeroTrue one 1 A S)) := by
  obtain ⟨a1, a2, a3, a4⟩ := updateCosts_spec P zeroTrue one 1 A S hL hA hzA
  obtain ⟨b1, b2, b3, b4⟩ := updateCosts_spec P zeroTrue one (-1) R
    (updateCosts P zeroTrue one 1 A S) hL hR hzR
  obtain ⟨c1, c2, c3, c4⟩ := hS
  have hlen := hp.length_eq
  simp only [List.length_append] at hlen
  refine ⟨?_, fun x => ?_, fun l hl => ?_, fun l hl x => ?_⟩
  · rw [b1]; simp only [a1, c1]; omega
  · rw [b2]; simp only []; rw [a2]; simp only []; rw [c2]; exact sum_map_add_sub hp _
  · rw [b3 l hl]; simp only []; rw [a3 l hl]; simp only []; rw [c3 l hl]; exact sum_map_add_sub hp _
  · rw [b4 l hl]; simp only []; rw [a4 l hl]; simp only []; rw [c4 l hl]; exact sum_map_add_sub hp _

theorem Holds.perm {P : Problem} {one : Bool} {D E : Data} {S : Storage} (h : Holds P one D S)
    (hp : D.Perm E) : Holds P one E S := by
  obtain ⟨a1, a2, a3, a4⟩ := h
  have e : ∀ g : Inst → Int, (D.map g).sum = (E.map g).sum := fun g => perm_map_sum hp g
  exact ⟨by rw [a1, hp.length_eq], fun x => by rw [a2, e], fun l hl => by rw [a3 l hl, e],
    fun l hl x => by rw [a4 l hl, e]⟩

theorem sum_ite_count (D : Data) (p : Inst → Bool) :
    (D.map fun i => if p i then (1 : Int) else 0).sum = (D.countP p : Nat) := by
  induction D with
  | nil => rfl
  | cons i D ih =>
    simp only [List.map_cons, List.sum_cons, ih, List.countP_cons]
    by_cases h : p i <;> simp [h]; omega

theorem sum_ite_filter (D : Data) (p : Inst → Bool) (g : Inst → Int) :
    (D.map fun i => g i * (if p i then (1 : Int) else 0)).sum = ((D.filter p).map g).sum := by
  induction D with
  | nil => rfl
  | cons i D ih =>
    simp only [List.map_cons, List.sum_cons, ih]
    by_cases h : p i <;> simp [h]

end Streed
