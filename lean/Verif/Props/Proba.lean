import Verif.Model.Proba
import Verif.Props.NodeLimit
import Verif.Props.ParetoTree
import Mathlib.Data.List.GetD
import Mathlib.Tactic.Linarith

/-!
# C71: predicted class probabilities

`predict_proba` gives each row the class frequencies of the training rows in its leaf. The code hands the left subtree all rows
(`~` inverts bits instead of negating), but whatever is written there for rows that belong to the right subtree is overwritten.
-/

namespace Streed

/-- Two rows end in the same leaf. -/
def SameLeaf : Tree → IntRow → IntRow → Bool
  | .leaf _, _, _ => true
  | .node f l r, x, z => if x f ≠ 0 then decide (z f ≠ 0) && SameLeaf r x z else decide (z f = 0) && SameLeaf l x z

/-- The label of the leaf of a row. -/
def leafLabel : Tree → IntRow → Nat
  | .leaf k, _ => k
  | .node f l r, x => if x f ≠ 0 then leafLabel r x else leafLabel l x

/-- The labels of the training rows in the leaf of a row. -/
def leafLabels (t : Tree) (train : List (IntRow × Nat)) (x : IntRow) : List Nat :=
  (train.filter fun p => SameLeaf t x p.1).map (·.2)

/-- The frequency of a class in the leaf of a row. -/
def leafFrequency (t : Tree) (train : List (IntRow × Nat)) (x : IntRow) (k : Nat) : Rat :=
  ((leafLabels t train x).count k : Rat) / ((leafLabels t train x).length : Rat)

/-- Every leaf has a training row, and its label is a most frequent one among its training rows. -/
def MajorityLeaves (nC : Nat) : Tree → List (IntRow × Nat) → Prop
  | .leaf k, train => train ≠ [] ∧ k < nC ∧ ∀ j, (train.map (·.2)).count j ≤ (train.map (·.2)).count k
  | .node f l r, train => MajorityLeaves nC l (train.filter fun p => !(p.1 f != 0)) ∧ MajorityLeaves nC r (train.filter fun p => p.1 f != 0)

/-! ### A leaf -/

theorem countLoop_ok (y : List Nat) (ks acc : List Nat) (h : ∀ k ∈ ks, k < acc.length) :
    ∃ c, countLoop y ks acc = .ok c ∧ c.length = acc.length ∧
      ∀ k, k < acc.length → c.getD k 0 = if k ∈ ks then y.count k else acc.getD k 0 := by
  induction ks generalizing acc with
  | nil => exact ⟨acc, rfl, rfl, fun k _ => by simp⟩
  | cons a ks ih =>
    unfold countLoop
    rw [if_pos (h a (List.mem_cons_self ..))]
    obtain ⟨c, h1, h2, h3⟩ := ih (acc.set a (y.count a)) (fun k hk => by rw [List.length_set]; exact h k (List.mem_cons_of_mem _ hk))
    refine ⟨c, h1, by rw [h2, List.length_set], fun k hk => ?_⟩
    rw [h3 k (by rw [List.length_set]; exact hk)]
    by_cases hka : k = a
    · subst hka
      rw [if_pos (List.mem_cons_self ..)]
      split
      · rfl
      · rw [List.getD_eq_getElem _ _ (by rw [List.length_set]; exact hk), List.getElem_set_self]
    · have : (k ∈ a :: ks) ↔ k ∈ ks := by simp [hka]
      simp only [this]
      split
      · rfl
      · rw [List.getD_eq_getElem _ _ (by rw [List.length_set]; exact hk), List.getD_eq_getElem _ _ hk,
          List.getElem_set_ne (fun h => hka h.symm)]

theorem countLoop_inv {y ks acc c : List Nat} (h : countLoop y ks acc = .ok c) : ∀ k ∈ ks, k < acc.length := by
  induction ks generalizing acc with
  | nil => simp
  | cons a ks ih =>
    unfold countLoop at h
    split at h
    · rename_i ha
      intro k hk
      rcases List.mem_cons.1 hk with rfl | hk
      · exact ha
      · have := ih h k hk; rwa [List.length_set] at this
    · cases h

theorem counts_ok (nC : Nat) (y : List Nat) (h : ∀ k ∈ y, k < nC) :
    countLoop y y.dedup (List.replicate nC 0) = .ok ((List.range nC).map y.count) := by
  obtain ⟨c, h1, h2, h3⟩ := countLoop_ok y y.dedup (List.replicate nC 0) (fun k hk => by
    rw [List.length_replicate]; exact h k (List.mem_dedup.1 hk))
  rw [List.length_replicate] at h2 h3
  rw [h1]
  congr 1
  apply List.ext_getElem
  · simp [h2]
  · intro i hi hi'
    have hi2 : i < nC := by omega
    have := h3 i hi2
    rw [List.getD_eq_getElem _ _ hi] at this
    rw [this]
    simp only [List.getElem_map, List.getElem_range]
    split
    · rfl
    · rename_i hn
      rw [List.mem_dedup] at hn
      rw [List.count_eq_zero_of_not_mem hn]
      simp [List.getD]

theorem maxRat_le {l : List Rat} {b : Rat} (hb : 0 ≤ b) (h : ∀ x ∈ l, x ≤ b) : maxRat l ≤ b := by
  induction l with
  | nil => exact hb
  | cons x l ih =>
    cases l with
    | nil => exact h x (List.mem_cons_self ..)
    | cons y l => exact max_le (h x (List.mem_cons_self ..)) (ih fun z hz => h z (List.mem_cons_of_mem _ hz))

theorem le_maxRat {l : List Rat} {x : Rat} (h : x ∈ l) : x ≤ maxRat l := by
  induction l with
  | nil => cases h
  | cons y l ih =>
    cases l with
    | nil => rw [List.mem_singleton.1 h]; exact le_refl _
    | cons z l =>
      rcases List.mem_cons.1 h with rfl | h
      · exact le_max_left _ _
      · exact le_trans (ih h) (le_max_right _ _)

/-- The class frequencies of a list of labels. -/
def frequencies (nC : Nat) (y : List Nat) : List Rat := (List.range nC).map fun k => (y.count k : Rat) / (y.length : Rat)

theorem frequencies_getD (nC : Nat) (y : List Nat) {k : Nat} (hk : k < nC) :
    (frequencies nC y).getD k 0 = (y.count k : Rat) / (y.length : Rat) := by
  unfold frequencies
  rw [List.getD_eq_getElem _ _ (by simpa using hk)]
  simp

theorem sum_counts (nC : Nat) (y : List Nat) (h : ∀ k ∈ y, k < nC) : ((List.range nC).map fun k => y.count k).sum = y.length := by
  induction y with
  | nil => simp
  | cons a y ih =>
    have hy : ∀ k ∈ y, k < nC := fun k hk => h k (List.mem_cons_of_mem _ hk)
    have ha : a < nC := h a (List.mem_cons_self ..)
    have e : ∀ n, ((List.range n).map fun k => (a :: y).count k).sum = ((List.range n).map fun k => y.count k).sum + if a < n then 1 else 0 := by
      intro n
      induction n with
      | zero => simp
      | succ n ihn =>
        rw [List.range_succ, List.map_append, List.map_append, List.sum_append, List.sum_append, ihn]
        simp only [List.map_cons, List.map_nil, List.sum_cons, List.sum_nil, List.count_cons]
        by_cases han : a = n
        · subst han
          simp; omega
        · have h0 : (a == n) = false := by simpa using han
          have h1 : (a < n + 1) ↔ a < n := by omega
          simp only [h0, h1, Bool.false_eq_true, if_false]
          omega
    rw [e, ih hy, if_pos ha]; rfl

theorem sum_div (l : List Nat) (n : Rat) : (l.map fun c : Nat => (c : Rat) / n).sum = (l.sum : Rat) / n := by
  induction l with
  | nil => simp
  | cons a l ih => rw [List.map_cons, List.sum_cons, ih, List.sum_cons]; push_cast; ring

theorem frequencies_sum (nC : Nat) (y : List Nat) (h : ∀ k ∈ y, k < nC) (hy : y ≠ []) : (frequencies nC y).sum = 1 := by
  have e : frequencies nC y = ((List.range nC).map fun k => y.count k).map fun c : Nat => (c : Rat) / (y.length : Rat) := by
    unfold frequencies; rw [List.map_map]; rfl
  rw [e, sum_div, sum_counts nC y h]
  have : (0 : Rat) < (y.length : Rat) := by exact_mod_cast List.length_pos_iff.2 hy
  exact div_self (ne_of_gt this)

theorem leafProba_ok (nC k : Nat) (y : List Nat) (h : ∀ k ∈ y, k < nC) (hy : y ≠ []) (hk : k < nC)
    (hmaj : ∀ j, y.count j ≤ y.count k) : leafProba nC k y = .ok (frequencies nC y) := by
  have hlen : y.length ≠ 0 := fun h => hy (List.length_eq_zero_iff.1 h)
  unfold leafProba
  rw [if_neg hlen, counts_ok nC y h]
  have e : ((List.range nC).map y.count).map (fun n : Nat => (n : Rat) / (y.length : Rat)) = frequencies nC y := by
    unfold frequencies; rw [List.map_map]; rfl
  dsimp only
  rw [e, if_neg (by omega), if_pos]
  rw [frequencies_getD nC y hk]
  have hpos : (0 : Rat) < (y.length : Rat) := by exact_mod_cast List.length_pos_iff.2 hy
  have : maxRat (frequencies nC y) ≤ (y.count k : Rat) / (y.length : Rat) := by
    apply maxRat_le
    · positivity
    · intro x hx
      obtain ⟨j, _, rfl⟩ := List.mem_map.1 hx
      exact div_le_div_of_nonneg_right (by exact_mod_cast hmaj j) (le_of_lt hpos)
  have h2 : (0 : Rat) ≤ 1 / 100000 := by norm_num
  show maxRat _ - _ ≤ _
  linarith

/-! ### The recursion -/

theorem setRows_spec (P : List (List Rat)) (idx : List Nat) (p : List Rat) :
    (setRows P idx p).length = P.length ∧ ∀ i, i < P.length → (setRows P idx p).getD i [] = if i ∈ idx then p else P.getD i [] := by
  unfold setRows
  induction idx generalizing P with
  | nil => exact ⟨rfl, fun i _ => by simp⟩
  | cons a idx ih =>
    obtain ⟨h1, h2⟩ := ih (P.set a p)
    rw [List.length_set] at h1 h2
    refine ⟨h1, fun i hi => ?_⟩
    rw [List.foldl_cons, h2 i hi]
    by_cases hia : i = a
    · subst hia
      rw [if_pos (List.mem_cons_self ..)]
      split
      · rfl
      · rw [List.getD_eq_getElem _ _ (by rw [List.length_set]; exact hi), List.getElem_set_self]
    · have : (i ∈ a :: idx) ↔ i ∈ idx := by simp [hia]
      simp only [this]
      split
      · rfl
      · rw [List.getD_eq_getElem _ _ (by rw [List.length_set]; exact hi), List.getD_eq_getElem _ _ hi,
          List.getElem_set_ne (fun h => hia h.symm)]

theorem mem_argwhere {col : List Int} {i : Nat} : i ∈ argwhere col ↔ i < col.length ∧ col.getD i 0 ≠ 0 := by
  unfold argwhere
  simp

theorem mem_intersect {a b : List Nat} {i : Nat} : i ∈ intersect a b ↔ i ∈ a ∧ i ∈ b := by
  unfold intersect
  simp

theorem leafLabels_leaf (k : Nat) (train : List (IntRow × Nat)) (x : IntRow) : leafLabels (.leaf k) train x = train.map (·.2) := by
  have e : train.filter (fun p => SameLeaf (.leaf k) x p.1) = train := List.filter_eq_self.2 fun p _ => rfl
  unfold leafLabels
  rw [e]

theorem leafLabels_node_right {f : Nat} {l r : Tree} {train : List (IntRow × Nat)} {x : IntRow} (h : x f ≠ 0) :
    leafLabels (.node f l r) train x = leafLabels r (train.filter fun p => p.1 f != 0) x := by
  unfold leafLabels
  rw [List.filter_filter]
  congr 2
  funext p
  simp only [SameLeaf]
  rw [if_pos h, Bool.and_comm]
  by_cases hp : p.1 f = 0 <;> simp [hp]

theorem leafLabels_node_left {f : Nat} {l r : Tree} {train : List (IntRow × Nat)} {x : IntRow} (h : x f = 0) :
    leafLabels (.node f l r) train x = leafLabels l (train.filter fun p => !(p.1 f != 0)) x := by
  unfold leafLabels
  rw [List.filter_filter]
  congr 2
  funext p
  simp only [SameLeaf]
  rw [if_neg (by simpa using h), Bool.and_comm]
  by_cases hp : p.1 f = 0 <;> simp [hp]

/-- After the recursion each of the given rows holds the frequencies of its leaf, whatever was there before. -/
theorem probaRec_ok (nC : Nat) (X : List IntRow) (t : Tree) (P : List (List Rat)) (idx : List Nat) (train : List (IntRow × Nat))
    (hP : P.length = X.length) (hlab : ∀ p ∈ train, p.2 < nC) (hmaj : MajorityLeaves nC t train) :
    ∃ Q, probaRec nC X t P idx train = .ok Q ∧ Q.length = X.length ∧
      (∀ i, (hi : i < X.length) → i ∈ idx → Q.getD i [] = frequencies nC (leafLabels t train X[i])) ∧
      (∀ i, i < X.length → i ∉ idx → Q.getD i [] = P.getD i []) := by
  induction t generalizing P idx train with
  | leaf k =>
    obtain ⟨h1, h2, h3⟩ := hmaj
    have hy : train.map (·.2) ≠ [] := fun h => h1 (List.map_eq_nil_iff.1 h)
    have hl := leafProba_ok nC k (train.map (·.2)) (fun j hj => by
      obtain ⟨p, hp, rfl⟩ := List.mem_map.1 hj
      exact hlab p hp) hy h2 h3
    obtain ⟨s1, s2⟩ := setRows_spec P idx (frequencies nC (train.map (·.2)))
    have e : ∀ x, leafLabels (.leaf k) train x = train.map (·.2) := leafLabels_leaf k train
    refine ⟨setRows P idx (frequencies nC (train.map (·.2))), by unfold probaRec; rw [hl], by rw [s1, hP], fun i hi hm => ?_,
      fun i hi hm => ?_⟩
    · rw [s2 i (by omega), if_pos hm, e]
    · rw [s2 i (by omega), if_neg hm]
  | node f l r ihl ihr =>
    obtain ⟨m1, m2⟩ := hmaj
    obtain ⟨Q1, a1, a2, a3, a4⟩ := ihl P (intersect (argwhere (X.map fun x => bitNot (x f))) idx) (train.filter fun p => !(p.1 f != 0)) hP
      (fun p hp => hlab p (List.mem_of_mem_filter hp)) m1
    obtain ⟨Q2, b1, b2, b3, b4⟩ := ihr Q1 (intersect (argwhere (X.map fun x => x f)) idx) (train.filter fun p => p.1 f != 0) a2
      (fun p hp => hlab p (List.mem_of_mem_filter hp)) m2
    have memR : ∀ i, (hi : i < X.length) → (i ∈ intersect (argwhere (X.map fun x => x f)) idx ↔ X[i] f ≠ 0 ∧ i ∈ idx) := by
      intro i hi
      rw [mem_intersect, mem_argwhere, List.getD_eq_getElem _ _ (by simpa using hi)]
      simp [hi]
    have memL : ∀ i, (hi : i < X.length) → (i ∈ intersect (argwhere (X.map fun x => bitNot (x f))) idx ↔ X[i] f ≠ -1 ∧ i ∈ idx) := by
      intro i hi
      rw [mem_intersect, mem_argwhere, List.getD_eq_getElem _ _ (by simpa using hi)]
      simp only [List.length_map, List.getElem_map, bitNot, hi, true_and]
      constructor
      · rintro ⟨h1, h2⟩; exact ⟨by omega, h2⟩
      · rintro ⟨h1, h2⟩; exact ⟨by omega, h2⟩
    refine ⟨Q2, by unfold probaRec; dsimp only; rw [a1]; exact b1, b2, fun i hi hm => ?_, fun i hi hm => ?_⟩
    · by_cases hx : X[i] f = 0
      · rw [b4 i hi (fun h => ((memR i hi).1 h).1 hx), a3 i hi ((memL i hi).2 ⟨by rw [hx]; decide, hm⟩), leafLabels_node_left hx]
      · rw [b3 i hi ((memR i hi).2 ⟨hx, hm⟩), leafLabels_node_right hx]
    · rw [b4 i hi (fun h => hm ((memR i hi).1 h).2), a4 i hi (fun h => hm ((memL i hi).1 h).2)]

theorem leafLabels_ne (nC : Nat) (t : Tree) (train : List (IntRow × Nat)) (x : IntRow) (h : MajorityLeaves nC t train) :
    leafLabels t train x ≠ [] := by
  induction t generalizing train with
  | leaf k =>
    rw [leafLabels_leaf]
    exact fun h' => h.1 (List.map_eq_nil_iff.1 h')
  | node f l r ihl ihr =>
    by_cases hx : x f = 0
    · rw [leafLabels_node_left hx]; exact ihl _ h.1
    · rw [leafLabels_node_right hx]; exact ihr _ h.2

/-- C71: if the labels are `0, …, n_classes - 1` and the leaves of the tree have majority labels, `predict_proba` raises nothing and gives every
row, for every class, its frequency among the training rows in the leaf of that row. Holds for every tree, every matrix of integers and
every training set. -/
theorem proba_frequencies {nC : Nat} {t : Tree} {train : List (IntRow × Nat)} (X : List IntRow) (hlab : ∀ p ∈ train, p.2 < nC)
    (hmaj : MajorityLeaves nC t train) :
    ∃ P, predictProba nC t X train = .ok P ∧ P.length = X.length ∧
      ∀ i, (hi : i < X.length) → (P.getD i []).length = nC ∧ (P.getD i []).sum = 1 ∧
        ∀ k, k < nC → (P.getD i []).getD k 0 = leafFrequency t train X[i] k := by
  obtain ⟨Q, h1, h2, h3, _⟩ := probaRec_ok nC X t (List.replicate X.length (List.replicate nC 0)) (List.range X.length) train
    (by simp) hlab hmaj
  have hrow : ∀ i, (hi : i < X.length) → Q.getD i [] = frequencies nC (leafLabels t train X[i]) :=
    fun i hi => h3 i hi (List.mem_range.2 hi)
  have hin : ∀ x, ∀ k ∈ leafLabels t train x, k < nC := by
    intro x k hk
    obtain ⟨p, hp, rfl⟩ := List.mem_map.1 hk
    exact hlab p (List.mem_of_mem_filter hp)
  have hsum : ∀ i, (hi : i < X.length) → (Q.getD i []).sum = 1 := fun i hi => by
    rw [hrow i hi]; exact frequencies_sum nC _ (hin _) (leafLabels_ne nC t train _ hmaj)
  have hall : (Q.all fun p => p.sum ≥ 1 - 1 / 10000) = true := by
    rw [List.all_eq_true]
    intro p hp
    obtain ⟨i, hi, rfl⟩ := List.getElem_of_mem hp
    have := hsum i (by omega)
    rw [List.getD_eq_getElem _ _ hi] at this
    rw [this]
    norm_num
  refine ⟨Q, ?_, h2, fun i hi => ⟨?_, hsum i hi, fun k hk => ?_⟩⟩
  · unfold predictProba; rw [h1]; dsimp only; rw [if_pos hall]
  · rw [hrow i hi]; simp [frequencies]
  · rw [hrow i hi, frequencies_getD nC _ hk]; rfl

/-- The label that `predict` gives a row has the largest probability. -/
theorem proba_prefers_prediction {nC : Nat} {t : Tree} {train : List (IntRow × Nat)} (x : IntRow) (hmaj : MajorityLeaves nC t train) (k : Nat) :
    leafFrequency t train x k ≤ leafFrequency t train x (leafLabel t x) := by
  induction t generalizing train with
  | leaf j =>
    unfold leafFrequency
    rw [leafLabels_leaf]
    exact div_le_div_of_nonneg_right (by exact_mod_cast hmaj.2.2 k) (by positivity)
  | node f l r ihl ihr =>
    unfold leafFrequency leafLabel
    by_cases hx : x f = 0
    · rw [leafLabels_node_left hx, if_neg (by simpa using hx)]; exact ihl hmaj.1
    · rw [leafLabels_node_right hx, if_pos hx]; exact ihr hmaj.2

/-! ### An optimal tree has majority labels -/

theorem asRows_having (f : Nat) (T : Data) : (asRows T).filter (fun p => p.1 f != 0) = asRows (having f T) := by
  unfold asRows having
  rw [List.filter_map]
  congr 1
  apply List.filter_congr
  intro i _
  cases h : i.feat f <;> simp [Function.comp, h]

theorem asRows_without (f : Nat) (T : Data) : (asRows T).filter (fun p => !(p.1 f != 0)) = asRows (without f T) := by
  unfold asRows without
  rw [List.filter_map]
  congr 1
  apply List.filter_congr
  intro i _
  cases h : i.feat f <;> simp [Function.comp, h]

theorem asRows_labels (T : Data) : (asRows T).map (·.2) = T.map Inst.label := by
  unfold asRows
  rw [List.map_map]
  rfl

theorem misclassified_split (f : Nat) (l r : Tree) (T : Data) :
    misclassified (.node f l r) T = misclassified l (without f T) + misclassified r (having f T) := by
  unfold misclassified without having
  induction T with
  | nil => rfl
  | cons i T ih =>
    rw [List.countP_cons, ih]
    cases h : i.feat f <;> simp [h, Tree.predict, List.countP_cons] <;> omega

theorem misclassified_single (k : Nat) (T : Data) : misclassified (.leaf k) T + (T.map Inst.label).count k = T.length := by
  unfold misclassified
  induction T with
  | nil => rfl
  | cons i T ih =>
    rw [List.countP_cons, List.map_cons, List.count_cons, List.length_cons]
    by_cases h : i.label = k
    · subst h; simp [Tree.predict] at ih ⊢; omega
    · have h1 : (i.label == k) = false := by simpa using h
      have h2 : (k != i.label) = true := by simpa using fun e : k = i.label => h e.symm
      simp only [Tree.predict, h1, h2] at ih ⊢
      simp at ih ⊢; omega

/-- A most frequent label. -/
theorem exists_majority (nC : Nat) (h : 0 < nC) (y : List Nat) (hy : ∀ k ∈ y, k < nC) : ∃ k, k < nC ∧ ∀ j, y.count j ≤ y.count k := by
  have : ∀ n, 0 < n → ∃ k, k < n ∧ ∀ j, j < n → y.count j ≤ y.count k := by
    intro n hn
    induction n with
    | zero => omega
    | succ n ih =>
      by_cases h0 : n = 0
      · subst h0; exact ⟨0, by omega, fun j hj => by obtain rfl : j = 0 := by omega
                                                     exact Nat.le_refl _⟩
      · obtain ⟨k, hk, hm⟩ := ih (by omega)
        by_cases hc : y.count n ≤ y.count k
        · refine ⟨k, by omega, fun j hj => ?_⟩
          by_cases hjn : j = n
          · rw [hjn]; exact hc
          · exact hm j (by omega)
        · refine ⟨n, by omega, fun j hj => ?_⟩
          by_cases hjn : j = n
          · rw [hjn]
          · have := hm j (by omega); omega
  obtain ⟨k, hk, hm⟩ := this nC h
  refine ⟨k, hk, fun j => ?_⟩
  by_cases hj : j < nC
  · exact hm j hj
  · rw [List.count_eq_zero_of_not_mem fun hm => hj (hy j hm)]; exact Nat.zero_le _

/-- Every tree can be given other labels in its leaves so that it misclassifies no more, and fewer if some leaf has no majority label. -/
theorem majority_relabel {nF nC : Nat} (h : 0 < nC) (t : Tree) (T : Data) (hlab : ∀ i ∈ T, i.label < nC) (hov : t.Over nF nC) (hl : LeavesHold 1 t T) :
    ∃ t' : Tree, t'.Over nF nC ∧ t'.depth = t.depth ∧ t'.nodes = t.nodes ∧ misclassified t' T ≤ misclassified t T ∧
      (misclassified t T ≤ misclassified t' T → MajorityLeaves nC t (asRows T)) := by
  induction t generalizing T with
  | leaf k =>
    obtain ⟨m, hm, hmax⟩ := exists_majority nC h (T.map Inst.label) (fun k hk => by
      obtain ⟨i, hi, rfl⟩ := List.mem_map.1 hk
      exact hlab i hi)
    have e1 := misclassified_single k T
    have e2 := misclassified_single m T
    have := hmax k
    refine ⟨.leaf m, hm, rfl, rfl, by omega, fun hle => ⟨?_, hov, fun j => ?_⟩⟩
    · intro he
      have : T = [] := List.map_eq_nil_iff.1 he
      subst this
      exact absurd hl (by unfold LeavesHold; simp)
    · rw [asRows_labels]
      have := hmax j
      omega
  | node f l r ihl ihr =>
    obtain ⟨l', a1, a2, a3, a4, a5⟩ := ihl (without f T) (fun i hi => hlab i (List.mem_of_mem_filter hi)) hov.2.1 hl.1
    obtain ⟨r', b1, b2, b3, b4, b5⟩ := ihr (having f T) (fun i hi => hlab i (List.mem_of_mem_filter hi)) hov.2.2 hl.2
    refine ⟨.node f l' r', ⟨hov.1, a1, b1⟩, by simp [Tree.depth, a2, b2], by simp [Tree.nodes, a3, b3], ?_, fun hle => ?_⟩
    · rw [misclassified_split, misclassified_split]; omega
    · rw [misclassified_split, misclassified_split] at hle
      unfold MajorityLeaves
      rw [asRows_having, asRows_without]
      exact ⟨a5 (by omega), b5 (by omega)⟩

/-- A tree that misclassifies no more than any other tree of its depth has a majority label in every leaf. -/
theorem optimal_majority {nF nC d : Nat} {t : Tree} {T : Data} (h : 0 < nC) (hlab : ∀ i ∈ T, i.label < nC) (hov : t.Over nF nC)
    (hl : LeavesHold 1 t T) (hd : t.depth ≤ d)
    (hopt : ∀ t' : Tree, t'.Over nF nC → t'.depth ≤ d → misclassified t T ≤ misclassified t' T) : MajorityLeaves nC t (asRows T) := by
  obtain ⟨t', h1, h2, _, _, h5⟩ := majority_relabel h t T hlab hov hl
  exact h5 (hopt t' h1 (by omega))

/-- C71 after a fit with the default options and `max_depth` at most three: if the labels are `0, …, n_classes - 1`, `predict_proba` raises
nothing. Each row of its result has the class frequencies of the training rows in the leaf of the tree, they sum to one, and the predicted label
has the largest one. -/
theorem proba_after_default_fit {nF : Nat} {T : Data} (d : Nat) (X : List IntRow) (hi : Input (numClasses (asRows T)) T) (hT : T ≠ []) (hd : d ≤ 3) :
    ∃ r : Fitted, fitTree nF (numClasses (asRows T)) 1 (giniOptions nF (numClasses (asRows T))) ⟨d, 2 ^ d - 1, false, int32Max⟩ T = some (some r) ∧
      ∃ P, predictProba (numClasses (asRows T)) r.tree X (asRows T) = .ok P ∧ P.length = X.length ∧
        ∀ i, (hi : i < X.length) → (P.getD i []).length = numClasses (asRows T) ∧ (P.getD i []).sum = 1 ∧
          ∀ k, k < numClasses (asRows T) → (P.getD i []).getD k 0 = leafFrequency r.tree (asRows T) X[i] k ∧
            (P.getD i []).getD k 0 ≤ (P.getD i []).getD (leafLabel r.tree X[i]) 0 := by
  obtain ⟨r, h1, _, h3, h4, h5⟩ := default_fit_optimal (nF := nF) d hi hT hd
  obtain ⟨r', g1, _, _, _, g5⟩ := returned_tree_within_limits (nF := nF) (mls := 1) (o := giniOptions nF (numClasses (asRows T))) d false
    (fun D f hf => ((giniOptions_world nF (numClasses (asRows T))).order D f).1 hf) hi (by omega) (List.length_pos_iff.2 hT)
  obtain rfl : r = r' := by
    rw [h1] at g1
    simpa using g1
  have hmaj := optimal_majority hi.labels hi.inRange h3 g5 h4 h5
  obtain ⟨P, p1, p2, p3⟩ := proba_frequencies X (fun p hp => by
    obtain ⟨i, hm, rfl⟩ := List.mem_map.1 hp
    exact hi.inRange i hm) hmaj
  have hlab : ∀ t : Tree, t.Over nF (numClasses (asRows T)) → ∀ x, leafLabel t x < numClasses (asRows T) := by
    intro t ht x
    induction t with
    | leaf k => exact ht
    | node f l r ihl ihr =>
      unfold leafLabel
      split
      · exact ihr ht.2.2
      · exact ihl ht.2.1
  refine ⟨r, h1, P, p1, p2, fun i hlt => ⟨(p3 i hlt).1, (p3 i hlt).2.1, fun k hk => ⟨(p3 i hlt).2.2 k hk, ?_⟩⟩⟩
  rw [(p3 i hlt).2.2 k hk, (p3 i hlt).2.2 _ (hlab _ h3 _)]
  exact proba_prefers_prediction _ hmaj k

/-! ### Where it fails -/

/-- The F1 task of the same class returns trees whose leaves do not have the majority label. `predict_proba` then raises an `AssertionError`,
for every matrix. -/
theorem f1_proba_raises : ∃ T : Data, F1Input T ∧ f1Trees 1 (paretoDefault 1) 1 1 false T = [some (.leaf 1)] ∧
    numClasses (asRows T) = 2 ∧ ∀ X, predictProba 2 (.leaf 1) X (asRows T) = .error .notMajority := by
  refine ⟨rowsOf [(1, 1), (1, 0), (1, 0)], ⟨by decide, by decide, by unfold IdSorted; decide⟩, by decide +kernel, by decide, fun X => ?_⟩
  have : leafProba 2 1 ((asRows (rowsOf [(1, 1), (1, 0), (1, 0)])).map (·.2)) = .error .notMajority := by decide +kernel
  unfold predictProba probaRec
  rw [this]

/-- Labels need not be all of `0, …, n_classes - 1`. If one of them is not smaller than the number of different labels, `predict_proba` raises
whatever the tree. -/
theorem label_gap_raises {t : Tree} {train : List (IntRow × Nat)} (X : List IntRow) (h : ∃ p ∈ train, numClasses train ≤ p.2) :
    ∃ e, predictProba (numClasses train) t X train = .error e := by
  have key : ∀ (nC : Nat) (t : Tree) (train : List (IntRow × Nat)) (P : List (List Rat)) (idx : List Nat), (∃ p ∈ train, nC ≤ p.2) →
      ∃ e, probaRec nC X t P idx train = .error e := by
    intro nC t
    induction t with
    | leaf k =>
      rintro train P idx ⟨p, hp, hle⟩
      have hl : ∃ e, leafProba nC k (train.map (·.2)) = .error e := by
        unfold leafProba
        split
        · exact ⟨_, rfl⟩
        · cases hc : countLoop (train.map (·.2)) (train.map (·.2)).dedup (List.replicate nC 0) with
          | error e => exact ⟨e, rfl⟩
          | ok c =>
            have := countLoop_inv hc p.2 (List.mem_dedup.2 (List.mem_map_of_mem hp))
            rw [List.length_replicate] at this
            omega
      obtain ⟨e, he⟩ := hl
      exact ⟨e, by unfold probaRec; rw [he]⟩
    | node f l r ihl ihr =>
      rintro train P idx ⟨p, hp, hle⟩
      unfold probaRec
      dsimp only
      by_cases hx : p.1 f = 0
      · obtain ⟨e, he⟩ := ihl (train.filter fun p => !(p.1 f != 0)) P (intersect (argwhere (X.map fun x => bitNot (x f))) idx)
          ⟨p, List.mem_filter.2 ⟨hp, by simp [hx]⟩, hle⟩
        exact ⟨e, by rw [he]⟩
      · split
        · exact ⟨_, rfl⟩
        · exact ihr _ _ _ ⟨p, List.mem_filter.2 ⟨hp, by simp [hx]⟩, hle⟩
  obtain ⟨e, he⟩ := key (numClasses train) t train (List.replicate X.length (List.replicate (numClasses train) 0)) (List.range X.length) h
  exact ⟨e, by unfold predictProba; rw [he]⟩

/-! ### The hypotheses are met -/

/-- Four rows, two classes, one impure leaf. -/
def probaData : Data := rowsOf [(0, 0), (1, 1), (1, 1), (1, 0)]

example : Input (numClasses (asRows probaData)) probaData ∧ probaData ≠ [] :=
  ⟨⟨by decide, by decide, by unfold IdSorted; decide, by decide⟩, by decide⟩

example : MajorityLeaves 2 (.node 0 (.leaf 0) (.leaf 1)) (asRows probaData) := by
  have h : misclassified (.node 0 (.leaf 0) (.leaf 1)) probaData = 1 := by decide
  refine ⟨⟨by decide, by decide, fun j => ?_⟩, ⟨by decide, by decide, fun j => ?_⟩⟩
  · rcases j with _ | _ | j
    · decide
    · decide
    · rw [List.count_eq_zero_of_not_mem]
      · exact Nat.zero_le _
      · intro hm
        have : ∀ k ∈ ((asRows probaData).filter (fun p => !(p.1 0 != 0))).map (·.2), k < 2 := by decide
        have := this _ hm
        omega
  · rcases j with _ | _ | j
    · decide
    · decide
    · rw [List.count_eq_zero_of_not_mem]
      · exact Nat.zero_le _
      · intro hm
        have : ∀ k ∈ ((asRows probaData).filter (fun p => p.1 0 != 0)).map (·.2), k < 2 := by decide
        have := this _ hm
        omega

/-- The left subtree gets both rows, and the result is right all the same. -/
example : intersect (argwhere ([0, 1].map fun x => bitNot x)) [0, 1] = [0, 1] ∧
    predictProba 2 (.node 0 (.leaf 0) (.leaf 1)) [fun _ => 0, fun _ => 1] (asRows probaData) = .ok [[1, 0], [1 / 3, 2 / 3]] := by
  decide +kernel

example : ∃ p ∈ asRows (rowsOf [(0, 0), (1, 2)]), numClasses (asRows (rowsOf [(0, 0), (1, 2)])) ≤ p.2 := ⟨_, List.mem_cons_of_mem _ (List.mem_cons_self ..), by decide⟩

end Streed
