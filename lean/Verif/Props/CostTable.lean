import Verif.Model.CostTable
import Verif.Props.CostSensitive

/-!
# C103: cost specifications are applied as given
-/

namespace Streed

/-- The specification of attributes as it is passed to `FeatureCostSpecifier`. -/
def AttrCost.spec (a : AttrCost) : AttrSpec := ⟨a.cost, a.disc, a.group, a.lo, a.hi⟩

/-- The attributes divide the features `0, …, nF - 1` among themselves. -/
def CostsCover (A : List AttrCost) (nF : Nat) : Prop :=
  CostsOK A ∧ ∀ f, f < nF ↔ ∃ a ∈ A, a.has f = true

namespace CostTab

theorem pairIn_snoc (f g : Nat) (es : List (Nat × Nat)) (e : Nat × Nat) :
    Costs.pairIn f g (es ++ [e]) = (Costs.pairIn f g es || (decide (e.2 = f) && es.any fun e' => decide (e'.1 = e.1) && decide (e'.2 = g))) := by
  induction es with
  | nil => simp [Costs.pairIn]
  | cons d es ih =>
    simp only [List.cons_append, Costs.pairIn, ih, List.any_append, List.any_cons, List.any_nil, Bool.or_false]
    rw [Bool.eq_iff_iff]
    simp only [Bool.or_eq_true, Bool.and_eq_true, decide_eq_true_eq]
    grind

theorem index_inj {n f g f' g' : Nat} (h1 : g < n) (h2 : g' < n) : f * n + g = f' * n + g' ↔ f = f' ∧ g = g' := by
  constructor
  · intro h
    have hn : 0 < n := by omega
    have e : ∀ f g, g < n → (f * n + g) / n = f ∧ (f * n + g) % n = g := by
      intro f g hg
      rw [Nat.mul_comm, Nat.mul_add_div hn, Nat.div_eq_of_lt hg, Nat.mul_add_mod, Nat.mod_eq_of_lt hg]
      exact ⟨rfl, rfl⟩
    have a := e f g h1
    have b := e f' g' h2
    rw [h] at a
    exact ⟨a.1.symm.trans b.1, a.2.symm.trans b.2⟩
  · rintro ⟨rfl, rfl⟩; rfl

/-- What the tables contain after some features. -/
structure Holds (n : Nat) (t : CostTab) : Prop where
  size : t.n = n
  below : ∀ e ∈ t.map, e.2 < n
  grp : ∀ f g, f < n → g < n → t.grp (f * n + g) = (Costs.pairIn f g t.map || Costs.pairIn g f t.map)

theorem addFeature_holds {n : Nat} {t : CostTab} (h : Holds n t) (a : AttrSpec) {f : Nat} (hf : f < n) : Holds n (addFeature a t f) := by
  refine ⟨h.size, ?_, ?_⟩
  · intro e he
    rcases List.mem_append.1 he with he | he
    · exact h.below e he
    · simp only [List.mem_singleton] at he; subst he; exact hf
  · intro x y hx hy
    show (t.grp (x * n + y) || _) = (Costs.pairIn x y (t.map ++ [(a.group, f)]) || Costs.pairIn y x (t.map ++ [(a.group, f)]))
    rw [h.grp x y hx hy, pairIn_snoc, pairIn_snoc, h.size, Bool.eq_iff_iff]
    simp only [Bool.or_eq_true, Bool.and_eq_true, decide_eq_true_eq, List.any_eq_true]
    constructor
    · rintro (h1 | ⟨e, he, e1, e2⟩)
      · grind
      · rw [index_inj hy (h.below e he), index_inj hy hf] at e2
        grind
    · rintro ((h1 | ⟨h1, e, he, e1, e2⟩) | (h1 | ⟨h1, e, he, e1, e2⟩))
      · grind
      · exact .inr ⟨e, he, e1, .inl (by rw [h1, e2])⟩
      · grind
      · exact .inr ⟨e, he, e1, .inr (by rw [h1, e2])⟩

theorem foldl_feature (a : AttrSpec) (n : Nat) (L : List Nat) (hL : ∀ f ∈ L, f < n) (t : CostTab) (h : Holds n t) :
    Holds n (L.foldl (addFeature a) t) ∧ (L.foldl (addFeature a) t).map = t.map ++ L.map (fun f => (a.group, f)) ∧
    (∀ x, (L.foldl (addFeature a) t).feat x = if x ∈ L then a.cost else t.feat x) ∧
    (∀ x, (L.foldl (addFeature a) t).disc x = if x ∈ L then a.disc else t.disc x) ∧
    (∀ i, (L.foldl (addFeature a) t).bin i =
      (t.bin i || L.any fun f => (feats a n).any fun g => decide (i = f * n + g) || decide (i = g * n + f))) := by
  induction L generalizing t with
  | nil => exact ⟨h, by simp, by simp, by simp, by simp⟩
  | cons f L ih =>
    obtain ⟨i1, i2, i3, i4, i5⟩ := ih (fun f hf => hL f (List.mem_cons_of_mem _ hf)) (addFeature a t f) (addFeature_holds h a (hL f (by simp)))
    rw [List.foldl_cons]
    refine ⟨i1, ?_, fun x => ?_, fun x => ?_, fun i => ?_⟩
    · rw [i2]; simp [addFeature]
    · rw [i3]; simp only [addFeature, List.mem_cons]; grind
    · rw [i4]; simp only [addFeature, List.mem_cons]; grind
    · rw [i5]
      simp only [addFeature, List.any_cons, h.size, Bool.or_assoc]

theorem feats_spec {a : AttrCost} {n : Nat} (h : a.hi < n) : feats a.spec n = List.range' a.lo (a.hi + 1 - a.lo) := by
  unfold feats AttrCost.spec
  dsimp only
  have e : ((a.hi : Int) + 1 - (a.lo : Int)).toNat = a.hi + 1 - a.lo := by omega
  rw [e, Int.toNat_natCast, List.filter_eq_self]
  intro f hf
  rw [List.mem_range'_1] at hf
  simp only [decide_eq_true_eq]
  omega

theorem foldlM_attr (n : Nat) (A B : List AttrCost) (mat : Nat → Nat → Rat) (hA : ∀ a ∈ A, a.lo ≤ a.hi ∧ a.hi < n) (t : CostTab) (h : Holds n t)
    (hm : t.map = (Costs.mk mat B).entries) (hf : ∀ x, t.feat x = (Costs.mk mat B).featCost x) (hd : ∀ x, t.disc x = (Costs.mk mat B).discCost x)
    (hb : ∀ f g, f < n → g < n → t.bin (f * n + g) = (Costs.mk mat B).sameBin f g) :
    ∃ t', (A.map AttrCost.spec).foldlM addAttr t = some t' ∧ t'.n = n ∧ (∀ x, t'.feat x = (Costs.mk mat (B ++ A)).featCost x) ∧
      (∀ x, t'.disc x = (Costs.mk mat (B ++ A)).discCost x) ∧
      (∀ f g, f < n → g < n → t'.bin (f * n + g) = (Costs.mk mat (B ++ A)).sameBin f g) ∧
      (∀ f g, f < n → g < n → t'.grp (f * n + g) = (Costs.mk mat (B ++ A)).sameGroup f g) := by
  induction A generalizing B t with
  | nil =>
    refine ⟨t, rfl, h.size, by simpa using hf, by simpa using hd, by simpa using hb, fun f g h1 h2 => ?_⟩
    rw [h.grp f g h1 h2, hm, List.append_nil]; rfl
  | cons a A ih =>
    obtain ⟨ha, han⟩ := hA a (by simp)
    have hL := feats_spec (a := a) han
    have hmem : ∀ x, x ∈ feats a.spec n ↔ a.lo ≤ x ∧ x ≤ a.hi := by
      intro x; rw [hL, List.mem_range'_1]; omega
    obtain ⟨i1, i2, i3, i4, i5⟩ := foldl_feature a.spec n (feats a.spec n) (fun f hf => by rw [hmem] at hf; omega) t h
    have e : addAttr t a.spec = some ((feats a.spec n).foldl (addFeature a.spec) t) := by
      unfold addAttr
      rw [if_neg (by simp only [AttrCost.spec]; omega), if_neg (by simp only [AttrCost.spec]; omega), h.size]
    obtain ⟨t', j1, j2⟩ := ih (B ++ [a]) (fun b hb => hA b (List.mem_cons_of_mem _ hb)) _ i1 (by
      rw [i2, hm, hL]; simp [Costs.entries, AttrCost.spec]) (fun x => by
      rw [i3, hf]; unfold Costs.featCost; rw [List.foldl_append]; simp only [hmem, List.foldl_cons, List.foldl_nil]; rfl) (fun x => by
      rw [i4, hd]; unfold Costs.discCost; rw [List.foldl_append]; simp only [hmem, List.foldl_cons, List.foldl_nil]; rfl) (fun f g h1 h2 => by
      rw [i5, hb f g h1 h2]
      unfold Costs.sameBin
      rw [List.any_append]
      congr 1
      rw [Bool.eq_iff_iff]
      simp only [List.any_eq_true, Bool.or_eq_true, Bool.and_eq_true, decide_eq_true_eq, List.mem_singleton]
      constructor
      · rintro ⟨x, hx, y, hy, e | e⟩
        · rw [hmem] at hx hy
          rw [index_inj h2 (by omega)] at e
          exact ⟨a, rfl, by omega⟩
        · rw [hmem] at hx hy
          rw [index_inj h2 (by omega)] at e
          exact ⟨a, rfl, by omega⟩
      · rintro ⟨b, rfl, e⟩
        exact ⟨f, (hmem f).2 (by omega), g, (hmem g).2 (by omega), .inl rfl⟩)
    refine ⟨t', ?_, ?_⟩
    · rw [List.map_cons, List.foldlM_cons, e]; exact j1
    · simpa [List.append_assoc] using j2

theorem width_sum (A : List AttrCost) (h : ∀ a ∈ A, a.lo ≤ a.hi) (mat : Nat → Nat → Rat) :
    ((A.map AttrCost.spec).map fun a => a.hi - a.lo + 1).sum = ((Costs.mk mat A).numFeatures : Int) := by
  unfold Costs.numFeatures
  dsimp only
  induction A with
  | nil => rfl
  | cons a A ih =>
    have := h a (by simp)
    simp only [List.map_cons, List.sum_cons, ih fun b hb => h b (List.mem_cons_of_mem _ hb), AttrCost.spec]
    omega

/-- Attributes that divide the features among themselves have as many as there are. -/
theorem cover_num {A : List AttrCost} {nF : Nat} (h : CostsCover A nF) (mat : Nat → Nat → Rat) : (Costs.mk mat A).numFeatures = nF := by
  obtain ⟨⟨h1, h2⟩, h3⟩ := h
  have e : (A.flatMap fun a => List.range' a.lo (a.hi - a.lo + 1)).length = (Costs.mk mat A).numFeatures := by
    rw [List.length_flatMap]; simp [Costs.numFeatures]
  have hm : ∀ (a : AttrCost) (f : Nat), a.lo ≤ a.hi → (f ∈ List.range' a.lo (a.hi - a.lo + 1) ↔ a.has f = true) := by
    intro a f ha; rw [List.mem_range'_1]; simp only [AttrCost.has, Bool.and_eq_true, decide_eq_true_eq]; omega
  have hp : (A.flatMap fun a => List.range' a.lo (a.hi - a.lo + 1)).Perm (List.range nF) := by
    rw [List.perm_ext_iff_of_nodup _ List.nodup_range]
    · intro f
      rw [List.mem_flatMap, List.mem_range, h3]
      constructor
      · rintro ⟨a, ha, hf⟩; exact ⟨a, ha, (hm a f (h1 a ha)).1 hf⟩
      · rintro ⟨a, ha, hf⟩; exact ⟨a, ha, (hm a f (h1 a ha)).2 hf⟩
    · unfold List.Nodup
      rw [List.pairwise_flatMap]
      refine ⟨fun a ha => List.nodup_range', ?_⟩
      refine List.Pairwise.imp_of_mem ?_ h2
      intro a b ha hb hab x hx y hy e
      subst e
      exact hab x ⟨(hm a x (h1 a ha)).1 hx, (hm b x (h1 b hb)).1 hy⟩
  rw [← e, hp.length_eq, List.length_range]

theorem scan_eq {p : Nat → Bool} {size : Nat} {l : List Nat} (h : ∀ i ∈ l, i < size) : scan p size l = some (l.any p) := by
  induction l with
  | nil => rfl
  | cons i l ih =>
    have := h i (by simp)
    rw [scan, if_neg (by omega), ih fun j hj => h j (List.mem_cons_of_mem _ hj), List.any_cons]
    cases p i <;> rfl

/-- The first index beyond the end ends a scan. -/
theorem scan_none {p : Nat → Bool} {size : Nat} {l r : List Nat} {i : Nat} (h : ∀ j ∈ l, j < size ∧ p j = false) (hi : size ≤ i) :
    scan p size (l ++ i :: r) = none := by
  induction l with
  | nil => rw [List.nil_append, scan, if_pos hi]
  | cons j l ih =>
    obtain ⟨h1, h2⟩ := h j (by simp)
    rw [List.cons_append, scan, if_neg (by omega), h2]
    exact ih fun k hk => h k (List.mem_cons_of_mem _ hk)

end CostTab

/-- C103: the tables made from attributes that divide the features among themselves give every test the price of `Costs.branchCost`, and are
never read outside. -/
theorem tables_price (c : Costs) (nF : Nat) (h : CostsCover c.attrs nF) (hn : nF * nF ≤ 2147483647) :
    ∃ t, CostTab.build (c.attrs.map AttrCost.spec) = .built t ∧ t.n = nF ∧
      ∀ (b : Branch) (f : Nat), (∀ x ∈ b, x / 2 < nF) → f < nF → t.price b f = some (c.branchCost b f) := by
  obtain ⟨mat, A⟩ := c
  have hA : ∀ a ∈ A, a.lo ≤ a.hi ∧ a.hi < nF := fun a ha =>
    ⟨h.1.1 a ha, (h.2 a.hi).2 ⟨a, ha, by have := h.1.1 a ha; simp [AttrCost.has, this]⟩⟩
  obtain ⟨t, h1, h2, h3, h4, h5, h6⟩ := CostTab.foldlM_attr nF A [] mat hA (CostTab.empty nF)
    ⟨rfl, fun e he => by simp [CostTab.empty] at he, fun f g _ _ => rfl⟩ rfl (fun _ => rfl) (fun _ => rfl) (fun _ _ _ _ => rfl)
  refine ⟨t, ?_, h2, ?_⟩
  · unfold CostTab.build
    dsimp only
    rw [CostTab.width_sum A h.1.1 mat, CostTab.cover_num h mat, if_neg (by omega), if_neg (by exact_mod_cast Nat.not_lt.2 hn), Int.toNat_natCast, h1]
  · intro b f hb hf
    have hi : ∀ i ∈ b.map (fun x => x / 2 * t.n + f), i < t.n * t.n := by
      intro i hi
      obtain ⟨x, hx, rfl⟩ := List.mem_map.1 hi
      rw [h2]
      calc x / 2 * nF + f < x / 2 * nF + nF := by omega
        _ = (x / 2 + 1) * nF := by rw [Nat.add_mul, Nat.one_mul]
        _ ≤ nF * nF := Nat.mul_le_mul_right _ (hb x hx)
    have ea : ∀ (p q : Nat → Bool), (∀ g, g < nF → p (g * nF + f) = q g) →
        (b.map (fun x => x / 2 * t.n + f)).any p = b.any (fun x => q (x / 2)) := by
      intro p q hpq
      rw [List.any_map, h2, Bool.eq_iff_iff]
      simp only [List.any_eq_true, Function.comp]
      constructor
      · rintro ⟨x, hx, e⟩; exact ⟨x, hx, by rw [← hpq _ (hb x hx)]; exact e⟩
      · rintro ⟨x, hx, e⟩; exact ⟨x, hx, by rw [hpq _ (hb x hx)]; exact e⟩
    unfold CostTab.price Costs.branchCost
    dsimp only
    rw [CostTab.scan_eq hi, CostTab.scan_eq hi, ea t.bin (fun g => (Costs.mk mat ([] ++ A)).sameBin g f) (fun g hg => h5 g f hg hf),
      ea t.grp (fun g => (Costs.mk mat ([] ++ A)).sameGroup g f) (fun g hg => h6 g f hg hf), h2, if_pos hf, if_pos hf, h3, h4]
    rw [List.nil_append]
    cases b.any (fun x => (Costs.mk mat A).sameBin (x / 2) f) <;> cases b.any (fun x => (Costs.mk mat A).sameGroup (x / 2) f) <;> rfl

/-! ### Trees -/

/-- The matrix has an entry for every pair of labels. -/
def MatrixOK (m : List (List Rat)) (nL : Nat) : Prop := nL ≤ m.length ∧ ∀ r ∈ m, nL ≤ r.length

/-- The matrix as a function. -/
def matrixFun (m : List (List Rat)) (k label : Nat) : Rat := (matrixAt m k label).getD 0

theorem matrixAt_ok {m : List (List Rat)} {nL k label : Nat} (h : MatrixOK m nL) (hk : k < nL) (hl : label < nL) :
    matrixAt m k label = some (matrixFun m k label) := by
  unfold matrixFun
  unfold matrixAt
  have h1 : k < m.length := Nat.lt_of_lt_of_le hk h.1
  have h2 : label < (m[k]).length := Nat.lt_of_lt_of_le hl (h.2 _ (List.getElem_mem h1))
  rw [List.getElem?_eq_getElem h1]
  simp only [Option.bind_some]
  rw [List.getElem?_eq_getElem h2]
  rfl

theorem leafRead_ok {m : List (List Rat)} {nL : Nat} (h : MatrixOK m nL) (A : List AttrCost) (D : Data) {label : Nat} (hl : label < nL) :
    leafRead m nL D label = some ((Costs.mk (matrixFun m) A).leaf nL D label) := by
  unfold leafRead Costs.leaf
  have : ∀ (ks : List Nat) (e : Rat), (∀ k ∈ ks, k < nL) →
      ks.foldlM (fun (e : Rat) k => if k = label then some e else (matrixAt m k label).map fun x => e + numLabel D k * x) e =
      some (ks.foldl (fun e k => if k = label then e else e + numLabel D k * matrixFun m k label) e) := by
    intro ks
    induction ks with
    | nil => intro e _; rfl
    | cons k ks ih =>
      intro e hk
      rw [List.foldlM_cons, List.foldl_cons]
      by_cases hkl : k = label
      · rw [if_pos hkl, if_pos hkl]; exact ih e fun j hj => hk j (List.mem_cons_of_mem _ hj)
      · rw [if_neg hkl, if_neg hkl, matrixAt_ok h (hk k (by simp)) hl]
        exact ih _ fun j hj => hk j (List.mem_cons_of_mem _ hj)
  exact this _ 0 fun k hk => List.mem_range.1 hk

theorem mem_child_half {nF : Nat} {b : Branch} {f : Nat} {p : Bool} (hb : ∀ x ∈ b, x / 2 < nF) (hf : f < nF) :
    ∀ x ∈ b.child f p, x / 2 < nF := by
  have hc : code f p / 2 = f := by unfold code; split <;> omega
  have : ∀ (y : Nat) (b : List Nat), ∀ x ∈ insertCode y b, x = y ∨ x ∈ b := by
    intro y b
    induction b with
    | nil => intro x hx; simp [insertCode] at hx; exact .inl hx
    | cons z b ih =>
      intro x hx
      unfold insertCode at hx
      split at hx
      · rcases List.mem_cons.1 hx with rfl | hx
        · exact .inl rfl
        · exact .inr hx
      · rcases List.mem_cons.1 hx with rfl | hx
        · exact .inr (by simp)
        · rcases ih x hx with h | h
          · exact .inl h
          · exact .inr (List.mem_cons_of_mem _ h)
  intro x hx
  rcases this _ _ x hx with rfl | hx
  · rw [hc]; exact hf
  · exact hb x hx

/-- **C103**, for specifications that divide all features of the data among the attributes and give a cost to every pair of labels: for every tree,
the value that the tables give is, summed over the rows, the entry of the matrix for the true and the predicted label plus the price of the
tests on the path: nothing for an attribute tested before, the discount after another attribute of the group, the full price otherwise. Missing: other
specifications, which are not refused (`unspecified_undefined`, `gap_undefined`, `negative_undefined`, `short_matrix_undefined`). -/
theorem specified_costs_partial (m : List (List Rat)) (A : List AttrCost) (nF nL : Nat) (h : CostsCover A nF) (hn : nF * nF ≤ 2147483647)
    (hm : MatrixOK m nL) (hz : ∀ k, matrixFun m k k = 0) :
    ∃ t, CostTab.build (A.map AttrCost.spec) = .built t ∧ ∀ (tree : Tree) (D : Data), tree.Over nF nL → (∀ i ∈ D, i.label < nL) →
      evalRead t m nL tree [] D =
        some ((D.map fun i => matrixFun m i.label (tree.predict i) + testsCost A [] (tree.tests i)).sum) := by
  obtain ⟨t, h1, h2, h3⟩ := tables_price ⟨matrixFun m, A⟩ nF h hn
  refine ⟨t, h1, fun tree D ht hD => ?_⟩
  rw [← costs_tree ⟨matrixFun m, A⟩ h.1 nL hz tree D hD]
  have key : ∀ (tree : Tree) (b : Branch) (D : Data), tree.Over nF nL → (∀ x ∈ b, x / 2 < nF) →
      evalRead t m nL tree b D = some ((Costs.mk (matrixFun m) A).eval nL tree b D) := by
    intro tree
    induction tree with
    | leaf k => intro b D ht _; exact leafRead_ok hm A D ht
    | node f l r ihl ihr =>
      intro b D ht hb
      obtain ⟨hf, hl, hr⟩ := ht
      unfold evalRead Costs.eval
      rw [h3 b f hb hf, ihl _ _ hl (mem_child_half hb hf), ihr _ _ hr (mem_child_half hb hf)]
      rfl
  exact key tree [] D ht (by simp)

/-- The price of a test at the root is defined exactly for the features the tables have room for. -/
theorem root_price (t : CostTab) (f : Nat) : t.price [] f = none ↔ t.n ≤ f := by
  unfold CostTab.price CostTab.scan
  simp only [List.map_nil]
  by_cases h : f < t.n
  · rw [if_pos h]; exact ⟨fun h => by simp at h, fun h' => by omega⟩
  · rw [if_neg h]; exact ⟨fun _ => by omega, fun _ => rfl⟩

/-- **C103**, violated: a specification for fewer features than the data have is accepted, and the price of any other feature is read outside the
tables. -/
theorem unspecified_undefined (c : Costs) (nF : Nat) (h : CostsCover c.attrs nF) (hn : nF * nF ≤ 2147483647) (f : Nat) (hf : nF ≤ f) :
    ∃ t, CostTab.build (c.attrs.map AttrCost.spec) = .built t ∧ ∀ m nL l r D, evalRead t m nL (.node f l r) [] D = none := by
  obtain ⟨t, h1, h2, -⟩ := tables_price c nF h hn
  refine ⟨t, h1, fun m nL l r D => ?_⟩
  unfold evalRead; rw [(root_price t f).2 (by omega)]; rfl

/-- Whether tables are made, and what the price of a feature at the root then is. -/
def rootPrice (A : List AttrSpec) (f : Nat) : Option (Option Rat) :=
  match CostTab.build A with
  | .built t => some (t.price [] f)
  | _ => none

/-- **C103**, violated: ranges with a gap are accepted, but the last features fall off the tables although they were given a price. -/
theorem gap_undefined : ∃ A : List AttrSpec, (∃ a ∈ A, a.lo = 2 ∧ a.hi = 2 ∧ a.cost = 7) ∧ rootPrice A 2 = some none :=
  ⟨[⟨5, 5, 0, 0, 0⟩, ⟨7, 7, 1, 2, 2⟩], ⟨⟨7, 7, 1, 2, 2⟩, by simp, rfl, rfl, rfl⟩, by decide +kernel⟩

/-- **C103**, violated: a range that ends before it begins is not refused, and takes room from the other attributes. -/
theorem reversed_accepted : ∃ A : List AttrSpec, (∃ a ∈ A, a.hi < a.lo) ∧ rootPrice A 0 = some (some 5) ∧ rootPrice A 1 = some none :=
  ⟨[⟨5, 5, 0, 0, 1⟩, ⟨7, 7, 1, 2, 0⟩], ⟨⟨7, 7, 1, 2, 0⟩, by simp, by decide⟩, by decide +kernel, by decide +kernel⟩

/-- **C103**, violated: a range that begins below zero writes before the tables. -/
theorem negative_undefined : CostTab.build [⟨5, 5, 0, -1, 0⟩] = .undef := rfl

/-- **C103**, violated: a matrix with fewer rows than there are labels is read beyond its end. -/
theorem short_matrix_undefined : ∃ (m : List (List Rat)) (D : Data), (∀ i ∈ D, i.label < 3) ∧ MatrixOK m 2 ∧ leafRead m 3 D 0 = none :=
  ⟨[[0, 1], [1, 0]], [⟨0, fun _ => false, 2⟩], by simp, ⟨by decide, by simp⟩, by decide +kernel⟩

/-! ### Files -/

/-- A number. -/
def numTok (x : Rat) : CostTok := ⟨0, some x, none⟩

/-- An integer. -/
def intTok (x : Int) : CostTok := ⟨0, some x, some x⟩

/-- A name. -/
def nameTok (k : Nat) : CostTok := ⟨k, none, none⟩

/-- The documented line of an attribute. -/
def AttrSpec.line (a : AttrSpec) (name : Nat) : List CostTok := [nameTok name, numTok a.cost, numTok a.disc, nameTok a.group, intTok a.lo, intTok a.hi]

theorem matrixRow_written (row : List Rat) (rest : List CostTok) (temp : Option Rat) :
    matrixRow row.length ⟨row.map numTok ++ rest, true⟩ temp = some row := by
  induction row generalizing temp with
  | nil => rfl
  | cons x row ih =>
    have := ih (some x)
    simp only [List.length_cons, List.map_cons, List.cons_append]
    unfold matrixRow
    simp only [CostIn.next, numTok] at this ⊢
    rw [this]; rfl

theorem mapM_some {α β : Type} (f : α → Option β) (g : α → β) (l : List α) (h : ∀ a ∈ l, f a = some (g a)) : l.mapM f = some (l.map g) := by
  induction l with
  | nil => rfl
  | cons a l ih =>
    rw [List.mapM_cons, h a (by simp), ih fun b hb => h b (List.mem_cons_of_mem _ hb)]; rfl

/-- C103: a file with a line for every row of the matrix, a heading and a line for every attribute is read as written. -/
theorem costs_file_read (m : List (List Rat)) (nL : Nat) (hm : m.length = nL) (hr : ∀ r ∈ m, r.length = nL) (heading : List CostTok)
    (A : List (AttrSpec × Nat)) :
    readCosts nL (some (m.map (fun r => r.map numTok) ++ heading :: A.map fun a => a.1.line a.2)) = some (m, A.map (·.1)) := by
  unfold readCosts matrixLines
  simp only [Option.getD_some]
  have e1 : (m.map (fun r => r.map numTok) ++ heading :: A.map fun a => a.1.line a.2).take nL = m.map fun r => r.map numTok := by
    rw [List.take_append_of_le_length (by simp [hm]), List.take_of_length_le (by simp [hm])]
  have e2 : (m.map (fun r => r.map numTok) ++ heading :: A.map fun a => a.1.line a.2).drop (nL + 1) = A.map fun a => a.1.line a.2 := by
    rw [List.drop_append]
    simp [hm]
  rw [e1, e2, List.mapM_map, List.mapM_map, mapM_some _ (fun r => r) m ?_, mapM_some _ (fun a => a.1) A ?_]
  · simp [hm]
  · rintro ⟨⟨c, d, g, lo, hi⟩, k⟩ _; rfl
  · intro r h
    have := matrixRow_written r [] none
    rw [hr r h, List.append_nil] at this
    exact this

/-- **C103**, violated: without the file, the prices of all features are read outside the tables. -/
theorem missing_file_undefined (nL : Nat) : ∃ m, readCosts nL none = some (m, []) ∧ ∀ f, rootPrice [] f = some none :=
  ⟨List.replicate nL (List.replicate nL 0), by simp [readCosts, matrixLines], fun f => congrArg some ((root_price (CostTab.empty 0) f).2 (Nat.zero_le f))⟩

/-- **C103**, violated: a row of the matrix with too few entries is completed with copies of its last entry. -/
theorem short_row_repeated (nL k : Nat) (row : List Rat) (x : Rat) :
    row.length + 1 + k = nL → matrixRow nL ⟨(row ++ [x]).map numTok, true⟩ none = some (row ++ [x] ++ List.replicate k x) := by
  have stuck : ∀ (k : Nat) (ok : Bool), matrixRow k ⟨[], ok⟩ (some x) = some (List.replicate k x) := by
    intro k
    induction k with
    | zero => intro _; rfl
    | succ k ih =>
      intro ok
      unfold matrixRow
      cases ok <;> (simp only [CostIn.next]; rw [ih]; rfl)
  intro hn
  subst hn
  have : ∀ (row : List Rat) (temp : Option Rat),
      matrixRow (row.length + 1 + k) ⟨(row ++ [x]).map numTok, true⟩ temp = some (row ++ [x] ++ List.replicate k x) := by
    intro row
    induction row with
    | nil =>
      intro temp
      simp only [List.length_nil, List.nil_append, List.map_cons, List.map_nil]
      rw [show 0 + 1 + k = k + 1 by omega]
      unfold matrixRow
      simp only [CostIn.next, numTok]
      rw [stuck]; rfl
    | cons y row ih =>
      intro temp
      have := ih (some y)
      rw [show (y :: row).length + 1 + k = (row.length + 1 + k) + 1 by simp; omega]
      simp only [List.cons_append, List.map_cons]
      unfold matrixRow
      simp only [CostIn.next, numTok] at this ⊢
      rw [this]; rfl
  exact this row none

/-- **C103**, violated: a blank line after the last attribute makes an attribute of values that were never set. -/
theorem blank_attr_undefined : attrLine [] = none ∧ ∃ f : List (List CostTok), readCosts 2 (some f) ≠ none ∧ readCosts 2 (some (f ++ [[]])) = none :=
  ⟨rfl, [[numTok 0, numTok 1], [numTok 1, numTok 0], [], (AttrSpec.mk 5 5 0 0 0).line 1],
    by rw [show readCosts 2 _ = some ([[0, 1], [1, 0]], [⟨5, 5, 0, 0, 0⟩]) from rfl]; simp, rfl⟩

/-- **C103**, violated: a word in place of a price leaves all that follows in the line unset, whatever it is. -/
theorem bad_price_undefined (name bad : Nat) (rest : List CostTok) : attrLine (nameTok name :: nameTok bad :: rest) = none := rfl

/-- The hypotheses are met: two attributes of one group, the first with two features. -/
def coverAttrs : List AttrCost := [⟨10, 1, 0, 0, 1⟩, ⟨20, 1, 0, 2, 2⟩]

example : CostsCover coverAttrs 3 ∧ MatrixOK [[0, 4], [3, 0]] 2 ∧
    testsCost coverAttrs [] (Tree.tests (.node 1 (.node 0 (.leaf 0) (.node 2 (.leaf 0) (.leaf 1))) (.leaf 1)) ⟨0, fun f => f == 0, 1⟩) = 11 := by
  refine ⟨⟨⟨by decide, ?_⟩, ?_⟩, ⟨by decide, by simp⟩, by decide +kernel⟩
  · simp only [coverAttrs, List.pairwise_cons, List.mem_cons, List.not_mem_nil, or_false, forall_eq, AttrCost.has,
      Bool.and_eq_true, decide_eq_true_eq]
    refine ⟨fun f h => by omega, by simp⟩
  · intro f
    simp only [coverAttrs, List.mem_cons, List.not_mem_nil, or_false, exists_eq_or_imp, exists_eq_left, AttrCost.has,
      Bool.and_eq_true, decide_eq_true_eq]
    omega

end Streed
