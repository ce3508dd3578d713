import Verif.Model.CostSensitive
import Verif.Lemmas.Tasks

/-!
# C19, C38: cost-sensitive classification
-/

namespace Streed

open TaskLemmas

/-- Whether a binary feature comes from an attribute. -/
def AttrCost.has (a : AttrCost) (f : Nat) : Bool := decide (a.lo ≤ f) && decide (f ≤ a.hi)

/-- The attribute a binary feature comes from. -/
def attrOf (A : List AttrCost) (f : Nat) : Option AttrCost := A.find? (·.has f)

/-- What it costs to measure feature `f` when the features in `seen` were measured before: nothing if its attribute
was measured, the discount if an attribute of its group was, the full cost otherwise. -/
def testCost (A : List AttrCost) (seen : List Nat) (f : Nat) : Rat :=
  match attrOf A f with
  | none => 0
  | some a =>
    if seen.any a.has then 0
    else if seen.any (fun g => A.any fun b => decide (b.group = a.group) && b.has g) then a.disc
    else a.cost

/-- What it costs to measure a sequence of features. -/
def testsCost (A : List AttrCost) : List Nat → List Nat → Rat
  | _, [] => 0
  | seen, f :: fs => testCost A seen f + testsCost A (f :: seen) fs

/-- The features that are tested for an instance, from the root down. -/
def Tree.tests : Tree → Inst → List Nat
  | .leaf _, _ => []
  | .node f l r, i => f :: (if i.feat f then r.tests i else l.tests i)

/-- Sensible cost tables: attributes have features, and no two attributes share one. -/
def CostsOK (A : List AttrCost) : Prop :=
  (∀ a ∈ A, a.lo ≤ a.hi) ∧ A.Pairwise fun a b => ∀ f, ¬ (a.has f = true ∧ b.has f = true)

private theorem foldl_attr (g : AttrCost → Rat) (f : Nat) (A : List AttrCost)
    (h : A.Pairwise fun a b => ∀ f, ¬ (a.has f = true ∧ b.has f = true)) (x : Rat) :
    A.foldl (fun x a => if a.lo ≤ f ∧ f ≤ a.hi then g a else x) x = ((attrOf A f).map g).getD x := by
  induction A generalizing x with
  | nil => rfl
  | cons a A ih =>
    have h' := List.pairwise_cons.1 h
    rw [List.foldl_cons, ih h'.2]
    unfold attrOf
    by_cases ha : a.has f = true
    · have e : a.lo ≤ f ∧ f ≤ a.hi := by simpa [AttrCost.has] using ha
      have hn : A.find? (·.has f) = none := by
        rw [List.find?_eq_none]; intro b hb hbf; exact h'.1 b hb f ⟨ha, hbf⟩
      rw [List.find?_cons_of_pos (by simpa using ha), hn, if_pos e]; rfl
    · have e : ¬ (a.lo ≤ f ∧ f ≤ a.hi) := by simpa [AttrCost.has] using ha
      rw [List.find?_cons_of_neg (by simpa using ha), if_neg e]

private theorem attrOf_of_has {A : List AttrCost} (h : A.Pairwise fun a b => ∀ f, ¬ (a.has f = true ∧ b.has f = true))
    {a : AttrCost} (ha : a ∈ A) {f : Nat} (hf : a.has f = true) : attrOf A f = some a := by
  induction A with
  | nil => simp at ha
  | cons b A ih =>
    have h' := List.pairwise_cons.1 h
    unfold attrOf
    rcases List.mem_cons.1 ha with rfl | ha
    · rw [List.find?_cons_of_pos (by simpa using hf)]
    · have : ¬ b.has f = true := fun hb => h'.1 a ha f ⟨hb, hf⟩
      rw [List.find?_cons_of_neg (by simpa using this)]
      exact ih h'.2 ha

private theorem has_of_attrOf {A : List AttrCost} {a : AttrCost} {f : Nat} (h : attrOf A f = some a) :
    a ∈ A ∧ a.has f = true := 
  ⟨List.mem_of_find?_eq_some h, List.find?_some (p := fun a : AttrCost => a.has f) h⟩

private theorem sameBin_iff (c : Costs) (hc : CostsOK c.attrs) (g f : Nat) (a : AttrCost) (ha : attrOf c.attrs f = some a) :
    c.sameBin g f = a.has g := by
  rw [Bool.eq_iff_iff]
  unfold Costs.sameBin
  simp only [List.any_eq_true, Bool.and_eq_true, decide_eq_true_eq]
  constructor
  · rintro ⟨b, hb, ⟨⟨h1, h2⟩, h3⟩, h4⟩
    have hbf : b.has f = true := by simp [AttrCost.has, h3, h4]
    have := attrOf_of_has hc.2 hb hbf
    rw [ha] at this
    cases this
    simp [AttrCost.has, h1, h2]
  · intro h
    have := has_of_attrOf ha
    have h1 := this.2
    simp only [AttrCost.has, Bool.and_eq_true, decide_eq_true_eq] at h h1
    exact ⟨a, this.1, ⟨⟨h.1, h.2⟩, h1.1⟩, h1.2⟩

private theorem sameBin_none (c : Costs) (g f : Nat) (h : attrOf c.attrs f = none) : c.sameBin g f = false := by
  unfold attrOf at h
  rw [List.find?_eq_none] at h
  unfold Costs.sameBin
  rw [List.any_eq_false]
  intro a ha e
  simp only [Bool.and_eq_true, decide_eq_true_eq] at e
  exact h a ha (by simp [AttrCost.has, e])

private theorem mem_entries (c : Costs) (e : Nat × Nat) :
    e ∈ c.entries ↔ ∃ a ∈ c.attrs, a.group = e.1 ∧ a.has e.2 = true := by
  unfold Costs.entries
  simp only [List.mem_flatMap, List.mem_map, List.mem_range', AttrCost.has, Bool.and_eq_true, decide_eq_true_eq]
  constructor
  · rintro ⟨a, ha, f, ⟨j, hj, rfl⟩, rfl⟩
    exact ⟨a, ha, rfl, by simp; omega⟩
  · rintro ⟨a, ha, h1, h2, h3⟩
    exact ⟨a, ha, e.2, ⟨e.2 - a.lo, by omega, by omega⟩, by rw [h1]⟩

private theorem pairIn_mem {f g : Nat} {es : List (Nat × Nat)} (h : Costs.pairIn f g es = true) :
    ∃ n, (n, g) ∈ es ∧ (n, f) ∈ es := by
  induction es with
  | nil => simp [Costs.pairIn] at h
  | cons e es ih =>
    simp only [Costs.pairIn, Bool.or_eq_true, Bool.and_eq_true, decide_eq_true_eq, List.any_eq_true] at h
    rcases h with ⟨h1, e', h2, h3, h4⟩ | h
    · refine ⟨e.1, ?_, ?_⟩
      · rw [← h1]; exact List.mem_cons_self
      · rw [← h3, ← h4]; exact List.mem_cons_of_mem _ h2
    · obtain ⟨n, a, b⟩ := ih h
      exact ⟨n, List.mem_cons_of_mem _ a, List.mem_cons_of_mem _ b⟩

private theorem pairIn_of {f g n : Nat} (hne : f ≠ g) {es : List (Nat × Nat)} (h1 : (n, g) ∈ es) (h2 : (n, f) ∈ es) :
    Costs.pairIn f g es = true ∨ Costs.pairIn g f es = true := by
  induction es with
  | nil => simp at h1
  | cons e es ih =>
    simp only [Costs.pairIn, Bool.or_eq_true, Bool.and_eq_true, decide_eq_true_eq, List.any_eq_true]
    rcases List.mem_cons.1 h1 with r1 | h1
    · rcases List.mem_cons.1 h2 with r2 | h2
      · exact absurd (congrArg Prod.snd (r2.trans r1.symm)) hne
      · exact .inl (.inl ⟨by rw [← r1], (n, f), h2, by rw [← r1], rfl⟩)
    · rcases List.mem_cons.1 h2 with r2 | h2
      · exact .inr (.inl ⟨by rw [← r2], (n, g), h1, by rw [← r2], rfl⟩)
      · rcases ih h1 h2 with h | h
        · exact .inl (.inr h)
        · exact .inr (.inr h)

private theorem sameGroup_iff (c : Costs) (hc : CostsOK c.attrs) (g f : Nat) (hne : g ≠ f) (a : AttrCost)
    (ha : attrOf c.attrs f = some a) :
    c.sameGroup g f = c.attrs.any fun b => decide (b.group = a.group) && b.has g := by
  rw [Bool.eq_iff_iff]
  unfold Costs.sameGroup
  simp only [Bool.or_eq_true, List.any_eq_true, Bool.and_eq_true, decide_eq_true_eq]
  have key : (∃ n, (n, g) ∈ c.entries ∧ (n, f) ∈ c.entries) ↔ ∃ b ∈ c.attrs, b.group = a.group ∧ b.has g = true := by
    constructor
    · rintro ⟨n, h1, h2⟩
      obtain ⟨b, hb, hbn, hbg⟩ := (mem_entries c _).1 h1
      obtain ⟨b', hb', hbn', hbf⟩ := (mem_entries c _).1 h2
      have := attrOf_of_has hc.2 hb' hbf
      rw [ha] at this
      cases this
      exact ⟨b, hb, by rw [hbn, hbn'], hbg⟩
    · rintro ⟨b, hb, h1, h2⟩
      have := has_of_attrOf ha
      exact ⟨a.group, (mem_entries c _).2 ⟨b, hb, h1, h2⟩, (mem_entries c _).2 ⟨a, this.1, rfl, this.2⟩⟩
  rw [← key]
  constructor
  · rintro (h | h)
    · obtain ⟨n, a, b⟩ := pairIn_mem h; exact ⟨n, b, a⟩
    · exact pairIn_mem h
  · rintro ⟨n, h1, h2⟩
    exact pairIn_of hne h2 h1

private theorem cost_step (c : Costs) (hc : CostsOK c.attrs) (seen : List Nat) (f : Nat) :
    (if seen.any (fun g => c.sameBin g f) then 0
      else if seen.any (fun g => c.sameGroup g f) then c.discCost f else c.featCost f) = testCost c.attrs seen f := by
  unfold testCost
  cases h : attrOf c.attrs f with
  | none =>
    have e : c.featCost f = 0 := by
      unfold Costs.featCost; rw [foldl_attr (·.cost) f c.attrs hc.2, h]; rfl
    have e' : c.discCost f = 0 := by
      unfold Costs.discCost; rw [foldl_attr (·.disc) f c.attrs hc.2, h]; rfl
    simp [e, e']
  | some a =>
    have e : c.featCost f = a.cost := by
      unfold Costs.featCost; rw [foldl_attr (·.cost) f c.attrs hc.2, h]; rfl
    have e' : c.discCost f = a.disc := by
      unfold Costs.discCost; rw [foldl_attr (·.disc) f c.attrs hc.2, h]; rfl
    have e1 : seen.any (fun g => c.sameBin g f) = seen.any a.has := by
      congr 1; funext g; exact sameBin_iff c hc g f a h
    rw [e, e', e1]
    by_cases hs : seen.any a.has = true
    · simp [hs]
    · have e2 : seen.any (fun g => c.sameGroup g f) =
          seen.any (fun g => c.attrs.any fun b => decide (b.group = a.group) && b.has g) := by
        rw [Bool.eq_iff_iff, List.any_eq_true, List.any_eq_true]
        have hne : ∀ g ∈ seen, g ≠ f := by
          rintro g hg rfl
          exact hs (List.any_eq_true.2 ⟨g, hg, (has_of_attrOf h).2⟩)
        constructor
        · rintro ⟨g, hg, h1⟩; exact ⟨g, hg, by rw [← sameGroup_iff c hc g f (hne g hg) a h]; exact h1⟩
        · rintro ⟨g, hg, h1⟩; exact ⟨g, hg, by rw [sameGroup_iff c hc g f (hne g hg) a h]; exact h1⟩
      rw [e2]

/-! ### C38: the value of a tree -/

private theorem leaf_fold (m : Nat → Rat) (D : Data) (label : Nat) (ks : List Nat) (e : Rat) :
    ks.foldl (fun e k => if k = label then e else e + numLabel D k * m k) e =
      e + ((ks.filter (· ≠ label)).map fun k => (numLabel D k : Rat) * m k).sum := by
  induction ks generalizing e with
  | nil => simp
  | cons k ks ih =>
    rw [List.foldl_cons, ih]
    by_cases h : k = label <;> simp [h, add_assoc]

private theorem leaf_sum (m : Nat → Rat) (nL label : Nat) (D : Data) (hD : ∀ i ∈ D, i.label < nL) :
    (((List.range nL).filter (· ≠ label)).map fun k => (numLabel D k : Rat) * m k).sum =
      (D.map fun i => if i.label = label then 0 else m i.label).sum := by
  induction D with
  | nil => simp [numLabel]
  | cons i D ih =>
    have hi := hD i (by simp)
    have ih := ih fun j hj => hD j (by simp [hj])
    have key : ∀ ks : List Nat, ks.Nodup →
        (ks.map fun k => (numLabel (i :: D) k : Rat) * m k).sum =
          (if i.label ∈ ks then m i.label else 0) + (ks.map fun k => (numLabel D k : Rat) * m k).sum := by
      intro ks hn
      induction ks with
      | nil => simp
      | cons k ks ihk =>
        have hn' := List.nodup_cons.1 hn
        rw [List.map_cons, List.sum_cons, ihk hn'.2, numLabel_cons, List.map_cons, List.sum_cons]
        by_cases h : i.label = k
        · simp [h, hn'.1]; ring
        · simp [h]; ring
    rw [key _ (List.nodup_range.filter _), ih]
    by_cases h : i.label = label <;> simp [h, hi]

/-- C38: with a zero diagonal, the leaf cost of a label is the sum of the matrix entries of its instances. -/
theorem costs_leaf (c : Costs) (nL : Nat) (D : Data) (hD : ∀ i ∈ D, i.label < nL) (label : Nat)
    (h0 : c.matrix label label = 0) : c.leaf nL D label = (D.map fun i => c.matrix i.label label).sum := by
  unfold Costs.leaf
  rw [leaf_fold (fun k => c.matrix k label), leaf_sum _ nL label D hD, zero_add]
  congr 1; apply List.map_congr_left; intro i _
  split
  · rename_i h; rw [h, h0]
  · rfl

/-- C38: with a zero diagonal, the costs per instance add up to the leaf cost. -/
theorem costs_pairwise (c : Costs) (nL : Nat) (D : Data) (hD : ∀ i ∈ D, i.label < nL) (label : Nat)
    (h0 : c.matrix label label = 0) : (D.map fun i => c.d2 i.label label 1).sum = c.leaf nL D label := by
  rw [costs_leaf c nL D hD label h0]; simp [Costs.d2]

/-- C38 fails for a matrix that charges correct predictions: the leaf cost leaves the diagonal out, the costs per
instance do not, so the two computations disagree. -/
theorem costs_diagonal_ignored : ∃ (c : Costs) (D : Data) (label : Nat), (∀ i ∈ D, i.label < 2) ∧ label < 2 ∧
    (∀ i j, 0 ≤ c.matrix i j) ∧
    (D.map fun i => c.d2 i.label label 1).sum ≠ c.leaf 2 D label ∧
    c.leaf 2 D label ≠ (D.map fun i => c.matrix i.label label).sum := by
  refine ⟨⟨fun _ _ => 1, []⟩, [⟨0, fun _ => false, 0⟩], 0, by decide, by decide, ?_, by decide +kernel, by decide +kernel⟩
  intro i j
  exact zero_le_one

private theorem mem_insertCode (x y : Nat) (b : List Nat) : x ∈ insertCode y b ↔ x = y ∨ x ∈ b := by
  induction b with
  | nil => simp [insertCode]
  | cons z b ih =>
    unfold insertCode
    split
    · simp
    · simp only [List.mem_cons, ih]; tauto

private theorem branchCost_eq (c : Costs) (hc : CostsOK c.attrs) (b : Branch) (seen : List Nat)
    (h : ∀ g, g ∈ seen ↔ ∃ x ∈ b, x / 2 = g) (f : Nat) : c.branchCost b f = testCost c.attrs seen f := by
  rw [← cost_step c hc]
  unfold Costs.branchCost
  have e : ∀ p : Nat → Bool, b.any (fun x => p (x / 2)) = seen.any p := by
    intro p
    rw [Bool.eq_iff_iff, List.any_eq_true, List.any_eq_true]
    constructor
    · rintro ⟨x, hx, hp⟩; exact ⟨x / 2, (h _).2 ⟨x, hx, rfl⟩, hp⟩
    · rintro ⟨g, hg, hp⟩
      obtain ⟨x, hx, rfl⟩ := (h g).1 hg
      exact ⟨x, hx, hp⟩
  rw [e (fun g => c.sameBin g f), e (fun g => c.sameGroup g f)]

private theorem seen_child (b : Branch) (seen : List Nat) (h : ∀ g, g ∈ seen ↔ ∃ x ∈ b, x / 2 = g) (f : Nat) (x : Bool) :
    ∀ g, g ∈ f :: seen ↔ ∃ y ∈ b.child f x, y / 2 = g := by
  intro g
  have hcode : code f x / 2 = f := by unfold code; split <;> omega
  simp only [Branch.child, mem_insertCode, List.mem_cons, h]
  constructor
  · rintro (rfl | ⟨y, hy, rfl⟩)
    · exact ⟨_, .inl rfl, hcode⟩
    · exact ⟨y, .inr hy, rfl⟩
  · rintro ⟨y, rfl | hy, rfl⟩
    · exact .inl hcode
    · exact .inr ⟨y, hy, rfl⟩

private theorem sum_add_const (g : Inst → Rat) (x : Rat) (D : Data) :
    (D.map fun i => x + g i).sum = D.length * x + (D.map g).sum := by
  induction D with
  | nil => simp
  | cons i D ih => simp only [List.map_cons, List.sum_cons, ih, List.length_cons]; push_cast; ring

private theorem eval_sum (c : Costs) (hc : CostsOK c.attrs) (nL : Nat) (hz : ∀ k, c.matrix k k = 0) (t : Tree) (b : Branch)
    (seen : List Nat) (h : ∀ g, g ∈ seen ↔ ∃ x ∈ b, x / 2 = g) (D : Data) (hD : ∀ i ∈ D, i.label < nL) :
    c.eval nL t b D = (D.map fun i => c.matrix i.label (t.predict i) + testsCost c.attrs seen (t.tests i)).sum := by
  induction t generalizing b seen D with
  | leaf k => simp [Costs.eval, costs_leaf c nL D hD k (hz k), Tree.predict, Tree.tests, testsCost]
  | node f l r ihl ihr =>
    have e1 := ihl (b.child f false) (f :: seen) (seen_child b seen h f false) (without f D)
      fun i hi => hD i (List.mem_filter.1 hi).1
    have e2 := ihr (b.child f true) (f :: seen) (seen_child b seen h f true) (having f D)
      fun i hi => hD i (List.mem_filter.1 hi).1
    simp only [Costs.eval, e1, e2, branchCost_eq c hc b seen h]
    have e3 : (D.map fun i => c.matrix i.label ((Tree.node f l r).predict i) +
        testsCost c.attrs seen ((Tree.node f l r).tests i)).sum =
        (D.map fun i => testCost c.attrs seen f +
          (if i.feat f then c.matrix i.label (r.predict i) + testsCost c.attrs (f :: seen) (r.tests i)
            else c.matrix i.label (l.predict i) + testsCost c.attrs (f :: seen) (l.tests i))).sum := by
      congr 1; apply List.map_congr_left; intro i _
      by_cases hf : i.feat f = true <;> simp [Tree.predict, Tree.tests, testsCost, hf] <;> ring
    rw [e3, sum_add_const, ← sum_filter_split _ f D]
    congr 2
    · congr 1; apply List.map_congr_left; intro i hi
      have : i.feat f = false := by simpa using (List.mem_filter.1 hi).2
      simp [this]
    · congr 1; apply List.map_congr_left; intro i hi
      have : i.feat f = true := by simpa using (List.mem_filter.1 hi).2
      simp [this]

/-- C38: with a zero diagonal, the value of a tree is the sum over the instances of the matrix entry of true and
predicted label and of the costs of the tests on the instance's path. -/
theorem costs_tree (c : Costs) (hc : CostsOK c.attrs) (nL : Nat) (hz : ∀ k, c.matrix k k = 0) (t : Tree) (D : Data)
    (hD : ∀ i ∈ D, i.label < nL) :
    c.eval nL t [] D = (D.map fun i => c.matrix i.label (t.predict i) + testsCost c.attrs [] (t.tests i)).sum :=
  eval_sum c hc nL hz t [] [] (by simp) D hD

/-- Two attributes of one group, the second more expensive; wrong predictions cost 1. -/
def twoAttrs : Costs := ⟨fun i j => if i = j then 0 else 1, [⟨10, 1, 0, 0, 0⟩, ⟨20, 1, 0, 1, 1⟩]⟩

private theorem twoAttrs_ok : CostsOK twoAttrs.attrs := by
  constructor
  · decide
  · simp only [twoAttrs, List.pairwise_cons, List.mem_cons, List.not_mem_nil, or_false, forall_eq, AttrCost.has,
      Bool.and_eq_true, decide_eq_true_eq]
    refine ⟨fun f h => by omega, by simp⟩

example : CostsOK twoAttrs.attrs ∧ (∀ k, twoAttrs.matrix k k = 0) ∧
    testsCost twoAttrs.attrs [] (Tree.tests (.node 1 (.node 0 (.leaf 0) (.leaf 1)) (.leaf 1)) ⟨0, fun _ => false, 1⟩) = 21 :=
  ⟨twoAttrs_ok, fun k => by simp [twoAttrs], by decide +kernel⟩

/-! ### C19 for the cost-sensitive task -/

/-- C19: one more instance never adds more than the declared worst case to the value of a tree. -/
def CostsWorst (c : Costs) (nL : Nat) : Prop :=
  ∀ (t : Tree) (i : Inst) (D : Data), t.Over c.numFeatures nL → (∀ j ∈ i :: D, j.label < nL) →
    c.eval nL t [] (i :: D) ≤ c.eval nL t [] D + c.worst nL

/-- C19 fails with discounts: the declared worst case adds up the test costs in the order of the features (10 + 1),
but a path that measures the expensive attribute first pays 20 + 1. -/
theorem costs_worst_wrong : ∃ c : Costs, CostsOK c.attrs ∧ (∀ k, c.matrix k k = 0) ∧ ¬ CostsWorst c 2 := by
  refine ⟨twoAttrs, twoAttrs_ok, fun k => by simp [twoAttrs], fun h => ?_⟩
  have := h (.node 1 (.node 0 (.leaf 0) (.leaf 1)) (.leaf 1)) ⟨0, fun _ => false, 1⟩ []
    ⟨by decide, ⟨by decide, Nat.zero_lt_two, Nat.one_lt_two⟩, Nat.one_lt_two⟩ (by decide)
  revert this
  decide +kernel

private theorem no_group {A : List AttrCost} (hg : A.Pairwise fun a b => a.group ≠ b.group) {a b : AttrCost}
    (ha : a ∈ A) (hb : b ∈ A) (h : b.group = a.group) : b = a := by
  induction A with
  | nil => simp at ha
  | cons x A ih =>
    have h' := List.pairwise_cons.1 hg
    rcases List.mem_cons.1 ha with r | ha' <;> rcases List.mem_cons.1 hb with r' | hb'
    · rw [r, r']
    · exact absurd (r ▸ h.symm) (h'.1 b hb')
    · exact absurd (r' ▸ h) (h'.1 a ha')
    · exact ih h'.2 ha' hb'

private theorem testCost_single {A : List AttrCost} (hg : A.Pairwise fun a b => a.group ≠ b.group) (seen : List Nat) (f : Nat) :
    testCost A seen f = ((attrOf A f).map fun a => if seen.any a.has then 0 else a.cost).getD 0 := by
  unfold testCost
  cases h : attrOf A f with
  | none => rfl
  | some a =>
    show (if _ then _ else _) = (if _ then _ else _)
    by_cases hs : seen.any a.has = true
    · rw [if_pos hs, if_pos hs]
    · rw [if_neg hs, if_neg hs, if_neg]
      intro hn
      obtain ⟨g, hg', hb⟩ := List.any_eq_true.1 hn
      obtain ⟨b, hb, hb'⟩ := List.any_eq_true.1 hb
      simp only [Bool.and_eq_true, decide_eq_true_eq] at hb'
      have := no_group hg (has_of_attrOf h).1 hb hb'.1
      subst this
      exact hs (List.any_eq_true.2 ⟨g, hg', hb'.2⟩)

/-- The attributes that `fs` measures and `seen` does not, with their costs. -/
private def fresh (A : List AttrCost) (seen fs : List Nat) : Rat :=
  (A.map fun a => if !seen.any a.has && fs.any a.has then a.cost else 0).sum

private theorem fresh_cons {A : List AttrCost} (h : A.Pairwise fun a b => ∀ f, ¬ (a.has f = true ∧ b.has f = true))
    (seen fs : List Nat) (f : Nat) :
    fresh A seen (f :: fs) = ((attrOf A f).map fun a => if seen.any a.has then 0 else a.cost).getD 0 + fresh A (f :: seen) fs := by
  unfold fresh
  induction A with
  | nil => simp [attrOf]
  | cons a A ih =>
    have h' := List.pairwise_cons.1 h
    rw [List.map_cons, List.sum_cons, List.map_cons, List.sum_cons, ih h'.2]
    by_cases ha : a.has f = true
    · have hn : attrOf A f = none := by
        unfold attrOf; rw [List.find?_eq_none]; intro b hb hbf; exact h'.1 b hb f ⟨ha, hbf⟩
      have hs : attrOf (a :: A) f = some a := by
        unfold attrOf; rw [List.find?_cons_of_pos (by simpa using ha)]
      rw [hn, hs]
      simp only [List.any_cons, ha, Option.map_some, Option.getD_some, Option.map_none, Option.getD_none]
      generalize seen.any a.has = x
      cases x <;> simp
    · have hs : attrOf (a :: A) f = attrOf A f := by
        unfold attrOf; rw [List.find?_cons_of_neg (by simpa using ha)]
      rw [hs]
      have ha' : a.has f = false := by simpa using ha
      simp only [List.any_cons, ha', Bool.false_or]
      ring

private theorem testsCost_fresh {A : List AttrCost} (hA : CostsOK A) (hg : A.Pairwise fun a b => a.group ≠ b.group)
    (seen fs : List Nat) : testsCost A seen fs = fresh A seen fs := by
  induction fs generalizing seen with
  | nil => simp [testsCost, fresh]
  | cons f fs ih => rw [testsCost, ih, fresh_cons hA.2, testCost_single hg]

private theorem fresh_seen (A : List AttrCost) (seen seen' fs : List Nat)
    (h : ∀ a ∈ A, seen.any a.has = seen'.any a.has) : fresh A seen fs = fresh A seen' fs := by
  unfold fresh
  congr 1; apply List.map_congr_left; intro a ha; rw [h a ha]

private theorem totalFrom_fresh (c : Costs) (hc : CostsOK c.attrs) (hg : c.attrs.Pairwise fun a b => a.group ≠ b.group)
    (fs seen : List Nat) : c.totalFrom fs seen = fresh c.attrs seen fs := by
  induction fs generalizing seen with
  | nil => simp [Costs.totalFrom, fresh]
  | cons f fs ih =>
    have hstep := cost_step c hc seen f
    rw [fresh_cons hc.2, ← testCost_single hg, ← hstep]
    unfold Costs.totalFrom
    by_cases hs : seen.any (fun g => c.sameBin g f) = true
    · rw [if_pos hs, if_pos hs, ih, zero_add]
      apply fresh_seen
      intro a ha
      rw [List.any_cons]
      by_cases haf : a.has f = true
      · have hof := attrOf_of_has hc.2 ha haf
        have e1 : seen.any (fun g => c.sameBin g f) = seen.any a.has := by
          congr 1; funext g; exact sameBin_iff c hc g f a hof
        rw [← e1, hs, haf]; rfl
      · have : a.has f = false := by simpa using haf
        rw [this, Bool.false_or]
    · rw [if_neg hs, if_neg hs, ih]

private theorem fresh_mono (A : List AttrCost) (hn : ∀ a ∈ A, 0 ≤ a.cost) (fs gs : List Nat) (h : ∀ f ∈ fs, f ∈ gs) :
    fresh A [] fs ≤ fresh A [] gs := by
  unfold fresh
  apply List.sum_le_sum
  intro a ha
  have ha0 := hn a ha
  by_cases h1 : fs.any a.has = true
  · obtain ⟨f, hf, hx⟩ := List.any_eq_true.1 h1
    have h2 : gs.any a.has = true := List.any_eq_true.2 ⟨f, h f hf, hx⟩
    simp [h1, h2]
  · have h1' : fs.any a.has = false := by simpa using h1
    simp only [h1', Bool.and_false, Bool.false_eq_true, if_false]
    split <;> simp [ha0]

private theorem tests_lt {nF nL : Nat} {t : Tree} (h : t.Over nF nL) (i : Inst) : ∀ f ∈ t.tests i, f < nF := by
  induction t with
  | leaf k => simp [Tree.tests]
  | node f l r ihl ihr =>
    intro g hg
    simp only [Tree.tests, List.mem_cons] at hg
    rcases hg with rfl | hg
    · exact h.1
    · split at hg
      · exact ihr h.2.2 g hg
      · exact ihl h.2.1 g hg

private theorem foldl_max_ge (l : List Rat) (x : Rat) : x ≤ l.foldl max x ∧ ∀ y ∈ l, y ≤ l.foldl max x := by
  induction l generalizing x with
  | nil => simp
  | cons z l ih =>
    rw [List.foldl_cons]
    refine ⟨(le_max_left x z).trans (ih _).1, ?_⟩
    intro y hy
    rcases List.mem_cons.1 hy with rfl | hy
    · exact (le_max_right x y).trans (ih _).1
    · exact (ih _).2 y hy

private theorem maxMis_ge (c : Costs) (n i j : Nat) (hi : i < n) (hj : j < n) : c.matrix i j ≤ c.maxMis n := by
  unfold Costs.maxMis
  apply (foldl_max_ge _ _).2
  simp only [List.mem_flatMap, List.mem_map, List.mem_range]
  exact ⟨i, hi, j, hj, rfl⟩

/-- C19 holds when no two attributes share a group, so that there are no discounts, and test costs are not negative. -/
theorem costs_worst_partial (c : Costs) (nL : Nat) (hc : CostsOK c.attrs) (hz : ∀ k, c.matrix k k = 0)
    (hg : c.attrs.Pairwise fun a b => a.group ≠ b.group) (hn : ∀ a ∈ c.attrs, 0 ≤ a.cost) : CostsWorst c nL := by
  intro t i D ht hD
  rw [costs_tree c hc nL hz t (i :: D) hD, costs_tree c hc nL hz t D fun j hj => hD j (List.mem_cons_of_mem _ hj),
    List.map_cons, List.sum_cons]
  have h1 : c.matrix i.label (t.predict i) ≤ c.maxMis nL := maxMis_ge c nL _ _ (hD i (by simp)) (over_predict ht i)
  have h2 : testsCost c.attrs [] (t.tests i) ≤ c.totalTest := by
    unfold Costs.totalTest
    rw [totalFrom_fresh c hc hg, testsCost_fresh hc hg]
    exact fresh_mono _ hn _ _ fun f hf => List.mem_range.2 (tests_lt ht i f hf)
  unfold Costs.worst
  linarith

example : CostsWorst ⟨fun i j => if i = j then 0 else 1, [⟨10, 1, 0, 0, 0⟩, ⟨20, 1, 1, 1, 1⟩]⟩ 2 := by
  refine costs_worst_partial _ 2 ⟨by decide, ?_⟩ (fun k => by simp) (by decide) ?_
  · simp only [List.pairwise_cons, List.mem_cons, List.not_mem_nil, or_false, forall_eq, AttrCost.has,
      Bool.and_eq_true, decide_eq_true_eq]
    refine ⟨fun f h => by omega, by simp⟩
  · intro a ha
    simp only [List.mem_cons, List.not_mem_nil, or_false] at ha
    rcases ha with rfl | rfl <;> norm_num

private theorem any_swap (A : List AttrCost) (seen : List Nat) (n : Nat) :
    (seen.any fun g => A.any fun b => decide (b.group = n) && b.has g) =
      A.any fun b => decide (b.group = n) && seen.any b.has := by
  rw [Bool.eq_iff_iff]
  simp only [List.any_eq_true, Bool.and_eq_true, decide_eq_true_eq]
  constructor
  · rintro ⟨g, hg, b, hb, h1, h2⟩; exact ⟨b, hb, h1, g, hg, h2⟩
  · rintro ⟨b, hb, h1, g, hg, h2⟩; exact ⟨g, hg, b, hb, h1, h2⟩

private theorem any_congr_mem {α : Type} (l : List α) (p q : α → Bool) (h : ∀ a ∈ l, p a = q a) : l.any p = l.any q := by
  induction l with
  | nil => rfl
  | cons a l ih =>
    rw [List.any_cons, List.any_cons, h a (List.mem_cons_self ..), ih fun b hb => h b (List.mem_cons_of_mem _ hb)]

private theorem testCost_same {A : List AttrCost} {s s' : List Nat} (h : ∀ a ∈ A, s.any a.has = s'.any a.has) (f : Nat) :
    testCost A s f = testCost A s' f := by
  unfold testCost
  cases ha : attrOf A f with
  | none => rfl
  | some a =>
    have hm : a ∈ A := List.mem_of_find?_eq_some ha
    simp only [any_swap, h a hm]
    rw [any_congr_mem A _ (fun b => decide (b.group = a.group) && s'.any b.has) fun b hb => by rw [h b hb]]

private theorem testsCost_same {A : List AttrCost} (fs : List Nat) {s s' : List Nat} (h : ∀ a ∈ A, s.any a.has = s'.any a.has) :
    testsCost A s fs = testsCost A s' fs := by
  induction fs generalizing s s' with
  | nil => rfl
  | cons f fs ih =>
    unfold testsCost
    rw [testCost_same h, ih (s := f :: s) (s' := f :: s') fun a ha => by rw [List.any_cons, List.any_cons, h a ha]]

/-- The total that the code computes is what it costs to measure all features one after the other. -/
theorem costs_total (c : Costs) (hc : CostsOK c.attrs) : c.totalTest = testsCost c.attrs [] (List.range c.numFeatures) := by
  have key : ∀ fs seen, c.totalFrom fs seen = testsCost c.attrs seen fs := by
    intro fs
    induction fs with
    | nil => intro seen; rfl
    | cons f fs ih =>
      intro seen
      have hstep := cost_step c hc seen f
      unfold Costs.totalFrom testsCost
      rw [← hstep]
      by_cases hs : seen.any (fun g => c.sameBin g f) = true
      · rw [if_pos hs, if_pos hs, ih, zero_add]
        refine testsCost_same fs fun a ha => ?_
        rw [List.any_cons]
        by_cases haf : a.has f = true
        · obtain ⟨g, hg, hgf⟩ := List.any_eq_true.1 hs
          obtain ⟨b, hb, hbb⟩ := List.any_eq_true.1 hgf
          simp only [Bool.and_eq_true, decide_eq_true_eq] at hbb
          have e1 : b.has f = true := by simp only [AttrCost.has, Bool.and_eq_true, decide_eq_true_eq]; omega
          have e2 : b.has g = true := by simp only [AttrCost.has, Bool.and_eq_true, decide_eq_true_eq]; omega
          have : a = b := Option.some.inj ((attrOf_of_has hc.2 ha haf).symm.trans (attrOf_of_has hc.2 hb e1))
          subst this
          rw [haf, List.any_eq_true.2 ⟨g, hg, e2⟩]; rfl
        · rw [Bool.not_eq_true] at haf
          rw [haf]; rfl
      · rw [if_neg hs, if_neg hs, ih]
  exact key _ _

example : twoAttrs.totalTest = 11 ∧ testsCost twoAttrs.attrs [] (List.range twoAttrs.numFeatures) = 11 := by decide +kernel

end Streed
