import Verif.Model.TestScore
import Verif.Props.Trees
import Verif.Props.Fairness

/-!
# Lemmas for C89: loading rows and walking through a tree
-/

namespace Streed

open TaskLemmas

/-- The number of tests that a tree makes on a row. -/
def Tree.asked (i : Inst) : Tree → Nat
  | .leaf _ => 0
  | .node f l r => (if i.feat f then r.asked i else l.asked i) + 1

/-- All leaves satisfy `P`. -/
def Tree.LeafAll (P : Nat → Prop) : Tree → Prop
  | .leaf k => P k
  | .node _ l r => l.LeafAll P ∧ r.LeafAll P

/-- Every label group holds rows of that label only. -/
def GroupedBy (gs : List Data) : Prop := ∀ k, ∀ i ∈ gs.getD k [], i.label = k

namespace TestLemmas

/-! ### Loading -/

theorem getD_modify (gs : List Data) (m k : Nat) (g : Data → Data) (hm : m < gs.length) :
    (gs.modify m g).getD k [] = if k = m then g (gs.getD k []) else gs.getD k [] := by
  rw [List.getD_eq_getElem?_getD, List.getD_eq_getElem?_getD, List.getElem?_modify]
  by_cases h : k = m
  · subst h
    rw [if_pos rfl, List.getElem?_eq_getElem hm]
    simp
  · rw [if_neg h]
    have : ¬ m = k := fun e => h e.symm
    cases gs[k]? <;> simp [this]

theorem getD_pad (gs : List Data) (n k : Nat) : (gs ++ List.replicate n []).getD k [] = gs.getD k [] := by
  rw [List.getD_eq_getElem?_getD, List.getD_eq_getElem?_getD]
  by_cases h : k < gs.length
  · rw [List.getElem?_append_left h]
  · rw [List.getElem?_append_right (by omega), List.getElem?_eq_none (l := gs) (by omega), List.getElem?_replicate]
    split <;> rfl

theorem flatten_pad (gs : List Data) (n : Nat) : (gs ++ List.replicate n []).flatten = gs.flatten := by
  rw [List.flatten_append, List.flatten_replicate_nil, List.append_nil]

theorem flatten_modify (gs : List Data) (m : Nat) (i : Inst) (hm : m < gs.length) :
    (gs.modify m (· ++ [i])).flatten.Perm (i :: gs.flatten) := by
  induction gs generalizing m with
  | nil => cases hm
  | cons g gs ih =>
    cases m with
    | zero =>
      simp only [List.modify_zero_cons, List.flatten_cons, List.append_assoc, List.singleton_append]
      exact List.perm_middle
    | succ m =>
      rw [List.modify_succ_cons, List.flatten_cons, List.flatten_cons]
      exact ((ih m (Nat.lt_of_succ_lt_succ hm)).append_left g).trans List.perm_middle

theorem loadRow_spec (gs : List Data) (i : Inst) (h : GroupedBy gs) :
    GroupedBy (loadRow gs i) ∧ (loadRow gs i).flatten.Perm (i :: gs.flatten) ∧
      (loadRow gs i).length = max gs.length (i.label + 1) := by
  unfold loadRow
  by_cases hl : gs.length ≤ i.label
  · rw [if_pos hl]
    have hm : i.label < (gs ++ List.replicate (i.label + 1 - gs.length) []).length := by
      rw [List.length_append, List.length_replicate]; omega
    refine ⟨fun k j hj => ?_, ?_, ?_⟩
    · rw [getD_modify _ _ _ _ hm, getD_pad] at hj
      split at hj
      · rename_i e
        rcases List.mem_append.1 hj with hj | hj
        · exact h k j hj
        · rw [List.mem_singleton.1 hj, e]
      · exact h k j hj
    · have := flatten_modify _ _ i hm
      rwa [flatten_pad] at this
    · rw [List.length_modify, List.length_append, List.length_replicate]; omega
  · rw [if_neg hl]
    have hm : i.label < gs.length := by omega
    refine ⟨fun k j hj => ?_, flatten_modify _ _ i hm, ?_⟩
    · rw [getD_modify _ _ _ _ hm] at hj
      split at hj
      · rename_i e
        rcases List.mem_append.1 hj with hj | hj
        · exact h k j hj
        · rw [List.mem_singleton.1 hj, e]
      · exact h k j hj
    · rw [List.length_modify]; omega

theorem load_aux (D : Data) (gs : List Data) (h : GroupedBy gs) :
    GroupedBy (D.foldl loadRow gs) ∧ (D.foldl loadRow gs).flatten.Perm (D ++ gs.flatten) ∧
      ∀ k, k < (D.foldl loadRow gs).length ↔ k < gs.length ∨ ∃ i ∈ D, k ≤ i.label := by
  induction D generalizing gs with
  | nil => exact ⟨h, List.Perm.refl _, fun k => by simp⟩
  | cons i D ih =>
    obtain ⟨a, b, c⟩ := loadRow_spec gs i h
    obtain ⟨p, q, r⟩ := ih (loadRow gs i) a
    refine ⟨p, ?_, fun k => ?_⟩
    · refine q.trans ((b.append_left D).trans ?_)
      rw [List.cons_append]
      exact List.perm_middle
    · rw [List.foldl_cons, r k, c]
      constructor
      · rintro (h | ⟨j, hj, hk⟩)
        · by_cases hg : k < gs.length
          · exact .inl hg
          · exact .inr ⟨i, List.mem_cons_self .., by omega⟩
        · exact .inr ⟨j, List.mem_cons_of_mem _ hj, hk⟩
      · rintro (h | ⟨j, hj, hk⟩)
        · exact .inl (by omega)
        · rcases List.mem_cons.1 hj with rfl | hj
          · exact .inl (by omega)
          · exact .inr ⟨j, hj, hk⟩

/-- Loading keeps every row, puts it in the group of its label, and makes groups up to the largest label. -/
theorem load_spec (D : Data) : GroupedBy (loadRows D).groups ∧ (loadRows D).rows.Perm D ∧ (loadRows D).OK ∧
    ∀ k, k < (loadRows D).groups.length ↔ ∃ i ∈ D, k ≤ i.label := by
  obtain ⟨a, b, c⟩ := load_aux D [] (fun k i hi => by simp at hi)
  refine ⟨a, by simpa [loadRows, View.rows, View.ofGroups] using b, View.ofGroups_size _, fun k => ?_⟩
  have := c k
  simp only [List.length_nil, Nat.not_lt_zero, false_or] at this
  exact this

/-! ### Views -/

theorem size_rows {v : View} (h : v.OK) : v.size = v.rows.length := by
  rw [h, View.rows, List.length_flatten]

theorem grouped_filter {gs : List Data} (h : GroupedBy gs) (p : Inst → Bool) : GroupedBy (gs.map fun g => g.filter p) := by
  intro k i hi
  refine h k i ?_
  rw [List.getD_eq_getElem?_getD, List.getElem?_map] at hi
  rw [List.getD_eq_getElem?_getD]
  cases hg : gs[k]? with
  | none => rw [hg] at hi; exact hi
  | some g => rw [hg] at hi; exact (List.mem_filter.1 hi).1

theorem flip_grouped {v : View} (fl : List Nat) (h : GroupedBy v.groups) : GroupedBy (preprocessTest fl v).groups := by
  intro k i hi
  rw [preprocessTest, List.getD_eq_getElem?_getD, List.getElem?_map] at hi
  have hk := h k
  rw [List.getD_eq_getElem?_getD] at hk
  cases hg : v.groups[k]? with
  | none => rw [hg] at hi; cases hi
  | some g =>
    rw [hg] at hi hk
    obtain ⟨j, hj, rfl⟩ := List.mem_map.1 hi
    exact hk j hj

theorem flip_ok {v : View} (fl : List Nat) (h : v.OK) : (preprocessTest fl v).OK := by
  unfold View.OK preprocessTest at *
  rw [h, List.map_map]
  congr 1
  exact List.map_congr_left fun g _ => (List.length_map _).symm

theorem flip_groups_length (fl : List Nat) (v : View) : (preprocessTest fl v).groups.length = v.groups.length :=
  List.length_map _

/-- The size of a label group is the number of rows of that label. -/
theorem group_length_aux (gs : List Data) (n k : Nat) (h : ∀ m, ∀ i ∈ gs.getD m [], i.label = n + m) :
    numLabel gs.flatten (n + k) = (gs.getD k []).length := by
  induction gs generalizing n k with
  | nil => simp [numLabel]
  | cons g gs ih =>
    have h0 : ∀ i ∈ g, i.label = n := fun i hi => h 0 i hi
    have e : numLabel (g ++ gs.flatten) (n + k) = numLabel g (n + k) + numLabel gs.flatten (n + k) := by
      unfold numLabel; rw [List.filter_append, List.length_append]
    have hs : ∀ m, ∀ i ∈ gs.getD m [], i.label = (n + 1) + m := fun m i hi => by
      have := h (m + 1) i hi
      omega
    rw [List.flatten_cons, e]
    cases k with
    | zero =>
      have e1 : numLabel g (n + 0) = g.length := by
        unfold numLabel
        rw [List.filter_eq_self.2 (by intro i hi; simpa using h0 i hi)]
      have e2 : numLabel gs.flatten (n + 0) = 0 := by
        unfold numLabel
        rw [List.length_eq_zero_iff, List.filter_eq_nil_iff]
        intro i hi
        obtain ⟨g', hg', hi'⟩ := List.mem_flatten.1 hi
        obtain ⟨m, hm, rfl⟩ := List.getElem_of_mem hg'
        have := hs m i (by rw [List.getD_eq_getElem?_getD, List.getElem?_eq_getElem hm]; exact hi')
        simp only [decide_eq_true_eq]
        omega
      rw [e1, e2]; rfl
    | succ k =>
      have e1 : numLabel g (n + (k + 1)) = 0 := by
        unfold numLabel
        rw [List.length_eq_zero_iff, List.filter_eq_nil_iff]
        intro i hi
        have := h0 i hi
        simp only [decide_eq_true_eq]
        omega
      rw [e1, Nat.zero_add, show n + (k + 1) = (n + 1) + k by omega, ih (n + 1) k hs]
      rfl

theorem group_length {v : View} (h : GroupedBy v.groups) (k : Nat) : (v.groups.getD k []).length = numLabel v.rows k := by
  have := group_length_aux v.groups 0 k (fun m i hi => by rw [Nat.zero_add]; exact h m i hi)
  rw [Nat.zero_add] at this
  exact this.symm

theorem groupSize_flatten (x : Bool) (gs : List Data) : (gs.map (groupSize x)).sum = groupSize x gs.flatten := by
  induction gs with
  | nil => rfl
  | cons g gs ih =>
    rw [List.map_cons, List.sum_cons, ih, List.flatten_cons]
    unfold groupSize
    rw [List.filter_append, List.length_append]

theorem group_some {v : View} (h : GroupedBy v.groups) {k : Nat} (hk : k < v.groups.length) :
    ∃ g, v.groups[k]? = some g ∧ g.length = numLabel v.rows k ∧ g = v.groups.getD k [] := by
  refine ⟨v.groups[k], List.getElem?_eq_getElem hk, ?_, ?_⟩
  · rw [← group_length h, List.getD_eq_getElem?_getD, List.getElem?_eq_getElem hk]; rfl
  · rw [List.getD_eq_getElem?_getD, List.getElem?_eq_getElem hk]; rfl

/-! ### Leaf costs of views -/

theorem accLeafV_eq {v : View} (h : GroupedBy v.groups) (k : Nat) :
    accLeafV v k = some (accLeafCosts v.groups.length v.rows k) := by
  unfold accLeafV accLeafCosts
  congr 2
  funext e j
  rw [group_length h]

theorem f1LeafV_eq {v : View} (h : GroupedBy v.groups) (hv : v.OK) {k : Nat} (hk : k < v.groups.length) :
    f1LeafV v k = some (f1LeafCosts v.rows k) := by
  obtain ⟨g, e1, e2, _⟩ := group_some h hk
  unfold f1LeafV f1LeafCosts
  rw [e1, Option.map_some, e2, size_rows hv]

theorem gfLeafV_eq (G : Groups) {v : View} (h : GroupedBy v.groups) (hv : v.OK) (h2 : 1 < v.groups.length) (k : Nat) :
    gfLeafV G v k = some (gfLeaf G v.rows k) := by
  obtain ⟨g, e1, e2, _⟩ := group_some h h2
  obtain ⟨g', e1', e2', _⟩ := group_some h (Nat.lt_of_succ_lt h2)
  unfold gfLeafV gfLeaf
  dsimp only
  rw [e1, e1', groupSize_flatten, size_rows hv, Option.map_some, Option.map_some, e2, e2']
  unfold View.rows
  split <;> rfl

theorem positives_group_aux (gs : List Data) (h : GroupedBy gs) : positives gs.flatten = gs.getD 1 [] := by
  unfold positives
  rw [List.filter_flatten]
  cases gs with
  | nil => rfl
  | cons g gs =>
    have h0 : g.filter (fun i => decide (i.label = 1)) = [] := by
      rw [List.filter_eq_nil_iff]
      intro i hi
      have := h 0 i hi
      simp only [decide_eq_true_eq]
      omega
    cases gs with
    | nil =>
      rw [List.map_cons, h0]
      rfl
    | cons g1 gs =>
      have h1 : g1.filter (fun i => decide (i.label = 1)) = g1 :=
        List.filter_eq_self.2 (by intro i hi; simpa using h 1 i hi)
      have h2 : (gs.map (List.filter fun i => decide (i.label = 1))).flatten = [] := by
        rw [List.flatten_eq_nil_iff]
        intro l hl
        obtain ⟨g', hg', rfl⟩ := List.mem_map.1 hl
        rw [List.filter_eq_nil_iff]
        intro i hi
        obtain ⟨m, hm, rfl⟩ := List.getElem_of_mem hg'
        have := h (m + 2) i (by
          rw [List.getD_eq_getElem?_getD, List.getElem?_cons_succ, List.getElem?_cons_succ, List.getElem?_eq_getElem hm]; exact hi)
        simp only [decide_eq_true_eq]
        omega
      rw [List.map_cons, List.map_cons, h0, h1, List.flatten_cons, List.flatten_cons, h2, List.append_nil]
      rfl

theorem eoLeafV_eq (G : Groups) {v : View} (h : GroupedBy v.groups) (h2 : 1 < v.groups.length) (k : Nat) :
    eoLeafV G v k = some (eoLeaf G v.rows k) := by
  obtain ⟨g, e1, e2, e3⟩ := group_some h h2
  obtain ⟨g', e1', e2', _⟩ := group_some h (Nat.lt_of_succ_lt h2)
  have hp : positives v.rows = g := by rw [e3]; exact positives_group_aux _ h
  unfold eoLeafV eoLeaf
  dsimp only
  rw [e1, e1', hp, ← e2, ← e2']
  rfl

/-! ### The walk -/

theorem asked_sum (f : Nat) (l r : Tree) (D : Data) :
    (D.map fun i => (Tree.node f l r).asked i + 1).sum =
      D.length + ((without f D).map fun i => l.asked i + 1).sum + ((having f D).map fun i => r.asked i + 1).sum := by
  induction D with
  | nil => rfl
  | cons i D ih =>
    rw [List.map_cons, List.sum_cons, ih]
    cases h : i.feat f
    · have e1 : without f (i :: D) = i :: without f D := by unfold without; rw [List.filter_cons_of_pos (by simp [h])]
      have e2 : having f (i :: D) = having f D := by unfold having; rw [List.filter_cons_of_neg (by simp [h])]
      rw [e1, e2, List.map_cons, List.sum_cons, List.length_cons]
      simp only [Tree.asked, h, Bool.false_eq_true, if_false]
      omega
    · have e1 : without f (i :: D) = without f D := by unfold without; rw [List.filter_cons_of_neg (by simp [h])]
      have e2 : having f (i :: D) = i :: having f D := by unfold having; rw [List.filter_cons_of_pos (by simp [h])]
      rw [e1, e2, List.map_cons, List.sum_cons, List.length_cons]
      simp only [Tree.asked, h, if_true]
      omega

/-- The walk through a tree, with the children exchanged below flipped features, adds up the leaf costs of the tree and, per row, the
number of tests plus one. -/
theorem walk_eq_on {S : Type} (fl : List Nat) (add : S → S → S) (hass : ∀ a b c, add (add a b) c = add a (add b c))
    (leaf : View → Nat → Option S) (leafD : Data → Nat → S) (n : Nat) (P : Nat → Prop) (Q : Inst → Prop)
    (hleaf : ∀ v k, v.OK → GroupedBy v.groups → v.groups.length = n → (∀ i ∈ v.rows, Q i) → P k → leaf v k = some (leafD v.rows k))
    (t : Tree) (ht : t.LeafAll P) (v : View) (hok : v.OK) (hg : GroupedBy v.groups) (hn : v.groups.length = n)
    (hq : ∀ i ∈ v.rows, Q i) (acc : S × Nat) :
    (Obj.ofTree t).testWalk fl add leaf v acc =
      some (add acc.1 (evalTree add leafD (unflip (flipSet fl) t) v.rows),
        acc.2 + (v.rows.map fun i => (unflip (flipSet fl) t).asked i + 1).sum) := by
  induction t generalizing v acc with
  | leaf k =>
    simp only [Obj.ofTree, Obj.label, Obj.testWalk, unflip, evalTree, Tree.asked]
    rw [hleaf v k hok hg hn hq ht, Option.map_some, size_rows hok]
    simp
  | node f l r ihl ihr =>
    obtain ⟨s1, s2⟩ := split_rows v f
    obtain ⟨g1, g2⟩ := split_groups v f
    obtain ⟨_, _, o1, o2, _⟩ := split_sizes v f hok
    have gr1 : GroupedBy (v.split f).1.groups := by rw [g1]; exact grouped_filter hg _
    have gr2 : GroupedBy (v.split f).2.groups := by rw [g2]; exact grouped_filter hg _
    have n1 : (v.split f).1.groups.length = n := by rw [g1, List.length_map, hn]
    have n2 : (v.split f).2.groups.length = n := by rw [g2, List.length_map, hn]
    have q1 : ∀ i ∈ (v.split f).1.rows, Q i := fun i hi => hq i (List.mem_of_mem_filter (s1 ▸ hi))
    have q2 : ∀ i ∈ (v.split f).2.rows, Q i := fun i hi => hq i (List.mem_of_mem_filter (s2 ▸ hi))
    simp only [Obj.ofTree, Obj.feature, Obj.testWalk]
    by_cases hf : f < fl.length ∧ fl.getD f 0 = 1
    · have hs : flipSet fl f = true := by unfold flipSet; rw [hf.2]; rfl
      rw [if_pos hf, ihr ht.2 _ o1 gr1 n1 q1]
      simp only [Option.bind_eq_bind, Option.bind_some]
      rw [ihl ht.1 _ o2 gr2 n2 q2, unflip, if_pos hs]
      simp only [evalTree, asked_sum, s1, s2, hass, size_rows hok]
      rw [show ∀ a b c d : Nat, a + b + c + d = a + (b + c + d) by omega]
    · have hs : flipSet fl f = false := by
        unfold flipSet
        by_cases h1 : f < fl.length
        · exact beq_false_of_ne fun e => hf ⟨h1, e⟩
        · rw [List.getD_eq_getElem?_getD, List.getElem?_eq_none (by omega)]; rfl
      rw [if_neg hf, ihl ht.1 _ o1 gr1 n1 q1]
      simp only [Option.bind_eq_bind, Option.bind_some]
      rw [ihr ht.2 _ o2 gr2 n2 q2, unflip, hs, if_neg (by simp)]
      simp only [evalTree, asked_sum, s1, s2, hass, size_rows hok]
      rw [show ∀ a b c d : Nat, a + b + c + d = a + (b + c + d) by omega]

/-- The same when the leaf costs can be computed for all rows. -/
theorem walk_eq {S : Type} (fl : List Nat) (add : S → S → S) (hass : ∀ a b c, add (add a b) c = add a (add b c))
    (leaf : View → Nat → Option S) (leafD : Data → Nat → S) (n : Nat) (P : Nat → Prop)
    (hleaf : ∀ v k, v.OK → GroupedBy v.groups → v.groups.length = n → P k → leaf v k = some (leafD v.rows k))
    (t : Tree) (ht : t.LeafAll P) (v : View) (hok : v.OK) (hg : GroupedBy v.groups) (hn : v.groups.length = n) (acc : S × Nat) :
    (Obj.ofTree t).testWalk fl add leaf v acc =
      some (add acc.1 (evalTree add leafD (unflip (flipSet fl) t) v.rows),
        acc.2 + (v.rows.map fun i => (unflip (flipSet fl) t).asked i + 1).sum) :=
  walk_eq_on fl add hass leaf leafD n P (fun _ => True) (fun v k a b c _ d => hleaf v k a b c d) t ht v hok hg hn
    (fun _ _ => trivial) acc

/-- If some leaf cannot be evaluated on any view with this number of label groups, neither can the tree. -/
theorem walk_none {S : Type} (fl : List Nat) (add : S → S → S) (leaf : View → Nat → Option S) (n : Nat) (P : Nat → Prop)
    (hleaf : ∀ v k, v.groups.length = n → P k → leaf v k = none) (t : Tree) (ht : ¬ t.LeafAll fun k => ¬ P k) (v : View)
    (hn : v.groups.length = n) (acc : S × Nat) : (Obj.ofTree t).testWalk fl add leaf v acc = none := by
  induction t generalizing v acc with
  | leaf k =>
    have hp : P k := by
      by_contra h
      exact ht h
    simp only [Obj.ofTree, Obj.label, Obj.testWalk]
    rw [hleaf v k hn hp]
    rfl
  | node f l r ihl ihr =>
    obtain ⟨g1, g2⟩ := split_groups v f
    have n1 : (v.split f).1.groups.length = n := by rw [g1, List.length_map, hn]
    have n2 : (v.split f).2.groups.length = n := by rw [g2, List.length_map, hn]
    simp only [Obj.ofTree, Obj.feature, Obj.testWalk]
    by_cases hl : l.LeafAll fun k => ¬ P k
    · have hr : ¬ r.LeafAll fun k => ¬ P k := fun h => ht ⟨hl, h⟩
      split
      · rw [ihr hr _ n1]; rfl
      · cases (Obj.ofTree l).testWalk fl add leaf (v.split f).1 (acc.1, acc.2 + v.size) with
        | none => rfl
        | some a => exact ihr hr _ n2 a
    · split
      · cases (Obj.ofTree r).testWalk fl add leaf (v.split f).1 (acc.1, acc.2 + v.size) with
        | none => rfl
        | some a => exact ihl hl _ n2 a
      · rw [ihl hl _ n1]; rfl

/-! ### Back to the rows as given -/

theorem unflip_predict (fl : Nat → Bool) (t : Tree) (i : Inst) : (unflip fl t).predict (flipInst fl i) = t.predict i := by
  rw [flip_predict, flipInst_flipInst]

theorem unflip_asked (fl : Nat → Bool) (t : Tree) (i : Inst) : (unflip fl t).asked (flipInst fl i) = t.asked i := by
  induction t with
  | leaf k => rfl
  | node f l r ihl ihr =>
    unfold unflip
    cases hf : fl f <;> cases hi : i.feat f <;> simp [Tree.asked, flipInst, hf, hi] at * <;> assumption

theorem unflip_over {nF nL : Nat} (fl : Nat → Bool) {t : Tree} (h : t.Over nF nL) : (unflip fl t).Over nF nL := by
  induction t with
  | leaf k => exact h
  | node f l r ihl ihr =>
    unfold unflip
    split
    · exact ⟨h.1, ihr h.2.2, ihl h.2.1⟩
    · exact ⟨h.1, ihl h.2.1, ihr h.2.2⟩

theorem over_leaves {nF nL : Nat} {t : Tree} (h : t.Over nF nL) : t.LeafAll (· < nL) := by
  induction t with
  | leaf k => exact h
  | node f l r ihl ihr => exact ⟨ihl h.2.1, ihr h.2.2⟩

/-- What the solver sees: the rows in some order, negated. -/
theorem seen_perm (fl : List Nat) (D : Data) : (preprocessTest fl (loadRows D)).rows.Perm (D.map (flipInst (flipSet fl))) := by
  rw [preprocessTest_rows]
  exact (load_spec D).2.1.map _

theorem seen_count (fl : List Nat) (D : Data) (p q : Inst → Bool) (h : ∀ i, p (flipInst (flipSet fl) i) = q i) :
    (preprocessTest fl (loadRows D)).rows.countP p = D.countP q := by
  rw [(seen_perm fl D).countP_eq, List.countP_map]
  congr 1
  funext i
  exact h i

theorem seen_size (fl : List Nat) (D : Data) : (preprocessTest fl (loadRows D)).size = D.length := by
  rw [size_rows (flip_ok fl (load_spec D).2.2.1), (seen_perm fl D).length_eq, List.length_map]

theorem seen_length (fl : List Nat) (D : Data) : (preprocessTest fl (loadRows D)).rows.length = D.length := by
  rw [(seen_perm fl D).length_eq, List.length_map]

theorem seen_labels (fl : List Nat) (D : Data) (n : Nat) (h : ∀ i ∈ D, i.label < n) :
    ∀ i ∈ (preprocessTest fl (loadRows D)).rows, i.label < n := by
  intro i hi
  obtain ⟨j, hj, rfl⟩ := List.mem_map.1 ((seen_perm fl D).mem_iff.1 hi)
  exact h j hj

theorem seen_groups (fl : List Nat) (D : Data) (k : Nat) :
    k < (preprocessTest fl (loadRows D)).groups.length ↔ ∃ i ∈ D, k ≤ i.label := by
  rw [flip_groups_length]
  exact (load_spec D).2.2.2 k

theorem seen_ok (fl : List Nat) (D : Data) : (preprocessTest fl (loadRows D)).OK := flip_ok fl (load_spec D).2.2.1

theorem seen_grouped (fl : List Nat) (D : Data) : GroupedBy (preprocessTest fl (loadRows D)).groups :=
  flip_grouped fl (load_spec D).1

end TestLemmas

end Streed
