import Verif.Model.TreeObj
import Verif.Props.Paths
import Verif.Props.Split
import Verif.Lemmas.Preprocess

/-!
# C53: tree shape, and C26: flipped features do not change predictions
-/

namespace Streed

/-- The linked tree that represents a tree. -/
def Obj.ofTree : Tree → Obj
  | .leaf k => .label k
  | .node f l r => .feature f (ofTree l) (ofTree r)

/-- C53: the depth and node queries are defined and give the depth and the node count of the tree. -/
theorem shape_queries (t : Tree) : (Obj.ofTree t).depth = some t.depth ∧ (Obj.ofTree t).numNodes = some t.nodes := by
  induction t with
  | leaf k => exact ⟨rfl, rfl⟩
  | node f l r ihl ihr =>
    simp [Obj.ofTree, Obj.feature, Obj.depth, Obj.numNodes, ihl, ihr, Tree.depth, Tree.nodes]

/-- C53: node count is below `2^depth`, and there is one leaf more than there are nodes. -/
theorem shape_bounds (t : Tree) : t.nodes ≤ 2 ^ t.depth - 1 ∧ t.depth ≤ t.nodes ∧ t.leaves = t.nodes + 1 := by
  refine ⟨by have := t.nodes_lt_pow; omega, t.depth_le_nodes, ?_⟩
  induction t with
  | leaf k => rfl
  | node f l r ihl ihr => simp only [Tree.leaves, Tree.nodes, ihl, ihr]; omega

/-- The leaves of a tree, each with the decisions on the way to it. -/
def Tree.routes : Tree → List (List Decision × Nat)
  | .leaf k => [([], k)]
  | .node f l r => l.routes.map (fun p => ((f, false) :: p.1, p.2)) ++ r.routes.map (fun p => ((f, true) :: p.1, p.2))

/-- The instance satisfies all decisions of a route. -/
def follows (i : Inst) (p : List Decision × Nat) : Bool := p.1.all fun d => i.feat d.1 == d.2

/-- C53: there are as many routes as leaves; every instance follows exactly one of them, and gets its label. -/
theorem one_leaf (t : Tree) (i : Inst) :
    t.routes.length = t.leaves ∧ ∃ p, t.routes.filter (follows i) = [p] ∧ p.2 = t.predict i := by
  have aux : ∀ (x : Bool) (f : Nat) (L : List (List Decision × Nat)),
      (L.map (fun p => ((f, x) :: p.1, p.2))).filter (follows i) =
      if i.feat f = x then (L.filter (follows i)).map (fun p => ((f, x) :: p.1, p.2)) else [] := by
    intro x f L
    induction L with
    | nil => simp
    | cons p L ih =>
      simp only [List.map_cons, List.filter_cons, ih]
      by_cases h : i.feat f = x
      · have e : follows i ((f, x) :: p.1, p.2) = follows i p := by simp [follows, h]
        rw [e]
        by_cases h' : follows i p = true <;> simp [h, h']
      · simp [follows, h]
  induction t with
  | leaf k => exact ⟨rfl, ([], k), rfl, rfl⟩
  | node f l r ihl ihr =>
    refine ⟨by simp [Tree.routes, Tree.leaves, ihl.1, ihr.1], ?_⟩
    simp only [Tree.routes, List.filter_append, aux]
    obtain ⟨_, p, hp, hp'⟩ := ihl
    obtain ⟨_, q, hq, hq'⟩ := ihr
    cases h : i.feat f
    · refine ⟨((f, false) :: p.1, p.2), ?_, ?_⟩
      · simp [hp]
      · simp [Tree.predict, h, hp']
    · refine ⟨((f, true) :: q.1, q.2), ?_, ?_⟩
      · simp [hq]
      · simp [Tree.predict, h, hq']

/-! ### Flips -/

/-- The flips as a set: `flipped_features` holds 0 or 1 per feature. -/
def flipSet (fl : List Nat) (f : Nat) : Bool := fl.getD f 0 == 1

/-- Features of a tree are below `n`. -/
def Tree.Below (n : Nat) : Tree → Prop
  | .leaf _ => True
  | .node f l r => f < n ∧ l.Below n ∧ r.Below n

/-- C26: converting the tree back exchanges the children below every flipped feature, nothing else. -/
theorem flip_tree (fl : List Nat) (h01 : ∀ x ∈ fl, x = 0 ∨ x = 1) (t : Tree) (ht : t.Below fl.length) :
    (Obj.ofTree t).flip fl = some (Obj.ofTree (unflip (flipSet fl) t)) := by
  induction t with
  | leaf k => rfl
  | node f l r ihl ihr =>
    obtain ⟨h1, h2, h3⟩ := ht
    simp only [Obj.ofTree, Obj.feature, Obj.flip]
    rw [if_neg (by omega), ihl h2, ihr h3]
    simp only [Option.bind_eq_bind, Option.bind_some, Option.pure_def, Option.some.injEq]
    have hx : fl.getD f 0 = 0 ∨ fl.getD f 0 = 1 := by
      rw [List.getD_eq_getElem?_getD, List.getElem?_eq_getElem h1]
      exact h01 _ (List.getElem_mem h1)
    rcases hx with hx | hx
    · have hs : flipSet fl f = false := by unfold flipSet; rw [hx]; rfl
      rw [if_neg (by rw [hx]; decide), unflip, hs]
      rfl
    · have hs : flipSet fl f = true := by unfold flipSet; rw [hx]; rfl
      rw [if_pos (by rw [hx]; decide), unflip, hs]
      rfl

/-- C26: with an empty list of flips (as in hyper-parameter tuning) the tree stays as it is. -/
theorem flip_none (t : Tree) : (Obj.ofTree t).flip [] = some (Obj.ofTree t) := by
  cases t <;> rfl

/-- C26: the tree that was converted back gives an original instance the label that the internal tree gives the
negated instance. -/
theorem flip_predict (fl : Nat → Bool) (t : Tree) (i : Inst) :
    (unflip fl t).predict i = t.predict (flipInst fl i) := by
  induction t with
  | leaf k => rfl
  | node f l r ihl ihr =>
    unfold unflip
    cases hf : fl f <;> cases hi : i.feat f <;> simp [Tree.predict, flipInst, hf, hi] at * <;> assumption

/-- C26: for training data, where redundant features are switched off too, the same holds for trees that do not
test a redundant feature. -/
theorem flip_predict_train (fl red : Nat → Bool) (t : Tree) (i : Inst)
    (hred : ∀ p ∈ t.routes, ∀ d ∈ p.1, red d.1 = false) :
    (unflip fl t).predict i = t.predict (prepInst fl red i) := by
  induction t with
  | leaf k => rfl
  | node f l r ihl ihr =>
    have hne : ∀ s : Tree, s.routes ≠ [] := fun s => by
      cases s with
      | leaf k => simp [Tree.routes]
      | node g a b =>
        intro h
        have h1 := (one_leaf (.node g a b) i).1
        have h2 := (shape_bounds (.node g a b)).2.2
        rw [h] at h1
        simp only [List.length_nil] at h1
        omega
    have hf : red f = false := by
      obtain ⟨p, hp⟩ := List.exists_mem_of_ne_nil _ (hne l)
      exact hred ((f, false) :: p.1, p.2)
        (List.mem_append_left _ (List.mem_map_of_mem (f := fun p => ((f, false) :: p.1, p.2)) hp)) (f, false)
        (List.mem_cons_self ..)
    have h1 := ihl fun p hp d hd => hred ((f, false) :: p.1, p.2)
        (List.mem_append_left _ (List.mem_map_of_mem (f := fun p => ((f, false) :: p.1, p.2)) hp)) d
        (List.mem_cons_of_mem _ hd)
    have h2 := ihr fun p hp d hd => hred ((f, true) :: p.1, p.2)
        (List.mem_append_right _ (List.mem_map_of_mem (f := fun p => ((f, true) :: p.1, p.2)) hp)) d
        (List.mem_cons_of_mem _ hd)
    unfold unflip
    cases hx : fl f <;> cases hi : i.feat f <;> simp [Tree.predict, prepInst, hf, hx, hi] at * <;> assumption

/-! ### Classification -/

/-- What classification of a dataset must do to the vector of labels: the entry of every row becomes the prediction
for that row, all other entries stay. -/
def Labelled (g : Inst → Nat) (D : Data) (labels labels' : List Nat) : Prop :=
  labels'.length = labels.length ∧ (∀ i ∈ D, labels'.getD i.id 0 = g i) ∧
  ∀ j, (∀ i ∈ D, i.id ≠ j) → labels'.getD j 0 = labels.getD j 0

theorem write_leaf (k : Nat) (D : Data) (labels : List Nat) (h : ∀ i ∈ D, i.id < labels.length) :
    ∃ labels', D.foldlM (fun ls (i : Inst) => Obj.write ls i.id k) labels = some labels' ∧
      Labelled (fun _ => k) D labels labels' := by
  induction D generalizing labels with
  | nil => exact ⟨labels, rfl, rfl, by simp, fun _ _ => rfl⟩
  | cons i D ih =>
    have h0 := h i (List.mem_cons_self ..)
    have e : Obj.write labels i.id k = some (labels.set i.id k) := if_pos h0
    obtain ⟨ls, e1, a, b, c⟩ := ih (labels.set i.id k) (by
      intro j hj; rw [List.length_set]; exact h j (List.mem_cons_of_mem _ hj))
    refine ⟨ls, by rw [List.foldlM_cons, e]; exact e1, by rw [a, List.length_set], ?_, ?_⟩
    · intro j hj
      by_cases hjD : ∃ x ∈ D, x.id = j.id
      · obtain ⟨x, hx, hxj⟩ := hjD
        rw [← hxj]; exact b x hx
      · rcases List.mem_cons.1 hj with rfl | hj
        · rw [c j.id fun x hx e => hjD ⟨x, hx, e⟩]
          simp [List.getD_eq_getElem?_getD, h0]
        · exact absurd ⟨j, hj, rfl⟩ hjD
    · intro j hj
      rw [c j fun x hx => hj x (List.mem_cons_of_mem _ hx)]
      have : i.id ≠ j := hj i (List.mem_cons_self ..)
      simp [List.getD_eq_getElem?_getD, this]

/-- All rows of a view. -/
def View.rows (v : View) : Data := v.groups.flatten

theorem split_rows (v : View) (f : Nat) : (v.split f).1.rows = without f v.rows ∧ (v.split f).2.rows = having f v.rows := by
  unfold View.rows
  rw [(split_groups v f).1, (split_groups v f).2]
  unfold without having
  constructor <;> rw [List.filter_flatten]

theorem nodup_map_inj {D : Data} (h : (D.map (·.id)).Nodup) {a b : Inst} (ha : a ∈ D) (hb : b ∈ D)
    (e : a.id = b.id) : a = b := by
  induction D with
  | nil => cases ha
  | cons x D ih =>
    rw [List.map_cons, List.nodup_cons] at h
    rcases List.mem_cons.1 ha with ea | ha' <;> rcases List.mem_cons.1 hb with eb | hb'
    · rw [ea, eb]
    · exact absurd (by rw [← ea, e]; exact List.mem_map_of_mem (f := (·.id)) hb') h.1
    · exact absurd (by rw [← eb, ← e]; exact List.mem_map_of_mem (f := (·.id)) ha') h.1
    · exact ih h.2 ha' hb'

theorem classify_spec (fl : List Nat) (t : Tree) (ht : t.Below fl.length) (v : View) (labels : List Nat)
    (hid : (v.rows.map (·.id)).Nodup) (hlt : ∀ i ∈ v.rows, i.id < labels.length) :
    ∃ labels', (Obj.ofTree t).classify fl v labels = some labels' ∧
      Labelled (fun i => t.predict (flipInst (flipSet fl) i)) v.rows labels labels' := by
  induction t generalizing v labels with
  | leaf k => exact write_leaf k v.rows labels hlt
  | node f l r ihl ihr =>
    obtain ⟨h1, h2, h3⟩ := ht
    obtain ⟨s1, s2⟩ := split_rows v f
    have n1 : ((v.split f).1.rows.map (·.id)).Nodup := by
      rw [s1]; exact hid.sublist ((without_sublist f _).map _)
    have n2 : ((v.split f).2.rows.map (·.id)).Nodup := by
      rw [s2]; exact hid.sublist ((having_sublist f _).map _)
    have inj : ∀ a ∈ v.rows, ∀ b ∈ v.rows, a.id = b.id → a = b := fun a ha b hb e =>
      nodup_map_inj hid ha hb e
    have disj : ∀ a ∈ (v.split f).1.rows, ∀ b ∈ (v.split f).2.rows, a.id ≠ b.id := by
      intro a ha b hb e
      rw [s1] at ha; rw [s2] at hb
      have ha := mem_without.1 ha
      have hb := mem_having.1 hb
      have := inj a ha.1 b hb.1 e
      rw [this, hb.2] at ha
      exact absurd ha.2 (by simp)
    have l1 : ∀ i ∈ (v.split f).1.rows, i.id < labels.length := fun i hi => by
      rw [s1] at hi; exact hlt i ((without_sublist f _).subset hi)
    have l2 : ∀ i ∈ (v.split f).2.rows, i.id < labels.length := fun i hi => by
      rw [s2] at hi; exact hlt i ((having_sublist f _).subset hi)
    -- joining the two parts
    have join : ∀ (a b : Tree) (ls ls' : List Nat),
        Labelled (fun i => a.predict (flipInst (flipSet fl) i)) (v.split f).1.rows labels ls →
        Labelled (fun i => b.predict (flipInst (flipSet fl) i)) (v.split f).2.rows ls ls' →
        (∀ i : Inst, i.feat f = false → a.predict (flipInst (flipSet fl) i) = (Tree.node f l r).predict (flipInst (flipSet fl) i)) →
        (∀ i : Inst, i.feat f = true → b.predict (flipInst (flipSet fl) i) = (Tree.node f l r).predict (flipInst (flipSet fl) i)) →
        Labelled (fun i => (Tree.node f l r).predict (flipInst (flipSet fl) i)) v.rows labels ls' := by
      intro a b ls ls' ⟨p1, p2, p3⟩ ⟨q1, q2, q3⟩ ha hb
      refine ⟨by rw [q1, p1], ?_, ?_⟩
      · intro i hi
        cases hf : i.feat f
        · have hm : i ∈ (v.split f).1.rows := by rw [s1]; exact mem_without.2 ⟨hi, hf⟩
          rw [q3 i.id fun x hx e => disj i hm x hx e.symm, p2 i hm]
          exact ha i hf
        · have hm : i ∈ (v.split f).2.rows := by rw [s2]; exact mem_having.2 ⟨hi, hf⟩
          rw [q2 i hm]
          exact hb i hf
      · intro j hj
        rw [q3 j fun x hx => hj x (by rw [s2] at hx; exact (having_sublist f _).subset hx),
          p3 j fun x hx => hj x (by rw [s1] at hx; exact (without_sublist f _).subset hx)]
    simp only [Obj.ofTree, Obj.feature, Obj.classify]
    rw [if_pos h1]
    by_cases hfl : fl.getD f 0 = 1
    · rw [if_pos hfl]
      have hs : flipSet fl f = true := by unfold flipSet; rw [hfl]; rfl
      obtain ⟨ls, e1, p⟩ := ihr h3 (v.split f).1 labels n1 l1
      obtain ⟨ls', e2, q⟩ := ihl h2 (v.split f).2 ls n2 (by rw [p.1]; exact l2)
      refine ⟨ls', by rw [e1]; exact e2, join r l ls ls' p q ?_ ?_⟩
      · intro i hi; simp [Tree.predict, flipInst, hi, hs]
      · intro i hi; simp [Tree.predict, flipInst, hi, hs]
    · rw [if_neg hfl]
      have hs : flipSet fl f = false := beq_false_of_ne hfl
      obtain ⟨ls, e1, p⟩ := ihl h2 (v.split f).1 labels n1 l1
      obtain ⟨ls', e2, q⟩ := ihr h3 (v.split f).2 ls n2 (by rw [p.1]; exact l2)
      refine ⟨ls', by rw [e1]; exact e2, join l r ls ls' p q ?_ ?_⟩
      · intro i hi; simp [Tree.predict, flipInst, hi, hs]
      · intro i hi; simp [Tree.predict, flipInst, hi, hs]

/-- The rows of a test set: `n` rows with ids `0 … n-1`, grouped by label in any way. -/
structure View.IsTest (v : View) : Prop where
  ok : v.OK
  ids : ∀ i ∈ v.rows, i.id < v.size
  nodup : (v.rows.map (·.id)).Nodup

theorem preprocessTest_rows (fl : List Nat) (v : View) :
    (preprocessTest fl v).rows = v.rows.map (flipInst (flipSet fl)) := by
  unfold preprocessTest View.rows
  rw [List.map_flatten]
  congr 1
  refine List.map_congr_left fun g _ => List.map_congr_left fun i _ => ?_
  unfold flipInst flipSet
  congr 1
  funext f
  by_cases h : fl.getD f 0 = 1
  · rw [if_pos h, h]; cases i.feat f <;> rfl
  · rw [if_neg h, beq_false_of_ne h]; cases i.feat f <;> rfl

theorem flipInst_flipInst (fl : Nat → Bool) (i : Inst) : flipInst fl (flipInst fl i) = i := by
  unfold flipInst
  simp

/-- C26 for test data: predicting with the returned tree on freshly loaded test data is defined and gives each row
the label of that row in the returned tree, although the data are negated internally. -/
theorem predict_fresh (fl : List Nat) (t : Tree) (ht : t.Below fl.length) (v : View) (hv : v.IsTest) :
    ∃ labels, predictFresh fl (Obj.ofTree t) v = some labels ∧ labels.length = v.size ∧
      ∀ i ∈ v.rows, labels.getD i.id 0 = t.predict i := by
  unfold predictFresh
  have hr := preprocessTest_rows fl v
  obtain ⟨ls, e, a, b, _⟩ := classify_spec fl t ht (preprocessTest fl v) (List.replicate v.size 0)
    (by rw [hr, List.map_map]; exact hv.nodup)
    (by
      intro i hi
      rw [hr] at hi
      obtain ⟨j, hj, rfl⟩ := List.mem_map.1 hi
      rw [List.length_replicate]
      exact hv.ids j hj)
  refine ⟨ls, e, by rw [a, List.length_replicate], fun i hi => ?_⟩
  have := b (flipInst (flipSet fl) i) (by rw [hr]; exact List.mem_map_of_mem hi)
  dsimp only at this
  rw [flipInst_flipInst] at this
  exact this

/-- A tree with a flipped root. -/
def exTree : Tree := .node 0 (.leaf 0) (.node 1 (.leaf 1) (.leaf 0))

example : exTree.Below [1, 0].length ∧ exView.IsTest :=
  ⟨⟨by decide, trivial, by decide, trivial, trivial⟩, View.ofGroups_size _, by decide, by decide⟩
example : predictFresh [1, 0] (Obj.ofTree exTree) exView = some [1, 1, 0] := by decide
example : (Obj.ofTree exTree).toStr = some "[0,[0],[1,[1],[0]]]" := by decide

end Streed
