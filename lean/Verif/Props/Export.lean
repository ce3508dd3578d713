import Verif.Model.Export
import Verif.Model.Binarizer
import Mathlib.Data.List.Induction
import Mathlib.Tactic.Common

/-!
# C72: exports show the fitted tree

The text of a tree, its printed form and its graph determine the tree. With names of columns that is true as long as the names shown differ,
which they do not for thresholds that are close.
-/

namespace Streed

/-! ### The text of a tree -/

theorem digits_isDigit {n : Nat} {c : Char} (h : c ∈ digits n) : c.isDigit = true :=
  Nat.isDigit_of_mem_toDigits (by decide) (by decide) h

theorem digits_injective {n m : Nat} (h : digits n = digits m) : n = m := by
  have h1 : Nat.ofDigitChars 10 (digits n) 0 = n := Nat.ofDigitChars_ten_toDigits
  have h2 : Nat.ofDigitChars 10 (digits m) 0 = m := Nat.ofDigitChars_ten_toDigits
  rw [← h1, ← h2, h]

theorem takeWhile_digits (n : Nat) {c : Char} (s : List Char) (h : c.isDigit = false) :
    (digits n ++ c :: s).takeWhile Char.isDigit = digits n := by
  rw [List.takeWhile_append_of_pos fun _ => digits_isDigit, List.takeWhile_cons_of_neg (by simp [h]), List.append_nil]

/-- A number ends where the digits end. -/
theorem digits_append_injective {n m : Nat} {c c' : Char} {s s' : List Char} (hc : c.isDigit = false) (hc' : c'.isDigit = false)
    (h : digits n ++ c :: s = digits m ++ c' :: s') : n = m ∧ c = c' ∧ s = s' := by
  have h1 := congrArg (List.takeWhile Char.isDigit) h
  rw [takeWhile_digits n s hc, takeWhile_digits m s' hc'] at h1
  rw [h1] at h
  have h2 := List.append_cancel_left h
  injection h2 with h3 h4
  exact ⟨digits_injective h1, h3, h4⟩

theorem treeString_append_injective (t t' : Tree) (s s' : List Char) (h : treeString t ++ s = treeString t' ++ s') : t = t' ∧ s = s' := by
  induction t generalizing t' s s' with
  | leaf k =>
    cases t' with
    | leaf k' =>
      simp only [treeString, List.cons_append, List.append_assoc, List.nil_append] at h
      obtain ⟨h1, _, h3⟩ := digits_append_injective (by decide) (by decide) (List.cons.inj h).2
      exact ⟨by rw [h1], h3⟩
    | node f l r =>
      simp only [treeString, List.cons_append, List.append_assoc, List.nil_append] at h
      obtain ⟨_, h2, _⟩ := digits_append_injective (by decide) (by decide) (List.cons.inj h).2
      exact absurd h2 (by decide)
  | node f l r ihl ihr =>
    cases t' with
    | leaf k' =>
      simp only [treeString, List.cons_append, List.append_assoc, List.nil_append] at h
      obtain ⟨_, h2, _⟩ := digits_append_injective (by decide) (by decide) (List.cons.inj h).2
      exact absurd h2 (by decide)
    | node f' l' r' =>
      simp only [treeString, List.cons_append, List.append_assoc, List.nil_append] at h
      obtain ⟨h1, _, h3⟩ := digits_append_injective (by decide) (by decide) (List.cons.inj h).2
      obtain ⟨h4, h5⟩ := ihl _ _ _ h3
      obtain ⟨h6, h7⟩ := ihr _ _ _ (List.cons.inj h5).2
      exact ⟨by rw [h1, h4, h6], (List.cons.inj h7).2⟩

/-- C72 for the text of a tree: different trees have different texts. -/
theorem treeString_injective {t t' : Tree} (h : treeString t = treeString t') : t = t' :=
  (treeString_append_injective t t' [] [] (by rw [h])).1

/-! ### The printed tree -/

/-- Names are told apart: different features and labels look different, and no label looks like a predicate. -/
structure Readable (pred lab : Nat → List Char) : Prop where
  features : ∀ f g, pred f = pred g → f = g
  labels : ∀ k j, lab k = lab j → k = j
  kinds : ∀ f k, "Label: ".toList ++ lab k ≠ pred f ++ " not satisfied".toList

theorem printTree_append_injective {pred lab : Nat → List Char} (hr : Readable pred lab) (t t' : Tree) (ind : List Char) (s s' : List (List Char))
    (h : printTree pred lab t ind ++ s = printTree pred lab t' ind ++ s') : t = t' ∧ s = s' := by
  induction t generalizing t' ind s s' with
  | leaf k =>
    cases t' with
    | leaf k' =>
      simp only [printTree, List.cons_append, List.nil_append, List.append_assoc] at h
      obtain ⟨h1, h2⟩ := List.cons.inj h
      exact ⟨by rw [hr.labels _ _ (List.append_cancel_left (List.append_cancel_left h1))], h2⟩
    | node f l r =>
      simp only [printTree, List.cons_append, List.nil_append, List.append_assoc] at h
      exact absurd (List.append_cancel_left (List.cons.inj h).1) (hr.kinds _ _)
  | node f l r ihl ihr =>
    cases t' with
    | leaf k' =>
      simp only [printTree, List.cons_append, List.nil_append, List.append_assoc] at h
      exact absurd (List.append_cancel_left (List.cons.inj h).1).symm (hr.kinds _ _)
    | node f' l' r' =>
      simp only [printTree, List.cons_append, List.append_assoc] at h
      obtain ⟨h1, h2⟩ := List.cons.inj h
      have hf := hr.features _ _ (List.append_cancel_right (List.append_cancel_left h1))
      obtain ⟨h3, h4⟩ := ihl _ _ _ _ h2
      obtain ⟨h5, h6⟩ := ihr _ _ _ _ (List.cons.inj h4).2
      exact ⟨by rw [hf, h3, h5], h6⟩

/-- C72 for `print_tree`: if names can be told apart, different trees are printed differently. -/
theorem printTree_injective {pred lab : Nat → List Char} (hr : Readable pred lab) {t t' : Tree}
    (h : printTree pred lab t [] = printTree pred lab t' []) : t = t' :=
  (printTree_append_injective hr t t' [] [] [] (by rw [h])).1

/-- The default names can be told apart. -/
theorem default_readable : Readable featureText digits where
  features f g h := digits_injective (List.append_cancel_left h)
  labels k j h := digits_injective h
  kinds f k h := by
    have := (List.cons.inj h).1
    exact absurd this (by decide)

/-- How a person reads the printed lines of one indentation: a single label is the answer; otherwise there is a predicate with two blocks of
lines that are indented further, the first for when it is not satisfied. -/
inductive ReadsPrint (pred lab : Nat → List Char) (x : Nat → Bool) : List Char → List (List Char) → Nat → Prop
  | label {ind : List Char} {k : Nat} : ReadsPrint pred lab x ind [ind ++ ("Label: ".toList ++ lab k)] k
  | no {ind : List Char} {f k : Nat} {A B : List (List Char)} : (∀ s ∈ A, (ind ++ "|   ".toList) <+: s) → (∀ s ∈ B, (ind ++ "|   ".toList) <+: s) →
      x f = false → ReadsPrint pred lab x (ind ++ "|   ".toList) A k →
      ReadsPrint pred lab x ind ((ind ++ (pred f ++ " not satisfied".toList)) :: (A ++ ((ind ++ (pred f ++ " satisfied".toList)) :: B))) k
  | yes {ind : List Char} {f k : Nat} {A B : List (List Char)} : (∀ s ∈ A, (ind ++ "|   ".toList) <+: s) → (∀ s ∈ B, (ind ++ "|   ".toList) <+: s) →
      x f = true → ReadsPrint pred lab x (ind ++ "|   ".toList) B k →
      ReadsPrint pred lab x ind ((ind ++ (pred f ++ " not satisfied".toList)) :: (A ++ ((ind ++ (pred f ++ " satisfied".toList)) :: B))) k

theorem printTree_indented (pred lab : Nat → List Char) (t : Tree) (ind : List Char) : ∀ s ∈ printTree pred lab t ind, ind <+: s := by
  induction t generalizing ind with
  | leaf k =>
    intro s hs
    rw [printTree, List.mem_singleton, List.append_assoc] at hs
    rw [hs]; exact List.prefix_append _ _
  | node f l r ihl ihr =>
    intro s hs
    rw [printTree, List.mem_cons, List.mem_append, List.mem_cons] at hs
    rcases hs with rfl | hs | rfl | hs
    · exact List.prefix_append _ _
    · exact (List.prefix_append _ _).trans (ihl _ s hs)
    · exact List.prefix_append _ _
    · exact (List.prefix_append _ _).trans (ihr _ s hs)

/-- A block ends at the first line that is not indented further. -/
theorem block_unique {α : Type} {P : α → Prop} {A A' B B' : List α} {s s' : α} (hA : ∀ a ∈ A, P a) (hA' : ∀ a ∈ A', P a) (hs : ¬ P s) (hs' : ¬ P s')
    (h : A ++ s :: B = A' ++ s' :: B') : A = A' ∧ s = s' ∧ B = B' := by
  induction A generalizing A' with
  | nil =>
    cases A' with
    | nil => exact ⟨rfl, (List.cons.inj h).1, (List.cons.inj h).2⟩
    | cons a A' => exact absurd (by rw [(List.cons.inj h).1]; exact hA' a (List.mem_cons_self ..)) hs
  | cons a A ih =>
    cases A' with
    | nil => exact absurd (by rw [← (List.cons.inj h).1]; exact hA a (List.mem_cons_self ..)) hs'
    | cons a' A' =>
      obtain ⟨h1, h2⟩ := List.cons.inj h
      obtain ⟨h3, h4, h5⟩ := ih (fun b hb => hA b (List.mem_cons_of_mem _ hb)) (fun b hb => hA' b (List.mem_cons_of_mem _ hb)) h2
      exact ⟨by rw [h1, h3], h4, h5⟩

/-- C72 for `print_tree`: reading the printed tree gives exactly the label that the tree predicts, if names can be told apart and no name starts
with a bar. -/
theorem print_reads_predict {pred lab : Nat → List Char} (hr : Readable pred lab) (hbar : ∀ f s, ¬ "|   ".toList <+: pred f ++ s) (t : Tree) (i : Inst)
    (ind : List Char) (k : Nat) : ReadsPrint pred lab i.feat ind (printTree pred lab t ind) k ↔ k = t.predict i := by
  have hbar' : ∀ (ind : List Char) f s, ¬ (ind ++ "|   ".toList) <+: (ind ++ (pred f ++ s)) := fun ind f s h =>
    hbar f s ((List.prefix_append_right_inj ind).1 h)
  induction t generalizing ind k with
  | leaf j =>
    constructor
    · intro h
      generalize hL : printTree pred lab (.leaf j) ind = L at h
      cases h with
      | label =>
        simp only [printTree, List.append_assoc] at hL
        have := hr.labels _ _ (List.append_cancel_left (List.append_cancel_left (List.cons.inj hL).1))
        rw [← this]; rfl
      | no _ _ _ _ => simp [printTree] at hL
      | yes _ _ _ _ => simp [printTree] at hL
    · rintro rfl
      rw [printTree, List.append_assoc]
      exact .label
  | node f l r ihl ihr =>
    have hl := printTree_indented pred lab l (ind ++ "|   ".toList)
    have hrr := printTree_indented pred lab r (ind ++ "|   ".toList)
    constructor
    · intro h
      generalize hL : printTree pred lab (.node f l r) ind = L at h
      cases h with
      | label => simp [printTree] at hL
      | no hA hB hx hk =>
        rw [printTree] at hL
        obtain ⟨h1, h2⟩ := List.cons.inj hL
        have hf := hr.features _ _ (List.append_cancel_right (List.append_cancel_left h1))
        obtain ⟨h3, _, _⟩ := block_unique hl hA (hbar' ind f _) (hbar' ind _ _) h2
        subst hf
        rw [← h3] at hk
        rw [(ihl _ _).1 hk]
        simp [Tree.predict, hx]
      | yes hA hB hx hk =>
        rw [printTree] at hL
        obtain ⟨h1, h2⟩ := List.cons.inj hL
        have hf := hr.features _ _ (List.append_cancel_right (List.append_cancel_left h1))
        obtain ⟨_, _, h3⟩ := block_unique hl hA (hbar' ind f _) (hbar' ind _ _) h2
        subst hf
        rw [← h3] at hk
        rw [(ihr _ _).1 hk]
        simp [Tree.predict, hx]
    · rintro rfl
      rw [printTree]
      cases hx : i.feat f with
      | false => exact .no hl hrr hx ((ihl _ _).2 (by simp [Tree.predict, hx]))
      | true => exact .yes hl hrr hx ((ihr _ _).2 (by simp [Tree.predict, hx]))

/-- In particular with the default names. -/
theorem default_print_reads_predict (t : Tree) (i : Inst) (k : Nat) :
    ReadsPrint featureText digits i.feat [] (printTree featureText digits t []) k ↔ k = t.predict i :=
  print_reads_predict default_readable (fun f s h => by
    obtain ⟨u, hu⟩ := h
    have := (List.cons.inj hu).1
    exact absurd this (by decide)) t i [] k

/-- Every line belongs to a node: one for a leaf, two for a branching node. -/
theorem printTree_length (pred lab : Nat → List Char) (t : Tree) (ind : List Char) :
    (printTree pred lab t ind).length = t.leaves + 2 * t.nodes := by
  induction t generalizing ind with
  | leaf k => rfl
  | node f l r ihl ihr =>
    simp only [printTree, List.length_cons, List.length_append, ihl, ihr, Tree.leaves, Tree.nodes]
    omega

/-! ### The graph -/

/-- The number of the node at the end of a path: `false` is left, `true` is right. -/
def nodeId (path : List Bool) : Nat := path.foldl (fun n b => 2 * n + (if b then 2 else 1)) 0

/-- The subtree at the end of a path. -/
def Tree.at : Tree → List Bool → Option Tree
  | t, [] => some t
  | .leaf _, _ :: _ => none
  | .node _ l r, b :: p => if b then r.at p else l.at p

/-- The line of the node that a subtree starts with. -/
def nodeLine (id : Nat) : Tree → DotLine
  | .leaf k => .leaf id k
  | .node f _ _ => .pred id f

theorem Tree.at_nil (t : Tree) : t.at [] = some t := by cases t <;> rfl

theorem nodeId_snoc (p : List Bool) (b : Bool) : nodeId (p ++ [b]) = 2 * nodeId p + (if b then 2 else 1) := by
  unfold nodeId
  rw [List.foldl_append]
  rfl

/-- Different paths have different numbers. -/
theorem nodeId_injective (p q : List Bool) (h : nodeId p = nodeId q) : p = q := by
  induction p using List.reverseRecOn generalizing q with
  | nil =>
    cases q using List.reverseRecOn with
    | nil => rfl
    | append_singleton q b =>
      rw [nodeId_snoc] at h
      have h0 : nodeId ([] : List Bool) = 0 := rfl
      cases b <;> simp at h <;> omega
  | append_singleton p a ih =>
    cases q using List.reverseRecOn with
    | nil =>
      rw [nodeId_snoc] at h
      have h0 : nodeId ([] : List Bool) = 0 := rfl
      cases a <;> simp at h <;> omega
    | append_singleton q b =>
      rw [nodeId_snoc, nodeId_snoc] at h
      have hab : a = b := by cases a <;> cases b <;> simp at h ⊢ <;> omega
      subst hab
      rw [ih q (by cases a <;> simp at h <;> omega)]

theorem dotEdge_snoc (p : List Bool) (b : Bool) : dotEdge (nodeId (p ++ [b])) = [.edge (nodeId p) (nodeId (p ++ [b])) b] := by
  unfold dotEdge
  rw [nodeId_snoc]
  rw [if_pos (by cases b <;> simp)]
  have h1 : (2 * nodeId p + (if b then 2 else 1) - 1) / 2 = nodeId p := by
    cases b with
    | false => simp
    | true => simp; omega
  have h2 : ((2 * nodeId p + (if b then 2 else 1)) % 2 == 0) = b := by cases b <;> simp
  rw [h1, h2]

theorem Tree.at_append (t : Tree) (p q : List Bool) : t.at (p ++ q) = (t.at p).bind fun s => s.at q := by
  induction p generalizing t with
  | nil => simp [Tree.at]
  | cons b p ih =>
    cases t with
    | leaf k => simp [Tree.at]
    | node f l r => cases b <;> simp [Tree.at, ih]

/-- The lines of the graph: one per node with the number of its path, and one edge per node but the root. -/
theorem mem_exportDot (t : Tree) (p : List Bool) (line : DotLine) : line ∈ exportDot t (nodeId p) ↔
    ∃ q s, t.at q = some s ∧ (line = nodeLine (nodeId (p ++ q)) s ∨ line ∈ dotEdge (nodeId (p ++ q))) := by
  induction t generalizing p with
  | leaf k =>
    unfold exportDot
    constructor
    · intro h
      refine ⟨[], .leaf k, rfl, ?_⟩
      rw [List.append_nil]
      exact List.mem_cons.1 h
    · rintro ⟨q, s, hq, h⟩
      cases q with
      | nil =>
        obtain rfl : Tree.leaf k = s := by simpa [Tree.at] using hq
        rw [List.append_nil] at h
        exact List.mem_cons.2 h
      | cons b q => simp [Tree.at] at hq
  | node f l r ihl ihr =>
    have el : nodeId p * 2 + 1 = nodeId (p ++ [false]) := by rw [nodeId_snoc]; simp; omega
    have er : nodeId p * 2 + 2 = nodeId (p ++ [true]) := by rw [nodeId_snoc]; simp; omega
    unfold exportDot
    rw [List.mem_cons, List.mem_append, List.mem_append, el, er, ihl, ihr]
    constructor
    · rintro (h | h | ⟨q, s, hq, h⟩ | ⟨q, s, hq, h⟩)
      · exact ⟨[], _, rfl, by rw [List.append_nil]; exact Or.inl h⟩
      · exact ⟨[], _, rfl, by rw [List.append_nil]; exact Or.inr h⟩
      · exact ⟨false :: q, s, by simpa [Tree.at] using hq, by simpa using h⟩
      · exact ⟨true :: q, s, by simpa [Tree.at] using hq, by simpa using h⟩
    · rintro ⟨q, s, hq, h⟩
      cases q with
      | nil =>
        obtain rfl : Tree.node f l r = s := by simpa [Tree.at] using hq
        rw [List.append_nil] at h
        rcases h with h | h
        · exact Or.inl h
        · exact Or.inr (Or.inl h)
      | cons b q =>
        cases b with
        | false => exact Or.inr (Or.inr (Or.inl ⟨q, s, by simpa [Tree.at] using hq, by simpa using h⟩))
        | true => exact Or.inr (Or.inr (Or.inr ⟨q, s, by simpa [Tree.at] using hq, by simpa using h⟩))

theorem mem_dotEdge {p : List Bool} {line : DotLine} : line ∈ dotEdge (nodeId p) ↔ ∃ q b, p = q ++ [b] ∧ line = .edge (nodeId q) (nodeId p) b := by
  constructor
  · intro h
    cases p using List.reverseRecOn with
    | nil => simp [dotEdge, nodeId] at h
    | append_singleton q b =>
      rw [dotEdge_snoc] at h
      exact ⟨q, b, rfl, List.mem_singleton.1 h⟩
  · rintro ⟨q, b, rfl, rfl⟩
    rw [dotEdge_snoc]
    exact List.mem_singleton.2 rfl

/-- C72 for `export_dot`: the leaves of the graph are those of the tree. -/
theorem dot_leaf_iff (t : Tree) (id k : Nat) : DotLine.leaf id k ∈ exportDot t 0 ↔ ∃ p, id = nodeId p ∧ t.at p = some (.leaf k) := by
  have := mem_exportDot t [] (.leaf id k)
  rw [show nodeId [] = 0 from rfl] at this
  rw [this]
  simp only [List.nil_append]
  constructor
  · rintro ⟨q, s, hq, h | h⟩
    · cases s with
      | leaf j => simp only [nodeLine, DotLine.leaf.injEq] at h; exact ⟨q, h.1, by rw [hq, h.2]⟩
      | node f l r => simp [nodeLine] at h
    · obtain ⟨_, _, _, h⟩ := mem_dotEdge.1 h; simp at h
  · rintro ⟨p, rfl, hp⟩
    exact ⟨p, _, hp, Or.inl rfl⟩

/-- Its predicates are the branching nodes of the tree. -/
theorem dot_pred_iff (t : Tree) (id f : Nat) : DotLine.pred id f ∈ exportDot t 0 ↔ ∃ p l r, id = nodeId p ∧ t.at p = some (.node f l r) := by
  have := mem_exportDot t [] (.pred id f)
  rw [show nodeId [] = 0 from rfl] at this
  rw [this]
  simp only [List.nil_append]
  constructor
  · rintro ⟨q, s, hq, h | h⟩
    · cases s with
      | leaf j => simp [nodeLine] at h
      | node g l r => simp only [nodeLine, DotLine.pred.injEq] at h; exact ⟨q, l, r, h.1, by rw [hq, h.2]⟩
    · obtain ⟨_, _, _, h⟩ := mem_dotEdge.1 h; simp at h
  · rintro ⟨p, l, r, rfl, hp⟩
    exact ⟨p, _, hp, Or.inl rfl⟩

/-- Its edges go from each branching node to its children: `False` to the left one, `True` to the right one. -/
theorem dot_edge_iff (t : Tree) (i j : Nat) (b : Bool) :
    DotLine.edge i j b ∈ exportDot t 0 ↔ ∃ p, i = nodeId p ∧ j = nodeId (p ++ [b]) ∧ (t.at (p ++ [b])).isSome := by
  have := mem_exportDot t [] (.edge i j b)
  rw [show nodeId [] = 0 from rfl] at this
  rw [this]
  simp only [List.nil_append]
  constructor
  · rintro ⟨q, s, hq, h | h⟩
    · cases s <;> simp [nodeLine] at h
    · obtain ⟨q', b', rfl, h⟩ := mem_dotEdge.1 h
      simp only [DotLine.edge.injEq] at h
      obtain ⟨h1, h2, rfl⟩ := h
      exact ⟨q', h1, h2, by rw [hq]; rfl⟩
  · rintro ⟨p, rfl, rfl, hp⟩
    obtain ⟨s, hs⟩ := Option.isSome_iff_exists.1 hp
    exact ⟨p ++ [b], s, hs, Or.inr (mem_dotEdge.2 ⟨p, b, rfl, rfl⟩)⟩

/-- How a person reads the graph: start at a node; at a leaf, its label is the answer; at a predicate, take an edge with the truth value of the
predicate. -/
inductive Reads (g : List DotLine) (x : Nat → Bool) : Nat → Nat → Prop
  | leaf {id k : Nat} : DotLine.leaf id k ∈ g → Reads g x id k
  | pred {id f j k : Nat} : DotLine.pred id f ∈ g → DotLine.edge id j (x f) ∈ g → Reads g x j k → Reads g x id k

theorem reads_predict (t s : Tree) (p : List Bool) (i : Inst) (h : t.at p = some s) :
    Reads (exportDot t 0) i.feat (nodeId p) (s.predict i) := by
  induction s generalizing p with
  | leaf k => exact .leaf ((dot_leaf_iff t _ k).2 ⟨p, rfl, h⟩)
  | node f l r ihl ihr =>
    have hl : t.at (p ++ [false]) = some l := by rw [Tree.at_append, h]; simp [Tree.at]
    have hr : t.at (p ++ [true]) = some r := by rw [Tree.at_append, h]; simp [Tree.at]
    have hp : DotLine.pred (nodeId p) f ∈ exportDot t 0 := (dot_pred_iff t _ f).2 ⟨p, l, r, rfl, h⟩
    unfold Tree.predict
    cases hx : i.feat f with
    | false =>
      refine .pred hp (j := nodeId (p ++ [false])) ((dot_edge_iff t _ _ _).2 ⟨p, rfl, by rw [hx], by rw [hx, hl]; rfl⟩) ?_
      simpa using ihl _ hl
    | true =>
      refine .pred hp (j := nodeId (p ++ [true])) ((dot_edge_iff t _ _ _).2 ⟨p, rfl, by rw [hx], by rw [hx, hr]; rfl⟩) ?_
      simpa using ihr _ hr

theorem reads_unique (t s : Tree) (p : List Bool) (i : Inst) (h : t.at p = some s) (k : Nat) (hk : Reads (exportDot t 0) i.feat (nodeId p) k) :
    k = s.predict i := by
  generalize hn : nodeId p = n at hk
  induction hk generalizing p s with
  | leaf hm =>
    obtain ⟨q, h1, h2⟩ := (dot_leaf_iff t _ _).1 hm
    obtain rfl := nodeId_injective p q (by rw [hn, h1])
    rw [h] at h2
    injection h2 with h2
    rw [h2]; rfl
  | pred hm he _ ih =>
    rename_i id f j k _
    obtain ⟨q, l, r, h1, h2⟩ := (dot_pred_iff t _ _).1 hm
    obtain rfl := nodeId_injective p q (by rw [hn, h1])
    rw [h] at h2
    injection h2 with h2
    subst h2
    obtain ⟨q, g1, g2, g3⟩ := (dot_edge_iff t _ _ _).1 he
    obtain rfl := nodeId_injective p q (by rw [hn, g1])
    cases hx : i.feat f with
    | false =>
      rw [hx] at g2
      have := ih l (p ++ [false]) (by rw [Tree.at_append, h]; simp [Tree.at]) g2.symm
      rw [this]; simp [Tree.predict, hx]
    | true =>
      rw [hx] at g2
      have := ih r (p ++ [true]) (by rw [Tree.at_append, h]; simp [Tree.at]) g2.symm
      rw [this]; simp [Tree.predict, hx]

/-- C72 for `export_dot`: following the graph from node 0 gives exactly the label that the tree predicts. -/
theorem dot_reads_predict (t : Tree) (i : Inst) (k : Nat) : Reads (exportDot t 0) i.feat 0 k ↔ k = t.predict i := by
  constructor
  · exact fun h => reads_unique t t [] i t.at_nil k h
  · rintro rfl; exact reads_predict t t [] i t.at_nil

theorem exportDot_append_injective (t t' : Tree) (id : Nat) (s s' : List DotLine) (h : exportDot t id ++ s = exportDot t' id ++ s') :
    t = t' ∧ s = s' := by
  induction t generalizing t' id s s' with
  | leaf k =>
    cases t' with
    | leaf k' =>
      simp only [exportDot, List.cons_append] at h
      obtain ⟨h1, h2⟩ := List.cons.inj h
      injection h1 with _ h1
      exact ⟨by rw [h1], List.append_cancel_left h2⟩
    | node f l r =>
      simp only [exportDot, List.cons_append] at h
      exact absurd (List.cons.inj h).1 (by simp)
  | node f l r ihl ihr =>
    cases t' with
    | leaf k' =>
      simp only [exportDot, List.cons_append] at h
      exact absurd (List.cons.inj h).1 (by simp)
    | node f' l' r' =>
      simp only [exportDot, List.cons_append, List.append_assoc] at h
      obtain ⟨h1, h2⟩ := List.cons.inj h
      injection h1 with _ h1
      obtain ⟨h3, h4⟩ := ihl _ _ _ _ (List.append_cancel_left h2)
      obtain ⟨h5, h6⟩ := ihr _ _ _ _ h4
      exact ⟨by rw [h1, h3, h5], h6⟩

/-- Different trees have different graphs. -/
theorem exportDot_injective {t t' : Tree} (h : exportDot t 0 = exportDot t' 0) : t = t' :=
  (exportDot_append_injective t t' 0 [] [] (by rw [h])).1

/-! ### Where exports fail -/

/-- A column with three close values gets two thresholds that are shown as the same number. -/
def closeColumn : List Rat := [1234560 / 10000000, 1234562 / 10000000, 1234564 / 10000000]

/-- With the names that binarisation gives to columns, two trees that predict differently can be printed alike: their thresholds are shown with
six decimals. -/
theorem close_thresholds_printed_alike : ∃ a b : Rat, cutpoints .quantile 5 closeColumn = [a, b] ∧ a ≠ b ∧ shownNumber a = shownNumber b ∧
    (shownNumber a).isSome ∧ ∃ x ∈ closeColumn, decide (x ≤ a) ≠ decide (x ≤ b) :=
  ⟨1234561 / 10000000, 1234563 / 10000000, by decide +kernel, by decide +kernel, by decide +kernel, by decide +kernel,
    1234562 / 10000000, by decide +kernel, by decide +kernel⟩

/-- If two features have the same text, some two different trees are printed alike. -/
theorem same_text_printed_alike {pred lab : Nat → List Char} {f g : Nat} (hne : f ≠ g) (h : pred f = pred g) (l r : Tree) :
    Tree.node f l r ≠ Tree.node g l r ∧ printTree pred lab (.node f l r) [] = printTree pred lab (.node g l r) [] := by
  refine ⟨fun he => hne (Tree.node.inj he).1, ?_⟩
  simp only [printTree, h]

/-- A column whose own name has a `<=` is taken for a threshold: printing raises for `bp <= normal` if `normal` is not a number, whatever the
formatter does otherwise. -/
theorem named_comparison_raises (fmt : List Char → Option (List Char)) (cmp : List Char) (h : fmt "normal".toList = none) :
    predicateText fmt cmp ["bp <= normal".toList] 0 = .error .notANumber := by
  have e : splitText " <= ".toList "bp <= normal".toList 0 [] = ["bp".toList, "normal".toList] := by decide +kernel
  unfold predicateText
  simp only [List.getElem?_cons_zero, e]
  rw [if_pos (by decide), if_pos (by decide), h]

/-- And for a continuous column `1 <= x` it raises whatever the threshold. -/
theorem named_threshold_raises (fmt : List Char → Option (List Char)) (cmp : List Char) :
    predicateText fmt cmp ["1 <= x <= 5".toList] 0 = .error .unpack := by
  have e : splitText " <= ".toList "1 <= x <= 5".toList 0 [] = ["1".toList, "x".toList, "5".toList] := by decide +kernel
  unfold predicateText
  simp only [List.getElem?_cons_zero, e]
  rw [if_pos (by decide)]

/-- The colours made at the first `export_dot` are kept. After a fit with more classes `export_dot` raises, although the same tree can be
exported by a new classifier. -/
theorem export_after_refit_raises : ∃ t₁ t₂ : Tree, ∃ n : Option Nat, (exportSession none 2 t₁).1.isSome ∧ (exportSession none 2 t₁).2 = n ∧
    (exportSession n 3 t₂).1 = none ∧ (exportSession none 3 t₂).1.isSome :=
  ⟨.node 0 (.leaf 0) (.leaf 1), .node 0 (.leaf 0) (.leaf 2), some 2, by decide, by decide, by decide, by decide⟩

/-- The first export of a classifier raises nothing if all labels are below the number of classes. -/
theorem first_export_ok (nF nC : Nat) (t : Tree) (h : t.Over nF nC) : (exportSession none nC t).1 = some (exportDot t 0) := by
  have key : ∀ (t : Tree) (id : Nat), t.Over nF nC → (exportDot t id).all (DotLine.coloured nC) = true := by
    intro t
    induction t with
    | leaf k =>
      intro id h
      unfold exportDot dotEdge
      have hk : k < nC := h
      split <;> simp [DotLine.coloured, hk]
    | node f l r ihl ihr =>
      intro id h
      unfold exportDot dotEdge
      simp only [List.all_cons, List.all_append, ihl _ h.2.1, ihr _ h.2.2]
      split <;> simp [DotLine.coloured]
  unfold exportSession
  simp only [Option.getD_none]
  rw [if_pos (key t 0 h)]

/-! ### Examples -/

/-- A tree of depth two. -/
def shownTree : Tree := .node 12 (.leaf 0) (.node 3 (.leaf 1) (.leaf 0))

example : treeString shownTree = "[12,[0],[3,[1],[0]]]".toList := by decide +kernel

example : printTree featureText digits shownTree [] = ["Feature 12 not satisfied".toList, "|   Label: 0".toList, "Feature 12 satisfied".toList,
    "|   Feature 3 not satisfied".toList, "|   |   Label: 1".toList, "|   Feature 3 satisfied".toList, "|   |   Label: 0".toList] := by
  decide +kernel

example : exportDot shownTree 0 = [.pred 0 12, .leaf 1 0, .edge 0 1 false, .pred 2 3, .edge 0 2 true, .leaf 5 1, .edge 2 5 false, .leaf 6 0,
    .edge 2 6 true] := by decide

example : predicateText (fun t => some t) "<=".toList ["a".toList, "b <= 0.5".toList] 1 = .ok "b <= 0.5".toList := by decide +kernel

example : shownTree.Over 13 2 := by simp [shownTree, Tree.Over]

end Streed
