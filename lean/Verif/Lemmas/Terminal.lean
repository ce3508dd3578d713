import Verif.Lemmas.Basic
import Verif.Props.Counts

/-! Lemmas on the depth-two solver. -/

namespace Streed

/-- Solution node `v` describes the root of tree `t`: same label, or same feature and the sizes of the
two subtrees. -/
def Rep (v : Node) : Tree → Prop
  | .leaf k => v.feature = none ∧ v.label = some k
  | .node f l r => v.feature = some f ∧ v.label = none ∧ l.nodes = v.nl ∧ r.nodes = v.nr

theorem Rep.nodes {v : Node} {t : Tree} (h : Rep v t) : t.nodes = v.numNodes := by
  cases t with
  | leaf k => simp [Node.numNodes, h.1, Tree.nodes]
  | node f l r => simp [Node.numNodes, h.1, Tree.nodes, h.2.2.1, h.2.2.2]; omega

theorem Rep.nonempty {v : Node} {t : Tree} (h : Rep v t) : v.isEmpty = false := by
  cases t with
  | leaf k => simp [Node.isEmpty, h.2]
  | node f l r => simp [Node.isEmpty, h.1]

/-- `v` describes a legal tree of depth at most `d` with the cost `v` claims. -/
def Real (P : Problem) (mls d : Nat) (D : Data) (v : Node) : Prop :=
  ∃ t, Rep v t ∧ t.depth ≤ d ∧ t.Legal P mls D ∧ t.cost P D = v.sol

theorem Real.nonempty {P : Problem} {mls d : Nat} {D : Data} {v : Node} (h : Real P mls d D v) :
    v.isEmpty = false := by obtain ⟨t, h, _⟩ := h; exact h.nonempty

theorem Real.mono {P : Problem} {mls d d' : Nat} {D : Data} {v : Node} (h : Real P mls d D v)
    (hd : d ≤ d') : Real P mls d' D v := by
  obtain ⟨t, h1, h2, h3, h4⟩ := h; exact ⟨t, h1, by omega, h3, h4⟩

theorem Real.attained {P : Problem} {mls d n : Nat} {D : Data} {v : Node} (h : Real P mls d D v)
    (hn : v.numNodes ≤ n) : Attained P mls d n D v.sol := by
  obtain ⟨t, h1, h2, h3, h4⟩ := h
  exact ⟨t, ⟨h2, by rw [h1.nodes]; exact hn, h3⟩, h4⟩

theorem Real.leaf {P : Problem} {mls d : Nat} {D : Data} {k : Nat} (hk : k < P.nL) (hm : mls ≤ D.length) :
    Real P mls d D (Node.leaf k (leafCost P D k)) :=
  ⟨.leaf k, ⟨rfl, rfl⟩, Nat.zero_le _, ⟨hk, hm⟩, rfl⟩

theorem Real.combine {P : Problem} {mls d f : Nat} {D : Data} {l r : Node} (hf : f < P.nF)
    (hm : P.may f = true) (hl : Real P mls d (without f D) l) (hr : Real P mls d (having f D) r) :
    Real P mls (d + 1) D (Node.combine f l r P.bc) := by
  obtain ⟨tl, a1, a2, a3, a4⟩ := hl
  obtain ⟨tr, b1, b2, b3, b4⟩ := hr
  refine ⟨.node f tl tr, ⟨rfl, rfl, a1.nodes, b1.nodes⟩, ?_, ⟨hf, hm, a3, b3⟩, ?_⟩
  · simp only [Tree.depth]; omega
  · simp only [Tree.cost, a4, b4]; rfl

theorem combine_numNodes (f : Nat) (l r : Node) (bc : Int) :
    (Node.combine f l r bc).numNodes = l.numNodes + r.numNodes + 1 := rfl

/-- Nothing found, or a legal tree within the limits. -/
def Sound (P : Problem) (mls : Nat) (w : Int) (d n : Nat) (D : Data) (v : Node) : Prop :=
  v = Node.empty w ∨ (Real P mls d D v ∧ v.numNodes ≤ n)

theorem Sound.mono {P : Problem} {mls : Nat} {w : Int} {d n d' n' : Nat} {D : Data} {v : Node}
    (h : Sound P mls w d n D v) (hd : d ≤ d') (hn : n ≤ n') : Sound P mls w d' n' D v := by
  rcases h with h | ⟨h, h'⟩
  · exact .inl h
  · exact .inr ⟨h.mono hd, by omega⟩

theorem Sound.real {P : Problem} {mls : Nat} {w : Int} {d n : Nat} {D : Data} {v : Node}
    (h : Sound P mls w d n D v) (hv : v.isEmpty = false) : Real P mls d D v ∧ v.numNodes ≤ n := by
  rcases h with rfl | h
  · simp [Node.empty, Node.isEmpty] at hv
  · exact h

theorem Sound.real_lt {P : Problem} {mls : Nat} {w : Int} {d n : Nat} {D : Data} {v : Node}
    (h : Sound P mls w d n D v) (hv : v.sol < w) : Real P mls d D v ∧ v.numNodes ≤ n := by
  rcases h with rfl | h
  · simp [Node.empty] at hv
  · exact h

theorem addMin_cases (c v : Node) : Node.addMin c v = c ∨ Node.addMin c v = v := by
  unfold Node.addMin; split
  · exact .inr rfl
  · exact .inl rfl

theorem addMin_le_left (c v : Node) : (Node.addMin c v).sol ≤ c.sol := by
  unfold Node.addMin; split <;> omega

theorem addMin_le_right (c v : Node) : (Node.addMin c v).sol ≤ v.sol := by
  unfold Node.addMin; split <;> omega

theorem addMax_cases (c v : Node) : Node.addMax c v = c ∨ Node.addMax c v = v := by
  unfold Node.addMax; split
  · exact .inr rfl
  · exact .inl rfl

theorem Sound.addMin {P : Problem} {mls : Nat} {w : Int} {d n : Nat} {D : Data} {c v : Node}
    (hc : Sound P mls w d n D c) (hv : Sound P mls w d n D v) : Sound P mls w d n D (c.addMin v) := by
  rcases addMin_cases c v with h | h <;> rw [h] <;> assumption

theorem foldl_le {α : Type} (st : Node → α → Node) (h : ∀ r a, (st r a).sol ≤ r.sol) (L : List α)
    (b : Node) : (L.foldl st b).sol ≤ b.sol := by
  induction L generalizing b with
  | nil => exact Int.le_refl _
  | cons a L ih => exact Int.le_trans (ih _) (h b a)

theorem foldl_le_mem {α : Type} (st : Node → α → Node) (h : ∀ r a, (st r a).sol ≤ r.sol) (L : List α)
    (b : Node) (a : α) (ha : a ∈ L) (x : Int) (hx : ∀ r, (st r a).sol ≤ x) :
    (L.foldl st b).sol ≤ x := by
  induction L generalizing b with
  | nil => simp at ha
  | cons y L ih =>
    rcases List.mem_cons.1 ha with rfl | ha
    · exact Int.le_trans (foldl_le st h L _) (hx b)
    · exact ih _ ha

theorem mem_labelPairs {nL a b : Nat} :
    (a, b) ∈ labelPairs nL ↔ a < nL ∧ b < nL ∧ (1 < nL → a ≠ b) := by
  simp only [labelPairs, List.mem_filter, List.mem_flatMap, List.mem_map, List.mem_range,
    Prod.mk.injEq, Bool.not_eq_true', Bool.and_eq_false_iff, decide_eq_false_iff_not, beq_eq_false_iff_ne]
  constructor
  · rintro ⟨⟨x, hx, y, hy, rfl, rfl⟩, h⟩
    exact ⟨hx, hy, fun h1 => h.resolve_left (by omega)⟩
  · rintro ⟨ha, hb, h⟩
    refine ⟨⟨a, ha, b, hb, rfl, rfl⟩, ?_⟩
    by_cases h1 : nL > 1
    · exact .inr (h h1)
    · exact .inl h1

/-- Configuration of the depth-two solver for a problem. -/
def tcOf (P : Problem) (mls : Nat) (w : Int) : TCfg := ⟨P.nF, P.nL, P.may, P.bc, mls, w⟩

theorem countWith_eq (D : Data) (f g : Nat) (x y : Bool) :
    countWith D f g x y = ((side g y (side f x D)).length : Int) := by
  unfold countWith side
  rw [List.filter_filter, List.countP_eq_length_filter]
  congr 3; funext i; exact Bool.and_comm _ _

theorem costWith_eq (P : Problem) (D : Data) (k f g : Nat) (x y : Bool) :
    costWith P D k f g x y = leafCost P (side g y (side f x D)) k := by
  unfold costWith side
  rw [List.filter_filter]
  congr 2; funext i; exact Bool.and_comm _ _

theorem side_self (f : Nat) (x : Bool) (D : Data) : side f x (side f x D) = side f x D := by
  unfold side; rw [List.filter_filter]; congr 1; funext i; exact Bool.and_self _

theorem counts_self (P : Problem) (D : Data) (f : Nat) :
    ((statsOf P D).counts f f).v00 = ((without f D).length : Int) ∧
    ((statsOf P D).counts f f).v11 = ((having f D).length : Int) := by
  rw [counts_exact, ← side_false, ← side_true]
  simp only [countWith_eq, side_self, and_self]

/-- The value of a depth-one tree. -/
def pairCost (P : Problem) (D : Data) (f a b : Nat) : Int :=
  leafCost P (without f D) a + leafCost P (having f D) b + P.bc

theorem Real.stump {P : Problem} {mls f a b : Nat} {D : Data} (hf : f < P.nF) (hm : P.may f = true)
    (ha : a < P.nL) (hb : b < P.nL) (h0 : mls ≤ (without f D).length) (h1 : mls ≤ (having f D).length) :
    Real P mls 1 D ⟨some f, none, pairCost P D f a b, 0, 0⟩ := by
  refine ⟨.node f (.leaf a) (.leaf b), ⟨rfl, rfl, rfl, rfl⟩, by simp [Tree.depth], ⟨hf, hm, ⟨ha, h0⟩, hb, h1⟩, ?_⟩
  simp only [Tree.cost, pairCost]; omega

/-- A tree of depth at most one is a leaf or a feature with two leaves. -/
theorem depth_one_cases {t : Tree} (h : t.depth ≤ 1) :
    (∃ k, t = .leaf k) ∨ ∃ f a b, t = .node f (.leaf a) (.leaf b) := by
  cases t with
  | leaf k => exact .inl ⟨k, rfl⟩
  | node f l r =>
    cases l with
    | node _ _ _ => simp [Tree.depth] at h
    | leaf a =>
      cases r with
      | node _ _ _ => simp [Tree.depth] at h
      | leaf b => exact .inr ⟨f, a, b, rfl⟩

section
variable (P : Problem) (mls : Nat) (w : Int) (D : Data)

theorem oneNode_sound (hm : mls ≤ D.length) :
    Sound P mls w 1 1 D (oneNode (tcOf P mls w) (statsOf P D)) := by
  unfold oneNode
  simp only
  apply foldl_inv (Sound P mls w 1 1 D)
  · apply foldl_inv (Sound P mls w 1 1 D)
    · exact .inl rfl
    · intro b hb k hk
      exact hb.addMin (.inr ⟨Real.leaf (List.mem_range.1 hk) hm, Nat.zero_le _⟩)
  · intro b hb f hf
    split
    · exact hb
    · rename_i hmay
      split
      · exact hb
      · rename_i hc
        rw [(counts_self P D f).1, (counts_self P D f).2] at hc
        apply foldl_inv (Sound P mls w 1 1 D)
        · exact hb
        · rintro b hb ⟨a, k⟩ hp
          refine hb.addMin (.inr ⟨?_, Nat.le_refl _⟩)
          have hp := mem_labelPairs.1 hp
          rw [(costs_exact_one P D a f).1, (costs_exact_one P D k f).2]
          simp only [tcOf] at hc
          exact Real.stump (List.mem_range.1 hf) (by simpa [tcOf] using hmay) hp.1 hp.2.1 (by omega) (by omega)

theorem oneNode_le_leaf (k : Nat) (hk : k < P.nL) :
    (oneNode (tcOf P mls w) (statsOf P D)).sol ≤ leafCost P D k := by
  unfold oneNode
  simp only
  refine Int.le_trans (foldl_le _ ?_ _ _) ?_
  · intro r f
    split
    · exact Int.le_refl _
    · split
      · exact Int.le_refl _
      · exact foldl_le _ (fun r p => addMin_le_left _ _) _ _
  · exact foldl_le_mem _ (fun r p => addMin_le_left _ _) _ _ k (List.mem_range.2 hk) _
      fun r => addMin_le_right _ _

theorem oneNode_le_stump (f a b : Nat) (hf : f < P.nF) (hmay : P.may f = true) (ha : a < P.nL)
    (hb : b < P.nL) (h0 : mls ≤ (without f D).length) (h1 : mls ≤ (having f D).length) (hbc : 0 ≤ P.bc) :
    (oneNode (tcOf P mls w) (statsOf P D)).sol ≤ pairCost P D f a b := by
  by_cases hab : 1 < P.nL ∧ a = b
  · obtain ⟨_, rfl⟩ := hab
    have h2 := oneNode_le_leaf P mls w D a ha
    have h3 := leafCost_split P f D a
    unfold pairCost; omega
  · unfold oneNode
    simp only
    refine foldl_le_mem _ ?_ _ _ f (List.mem_range.2 hf) _ ?_
    · intro r f
      split
      · exact Int.le_refl _
      · split
        · exact Int.le_refl _
        · exact foldl_le _ (fun r p => addMin_le_left _ _) _ _
    · intro r
      rw [if_neg (by simp [tcOf, hmay]), (counts_self P D f).1, (counts_self P D f).2,
        if_neg (by simp only [tcOf]; omega)]
      refine foldl_le_mem _ (fun r p => addMin_le_left _ _) _ _ (a, b)
        (mem_labelPairs.2 ⟨ha, hb, fun h e => hab ⟨h, e⟩⟩) _ fun r => Int.le_trans (addMin_le_right _ _) ?_
      simp only
      rw [(costs_exact_one P D a f).1, (costs_exact_one P D b f).2]
      exact Int.le_refl _

theorem oneNode_le (hbc : 0 ≤ P.bc) (t : Tree) (ht : t.depth ≤ 1) (hl : t.Legal P mls D) :
    (oneNode (tcOf P mls w) (statsOf P D)).sol ≤ t.cost P D := by
  rcases depth_one_cases ht with ⟨k, rfl⟩ | ⟨f, a, b, rfl⟩
  · exact oneNode_le_leaf P mls w D k hl.1
  · have := oneNode_le_stump P mls w D f a b hl.1 hl.2.1 hl.2.2.1.1 hl.2.2.2.1 hl.2.2.1.2 hl.2.2.2.2 hbc
    simp only [Tree.cost, pairCost] at *; omega

/-- Update of the best stump on `E` with the stumps testing `g`. -/
def upd (E : Data) (g : Nat) (v : Node) : Node :=
  if mls ≤ (without g E).length ∧ mls ≤ (having g E).length then
    (labelPairs P.nL).foldl (fun r p => Node.addMin r ⟨some g, none, pairCost P E g p.1 p.2, 0, 0⟩) v
  else v

theorem upd_le (E : Data) (g : Nat) (v : Node) : (upd P mls E g v).sol ≤ v.sol := by
  unfold upd
  split
  · exact foldl_le _ (fun r p => addMin_le_left _ _) _ _
  · exact Int.le_refl _

theorem upd_sound (E : Data) (g : Nat) (v : Node) (hg : g < P.nF) (hm : P.may g = true)
    (hv : Sound P mls w 1 1 E v) : Sound P mls w 1 1 E (upd P mls E g v) := by
  unfold upd
  split
  · rename_i hc
    refine foldl_inv (Sound P mls w 1 1 E) _ _ _ hv ?_
    rintro r hr ⟨a, b⟩ hp
    have hp := mem_labelPairs.1 hp
    exact hr.addMin (.inr ⟨Real.stump hg hm hp.1 hp.2.1 hc.1 hc.2, Nat.le_refl _⟩)
  · exact hv

/-- `v` is at least as good as every stump on `E` testing `g` with different labels. -/
def Cov (E : Data) (g : Nat) (v : Node) : Prop :=
  ∀ a b, (a, b) ∈ labelPairs P.nL → mls ≤ (without g E).length → mls ≤ (having g E).length →
    v.sol ≤ pairCost P E g a b

theorem upd_cov (E : Data) (g : Nat) (v : Node) : Cov P mls E g (upd P mls E g v) := by
  intro a b hp h0 h1
  unfold upd
  rw [if_pos ⟨h0, h1⟩]
  exact foldl_le_mem _ (fun r p => addMin_le_left _ _) _ _ (a, b) hp _ fun r => addMin_le_right _ _

theorem Cov.mono {P : Problem} {mls : Nat} {E : Data} {g : Nat} {v v' : Node} (h : Cov P mls E g v)
    (hle : v'.sol ≤ v.sol) : Cov P mls E g v' :=
  fun a b hp h0 h1 => Int.le_trans hle (h a b hp h0 h1)

theorem pairStep_at (f1 f2 f : Nat) (ch : Children) (hne : f1 ≠ f2) :
    (pairStep (tcOf P mls w) (statsOf P D) f1 ch f2).at w f =
      if f = f2 then (upd P mls (without f2 D) f1 (ch.at w f2).1, upd P mls (having f2 D) f1 (ch.at w f2).2)
      else if f = f1 then
        (upd P mls (without f1 D) f2 (ch.at w f1).1, upd P mls (having f1 D) f2 (ch.at w f1).2)
      else ch.at w f := by
  unfold pairStep
  simp only [tcOf, counts_exact, costs_exact P D _ _ _ hne, countWith_eq, costWith_eq, side_false, side_true]
  have c00 : without f2 (without f1 D) = without f1 (without f2 D) := by
    simp only [← side_false]; exact side_comm ..
  have c01 : having f2 (without f1 D) = without f1 (having f2 D) := by
    simp only [← side_false, ← side_true]; exact side_comm ..
  have c10 : without f2 (having f1 D) = having f1 (without f2 D) := by
    simp only [← side_false, ← side_true]; exact side_comm ..
  have c11 : having f2 (having f1 D) = having f1 (having f2 D) := by
    simp only [← side_true]; exact side_comm ..
  split
  · rename_i h
    have u : ∀ E g v, ¬ (mls ≤ (without g E).length ∧ mls ≤ (having g E).length) → upd P mls E g v = v := by
      intro E g v hn; unfold upd; rw [if_neg hn]
    rw [u, u, u, u]
    · split
      · subst_vars; rfl
      · split
        · subst_vars; rfl
        · rfl
    · omega
    · omega
    · rw [← c01, ← c11]; omega
    · rw [← c00, ← c10]; omega
  · unfold Children.at
    rw [Tbl.get_set, Tbl.get_set]
    split
    · simp only [Prod.mk.injEq]
      unfold upd bestChild pairCost
      simp only [← c00, ← c01, ← c10, ← c11, Int.ofNat_le]
      exact ⟨trivial, trivial⟩
    · split
      · simp only [Prod.mk.injEq]
        unfold upd bestChild pairCost
        simp only [Int.ofNat_le]
        exact ⟨trivial, trivial⟩
      · rfl

/-- Every stored child is a legal stump on its side. -/
def ChSound (ch : Children) : Prop :=
  ∀ f, Sound P mls w 1 1 (without f D) (ch.at w f).1 ∧ Sound P mls w 1 1 (having f D) (ch.at w f).2

/-- The children of `f` are at least as good as the stumps testing `g`. -/
def ChCov (ch : Children) (f g : Nat) : Prop :=
  Cov P mls (without f D) g (ch.at w f).1 ∧ Cov P mls (having f D) g (ch.at w f).2

/-- Children only improve. -/
def ChLe (ch' ch : Children) : Prop :=
  ∀ f, (ch'.at w f).1.sol ≤ (ch.at w f).1.sol ∧ (ch'.at w f).2.sol ≤ (ch.at w f).2.sol

theorem pairStep_le (f1 f2 : Nat) (ch : Children) (hne : f1 ≠ f2) :
    ChLe w (pairStep (tcOf P mls w) (statsOf P D) f1 ch f2) ch := by
  intro f
  rw [pairStep_at P mls w D f1 f2 f ch hne]
  split
  · rename_i e; rw [e]; exact ⟨upd_le .., upd_le ..⟩
  · split
    · rename_i e; rw [e]; exact ⟨upd_le .., upd_le ..⟩
    · exact ⟨Int.le_refl _, Int.le_refl _⟩

theorem ChCov.mono {P : Problem} {mls : Nat} {w : Int} {D : Data} {ch ch' : Children} {f g : Nat}
    (h : ChCov P mls w D ch f g) (hle : ChLe w ch' ch) : ChCov P mls w D ch' f g :=
  ⟨h.1.mono (hle f).1, h.2.mono (hle f).2⟩

theorem pairStep_sound (f1 f2 : Nat) (ch : Children) (hne : f1 ≠ f2) (h1 : f1 < P.nF) (h2 : f2 < P.nF)
    (m1 : P.may f1 = true) (m2 : P.may f2 = true) (h : ChSound P mls w D ch) :
    ChSound P mls w D (pairStep (tcOf P mls w) (statsOf P D) f1 ch f2) := by
  intro f
  rw [pairStep_at P mls w D f1 f2 f ch hne]
  split
  · rename_i e; rw [e]; exact ⟨upd_sound _ _ _ _ _ _ h1 m1 (h f2).1, upd_sound _ _ _ _ _ _ h1 m1 (h f2).2⟩
  · split
    · rename_i e; rw [e]; exact ⟨upd_sound _ _ _ _ _ _ h2 m2 (h f1).1, upd_sound _ _ _ _ _ _ h2 m2 (h f1).2⟩
    · exact h f

theorem pairStep_cov (f1 f2 : Nat) (ch : Children) (hne : f1 ≠ f2) :
    ChCov P mls w D (pairStep (tcOf P mls w) (statsOf P D) f1 ch f2) f1 f2 ∧
    ChCov P mls w D (pairStep (tcOf P mls w) (statsOf P D) f1 ch f2) f2 f1 := by
  unfold ChCov
  rw [pairStep_at P mls w D f1 f2 f1 ch hne, pairStep_at P mls w D f1 f2 f2 ch hne, if_neg hne, if_pos rfl, if_pos rfl]
  exact ⟨⟨upd_cov _ _ _ _ _, upd_cov _ _ _ _ _⟩, upd_cov _ _ _ _ _, upd_cov _ _ _ _ _⟩

/-- The inner loop. -/
theorem inner_loop (f1 : Nat) (rest : List Nat) (ch : Children) (hn : f1 ∉ rest) (h1 : f1 < P.nF)
    (m1 : P.may f1 = true) (hr : ∀ f ∈ rest, f < P.nF ∧ P.may f = true) (h : ChSound P mls w D ch) :
    let ch' := rest.foldl (pairStep (tcOf P mls w) (statsOf P D) f1) ch
    ChSound P mls w D ch' ∧ ChLe w ch' ch ∧
      ∀ f2 ∈ rest, ChCov P mls w D ch' f1 f2 ∧ ChCov P mls w D ch' f2 f1 := by
  induction rest generalizing ch with
  | nil => exact ⟨h, fun f => ⟨Int.le_refl _, Int.le_refl _⟩, by simp⟩
  | cons f2 rest ih =>
    have hne : f1 ≠ f2 := fun e => hn (by simp [e])
    have hf2 := hr f2 (List.mem_cons_self ..)
    obtain ⟨i1, i2, i3⟩ := ih (pairStep (tcOf P mls w) (statsOf P D) f1 ch f2)
      (fun e => hn (List.mem_cons_of_mem _ e)) (fun f hf => hr f (List.mem_cons_of_mem _ hf))
      (pairStep_sound P mls w D f1 f2 ch hne h1 hf2.1 m1 hf2.2 h)
    refine ⟨i1, fun f => ?_, fun f hf => ?_⟩
    · have := pairStep_le P mls w D f1 f2 ch hne f
      exact ⟨Int.le_trans (i2 f).1 this.1, Int.le_trans (i2 f).2 this.2⟩
    · rcases List.mem_cons.1 hf with rfl | hf
      · have := pairStep_cov P mls w D f1 f ch hne
        exact ⟨this.1.mono i2, this.2.mono i2⟩
      · exact i3 f hf

/-! ### Combining children -/

theorem addCombination_le (c : TCfg) (f : Nat) (l r cur : Node) : (addCombination c f l r cur).sol ≤ cur.sol := by
  unfold addCombination
  split
  · simp only; split <;> omega
  · exact Int.le_refl _

theorem addCombination_le' (c : TCfg) (f : Nat) (l r cur : Node) (hl : l.isEmpty = false) (hr : r.isEmpty = false) :
    (addCombination c f l r cur).sol ≤ c.bc + (l.sol + r.sol) := by
  unfold addCombination
  rw [if_pos ⟨hl, hr⟩]
  simp only
  split
  · exact Int.le_refl _
  · rename_i h; simp only [Node.combine, Node.branch] at h; omega

theorem addCombination_sound (f a b n : Nat) (l r cur : Node) (hf : f < P.nF) (hm : P.may f = true)
    (hl : Sound P mls w 1 a (without f D) l) (hr : Sound P mls w 1 b (having f D) r)
    (hcur : Sound P mls w 2 n D cur) (hn : a + b + 1 ≤ n) :
    Sound P mls w 2 n D (addCombination (tcOf P mls w) f l r cur) := by
  unfold addCombination
  split
  · rename_i h
    have h1 := hl.real h.1
    have h2 := hr.real h.2
    simp only
    split
    · refine .inr ⟨Real.combine hf hm h1.1 h2.1, ?_⟩
      have := combine_numNodes f l r P.bc
      show (Node.combine f l r P.bc).numNodes ≤ n
      omega
    · exact hcur
  · exact hcur

theorem bestLeaf_sound (E : Data) (val : Nat → Int) (hv : ∀ k, val k = leafCost P E k) :
    Sound P mls w 1 0 E (bestLeaf (tcOf P mls w) E.length val) := by
  unfold bestLeaf
  split
  · rename_i h
    simp only [tcOf] at h
    refine foldl_inv (Sound P mls w 1 0 E) _ _ _ (.inl rfl) ?_
    intro r hr k hk
    rw [hv]
    exact hr.addMin (.inr ⟨Real.leaf (List.mem_range.1 hk) (by omega), Nat.le_refl _⟩)
  · exact .inl rfl

theorem bestLeaf_le (E : Data) (val : Nat → Int) (hv : ∀ k, val k = leafCost P E k) (hm : mls ≤ E.length)
    (k : Nat) (hk : k < P.nL) : (bestLeaf (tcOf P mls w) E.length val).sol ≤ leafCost P E k := by
  unfold bestLeaf
  rw [if_pos (by simp only [tcOf]; omega)]
  refine foldl_le_mem _ (fun r p => addMin_le_left _ _) _ _ k (List.mem_range.2 hk) _ fun r =>
    Int.le_trans (addMin_le_right _ _) ?_
  rw [hv]; exact Int.le_refl _

theorem bestTwo_eq (ch : Children) (f : Nat) (cur : Node) :
    bestTwo (tcOf P mls w) (statsOf P D) ch f cur =
      addCombination (tcOf P mls w) f
        (bestLeaf (tcOf P mls w) (without f D).length (fun k => leafCost P (without f D) k)) (ch.at w f).2
        (addCombination (tcOf P mls w) f (ch.at w f).1
          (bestLeaf (tcOf P mls w) (having f D).length (fun k => leafCost P (having f D) k)) cur) := by
  unfold bestTwo
  simp only [(counts_self P D f).1, (counts_self P D f).2, (costs_exact_one P D _ f).1,
    (costs_exact_one P D _ f).2]
  rfl

theorem bestTwo_sound (ch : Children) (f : Nat) (cur : Node) (hf : f < P.nF) (hm : P.may f = true)
    (hch : ChSound P mls w D ch) (hcur : Sound P mls w 2 2 D cur) :
    Sound P mls w 2 2 D (bestTwo (tcOf P mls w) (statsOf P D) ch f cur) := by
  rw [bestTwo_eq]
  refine addCombination_sound P mls w D f 0 1 2 _ _ _ hf hm (bestLeaf_sound _ _ _ _ _ fun _ => rfl) (hch f).2 ?_ (by omega)
  exact addCombination_sound P mls w D f 1 0 2 _ _ _ hf hm (hch f).1 (bestLeaf_sound _ _ _ _ _ fun _ => rfl) hcur (by omega)

theorem bestTwo_le (ch : Children) (f : Nat) (cur : Node) :
    (bestTwo (tcOf P mls w) (statsOf P D) ch f cur).sol ≤ cur.sol := by
  rw [bestTwo_eq]
  exact Int.le_trans (addCombination_le ..) (addCombination_le ..)

theorem bestThree_sound (ch : Children) (f : Nat) (cur : Node) (hf : f < P.nF) (hm : P.may f = true)
    (hch : ChSound P mls w D ch) (hcur : Sound P mls w 2 3 D cur) :
    Sound P mls w 2 3 D (bestThree (tcOf P mls w) ch f cur) :=
  addCombination_sound P mls w D f 1 1 3 _ _ _ hf hm (hch f).1 (hch f).2 hcur (by omega)

theorem pairLoop_sound (L : List Nat) (ch : Children) (two three : Node) (hn : L.Nodup)
    (hL : ∀ f ∈ L, f < P.nF ∧ P.may f = true) (hch : ChSound P mls w D ch)
    (h2 : Sound P mls w 2 2 D two) (h3 : Sound P mls w 2 3 D three) :
    Sound P mls w 2 2 D (pairLoop (tcOf P mls w) (statsOf P D) L ch two three).1 ∧
    Sound P mls w 2 3 D (pairLoop (tcOf P mls w) (statsOf P D) L ch two three).2 := by
  induction L generalizing ch two three with
  | nil => exact ⟨h2, h3⟩
  | cons f1 rest ih =>
    unfold pairLoop
    split
    · exact ⟨h2, h3⟩
    · have hf := hL f1 (List.mem_cons_self ..)
      have hn' := List.nodup_cons.1 hn
      obtain ⟨i1, _, _⟩ := inner_loop P mls w D f1 rest ch hn'.1 hf.1 hf.2
        (fun f h => hL f (List.mem_cons_of_mem _ h)) hch
      exact ih _ _ _ hn'.2 (fun f h => hL f (List.mem_cons_of_mem _ h)) i1
        (bestTwo_sound P mls w D _ f1 two hf.1 hf.2 i1 h2) (bestThree_sound P mls w D _ f1 three hf.1 hf.2 i1 h3)

theorem pairLoop_le (L : List Nat) (ch : Children) (two three : Node) :
    (pairLoop (tcOf P mls w) (statsOf P D) L ch two three).1.sol ≤ two.sol ∧
    (pairLoop (tcOf P mls w) (statsOf P D) L ch two three).2.sol ≤ three.sol := by
  induction L generalizing ch two three with
  | nil => exact ⟨Int.le_refl _, Int.le_refl _⟩
  | cons f1 rest ih =>
    unfold pairLoop
    split
    · exact ⟨Int.le_refl _, Int.le_refl _⟩
    · obtain ⟨a, b⟩ := ih (rest.foldl (pairStep (tcOf P mls w) (statsOf P D) f1) ch)
        (bestTwo (tcOf P mls w) (statsOf P D) (rest.foldl (pairStep (tcOf P mls w) (statsOf P D) f1) ch) f1 two)
        (bestThree (tcOf P mls w) (rest.foldl (pairStep (tcOf P mls w) (statsOf P D) f1) ch) f1 three)
      exact ⟨Int.le_trans a (bestTwo_le ..), Int.le_trans b (addCombination_le ..)⟩

/-- Either the loop was left because a zero-cost tree was found, or every feature was combined with its
best children. -/
theorem pairLoop_complete (L pre : List Nat) (ch : Children) (two three : Node) (hn : L.Nodup)
    (hL : ∀ f ∈ L, f < P.nF ∧ P.may f = true) (hch : ChSound P mls w D ch)
    (hpre : ∀ f ∈ L, ∀ g ∈ pre, ChCov P mls w D ch f g) :
    (pairLoop (tcOf P mls w) (statsOf P D) L ch two three).2.sol = 0 ∨
    ∀ f ∈ L, ∃ ch' : Children, ChSound P mls w D ch' ∧
      (∀ g, g ∈ pre ∨ g ∈ L → g ≠ f → ChCov P mls w D ch' f g) ∧
      (∃ x, (pairLoop (tcOf P mls w) (statsOf P D) L ch two three).1.sol ≤
        (bestTwo (tcOf P mls w) (statsOf P D) ch' f x).sol) ∧
      (∃ x, (pairLoop (tcOf P mls w) (statsOf P D) L ch two three).2.sol ≤
        (bestThree (tcOf P mls w) ch' f x).sol) := by
  induction L generalizing ch two three pre with
  | nil => right; simp
  | cons f1 rest ih =>
    unfold pairLoop
    split
    · rename_i h; exact .inl h
    · have hf := hL f1 (List.mem_cons_self ..)
      have hn' := List.nodup_cons.1 hn
      obtain ⟨i1, i2, i3⟩ := inner_loop P mls w D f1 rest ch hn'.1 hf.1 hf.2
        (fun f h => hL f (List.mem_cons_of_mem _ h)) hch
      simp only
      generalize rest.foldl (pairStep (tcOf P mls w) (statsOf P D) f1) ch = ch' at i1 i2 i3 ⊢
      have step := ih (f1 :: pre) ch' (bestTwo (tcOf P mls w) (statsOf P D) ch' f1 two)
        (bestThree (tcOf P mls w) ch' f1 three) hn'.2 (fun f h => hL f (List.mem_cons_of_mem _ h)) i1
        (by
          intro f hfr g hg
          rcases List.mem_cons.1 hg with rfl | hg
          · exact (i3 f hfr).2
          · exact (hpre f (List.mem_cons_of_mem _ hfr) g hg).mono i2)
      rcases step with h | h
      · exact .inl h
      · refine .inr fun f hfL => ?_
        rcases List.mem_cons.1 hfL with rfl | hfr
        · refine ⟨ch', i1, ?_, ⟨two, (pairLoop_le ..).1⟩, ⟨three, (pairLoop_le ..).2⟩⟩
          intro g hg hne
          rcases hg with hg | hg
          · exact (hpre f hfL g hg).mono i2
          · rcases List.mem_cons.1 hg with rfl | hg
            · exact absurd rfl hne
            · exact (i3 g hg).1
        · obtain ⟨ch'', a1, a2, a3, a4⟩ := h f hfr
          refine ⟨ch'', a1, ?_, a3, a4⟩
          intro g hg hne
          apply a2 g ?_ hne
          rcases hg with hg | hg
          · exact .inl (List.mem_cons_of_mem _ hg)
          · rcases List.mem_cons.1 hg with rfl | hg
            · exact .inl (List.mem_cons_self ..)
            · exact .inr hg

/-- The path tests only features that are constant on the data. -/
def PathOK (b : Branch) : Prop := ∀ f, b.has f = true → without f D = [] ∨ having f D = []

theorem mem_pairFeatures (b : Branch) (f : Nat) :
    f ∈ pairFeatures (tcOf P mls w) (statsOf P D) b ↔
      f < P.nF ∧ P.may f = true ∧ b.has f = false ∧ mls ≤ (without f D).length ∧ mls ≤ (having f D).length ∧
      (2 * mls ≤ (without f D).length ∨ 2 * mls ≤ (having f D).length) := by
  have e1 : (statsOf P D).cnt f f = ((having f D).length : Int) := by
    simp [statsOf, having, List.countP_eq_length_filter]
  have e2 : (statsOf P D).tot - (statsOf P D).cnt f f = ((without f D).length : Int) := by
    have := length_split f D
    rw [e1]; simp only [statsOf]; omega
  unfold pairFeatures
  simp only [List.mem_filter, List.mem_range, tcOf, e1, Bool.and_eq_true, Bool.not_eq_true',
    Bool.or_eq_false_iff, Bool.and_eq_false_iff, decide_eq_false_iff_not]
  constructor
  · rintro ⟨h1, ⟨⟨h2, h3⟩, h4, h5⟩, h6⟩
    refine ⟨h1, h2, h3, by omega, by omega, by omega⟩
  · rintro ⟨h1, h2, h3, h4, h5, h6⟩
    refine ⟨h1, ⟨⟨h2, h3⟩, by omega, by omega⟩, by omega⟩

theorem pairFeatures_nodup (b : Branch) : (pairFeatures (tcOf P mls w) (statsOf P D) b).Nodup :=
  List.nodup_range.filter _

/-- The depth-two results are legal trees within their limits (any leaf size). -/
theorem terminal_sound (b : Branch) (n : Nat) :
    Sound P mls w 1 1 D (terminal (tcOf P mls w) (statsOf P D) b n).one ∧
    Sound P mls w 2 2 D (terminal (tcOf P mls w) (statsOf P D) b n).two ∧
    Sound P mls w 2 3 D (terminal (tcOf P mls w) (statsOf P D) b n).three := by
  have e : ∀ d n, Sound P mls w d n D (Node.empty w) := fun _ _ => .inl rfl
  unfold terminal
  split
  · exact ⟨e _ _, e _ _, e _ _⟩
  · rename_i hm
    have h1 := oneNode_sound P mls w D (by simp only [statsOf, tcOf] at hm; omega)
    simp only
    split
    · exact ⟨h1, e _ _, e _ _⟩
    · split
      · refine ⟨h1, (e _ _).addMin (h1.mono (by omega) (by omega)),
          (e _ _).addMin (Sound.addMin (e _ _) (h1.mono (by omega) (by omega)))⟩
      · have h23 := pairLoop_sound P mls w D (pairFeatures (tcOf P mls w) (statsOf P D) b) [] (Node.empty w)
          (Node.empty w) (pairFeatures_nodup ..)
          (fun f hf => ⟨((mem_pairFeatures ..).1 hf).1, ((mem_pairFeatures ..).1 hf).2.1⟩)
          (fun f => ⟨.inl rfl, .inl rfl⟩) (e _ _) (e _ _)
        refine ⟨h1, h23.1.addMin (h1.mono (by omega) (by omega)),
          h23.2.addMin (Sound.mono (h23.1.addMin (h1.mono (by omega) (by omega))) (by omega) (by omega))⟩

/-- A child of the root: a leaf label at least as good, or a stump with different labels. -/
theorem child_cases (hbc : 0 ≤ P.bc) (t : Tree) (E : Data) (ht : t.depth ≤ 1) (hl : t.Legal P mls E) :
    (∃ k, k < P.nL ∧ mls ≤ E.length ∧ leafCost P E k ≤ t.cost P E) ∨
    ∃ g a b, t = .node g (.leaf a) (.leaf b) ∧ (a, b) ∈ labelPairs P.nL := by
  rcases depth_one_cases ht with ⟨k, rfl⟩ | ⟨g, a, b, rfl⟩
  · exact .inl ⟨k, hl.1, hl.2, Int.le_refl _⟩
  · by_cases hab : a = b
    · subst hab
      refine .inl ⟨a, hl.2.2.1.1, hl.length, ?_⟩
      have := leafCost_split P g E a
      simp only [Tree.cost]; omega
    · exact .inr ⟨g, a, b, rfl, mem_labelPairs.2 ⟨hl.2.2.1.1, hl.2.2.2.1, fun _ => hab⟩⟩

theorem constant_side {f : Nat} {D E : Data} (hs : E.Sublist D) (h : without f D = [] ∨ having f D = []) :
    without f E = [] ∨ having f E = [] := by
  rcases h with h | h
  · left
    have : (without f E).Sublist (without f D) := hs.filter _
    rw [h] at this; exact List.sublist_nil.1 this
  · right
    have : (having f E).Sublist (having f D) := hs.filter _
    rw [h] at this; exact List.sublist_nil.1 this

theorem without_self_having (f : Nat) (D : Data) : without f (having f D) = [] := by
  unfold without having; rw [List.filter_filter]; apply List.filter_eq_nil_iff.2; intro i _; cases i.feat f <;> simp

theorem having_self_without (f : Nat) (D : Data) : having f (without f D) = [] := by
  unfold without having; rw [List.filter_filter]; apply List.filter_eq_nil_iff.2; intro i _; cases i.feat f <;> simp

theorem length_mono_filter {E D : Data} (hs : E.Sublist D) (f : Nat) :
    (without f E).length ≤ (without f D).length ∧ (having f E).length ≤ (having f D).length :=
  ⟨(hs.filter _).length_le, (hs.filter _).length_le⟩

/-- With leaf size one no feature that a legal tree needs is filtered out. -/
theorem needed_features (b : Branch) (hb : PathOK D b) (f g : Nat) (hf : f < P.nF) (hmf : P.may f = true)
    (hg : g < P.nF) (hmg : P.may g = true) (x : Bool)
    (hother : 1 ≤ (side f (!x) D).length) (h0 : 1 ≤ (without g (side f x D)).length)
    (h1 : 1 ≤ (having g (side f x D)).length) :
    f ∈ pairFeatures (tcOf P 1 w) (statsOf P D) b ∧ g ∈ pairFeatures (tcOf P 1 w) (statsOf P D) b ∧ g ≠ f := by
  have hsub : (side f x D).Sublist D := List.filter_sublist
  have hlen := length_split g (side f x D)
  have hD := length_split f D
  have hgD := length_split g D
  have hmono := length_mono_filter hsub g
  have hfx : (without f D).length = (if x then (side f (!x) D).length else (side f x D).length) ∧
      (having f D).length = (if x then (side f x D).length else (side f (!x) D).length) := by
    cases x <;> simp [side_false, side_true]
  have hne : g ≠ f := by
    rintro rfl
    cases x
    · rw [side_false, having_self_without] at h1; simp at h1
    · rw [side_true, without_self_having] at h0; simp at h0
  have nb : ∀ u, 1 ≤ (without u D).length → 1 ≤ (having u D).length → b.has u = false := by
    intro u hu hu'
    cases hbu : b.has u
    · rfl
    · rcases hb u hbu with h | h
      · rw [h] at hu; simp at hu
      · rw [h] at hu'; simp at hu'
  have f0 : 1 ≤ (without f D).length ∧ 1 ≤ (having f D).length ∧
      (2 ≤ (without f D).length ∨ 2 ≤ (having f D).length) ∧ 3 ≤ D.length := by
    rw [hfx.1, hfx.2]
    rw [hfx.1, hfx.2] at hD
    cases x
    · simp only [Bool.false_eq_true, if_false] at *; omega
    · simp only [if_true] at *; omega
  refine ⟨(mem_pairFeatures ..).2 ⟨hf, hmf, nb f f0.1 f0.2.1, f0.1, f0.2.1, by omega⟩,
    (mem_pairFeatures ..).2 ⟨hg, hmg, nb g (by omega) (by omega), by omega, by omega, by omega⟩, hne⟩

/-- With leaf size one the three-node result is at most the cost of every legal tree of depth two. -/
theorem terminal_three_le (b : Branch) (n : Nat) (hn : n ≠ 1) (hb : PathOK D b) (hbc : 0 ≤ P.bc)
    (hc : ∀ i ∈ D, ∀ k, 0 ≤ P.cost i k) (t : Tree) (hd : t.depth ≤ 2)
    (hl : t.Legal P 1 D) (hw : t.cost P D < w) :
    (terminal (tcOf P 1 w) (statsOf P D) b n).three.sol ≤ t.cost P D := by
  have hpos := Tree.cost_nonneg P t D hc hbc
  unfold terminal
  rw [if_neg (by have := hl.length; simp only [statsOf, tcOf]; omega)]
  simp only
  rw [if_neg hn]
  have hone := oneNode_le P 1 w D hbc
  generalize hO : oneNode (tcOf P 1 w) (statsOf P D) = one at hone ⊢
  split
  · rename_i h0
    simp only
    refine Int.le_trans (addMin_le_right _ _) (Int.le_trans (addMin_le_right _ _) ?_)
    omega
  · simp only
    have hcomp := pairLoop_complete P 1 w D (pairFeatures (tcOf P 1 w) (statsOf P D) b) [] []
      (Node.empty w) (Node.empty w) (pairFeatures_nodup ..)
      (fun f hf => ⟨((mem_pairFeatures ..).1 hf).1, ((mem_pairFeatures ..).1 hf).2.1⟩)
      (fun f => ⟨.inl rfl, .inl rfl⟩) (by simp)
    show (Node.addMin (pairLoop (tcOf P 1 w) (statsOf P D) (pairFeatures (tcOf P 1 w) (statsOf P D) b) []
      (Node.empty w) (Node.empty w)).2 (Node.addMin (pairLoop (tcOf P 1 w) (statsOf P D)
      (pairFeatures (tcOf P 1 w) (statsOf P D) b) [] (Node.empty w) (Node.empty w)).1 one)).sol ≤ _
    generalize pairLoop (tcOf P 1 w) (statsOf P D) (pairFeatures (tcOf P 1 w) (statsOf P D) b) []
      (Node.empty w) (Node.empty w) = r at hcomp
    have le1 := addMin_le_left r.2 (Node.addMin r.1 one)
    have le2 := addMin_le_right r.2 (Node.addMin r.1 one)
    have le3 := addMin_le_left r.1 one
    have le4 := addMin_le_right r.1 one
    rcases hcomp with h | hcomp
    · omega
    · by_cases hd1 : t.depth ≤ 1
      · have := hone t hd1 hl; omega
      · cases t with
        | leaf k => simp [Tree.depth] at hd1
        | node f l r' =>
          obtain ⟨hf, hmf, hll, hlr⟩ := hl
          have dl : l.depth ≤ 1 := by simp only [Tree.depth] at hd; omega
          have dr : r'.depth ≤ 1 := by simp only [Tree.depth] at hd; omega
          have hcl := Tree.cost_nonneg P l (without f D) (fun i hi => hc i (mem_without.1 hi).1) hbc
          have hcr := Tree.cost_nonneg P r' (having f D) (fun i hi => hc i (mem_having.1 hi).1) hbc
          have ecost : (Tree.node f l r').cost P D = P.bc + (l.cost P (without f D) + r'.cost P (having f D)) := rfl
          have lenl := hll.length
          have lenr := hlr.length
          rcases child_cases P 1 hbc l _ dl hll with ⟨k, hk, hkm, hkc⟩ | ⟨g, a, b', rfl, hab⟩ <;>
          rcases child_cases P 1 hbc r' _ dr hlr with ⟨k', hk', hkm', hkc'⟩ | ⟨g', a', b'', rfl, hab'⟩
          · have := hone (.node f (.leaf k) (.leaf k')) (by simp [Tree.depth]) ⟨hf, hmf, ⟨hk, hkm⟩, hk', hkm'⟩
            simp only [Tree.cost] at this ecost ⊢
            omega
          · -- leaf left, stump right
            obtain ⟨hg', hmg', ⟨ha', hn0⟩, hb', hn1⟩ := hlr
            obtain ⟨m1, m2, hne⟩ := needed_features P w D b hb f g' hf hmf hg' hmg' true
              (by rw [Bool.not_true, side_false]; exact lenl) (by rw [side_true]; exact hn0) (by rw [side_true]; exact hn1)
            obtain ⟨ch', c1, c2, ⟨x, c3⟩, _⟩ := hcomp f m1
            have cov := (c2 g' (.inr m2) hne).2 a' b'' hab' hn0 hn1
            have hst : pairCost P (having f D) g' a' b'' = (Tree.node g' (.leaf a') (.leaf b'')).cost P (having f D) := by
              simp only [pairCost, Tree.cost]; omega
            have real := (c1 f).2.real_lt (by omega)
            rw [bestTwo_eq] at c3
            have lf := bestLeaf_le P 1 w (without f D) (fun k => leafCost P (without f D) k) (fun _ => rfl) hkm k hk
            have lfr := (bestLeaf_sound P 1 w (without f D) (fun k => leafCost P (without f D) k) (fun _ => rfl)).real_lt (by omega)
            have c4 := Int.le_trans c3 (addCombination_le' _ _ _ _ _ lfr.1.nonempty real.1.nonempty)
            have : (tcOf P 1 w).bc = P.bc := rfl
            omega
          · obtain ⟨hg, hmg, ⟨ha, hn0⟩, hb', hn1⟩ := hll
            obtain ⟨m1, m2, hne⟩ := needed_features P w D b hb f g hf hmf hg hmg false
              (by rw [Bool.not_false, side_true]; exact lenr) (by rw [side_false]; exact hn0) (by rw [side_false]; exact hn1)
            obtain ⟨ch', c1, c2, ⟨x, c3⟩, _⟩ := hcomp f m1
            have cov := (c2 g (.inr m2) hne).1 a b' hab hn0 hn1
            have hst : pairCost P (without f D) g a b' = (Tree.node g (.leaf a) (.leaf b')).cost P (without f D) := by
              simp only [pairCost, Tree.cost]; omega
            have real := (c1 f).1.real_lt (by omega)
            rw [bestTwo_eq] at c3
            have lf := bestLeaf_le P 1 w (having f D) (fun k => leafCost P (having f D) k) (fun _ => rfl) hkm' k' hk'
            have lfr := (bestLeaf_sound P 1 w (having f D) (fun k => leafCost P (having f D) k) (fun _ => rfl)).real_lt (by omega)
            have c4 := Int.le_trans c3 (Int.le_trans (addCombination_le ..)
              (addCombination_le' _ _ _ _ _ real.1.nonempty lfr.1.nonempty))
            have : (tcOf P 1 w).bc = P.bc := rfl
            omega
          · obtain ⟨hg, hmg, ⟨ha, hn0⟩, hb0, hn1⟩ := hll
            obtain ⟨hg', hmg', ⟨ha', hn0'⟩, hb', hn1'⟩ := hlr
            obtain ⟨m1, m2, hne⟩ := needed_features P w D b hb f g hf hmf hg hmg false
              (by rw [Bool.not_false, side_true]; exact lenr) (by rw [side_false]; exact hn0) (by rw [side_false]; exact hn1)
            obtain ⟨_, m2', hne'⟩ := needed_features P w D b hb f g' hf hmf hg' hmg' true
              (by rw [Bool.not_true, side_false]; exact lenl) (by rw [side_true]; exact hn0') (by rw [side_true]; exact hn1')
            obtain ⟨ch', c1, c2, _, ⟨x, c3⟩⟩ := hcomp f m1
            have cov := (c2 g (.inr m2) hne).1 a b' hab hn0 hn1
            have cov' := (c2 g' (.inr m2') hne').2 a' b'' hab' hn0' hn1'
            have hst : pairCost P (without f D) g a b' = (Tree.node g (.leaf a) (.leaf b')).cost P (without f D) := by
              simp only [pairCost, Tree.cost]; omega
            have hst' : pairCost P (having f D) g' a' b'' = (Tree.node g' (.leaf a') (.leaf b'')).cost P (having f D) := by
              simp only [pairCost, Tree.cost]; omega
            have real := (c1 f).1.real_lt (by omega)
            have real' := (c1 f).2.real_lt (by omega)
            have c4 := Int.le_trans c3 (addCombination_le' _ _ _ _ _ real.1.nonempty real'.1.nonempty)
            have : (tcOf P 1 w).bc = P.bc := rfl
            simp only [tcOf] at c4 this
            omega

end
end Streed
