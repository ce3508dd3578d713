import Verif.Model.CostSearch
import Verif.Lemmas.CacheInv

/-! Lemmas on the depth-two solver with test costs that depend on the path. -/

namespace Streed.Ctx

/-- Total cost of a tree below path `b`. -/
def cost (P : Problem) (τ : Prices) : Branch → Tree → Data → Int
  | _, .leaf k, D => leafCost P D k
  | b, .node f l r, D => D.length * τ b f + (cost P τ (b.child f false) l (without f D) + cost P τ (b.child f true) r (having f D))

theorem cost_nonneg (P : Problem) (τ : Prices) (hτ : ∀ b f, 0 ≤ τ b f) (t : Tree) (b : Branch) (D : Data)
    (h : ∀ i ∈ D, ∀ k, 0 ≤ P.cost i k) : 0 ≤ cost P τ b t D := by
  induction t generalizing b D with
  | leaf k => exact leafCost_nonneg P D k h
  | node f l r ihl ihr =>
    have h1 := ihl (b.child f false) (without f D) fun i hi => h i (mem_without.1 hi).1
    have h2 := ihr (b.child f true) (having f D) fun i hi => h i (mem_having.1 hi).1
    have h3 : 0 ≤ (D.length : Int) * τ b f := Int.mul_nonneg (Int.natCast_nonneg _) (hτ b f)
    simp only [cost]; omega

/-- `v` describes a legal tree of depth at most `d` with the cost `v` claims. -/
def Real (P : Problem) (τ : Prices) (mls d : Nat) (b : Branch) (D : Data) (v : Node) : Prop :=
  ∃ t, Rep v t ∧ t.depth ≤ d ∧ t.Legal P mls D ∧ cost P τ b t D = v.sol

theorem Real.nonempty {P : Problem} {τ : Prices} {mls d : Nat} {b : Branch} {D : Data} {v : Node}
    (h : Real P τ mls d b D v) : v.isEmpty = false := by obtain ⟨t, h, _⟩ := h; exact h.nonempty

theorem Real.mono {P : Problem} {τ : Prices} {mls d d' : Nat} {b : Branch} {D : Data} {v : Node}
    (h : Real P τ mls d b D v) (hd : d ≤ d') : Real P τ mls d' b D v := by
  obtain ⟨t, h1, h2, h3, h4⟩ := h; exact ⟨t, h1, by omega, h3, h4⟩

theorem Real.leaf {P : Problem} {τ : Prices} {mls d : Nat} {b : Branch} {D : Data} {k : Nat} (hk : k < P.nL)
    (hm : mls ≤ D.length) : Real P τ mls d b D (Node.leaf k (leafCost P D k)) :=
  ⟨.leaf k, ⟨rfl, rfl⟩, Nat.zero_le _, ⟨hk, hm⟩, rfl⟩

theorem Real.combine {P : Problem} {τ : Prices} {mls d f : Nat} {b : Branch} {D : Data} {l r : Node} (hf : f < P.nF)
    (hm : P.may f = true) (hl : Real P τ mls d (b.child f false) (without f D) l)
    (hr : Real P τ mls d (b.child f true) (having f D) r) :
    Real P τ mls (d + 1) b D (Node.combine f l r (D.length * τ b f)) := by
  obtain ⟨tl, a1, a2, a3, a4⟩ := hl
  obtain ⟨tr, b1, b2, b3, b4⟩ := hr
  refine ⟨.node f tl tr, ⟨rfl, rfl, a1.nodes, b1.nodes⟩, ?_, ⟨hf, hm, a3, b3⟩, ?_⟩
  · simp only [Tree.depth]; omega
  · simp only [cost, a4, b4]; rfl

/-- Nothing found, or a legal tree within the limits. -/
def Sound (P : Problem) (τ : Prices) (mls : Nat) (w : Int) (d n : Nat) (b : Branch) (D : Data) (v : Node) : Prop :=
  v = Node.empty w ∨ (Real P τ mls d b D v ∧ v.numNodes ≤ n)

section
variable {P : Problem} {τ : Prices} {mls : Nat} {w : Int} {d n d' n' : Nat} {b : Branch} {D : Data} {v c : Node}

theorem Sound.mono (h : Sound P τ mls w d n b D v) (hd : d ≤ d') (hn : n ≤ n') : Sound P τ mls w d' n' b D v := by
  rcases h with h | ⟨h, h'⟩
  · exact .inl h
  · exact .inr ⟨h.mono hd, by omega⟩

theorem Sound.real (h : Sound P τ mls w d n b D v) (hv : v.isEmpty = false) : Real P τ mls d b D v ∧ v.numNodes ≤ n := by
  rcases h with rfl | h
  · simp [Node.empty, Node.isEmpty] at hv
  · exact h

theorem Sound.real_lt (h : Sound P τ mls w d n b D v) (hv : v.sol < w) : Real P τ mls d b D v ∧ v.numNodes ≤ n := by
  rcases h with rfl | h
  · simp [Node.empty] at hv
  · exact h

theorem Sound.addMin (hc : Sound P τ mls w d n b D c) (hv : Sound P τ mls w d n b D v) :
    Sound P τ mls w d n b D (c.addMin v) := by
  rcases addMin_cases c v with h | h <;> rw [h] <;> assumption

end

/-- The value of a depth-one tree whose test has price `x`. -/
def pairCost (P : Problem) (x : Int) (D : Data) (f a b : Nat) : Int :=
  leafCost P (without f D) a + leafCost P (having f D) b + D.length * x

theorem Real.stump {P : Problem} {τ : Prices} {mls f a k : Nat} {b : Branch} {D : Data} (hf : f < P.nF)
    (hm : P.may f = true) (ha : a < P.nL) (hb : k < P.nL) (h0 : mls ≤ (without f D).length)
    (h1 : mls ≤ (having f D).length) : Real P τ mls 1 b D ⟨some f, none, pairCost P (τ b f) D f a k, 0, 0⟩ := by
  refine ⟨.node f (.leaf a) (.leaf k), ⟨rfl, rfl, rfl, rfl⟩, by simp [Tree.depth], ⟨hf, hm, ⟨ha, h0⟩, hb, h1⟩, ?_⟩
  simp only [cost, pairCost]; omega

theorem bestLeaf_bc (c : TCfg) (x : Int) (m : Int) (val : Nat → Int) : bestLeaf (withBC c x) m val = bestLeaf c m val := rfl

section
variable (P : Problem) (τ : Prices) (mls : Nat) (w : Int) (b : Branch) (D : Data)

theorem oneNode_sound (hm : mls ≤ D.length) :
    Sound P τ mls w 1 1 b D (oneNode (tcOf P mls w) (statsOf P D) (τ b)) := by
  unfold oneNode
  simp only
  apply foldl_inv (Sound P τ mls w 1 1 b D)
  · apply foldl_inv (Sound P τ mls w 1 1 b D)
    · exact .inl rfl
    · intro v hb k hk
      exact hb.addMin (.inr ⟨Real.leaf (List.mem_range.1 hk) hm, Nat.zero_le _⟩)
  · intro v hb f hf
    split
    · exact hb
    · rename_i hmay
      split
      · exact hb
      · rename_i hc
        rw [(counts_self P D f).1, (counts_self P D f).2] at hc
        apply foldl_inv (Sound P τ mls w 1 1 b D)
        · exact hb
        · rintro v hb ⟨a, k⟩ hp
          refine hb.addMin (.inr ⟨?_, Nat.le_refl _⟩)
          have hp := mem_labelPairs.1 hp
          rw [(costs_exact_one P D a f).1, (costs_exact_one P D k f).2]
          simp only [tcOf] at hc
          exact Real.stump (List.mem_range.1 hf) (by simpa [tcOf] using hmay) hp.1 hp.2.1 (by omega) (by omega)

theorem oneNode_le_leaf (r : Nat → Int) (k : Nat) (hk : k < P.nL) :
    (oneNode (tcOf P mls w) (statsOf P D) r).sol ≤ leafCost P D k := by
  unfold oneNode
  simp only
  refine Int.le_trans (foldl_le _ ?_ _ _) ?_
  · intro r f
    split
    · exact Int.le_refl _
    · split
      · exact Int.le_refl _
      · exact foldl_le _ (fun r p => addMin_le_left _ _) _ _
  · exact foldl_le_mem _ (fun r p => addMin_le_left _ _) _ _ k (List.mem_range.2 hk) _
      fun r => addMin_le_right _ _

theorem oneNode_le_stump (r : Nat → Int) (f a k : Nat) (hf : f < P.nF) (hmay : P.may f = true) (ha : a < P.nL)
    (hb : k < P.nL) (h0 : mls ≤ (without f D).length) (h1 : mls ≤ (having f D).length) (hr : 0 ≤ r f) :
    (oneNode (tcOf P mls w) (statsOf P D) r).sol ≤ pairCost P (r f) D f a k := by
  by_cases hab : 1 < P.nL ∧ a = k
  · obtain ⟨_, rfl⟩ := hab
    have h2 := oneNode_le_leaf P mls w D r a ha
    have h3 := leafCost_split P f D a
    have h4 : 0 ≤ (D.length : Int) * r f := Int.mul_nonneg (Int.natCast_nonneg _) hr
    unfold pairCost; omega
  · unfold oneNode
    simp only
    refine foldl_le_mem _ ?_ _ _ f (List.mem_range.2 hf) _ ?_
    · intro r f
      split
      · exact Int.le_refl _
      · split
        · exact Int.le_refl _
        · exact foldl_le _ (fun r p => addMin_le_left _ _) _ _
    · intro v
      rw [if_neg (by simp [tcOf, hmay]), (counts_self P D f).1, (counts_self P D f).2,
        if_neg (by simp only [tcOf]; omega)]
      refine foldl_le_mem _ (fun r p => addMin_le_left _ _) _ _ (a, k)
        (mem_labelPairs.2 ⟨ha, hb, fun h e => hab ⟨h, e⟩⟩) _ fun v => Int.le_trans (addMin_le_right _ _) ?_
      simp only
      rw [(costs_exact_one P D a f).1, (costs_exact_one P D k f).2]
      exact Int.le_refl _

theorem oneNode_le (hτ : ∀ f, 0 ≤ τ b f) (t : Tree) (ht : t.depth ≤ 1) (hl : t.Legal P mls D) :
    (oneNode (tcOf P mls w) (statsOf P D) (τ b)).sol ≤ cost P τ b t D := by
  rcases depth_one_cases ht with ⟨k, rfl⟩ | ⟨f, a, k, rfl⟩
  · exact oneNode_le_leaf P mls w D _ k hl.1
  · have := oneNode_le_stump P mls w D (τ b) f a k hl.1 hl.2.1 hl.2.2.1.1 hl.2.2.2.1 hl.2.2.1.2 hl.2.2.2.2 (hτ f)
    simp only [cost, pairCost] at *; omega

/-- Update of the best stump on `E` with the stumps testing `g` at price `x`. -/
def upd (x : Int) (E : Data) (g : Nat) (v : Node) : Node :=
  if mls ≤ (without g E).length ∧ mls ≤ (having g E).length then
    (labelPairs P.nL).foldl (fun r p => Node.addMin r ⟨some g, none, pairCost P x E g p.1 p.2, 0, 0⟩) v
  else v

theorem upd_le (x : Int) (E : Data) (g : Nat) (v : Node) : (upd P mls x E g v).sol ≤ v.sol := by
  unfold upd
  split
  · exact foldl_le _ (fun r p => addMin_le_left _ _) _ _
  · exact Int.le_refl _

theorem upd_sound (x : Int) (b' : Branch) (E : Data) (g : Nat) (v : Node) (hx : x = τ b' g) (hg : g < P.nF)
    (hm : P.may g = true) (hv : Sound P τ mls w 1 1 b' E v) : Sound P τ mls w 1 1 b' E (upd P mls x E g v) := by
  unfold upd
  split
  · rename_i hc
    refine foldl_inv (Sound P τ mls w 1 1 b' E) _ _ _ hv ?_
    rintro r hr ⟨a, k⟩ hp
    have hp := mem_labelPairs.1 hp
    rw [hx]
    exact hr.addMin (.inr ⟨Real.stump hg hm hp.1 hp.2.1 hc.1 hc.2, Nat.le_refl _⟩)
  · exact hv

/-- `v` is at least as good as every stump on `E` testing `g` with different labels. -/
def Cov (x : Int) (E : Data) (g : Nat) (v : Node) : Prop :=
  ∀ a k, (a, k) ∈ labelPairs P.nL → mls ≤ (without g E).length → mls ≤ (having g E).length →
    v.sol ≤ pairCost P x E g a k

theorem upd_cov (x : Int) (E : Data) (g : Nat) (v : Node) : Cov P mls x E g (upd P mls x E g v) := by
  intro a k hp h0 h1
  unfold upd
  rw [if_pos ⟨h0, h1⟩]
  exact foldl_le_mem _ (fun r p => addMin_le_left _ _) _ _ (a, k) hp _ fun r => addMin_le_right _ _

theorem Cov.mono {P : Problem} {mls : Nat} {x : Int} {E : Data} {g : Nat} {v v' : Node} (h : Cov P mls x E g v)
    (hle : v'.sol ≤ v.sol) : Cov P mls x E g v' :=
  fun a k hp h0 h1 => Int.le_trans hle (h a k hp h0 h1)

theorem pairStep_at (s : Nat → Nat → Int) (f1 f2 f : Nat) (ch : Children) (hne : f1 ≠ f2) :
    (pairStep (tcOf P mls w) (statsOf P D) s f1 ch f2).at w f =
      if f = f2 then (upd P mls (s f2 f1) (without f2 D) f1 (ch.at w f2).1, upd P mls (s f2 f1) (having f2 D) f1 (ch.at w f2).2)
      else if f = f1 then
        (upd P mls (s f1 f2) (without f1 D) f2 (ch.at w f1).1, upd P mls (s f1 f2) (having f1 D) f2 (ch.at w f1).2)
      else ch.at w f := by
  unfold pairStep
  simp only [tcOf, counts_exact, costs_exact P D _ _ _ hne, countWith_eq, costWith_eq, side_false, side_true]
  have c00 : without f2 (without f1 D) = without f1 (without f2 D) := by
    simp only [← side_false]; exact side_comm ..
  have c01 : having f2 (without f1 D) = without f1 (having f2 D) := by
    simp only [← side_false, ← side_true]; exact side_comm ..
  have c10 : without f2 (having f1 D) = having f1 (without f2 D) := by
    simp only [← side_false, ← side_true]; exact side_comm ..
  have c11 : having f2 (having f1 D) = having f1 (having f2 D) := by
    simp only [← side_true]; exact side_comm ..
  have n1 := length_split f2 (without f1 D)
  have n2 := length_split f2 (having f1 D)
  have n3 := length_split f1 (without f2 D)
  have n4 := length_split f1 (having f2 D)
  split
  · rename_i h
    have u : ∀ x E g v, ¬ (mls ≤ (without g E).length ∧ mls ≤ (having g E).length) → upd P mls x E g v = v := by
      intro x E g v hn; unfold upd; rw [if_neg hn]
    rw [u, u, u, u]
    · split
      · subst_vars; rfl
      · split
        · subst_vars; rfl
        · rfl
    · omega
    · omega
    · rw [← c01, ← c11]; omega
    · rw [← c00, ← c10]; omega
  · unfold Children.at
    rw [Tbl.get_set, Tbl.get_set]
    split
    · simp only [Prod.mk.injEq]
      unfold upd bestChild pairCost withBC
      rw [← n3, ← n4]
      simp only [← c00, ← c01, ← c10, ← c11, Int.ofNat_le, Int.natCast_add]
      exact ⟨trivial, trivial⟩
    · split
      · simp only [Prod.mk.injEq]
        unfold upd bestChild pairCost withBC
        rw [← n1, ← n2]
        simp only [Int.ofNat_le, Int.natCast_add]
        exact ⟨trivial, trivial⟩
      · rfl

/-- Every stored child is a legal stump on its side. -/
def ChSound (ch : Children) : Prop :=
  ∀ f, Sound P τ mls w 1 1 (b.child f false) (without f D) (ch.at w f).1 ∧
    Sound P τ mls w 1 1 (b.child f true) (having f D) (ch.at w f).2

/-- The children of `f` are at least as good as the stumps testing `g`. -/
def ChCov (s : Nat → Nat → Int) (ch : Children) (f g : Nat) : Prop :=
  Cov P mls (s f g) (without f D) g (ch.at w f).1 ∧ Cov P mls (s f g) (having f D) g (ch.at w f).2

/-- The prices below `f` do not depend on the outcome of the test. -/
def SideFree (τ : Prices) : Prop := ∀ b f g, τ (Branch.child b f true) g = τ (Branch.child b f false) g

theorem pairStep_le (s : Nat → Nat → Int) (f1 f2 : Nat) (ch : Children) (hne : f1 ≠ f2) :
    ChLe w (pairStep (tcOf P mls w) (statsOf P D) s f1 ch f2) ch := by
  intro f
  rw [pairStep_at P mls w D s f1 f2 f ch hne]
  split
  · rename_i e; rw [e]; exact ⟨upd_le .., upd_le ..⟩
  · split
    · rename_i e; rw [e]; exact ⟨upd_le .., upd_le ..⟩
    · exact ⟨Int.le_refl _, Int.le_refl _⟩

theorem ChCov.mono {P : Problem} {mls : Nat} {w : Int} {D : Data} {s : Nat → Nat → Int} {ch ch' : Children} {f g : Nat}
    (h : ChCov P mls w D s ch f g) (hle : ChLe w ch' ch) : ChCov P mls w D s ch' f g :=
  ⟨h.1.mono (hle f).1, h.2.mono (hle f).2⟩

/-- The table of prices below the features tested on path `b`. -/
def table (τ : Prices) (b : Branch) (f g : Nat) : Int := τ (b.child f false) g

theorem pairStep_sound (hside : SideFree τ) (f1 f2 : Nat) (ch : Children) (hne : f1 ≠ f2) (h1 : f1 < P.nF) (h2 : f2 < P.nF)
    (m1 : P.may f1 = true) (m2 : P.may f2 = true) (h : ChSound P τ mls w b D ch) :
    ChSound P τ mls w b D (pairStep (tcOf P mls w) (statsOf P D) (table τ b) f1 ch f2) := by
  intro f
  rw [pairStep_at P mls w D _ f1 f2 f ch hne]
  split
  · rename_i e; rw [e]
    exact ⟨upd_sound _ _ _ _ _ _ _ _ _ rfl h1 m1 (h f2).1, upd_sound _ _ _ _ _ _ _ _ _ (hside b f2 f1).symm h1 m1 (h f2).2⟩
  · split
    · rename_i e; rw [e]
      exact ⟨upd_sound _ _ _ _ _ _ _ _ _ rfl h2 m2 (h f1).1, upd_sound _ _ _ _ _ _ _ _ _ (hside b f1 f2).symm h2 m2 (h f1).2⟩
    · exact h f

theorem pairStep_cov (s : Nat → Nat → Int) (f1 f2 : Nat) (ch : Children) (hne : f1 ≠ f2) :
    ChCov P mls w D s (pairStep (tcOf P mls w) (statsOf P D) s f1 ch f2) f1 f2 ∧
    ChCov P mls w D s (pairStep (tcOf P mls w) (statsOf P D) s f1 ch f2) f2 f1 := by
  unfold ChCov
  rw [pairStep_at P mls w D s f1 f2 f1 ch hne, pairStep_at P mls w D s f1 f2 f2 ch hne, if_neg hne, if_pos rfl, if_pos rfl]
  exact ⟨⟨upd_cov _ _ _ _ _ _, upd_cov _ _ _ _ _ _⟩, upd_cov _ _ _ _ _ _, upd_cov _ _ _ _ _ _⟩

/-- The inner loop. -/
theorem inner_loop (hside : SideFree τ) (f1 : Nat) (rest : List Nat) (ch : Children) (hn : f1 ∉ rest) (h1 : f1 < P.nF)
    (m1 : P.may f1 = true) (hr : ∀ f ∈ rest, f < P.nF ∧ P.may f = true) (h : ChSound P τ mls w b D ch) :
    let ch' := rest.foldl (pairStep (tcOf P mls w) (statsOf P D) (table τ b) f1) ch
    ChSound P τ mls w b D ch' ∧ ChLe w ch' ch ∧
      ∀ f2 ∈ rest, ChCov P mls w D (table τ b) ch' f1 f2 ∧ ChCov P mls w D (table τ b) ch' f2 f1 := by
  induction rest generalizing ch with
  | nil => exact ⟨h, fun f => ⟨Int.le_refl _, Int.le_refl _⟩, by simp⟩
  | cons f2 rest ih =>
    have hne : f1 ≠ f2 := fun e => hn (by simp [e])
    have hf2 := hr f2 (List.mem_cons_self ..)
    obtain ⟨i1, i2, i3⟩ := ih (pairStep (tcOf P mls w) (statsOf P D) (table τ b) f1 ch f2)
      (fun e => hn (List.mem_cons_of_mem _ e)) (fun f hf => hr f (List.mem_cons_of_mem _ hf))
      (pairStep_sound P τ mls w b D hside f1 f2 ch hne h1 hf2.1 m1 hf2.2 h)
    refine ⟨i1, fun f => ?_, fun f hf => ?_⟩
    · have := pairStep_le P mls w D (table τ b) f1 f2 ch hne f
      exact ⟨Int.le_trans (i2 f).1 this.1, Int.le_trans (i2 f).2 this.2⟩
    · rcases List.mem_cons.1 hf with rfl | hf
      · have := pairStep_cov P mls w D (table τ b) f1 f ch hne
        exact ⟨this.1.mono i2, this.2.mono i2⟩
      · exact i3 f hf

/-! ### Combining children -/

theorem addCombination_sound (f k m n : Nat) (l r cur : Node) (hf : f < P.nF) (hm : P.may f = true)
    (hl : Sound P τ mls w 1 k (b.child f false) (without f D) l) (hr : Sound P τ mls w 1 m (b.child f true) (having f D) r)
    (hcur : Sound P τ mls w 2 n b D cur) (hn : k + m + 1 ≤ n) :
    Sound P τ mls w 2 n b D (addCombination (withBC (tcOf P mls w) (D.length * τ b f)) f l r cur) := by
  unfold addCombination
  split
  · rename_i h
    have h1 := hl.real h.1
    have h2 := hr.real h.2
    simp only
    split
    · refine .inr ⟨Real.combine hf hm h1.1 h2.1, ?_⟩
      have := combine_numNodes f l r (D.length * τ b f)
      show (Node.combine f l r (D.length * τ b f)).numNodes ≤ n
      omega
    · exact hcur
  · exact hcur

theorem bestLeaf_sound (b' : Branch) (E : Data) (val : Nat → Int) (hv : ∀ k, val k = leafCost P E k) :
    Sound P τ mls w 1 0 b' E (bestLeaf (tcOf P mls w) E.length val) := by
  unfold bestLeaf
  split
  · rename_i h
    simp only [tcOf] at h
    refine foldl_inv (Sound P τ mls w 1 0 b' E) _ _ _ (.inl rfl) ?_
    intro r hr k hk
    rw [hv]
    exact hr.addMin (.inr ⟨Real.leaf (List.mem_range.1 hk) (by omega), Nat.le_refl _⟩)
  · exact .inl rfl

theorem bestTwo_eq (x : Int) (ch : Children) (f : Nat) (cur : Node) :
    bestTwo (withBC (tcOf P mls w) x) (statsOf P D) ch f cur =
      addCombination (withBC (tcOf P mls w) x) f
        (bestLeaf (tcOf P mls w) (without f D).length (fun k => leafCost P (without f D) k)) (ch.at w f).2
        (addCombination (withBC (tcOf P mls w) x) f (ch.at w f).1
          (bestLeaf (tcOf P mls w) (having f D).length (fun k => leafCost P (having f D) k)) cur) := by
  unfold bestTwo
  simp only [(counts_self P D f).1, (counts_self P D f).2, (costs_exact_one P D _ f).1,
    (costs_exact_one P D _ f).2]
  rfl

theorem bestTwo_sound (ch : Children) (f : Nat) (cur : Node) (hf : f < P.nF) (hm : P.may f = true)
    (hch : ChSound P τ mls w b D ch) (hcur : Sound P τ mls w 2 2 b D cur) :
    Sound P τ mls w 2 2 b D (bestTwo (withBC (tcOf P mls w) (D.length * τ b f)) (statsOf P D) ch f cur) := by
  rw [bestTwo_eq]
  refine addCombination_sound P τ mls w b D f 0 1 2 _ _ _ hf hm (bestLeaf_sound _ _ _ _ _ _ _ fun _ => rfl) (hch f).2 ?_ (by omega)
  exact addCombination_sound P τ mls w b D f 1 0 2 _ _ _ hf hm (hch f).1 (bestLeaf_sound _ _ _ _ _ _ _ fun _ => rfl) hcur (by omega)

theorem bestTwo_le (x : Int) (ch : Children) (f : Nat) (cur : Node) :
    (bestTwo (withBC (tcOf P mls w) x) (statsOf P D) ch f cur).sol ≤ cur.sol := by
  rw [bestTwo_eq]
  exact Int.le_trans (addCombination_le ..) (addCombination_le ..)

theorem bestThree_sound (ch : Children) (f : Nat) (cur : Node) (hf : f < P.nF) (hm : P.may f = true)
    (hch : ChSound P τ mls w b D ch) (hcur : Sound P τ mls w 2 3 b D cur) :
    Sound P τ mls w 2 3 b D (bestThree (withBC (tcOf P mls w) (D.length * τ b f)) ch f cur) :=
  addCombination_sound P τ mls w b D f 1 1 3 _ _ _ hf hm (hch f).1 (hch f).2 hcur (by omega)

theorem pairLoop_sound (hside : SideFree τ) (L : List Nat) (ch : Children) (two three : Node) (hn : L.Nodup)
    (hL : ∀ f ∈ L, f < P.nF ∧ P.may f = true) (hch : ChSound P τ mls w b D ch)
    (h2 : Sound P τ mls w 2 2 b D two) (h3 : Sound P τ mls w 2 3 b D three) :
    Sound P τ mls w 2 2 b D (pairLoop (tcOf P mls w) (statsOf P D) (τ b) (table τ b) L ch two three).1 ∧
    Sound P τ mls w 2 3 b D (pairLoop (tcOf P mls w) (statsOf P D) (τ b) (table τ b) L ch two three).2 := by
  induction L generalizing ch two three with
  | nil => exact ⟨h2, h3⟩
  | cons f1 rest ih =>
    unfold pairLoop
    split
    · exact ⟨h2, h3⟩
    · have hf := hL f1 (List.mem_cons_self ..)
      have hn' := List.nodup_cons.1 hn
      obtain ⟨i1, _, _⟩ := inner_loop P τ mls w b D hside f1 rest ch hn'.1 hf.1 hf.2
        (fun f h => hL f (List.mem_cons_of_mem _ h)) hch
      exact ih _ _ _ hn'.2 (fun f h => hL f (List.mem_cons_of_mem _ h)) i1
        (bestTwo_sound P τ mls w b D _ f1 two hf.1 hf.2 i1 h2) (bestThree_sound P τ mls w b D _ f1 three hf.1 hf.2 i1 h3)

theorem pairLoop_le (L : List Nat) (ch : Children) (two three : Node) :
    (pairLoop (tcOf P mls w) (statsOf P D) (τ b) (table τ b) L ch two three).1.sol ≤ two.sol ∧
    (pairLoop (tcOf P mls w) (statsOf P D) (τ b) (table τ b) L ch two three).2.sol ≤ three.sol := by
  induction L generalizing ch two three with
  | nil => exact ⟨Int.le_refl _, Int.le_refl _⟩
  | cons f1 rest ih =>
    unfold pairLoop
    split
    · exact ⟨Int.le_refl _, Int.le_refl _⟩
    · dsimp only
      generalize rest.foldl (pairStep (tcOf P mls w) (statsOf P D) (table τ b) f1) ch = ch'
      obtain ⟨a, k⟩ := ih ch'
        (bestTwo (withBC (tcOf P mls w) ((statsOf P D).tot * τ b f1)) (statsOf P D) ch' f1 two)
        (bestThree (withBC (tcOf P mls w) ((statsOf P D).tot * τ b f1)) ch' f1 three)
      exact ⟨Int.le_trans a (bestTwo_le ..), Int.le_trans k (addCombination_le ..)⟩

/-- Either the loop was left because a zero-cost tree was found, or every feature was combined with its
best children. -/
theorem pairLoop_complete (hside : SideFree τ) (L pre : List Nat) (ch : Children) (two three : Node) (hn : L.Nodup)
    (hL : ∀ f ∈ L, f < P.nF ∧ P.may f = true) (hch : ChSound P τ mls w b D ch)
    (hpre : ∀ f ∈ L, ∀ g ∈ pre, ChCov P mls w D (table τ b) ch f g) :
    (pairLoop (tcOf P mls w) (statsOf P D) (τ b) (table τ b) L ch two three).2.sol = 0 ∨
    ∀ f ∈ L, ∃ ch' : Children, ChSound P τ mls w b D ch' ∧
      (∀ g, g ∈ pre ∨ g ∈ L → g ≠ f → ChCov P mls w D (table τ b) ch' f g) ∧
      (∃ x, (pairLoop (tcOf P mls w) (statsOf P D) (τ b) (table τ b) L ch two three).1.sol ≤
        (bestTwo (withBC (tcOf P mls w) (D.length * τ b f)) (statsOf P D) ch' f x).sol) ∧
      (∃ x, (pairLoop (tcOf P mls w) (statsOf P D) (τ b) (table τ b) L ch two three).2.sol ≤
        (bestThree (withBC (tcOf P mls w) (D.length * τ b f)) ch' f x).sol) := by
  induction L generalizing ch two three pre with
  | nil => right; simp
  | cons f1 rest ih =>
    unfold pairLoop
    split
    · rename_i h; exact .inl h
    · have hf := hL f1 (List.mem_cons_self ..)
      have hn' := List.nodup_cons.1 hn
      obtain ⟨i1, i2, i3⟩ := inner_loop P τ mls w b D hside f1 rest ch hn'.1 hf.1 hf.2
        (fun f h => hL f (List.mem_cons_of_mem _ h)) hch
      simp only
      generalize rest.foldl (pairStep (tcOf P mls w) (statsOf P D) (table τ b) f1) ch = ch' at i1 i2 i3 ⊢
      have step := ih (f1 :: pre) ch' (bestTwo (withBC (tcOf P mls w) ((statsOf P D).tot * τ b f1)) (statsOf P D) ch' f1 two)
        (bestThree (withBC (tcOf P mls w) ((statsOf P D).tot * τ b f1)) ch' f1 three) hn'.2
        (fun f h => hL f (List.mem_cons_of_mem _ h)) i1
        (by
          intro f hfr g hg
          rcases List.mem_cons.1 hg with rfl | hg
          · exact (i3 f hfr).2
          · exact (hpre f (List.mem_cons_of_mem _ hfr) g hg).mono i2)
      rcases step with h | h
      · exact .inl h
      · refine .inr fun f hfL => ?_
        rcases List.mem_cons.1 hfL with rfl | hfr
        · refine ⟨ch', i1, ?_, ⟨two, (pairLoop_le P τ mls w b D _ _ _ _).1⟩, ⟨three, (pairLoop_le P τ mls w b D _ _ _ _).2⟩⟩
          intro g hg hne
          rcases hg with hg | hg
          · exact (hpre f hfL g hg).mono i2
          · rcases List.mem_cons.1 hg with rfl | hg
            · exact absurd rfl hne
            · exact (i3 g hg).1
        · obtain ⟨ch'', a1, a2, a3, a4⟩ := h f hfr
          refine ⟨ch'', a1, ?_, a3, a4⟩
          intro g hg hne
          apply a2 g ?_ hne
          rcases hg with hg | hg
          · exact .inl (List.mem_cons_of_mem _ hg)
          · rcases List.mem_cons.1 hg with rfl | hg
            · exact .inl (List.mem_cons_self ..)
            · exact .inr hg

/-- The depth-two results are legal trees within their limits (any leaf size). -/
theorem terminal_sound (hside : SideFree τ) (n : Nat) :
    Sound P τ mls w 1 1 b D (terminal (tcOf P mls w) (statsOf P D) (τ b) (table τ b) b n).one ∧
    Sound P τ mls w 2 2 b D (terminal (tcOf P mls w) (statsOf P D) (τ b) (table τ b) b n).two ∧
    Sound P τ mls w 2 3 b D (terminal (tcOf P mls w) (statsOf P D) (τ b) (table τ b) b n).three := by
  have e : ∀ d n, Sound P τ mls w d n b D (Node.empty w) := fun _ _ => .inl rfl
  unfold terminal
  split
  · exact ⟨e _ _, e _ _, e _ _⟩
  · rename_i hm
    have h1 := oneNode_sound P τ mls w b D (by simp only [statsOf, tcOf] at hm; omega)
    simp only
    split
    · exact ⟨h1, e _ _, e _ _⟩
    · split
      · refine ⟨h1, (e _ _).addMin (h1.mono (by omega) (by omega)),
          (e _ _).addMin (Sound.addMin (e _ _) (h1.mono (by omega) (by omega)))⟩
      · have h23 := pairLoop_sound P τ mls w b D hside (pairFeatures (tcOf P mls w) (statsOf P D) b) [] (Node.empty w)
          (Node.empty w) (pairFeatures_nodup ..)
          (fun f hf => ⟨((mem_pairFeatures ..).1 hf).1, ((mem_pairFeatures ..).1 hf).2.1⟩)
          (fun f => ⟨.inl rfl, .inl rfl⟩) (e _ _) (e _ _)
        refine ⟨h1, h23.1.addMin (h1.mono (by omega) (by omega)),
          h23.2.addMin (Sound.mono (h23.1.addMin (h1.mono (by omega) (by omega))) (by omega) (by omega))⟩

/-- A child of the root: a leaf label at least as good, or a stump with different labels. -/
theorem child_cases (hτ : ∀ b f, 0 ≤ τ b f) (t : Tree) (b' : Branch) (E : Data) (ht : t.depth ≤ 1) (hl : t.Legal P mls E) :
    (∃ k, k < P.nL ∧ mls ≤ E.length ∧ leafCost P E k ≤ cost P τ b' t E) ∨
    ∃ g a k, t = .node g (.leaf a) (.leaf k) ∧ (a, k) ∈ labelPairs P.nL := by
  rcases depth_one_cases ht with ⟨k, rfl⟩ | ⟨g, a, k, rfl⟩
  · exact .inl ⟨k, hl.1, hl.2, Int.le_refl _⟩
  · by_cases hab : a = k
    · subst hab
      refine .inl ⟨a, hl.2.2.1.1, hl.length, ?_⟩
      have := leafCost_split P g E a
      have : 0 ≤ (E.length : Int) * τ b' g := Int.mul_nonneg (Int.natCast_nonneg _) (hτ _ _)
      simp only [cost]; omega
    · exact .inr ⟨g, a, k, rfl, mem_labelPairs.2 ⟨hl.2.2.1.1, hl.2.2.2.1, fun _ => hab⟩⟩

theorem stump_cost (b' : Branch) (E : Data) (g a k : Nat) :
    cost P τ b' (.node g (.leaf a) (.leaf k)) E = pairCost P (τ b' g) E g a k := by
  simp only [cost, pairCost]; omega

/-- With leaf size one the three-node result is at most the cost of every legal tree of depth two. -/
theorem terminal_three_le (hside : SideFree τ) (hτ : ∀ b f, 0 ≤ τ b f) (n : Nat) (hn : n ≠ 1) (hb : PathOK D b)
    (hc : ∀ i ∈ D, ∀ k, 0 ≤ P.cost i k) (t : Tree) (hd : t.depth ≤ 2)
    (hl : t.Legal P 1 D) (hw : cost P τ b t D < w) :
    (terminal (tcOf P 1 w) (statsOf P D) (τ b) (table τ b) b n).three.sol ≤ cost P τ b t D := by
  have hpos := cost_nonneg P τ hτ t b D hc
  unfold terminal
  rw [if_neg (by have := hl.length; simp only [statsOf, tcOf]; omega)]
  simp only
  rw [if_neg hn]
  have hone := oneNode_le P τ 1 w b D (hτ b)
  generalize hO : oneNode (tcOf P 1 w) (statsOf P D) (τ b) = one at hone ⊢
  split
  · rename_i h0
    simp only
    refine Int.le_trans (addMin_le_right _ _) (Int.le_trans (addMin_le_right _ _) ?_)
    omega
  · simp only
    have ew : (tcOf P 1 w).worst = w := rfl
    rw [ew]
    have hcomp := pairLoop_complete P τ 1 w b D hside (pairFeatures (tcOf P 1 w) (statsOf P D) b) [] []
      (Node.empty w) (Node.empty w) (pairFeatures_nodup ..)
      (fun f hf => ⟨((mem_pairFeatures ..).1 hf).1, ((mem_pairFeatures ..).1 hf).2.1⟩)
      (fun f => ⟨.inl rfl, .inl rfl⟩) (by simp)
    generalize pairLoop (tcOf P 1 w) (statsOf P D) (τ b) (table τ b) (pairFeatures (tcOf P 1 w) (statsOf P D) b) []
      (Node.empty w) (Node.empty w) = r at hcomp ⊢
    have le1 := addMin_le_left r.2 (Node.addMin r.1 one)
    have le2 := addMin_le_right r.2 (Node.addMin r.1 one)
    have le3 := addMin_le_left r.1 one
    have le4 := addMin_le_right r.1 one
    rcases hcomp with h | hcomp
    · omega
    · by_cases hd1 : t.depth ≤ 1
      · have := hone t hd1 hl; omega
      · cases t with
        | leaf k => simp [Tree.depth] at hd1
        | node f l r' =>
          obtain ⟨hf, hmf, hll, hlr⟩ := hl
          have dl : l.depth ≤ 1 := by simp only [Tree.depth] at hd; omega
          have dr : r'.depth ≤ 1 := by simp only [Tree.depth] at hd; omega
          have hcl := cost_nonneg P τ hτ l (b.child f false) (without f D) (fun i hi => hc i (mem_without.1 hi).1)
          have hcr := cost_nonneg P τ hτ r' (b.child f true) (having f D) (fun i hi => hc i (mem_having.1 hi).1)
          have hx : 0 ≤ (D.length : Int) * τ b f := Int.mul_nonneg (Int.natCast_nonneg _) (hτ _ _)
          have ebc : (withBC (tcOf P 1 w) (D.length * τ b f)).bc = D.length * τ b f := rfl
          have ecost : cost P τ b (Tree.node f l r') D = D.length * τ b f +
              (cost P τ (b.child f false) l (without f D) + cost P τ (b.child f true) r' (having f D)) := rfl
          have lenl := hll.length
          have lenr := hlr.length
          rcases child_cases P τ 1 hτ l (b.child f false) _ dl hll with ⟨k, hk, hkm, hkc⟩ | ⟨g, a, b', rfl, hab⟩ <;>
          rcases child_cases P τ 1 hτ r' (b.child f true) _ dr hlr with ⟨k', hk', hkm', hkc'⟩ | ⟨g', a', b'', rfl, hab'⟩
          · have := hone (.node f (.leaf k) (.leaf k')) (by simp [Tree.depth]) ⟨hf, hmf, ⟨hk, hkm⟩, hk', hkm'⟩
            simp only [cost] at this ecost ⊢
            omega
          · -- leaf left, stump right
            obtain ⟨hg', hmg', ⟨ha', hn0⟩, hb', hn1⟩ := hlr
            obtain ⟨m1, m2, hne⟩ := needed_features P w D b hb f g' hf hmf hg' hmg' true
              (by rw [Bool.not_true, side_false]; exact lenl) (by rw [side_true]; exact hn0) (by rw [side_true]; exact hn1)
            obtain ⟨ch', c1, c2, ⟨x, c3⟩, _⟩ := hcomp f m1
            have cov := (c2 g' (.inr m2) hne).2 a' b'' hab' hn0 hn1
            have hst := stump_cost P τ (b.child f true) (having f D) g' a' b''
            rw [hside b f g'] at hst
            rw [table, ← hst] at cov
            have real := (c1 f).2.real_lt (by omega)
            rw [bestTwo_eq] at c3
            have lf := bestLeaf_le P 1 w (without f D) (fun k => leafCost P (without f D) k) (fun _ => rfl) hkm k hk
            have lfr := (bestLeaf_sound P τ 1 w [] (without f D) (fun k => leafCost P (without f D) k) (fun _ => rfl)).real_lt (by omega)
            have c4 := Int.le_trans c3 (addCombination_le' _ _ _ _ _ lfr.1.nonempty real.1.nonempty)
            omega
          · obtain ⟨hg, hmg, ⟨ha, hn0⟩, hb', hn1⟩ := hll
            obtain ⟨m1, m2, hne⟩ := needed_features P w D b hb f g hf hmf hg hmg false
              (by rw [Bool.not_false, side_true]; exact lenr) (by rw [side_false]; exact hn0) (by rw [side_false]; exact hn1)
            obtain ⟨ch', c1, c2, ⟨x, c3⟩, _⟩ := hcomp f m1
            have cov := (c2 g (.inr m2) hne).1 a b' hab hn0 hn1
            have hst := stump_cost P τ (b.child f false) (without f D) g a b'
            rw [table, ← hst] at cov
            have real := (c1 f).1.real_lt (by omega)
            rw [bestTwo_eq] at c3
            have lf := bestLeaf_le P 1 w (having f D) (fun k => leafCost P (having f D) k) (fun _ => rfl) hkm' k' hk'
            have lfr := (bestLeaf_sound P τ 1 w [] (having f D) (fun k => leafCost P (having f D) k) (fun _ => rfl)).real_lt (by omega)
            have c4 := Int.le_trans c3 (Int.le_trans (addCombination_le ..)
              (addCombination_le' _ _ _ _ _ real.1.nonempty lfr.1.nonempty))
            omega
          · obtain ⟨hg, hmg, ⟨ha, hn0⟩, hb0, hn1⟩ := hll
            obtain ⟨hg', hmg', ⟨ha', hn0'⟩, hb', hn1'⟩ := hlr
            obtain ⟨m1, m2, hne⟩ := needed_features P w D b hb f g hf hmf hg hmg false
              (by rw [Bool.not_false, side_true]; exact lenr) (by rw [side_false]; exact hn0) (by rw [side_false]; exact hn1)
            obtain ⟨_, m2', hne'⟩ := needed_features P w D b hb f g' hf hmf hg' hmg' true
              (by rw [Bool.not_true, side_false]; exact lenl) (by rw [side_true]; exact hn0') (by rw [side_true]; exact hn1')
            obtain ⟨ch', c1, c2, _, ⟨x, c3⟩⟩ := hcomp f m1
            have cov := (c2 g (.inr m2) hne).1 a b' hab hn0 hn1
            have cov' := (c2 g' (.inr m2') hne').2 a' b'' hab' hn0' hn1'
            have hst := stump_cost P τ (b.child f false) (without f D) g a b'
            have hst' := stump_cost P τ (b.child f true) (having f D) g' a' b''
            rw [hside b f g'] at hst'
            rw [table, ← hst] at cov
            rw [table, ← hst'] at cov'
            have real := (c1 f).1.real_lt (by omega)
            have real' := (c1 f).2.real_lt (by omega)
            have c4 := Int.le_trans c3 (addCombination_le' _ _ _ _ _ real.1.nonempty real'.1.nonempty)
            have e1 : (ch'.at (withBC (tcOf P 1 w) (D.length * τ b f)).worst f) = ch'.at w f := rfl
            rw [e1] at c4
            omega

end
end Streed.Ctx
