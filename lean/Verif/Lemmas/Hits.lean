import Verif.Lemmas.Answers

/-!
What the dataset cache holds during a search of depth at most three: every subproblem of a solution found at the root can
be looked up again with exactly the size it has in that solution.
-/

namespace Streed

/-- Answers are kept. -/
def Keep (w : Int) (C C' : Cache) : Prop :=
  ∀ (E : Data) (d n : Nat), d ≤ n → (C.ans w E d n).isEmpty = false → C'.ans w E d n = C.ans w E d n

theorem Keep.refl (w : Int) (C : Cache) : Keep w C C := fun _ _ _ _ _ => rfl

theorem Keep.trans {w : Int} {A B C : Cache} (h : Keep w A B) (h' : Keep w B C) : Keep w A C := by
  intro E d n hdn he
  have h1 := h E d n hdn he
  rw [← h1] at he
  rw [h' E d n hdn he, h1]

theorem SameAns.keep {w : Int} {C C' : Cache} (h : SameAns w C C') (h1 : DsOne C) : Keep w C C' :=
  fun E d n _ _ => h.ans h1 E d n

/-- A subproblem of size `z` and value at least `x` can be looked up: a leaf if `z = 0`, an answer of the cache otherwise.
The comparison of values is claimed when the depth-two solver is on. -/
def CH (c : Cfg) (C : Cache) (E : Data) (z : Nat) (x : Int) : Prop :=
  z ≤ 3 ∧ ((z = 0 ∧ (c.useTerm = true → (solveLeaf c E (Node.empty c.worst)).1.sol ≤ x)) ∨
    (1 ≤ z ∧ (C.ans c.worst E (min 2 z) z).isEmpty = false ∧
      (c.useTerm = true → (C.ans c.worst E (min 2 z) z).numNodes = z ∧ (C.ans c.worst E (min 2 z) z).sol ≤ x)))

theorem CH.keep {c : Cfg} {C C' : Cache} {E : Data} {z : Nat} {x : Int} (h : CH c C E z x) (k : Keep c.worst C C') :
    CH c C' E z x := by
  refine ⟨h.1, ?_⟩
  rcases h.2 with h | ⟨h1, h2, h3⟩
  · exact .inl h
  · have := k E (min 2 z) z (Nat.min_le_right _ _) h2
    exact .inr ⟨h1, by rw [this]; exact h2, by rw [this]; exact h3⟩

/-- The two subproblems of a split. -/
def Q (c : Cfg) (C : Cache) (D : Data) (v : Node) : Prop :=
  ∃ f xl xr, v.feature = some f ∧ CH c C (without f D) v.nl xl ∧ CH c C (having f D) v.nr xr ∧ v.sol = c.P.bc + (xl + xr)

/-- A solution the tree can be rebuilt from. -/
def RootOK (c : Cfg) (C : Cache) (D : Data) (v : Node) : Prop :=
  v.numNodes ≤ 2 ∨ C.ans c.worst D 2 3 = v ∨ Q c C D v

theorem RootOK.keep {c : Cfg} {C C' : Cache} {D : Data} {v : Node} (h : RootOK c C D v) (hv : v.isEmpty = false)
    (k : Keep c.worst C C') : RootOK c C' D v := by
  rcases h with h | h | ⟨f, xl, xr, h1, h2, h3, h4⟩
  · exact .inl h
  · exact .inr (.inl (by rw [k D 2 3 (by decide) (by rw [h]; exact hv), h]))
  · exact .inr (.inr ⟨f, xl, xr, h1, h2.keep k, h3.keep k, h4⟩)

/-- The invariant of the cache. -/
structure HI (c : Cfg) (T : Data) (C : Cache) : Prop where
  one : DsOne C
  fill : ∀ (E : Data) (d n : Nat), d ≤ n → (C.ans c.worst E d n).isEmpty = false → 1 ≤ (C.ans c.worst E d n).numNodes →
    (C.ans c.worst E (min d (C.ans c.worst E d n).numNodes) (C.ans c.worst E d n).numNodes).isEmpty = false
  root : ∀ n, 3 ≤ n → (C.ans c.worst T 3 n).isEmpty = false → RootOK c C T (C.ans c.worst T 3 n)

/-- The three answers of the depth-two solver for one dataset. -/
def Trio (c : Cfg) (C : Cache) (E : Data) : Prop :=
  ((C.ans c.worst E 1 1).isEmpty = false → C.ans c.worst E 1 1 = oneNode c.tc (statsOf c.P E)) ∧
  ((C.ans c.worst E 2 2).isEmpty = false ∨ (C.ans c.worst E 2 3).isEmpty = false → ∃ b,
    C.ans c.worst E 1 1 = (terminal c.tc (statsOf c.P E) b 3).one ∧ C.ans c.worst E 2 2 = (terminal c.tc (statsOf c.P E) b 3).two ∧
    C.ans c.worst E 2 3 = (terminal c.tc (statsOf c.P E) b 3).three)

/-- All proper parts of the data. -/
def Trios (c : Cfg) (T : Data) (C : Cache) : Prop :=
  c.useTerm = true → ∀ b, (sel b T).length < T.length → Trio c C (sel b T)

section
variable {c : Cfg} {T : Data} (G : Base c T) (hbr : c.useBr = false) (hds : c.useDs = true)

theorem HI.same {C C' : Cache} (h : HI c T C) (e : SameAns c.worst C C') : HI c T C' := by
  have ha := e.ans h.one
  refine ⟨e.one h.one, fun E d n hdn => ?_, fun n hn => ?_⟩
  · rw [ha]; intro h1 h2; rw [ha]; exact h.fill E d n hdn h1 h2
  · rw [ha]; intro h1; exact (h.root n hn h1).keep h1 (e.keep h.one)

theorem Trios.same {C C' : Cache} (h : Trios c T C) (ho : DsOne C) (e : SameAns c.worst C C') : Trios c T C' := by
  have ha := e.ans ho
  intro hu b hb
  have := h hu b hb
  unfold Trio at this ⊢
  simp only [ha]; exact this

include hds in
theorem store_keep {C : Cache} (h : DsOne C) (D : Data) (b : Branch) {v : Node} (hv : v.isEmpty = false) (d n : Nat) :
    Keep c.worst C (C.storeOpt c.cc D b v d n) := by
  intro E d' n' hdn he
  exact ((storeOpt_ans (cc := c.cc) hds h D b hv d n).2 E d' n' hdn).trans (if_neg (by
    intro hc
    have h2 : (C.ans c.worst E d' n').isEmpty = true := hc.2.1
    rw [he] at h2; simp at h2))

include hds in
/-- Storing a solution keeps the invariant. -/
theorem HI.store {C : Cache} (h : HI c T C) (D : Data) (b : Branch) {v : Node} (hv : v.isEmpty = false) (d n : Nat)
    (hroot : dataKey T = dataKey D → 3 ≤ d → RootOK c C T v) : HI c T (C.storeOpt c.cc D b v d n) := by
  have hk := store_keep hds h.one D b hv d n
  obtain ⟨ho, ha⟩ := storeOpt_ans (cc := c.cc) hds h.one D b hv d n
  change ∀ (E : Data) (d' n' : Nat), d' ≤ n' → (C.storeOpt c.cc D b v d n).ans c.worst E d' n' =
        if dataKey E = dataKey D ∧ (C.ans c.worst E d' n').isEmpty = true ∧ v.numNodes ≤ n' ∧ n' ≤ n ∧
          min d v.numNodes ≤ d' ∧ d' ≤ d then v
        else C.ans c.worst E d' n' at ha
  refine ⟨ho, fun E d' n' hdn => ?_, fun m hm => ?_⟩
  · rw [ha E d' n' hdn]
    split
    · rename_i hc
      intro _ h1
      rw [ha E _ _ (Nat.min_le_right _ _)]
      split
      · exact hv
      · rename_i hn
        by_contra he
        exact hn ⟨hc.1, by simpa using he, Nat.le_refl _, by omega, by omega, by omega⟩
    · intro h1 h2
      have := h.fill E d' n' hdn h1 h2
      rw [hk E _ _ (Nat.min_le_right _ _) this]; exact this
  · rw [ha T 3 m hm]
    split
    · rename_i hc
      intro _
      exact (hroot hc.1 hc.2.2.2.2.2).keep hv hk
    · intro h1
      exact (h.root m hm h1).keep h1 hk

/-- Storing for the whole data does not touch its parts. -/
theorem Trios.store {C : Cache} (h : Trios c T C) (ho : DsOne C) (hds : c.useDs = true) (b : Branch) {v : Node}
    (hv : v.isEmpty = false) (d n : Nat) : Trios c T (C.storeOpt c.cc T b v d n) := by
  intro hu b' hb
  have := h hu b' hb
  have hne : dataKey (sel b' T) ≠ dataKey T := by
    intro e
    have := congrArg List.length e
    simp only [dataKey, List.length_map] at this
    omega
  have ha : ∀ d' n', d' ≤ n' → (C.storeOpt c.cc T b v d n).ans c.worst (sel b' T) d' n' = C.ans c.worst (sel b' T) d' n' := by
    intro d' n' hdn
    exact ((storeOpt_ans (cc := c.cc) hds ho T b hv d n).2 (sel b' T) d' n' hdn).trans (if_neg fun hc => hne hc.1)
  unfold Trio at this ⊢
  rw [ha 1 1 (by decide), ha 2 2 (by decide), ha 2 3 (by decide)]
  exact this

/-! ### The results of the depth-two solver -/

theorem leafLoop_min (D : Data) (ks : List Nat) (r UB : Node) (h : c.useUB = true → UB.sol = r.sol) :
    (leafLoop c D ks r UB).1.sol ≤ r.sol ∧ ∀ j ∈ ks, (leafLoop c D ks r UB).1.sol ≤ leafCost c.P D j := by
  induction ks generalizing r UB with
  | nil => exact ⟨Int.le_refl _, by simp⟩
  | cons k ks ih =>
    unfold leafLoop
    dsimp only
    split
    · rename_i hc
      obtain ⟨h1, h2⟩ := ih r UB h
      refine ⟨h1, fun j hj => ?_⟩
      rcases List.mem_cons.1 hj with rfl | hj
      · have := h hc.1
        have h3 := hc.2
        simp only [Node.leaf] at h3
        omega
      · exact h2 j hj
    · obtain ⟨h1, h2⟩ := ih (Node.addMin r (Node.leaf k (leafCost c.P D k))) (updateUB c UB (Node.leaf k (leafCost c.P D k))) (by
        intro hu
        unfold updateUB
        rw [if_pos hu]
        unfold Node.addMin
        rw [h hu]
        split
        · rfl
        · exact h hu)
      have a := addMin_le_left r (Node.leaf k (leafCost c.P D k))
      have b := addMin_le_right r (Node.leaf k (leafCost c.P D k))
      refine ⟨by omega, fun j hj => ?_⟩
      rcases List.mem_cons.1 hj with rfl | hj
      · simp only [Node.leaf] at b h1 ⊢
        omega
      · exact h2 j hj

/-- A leaf solution is not better than the best leaf. -/
theorem leaf_best {D : Data} {d : Nat} {x : Node} (h : Real c.P c.mls d D x) (h0 : x.numNodes = 0) :
    (solveLeaf c D (Node.empty c.worst)).1.sol ≤ x.sol := by
  obtain ⟨t, h1, _, h3, h4⟩ := h
  have hn := h1.nodes
  rw [h0] at hn
  cases t with
  | node f l r => simp [Tree.nodes] at hn
  | leaf k =>
    have hk : k < c.P.nL := h3.1
    have hm : c.mls ≤ D.length := h3.2
    unfold solveLeaf
    rw [if_neg (by omega), ← h4]
    exact (leafLoop_min D (List.range c.P.nL) (Node.empty c.worst) (Node.empty c.worst) fun _ => rfl).2 k (List.mem_range.2 hk)

/-- A node is infeasible or has `m` nodes. -/
def Num (m : Nat) (v : Node) : Prop := v.isEmpty = false → v.numNodes = m

theorem num_empty (w : Int) (m : Nat) : Num m (Node.empty w) := fun h => by simp [Node.empty, Node.isEmpty] at h

theorem Num.addMin {m : Nat} {a b : Node} (ha : Num m a) (hb : Num m b) : Num m (Node.addMin a b) := by
  unfold Node.addMin; split <;> assumption

theorem foldl_num {α : Type} {m : Nat} (f : α → Node) (hf : ∀ a, Num m (f a)) (l : List α) (r : Node) (hr : Num m r) :
    Num m (l.foldl (fun r a => Node.addMin r (f a)) r) := by
  induction l generalizing r with
  | nil => exact hr
  | cons a l ih => exact ih _ (hr.addMin (hf a))

theorem bestChild_num (tc : TCfg) (g : Nat) (val : Nat × Nat → Int) (cur : Node) (h : Num 1 cur) : Num 1 (bestChild tc g val cur) :=
  foldl_num (fun p => ⟨some g, none, val p + tc.bc, 0, 0⟩) (fun _ _ => rfl) _ _ h

theorem bestLeaf_num (tc : TCfg) (size : Int) (val : Nat → Int) : Num 0 (bestLeaf tc size val) := by
  unfold bestLeaf
  split
  · exact foldl_num (fun k => Node.leaf k (val k)) (fun _ _ => rfl) _ _ (num_empty _ _)
  · exact num_empty _ _

/-- The children kept by the depth-two solver have one node. -/
def Kids (w : Int) (ch : Children) : Prop := ∀ f, Num 1 (ch.at w f).1 ∧ Num 1 (ch.at w f).2

theorem pairStep_kids (tc : TCfg) (S : Stats) (f1 f2 : Nat) (ch : Children) (h : Kids tc.worst ch) :
    Kids tc.worst (pairStep tc S f1 ch f2) := by
  unfold pairStep
  dsimp only
  split
  · exact h
  · intro f
    unfold Children.at
    rw [Tbl.get_set, Tbl.get_set]
    split
    · constructor
      · dsimp only; split
        · exact bestChild_num _ _ _ _ (h f2).1
        · exact (h f2).1
      · dsimp only; split
        · exact bestChild_num _ _ _ _ (h f2).2
        · exact (h f2).2
    · split
      · constructor
        · dsimp only; split
          · exact bestChild_num _ _ _ _ (h f1).1
          · exact (h f1).1
        · dsimp only; split
          · exact bestChild_num _ _ _ _ (h f1).2
          · exact (h f1).2
      · exact h f

theorem pairSteps_kids (tc : TCfg) (S : Stats) (f1 : Nat) (fs : List Nat) (ch : Children) (h : Kids tc.worst ch) :
    Kids tc.worst (fs.foldl (pairStep tc S f1) ch) := by
  induction fs generalizing ch with
  | nil => exact h
  | cons f fs ih => exact ih _ (pairStep_kids tc S f1 f ch h)

theorem addCombination_num (tc : TCfg) (f : Nat) {a b m : Nat} {l r cur : Node} (hl : Num a l) (hr : Num b r) (hm : a + b + 1 = m)
    (hc : Num m cur) : Num m (addCombination tc f l r cur) := by
  unfold addCombination
  split
  · rename_i h
    dsimp only
    split
    · intro _
      rw [combine_numNodes, hl h.1, hr h.2]; omega
    · exact hc
  · exact hc

theorem pairLoop_num (tc : TCfg) (S : Stats) (fs : List Nat) (ch : Children) (two three : Node) (h : Kids tc.worst ch)
    (h2 : Num 2 two) (h3 : Num 3 three) : Num 2 (pairLoop tc S fs ch two three).1 ∧ Num 3 (pairLoop tc S fs ch two three).2 := by
  induction fs generalizing ch two three with
  | nil => exact ⟨h2, h3⟩
  | cons f1 rest ih =>
    unfold pairLoop
    split
    · exact ⟨h2, h3⟩
    · dsimp only
      have hk := pairSteps_kids tc S f1 rest ch h
      generalize rest.foldl (pairStep tc S f1) ch = ch' at hk
      refine ih ch' _ _ hk ?_ ?_
      · unfold bestTwo
        dsimp only
        exact addCombination_num tc f1 (bestLeaf_num _ _ _) (hk f1).2 rfl
          (addCombination_num tc f1 (hk f1).1 (bestLeaf_num _ _ _) rfl h2)
      · exact addCombination_num tc f1 (hk f1).1 (hk f1).2 rfl h3

theorem terminal_three (tc : TCfg) (S : Stats) (b : Branch) (n : Nat) (hn : n ≠ 1) : terminal tc S b n = terminal tc S b 3 := by
  unfold terminal
  simp only [hn, if_false, show (3 : Nat) ≠ 1 by decide]

theorem addMin_smaller {m : Nat} {a o : Node} {w : Int} (ha : Num m a) (he : a.isEmpty = true → a.sol = w) (ho : o.sol < w)
    (hlt : (Node.addMin a o).numNodes < m) : Node.addMin a o = o := by
  unfold Node.addMin at hlt ⊢
  split
  · rfl
  · rename_i hc
    rw [if_neg hc] at hlt
    cases h : a.isEmpty with
    | true => have := he h; omega
    | false => have := ha h; omega

theorem terminal_shape (tc : TCfg) (S : Stats) (b : Branch) (hm : ¬ S.tot < tc.mls) (h1 : (oneNode tc S).sol < tc.worst) :
    (terminal tc S b 3).one = oneNode tc S ∧ (terminal tc S b 3).two.sol < tc.worst ∧ (terminal tc S b 3).three.sol < tc.worst ∧
    ((terminal tc S b 3).two.numNodes ≤ 1 → (terminal tc S b 3).two = oneNode tc S) ∧
    ((terminal tc S b 3).three.numNodes ≤ 2 → (terminal tc S b 3).three = (terminal tc S b 3).two) := by
  unfold terminal
  simp only [if_neg hm, show ¬ (3 : Nat) = 1 by decide, if_false]
  split
  · have e : Node.addMin (Node.empty tc.worst) (oneNode tc S) = oneNode tc S := by
      unfold Node.addMin; exact if_pos h1
    simp only [e]
    exact ⟨trivial, h1, h1, fun _ => trivial, fun _ => trivial⟩
  · have hn := pairLoop_num tc S (pairFeatures tc S b) [] (Node.empty tc.worst) (Node.empty tc.worst)
      (fun f => ⟨num_empty _ _, num_empty _ _⟩) (num_empty _ _) (num_empty _ _)
    have hw : ∀ (fs : List Nat) (ch : Children) (two three : Node), (two.isEmpty = true → two.sol = tc.worst) →
        (three.isEmpty = true → three.sol = tc.worst) →
        ((pairLoop tc S fs ch two three).1.isEmpty = true → (pairLoop tc S fs ch two three).1.sol = tc.worst) ∧
        ((pairLoop tc S fs ch two three).2.isEmpty = true → (pairLoop tc S fs ch two three).2.sol = tc.worst) := by
      intro fs
      induction fs with
      | nil => intro ch two three a b; exact ⟨a, b⟩
      | cons f1 rest ih =>
        intro ch two three a b
        have hadd : ∀ (f : Nat) (l r cur : Node), (cur.isEmpty = true → cur.sol = tc.worst) →
            (addCombination tc f l r cur).isEmpty = true → (addCombination tc f l r cur).sol = tc.worst := by
          intro f l r cur hc
          unfold addCombination
          split
          · dsimp only
            split
            · intro h; simp [Node.combine, Node.branch, Node.isEmpty] at h
            · exact hc
          · exact hc
        unfold pairLoop
        split
        · exact ⟨a, b⟩
        · dsimp only
          exact ih _ _ _ (hadd _ _ _ _ (hadd _ _ _ _ a)) (hadd _ _ _ _ b)
    obtain ⟨w1, w2⟩ := hw (pairFeatures tc S b) [] (Node.empty tc.worst) (Node.empty tc.worst) (fun _ => rfl) (fun _ => rfl)
    generalize pairLoop tc S (pairFeatures tc S b) [] (Node.empty tc.worst) (Node.empty tc.worst) = r at hn w1 w2
    dsimp only
    have l2 : (Node.addMin r.1 (oneNode tc S)).sol < tc.worst := by
      have := addMin_le_right r.1 (oneNode tc S); omega
    have l3 : (Node.addMin r.2 (Node.addMin r.1 (oneNode tc S))).sol < tc.worst := by
      have := addMin_le_right r.2 (Node.addMin r.1 (oneNode tc S)); omega
    exact ⟨rfl, l2, l3, fun h => addMin_smaller hn.1 w1 h1 (by omega), fun h => addMin_smaller hn.2 w2 l2 (by omega)⟩

/-- Where the answer for one dataset lies after the depth-two solver stored one of its results. -/
theorem storeTerminal_ans (hbr : c.useBr = false) (hds : c.useDs = true) {C : Cache} (ho : DsOne C) (D : Data) (b : Branch)
    (UB v : Node) (d n : Nat) :
    DsOne (storeTerminal c D b UB v d n C) ∧ Keep c.worst C (storeTerminal c D b UB v d n C) ∧
    (∀ (E : Data) (d' n' : Nat), d' ≤ n' → (dataKey E ≠ dataKey D ∨ n < n' ∨ d < d' ∨ v.isEmpty = true) →
      (storeTerminal c D b UB v d n C).ans c.worst E d' n' = C.ans c.worst E d' n') ∧
    ((C.ans c.worst D d n).isEmpty = true → d ≤ n → v.isEmpty = false → v.numNodes ≤ n →
      (storeTerminal c D b UB v d n C).ans c.worst D d n = v) := by
  unfold storeTerminal
  have hopt : C.isOptCached c.cc D b d n = !(C.ans c.worst D d n).isEmpty := isOptCached_ans (cc := c.cc) hbr hds ho D b d n
  rw [hopt]
  cases he : (C.ans c.worst D d n).isEmpty with
  | false =>
    simp only [Bool.not_false, if_true]
    exact ⟨ho, .refl _ _, fun _ _ _ _ _ => trivial, fun h => by simp at h⟩
  | true =>
    simp only [Bool.not_true, Bool.false_eq_true, if_false]
    cases hv : v.isEmpty with
    | true =>
      simp only [Bool.true_eq_false, if_false]
      have := updateLB_same (c := c) hds C D b UB d n
      exact ⟨this.one ho, this.keep ho, fun E d' n' _ _ => this.ans ho E d' n', fun _ _ h => by simp at h⟩
    | false =>
      simp only [if_true]
      obtain ⟨h1, h2⟩ := storeOpt_ans (cc := c.cc) hds ho D b hv d n
      refine ⟨h1, store_keep hds ho D b hv d n, fun E d' n' hdn hne => ?_, fun _ hdn _ hn => ?_⟩
      · refine (h2 E d' n' hdn).trans (if_neg fun hc => ?_)
        rcases hne with h | h | h | h
        · exact h hc.1
        · omega
        · omega
        · simp at h
      · exact (h2 D d n hdn).trans (if_pos ⟨rfl, he, hn, Nat.le_refl _, Nat.min_le_left _ _, Nat.le_refl _⟩)

theorem storeTerminal_hi (hds : c.useDs = true) {C : Cache} (h : HI c T C) (D : Data) (b : Branch)
    (UB v : Node) (d n : Nat) (hd : d ≤ 2) : HI c T (storeTerminal c D b UB v d n C) := by
  unfold storeTerminal
  split
  · exact h
  · split
    · rename_i hv
      exact h.store hds D b hv d n (fun _ h3 => by omega)
    · exact h.same (updateLB_same hds C D b UB d n)

/-- An answer of the depth-two solver is also the answer for its own size. -/
theorem trio_hit {C : Cache} {E : Data} (h : Trio c C E) (hm : c.mls ≤ E.length)
    (h1 : (oneNode c.tc (statsOf c.P E)).sol < c.worst) {d n : Nat} (hdn : (d = 1 ∧ n = 1) ∨ (d = 2 ∧ n = 2) ∨ (d = 2 ∧ n = 3))
    (hne : (C.ans c.worst E d n).isEmpty = false) (hk : 1 ≤ (C.ans c.worst E d n).numNodes)
    (hn : (C.ans c.worst E d n).numNodes ≤ n) :
    C.ans c.worst E (min 2 (C.ans c.worst E d n).numNodes) (C.ans c.worst E d n).numNodes = C.ans c.worst E d n := by
  have hmm : ¬ (statsOf c.P E).tot < (c.tc.mls : Int) := by simp only [statsOf, Cfg.tc]; omega
  have key : ∀ x : Node, 1 ≤ x.numNodes → x.numNodes ≤ 3 → (x.numNodes = 1 → C.ans c.worst E 1 1 = x) →
      (x.numNodes = 2 → C.ans c.worst E 2 2 = x) → (x.numNodes = 3 → C.ans c.worst E 2 3 = x) →
      C.ans c.worst E (min 2 x.numNodes) x.numNodes = x := by
    intro x a b h1 h2 h3
    have : x.numNodes = 1 ∨ x.numNodes = 2 ∨ x.numNodes = 3 := by omega
    rcases this with e | e | e
    · have := h1 e; rw [e]; exact this
    · have := h2 e; rw [e]; exact this
    · have := h3 e; rw [e]; exact this
  rcases hdn with ⟨rfl, rfl⟩ | ⟨rfl, rfl⟩ | ⟨rfl, rfl⟩
  · exact key _ hk (by omega) (fun _ => rfl) (fun h => by omega) (fun h => by omega)
  · obtain ⟨b, e1, e2, e3⟩ := h.2 (.inl hne)
    obtain ⟨s1, _, _, s2, s3⟩ := terminal_shape c.tc (statsOf c.P E) b hmm h1
    refine key _ hk (by omega) (fun h => ?_) (fun _ => rfl) (fun h => by omega)
    rw [e2] at h ⊢
    rw [e1, s1, s2 (by omega)]
  · obtain ⟨b, e1, e2, e3⟩ := h.2 (.inr hne)
    obtain ⟨s1, _, _, s2, s3⟩ := terminal_shape c.tc (statsOf c.P E) b hmm h1
    refine key _ hk (by omega) (fun h => ?_) (fun h => ?_) (fun _ => rfl)
    · rw [e3] at h ⊢
      have := s3 (by omega)
      rw [this] at h ⊢
      rw [e1, s1, s2 (by omega)]
    · rw [e3] at h ⊢
      rw [e2, s3 (by omega)]

end
end Streed
