import Verif.Model.Reconstruct
import Verif.Lemmas.Sound

/-! The construction of the returned tree: depth-two nodes, and the recursion. -/

namespace Streed

theorem foldl_meas_le {α β : Type} (m : β → Int) (st : β → α → β) (h : ∀ b a, m (st b a) ≤ m b) (L : List α) (b : β) :
    m (L.foldl st b) ≤ m b := by
  induction L generalizing b with
  | nil => exact Int.le_refl _
  | cons a L ih => exact Int.le_trans (ih _) (h _ _)

theorem foldl_meas_mem {α β : Type} (m : β → Int) (st : β → α → β) (h : ∀ b a, m (st b a) ≤ m b) (L : List α) (b : β)
    (a : α) (ha : a ∈ L) (x : Int) (hx : ∀ b, m (st b a) ≤ x) : m (L.foldl st b) ≤ x := by
  induction L generalizing b with
  | nil => simp at ha
  | cons c L ih =>
    rcases List.mem_cons.1 ha with rfl | ha
    · exact Int.le_trans (foldl_meas_le m st h L _) (hx b)
    · exact ih _ ha

/-- One side of a depth-two tree: nothing yet, or a leaf or a stump with the cost recorded. -/
def TN (P : Problem) (mls : Nat) (w : Int) (E : Data) (t : TNode) : Prop :=
  t.parent.sol = w ∨ ∃ x, tnodeTree t = some x ∧ x.depth ≤ 1 ∧ x.Legal P mls E ∧ x.cost P E = t.parent.sol

section
variable (P : Problem) (mls : Nat) (w : Int) (hmay : ∀ f, f < P.nF → P.may f = true)

theorem reLeaf_spec (cap : Int) (val : Nat → Int) (E : Data) (hm : mls ≤ E.length) (hval : ∀ k, val k = leafCost P E k)
    (l r : Node) :
    TN P mls w E ⟨reLeaf (tcOf P mls w) cap val, l, r⟩ ∧
    ∀ k, k < P.nL → leafCost P E k ≤ cap → (reLeaf (tcOf P mls w) cap val).sol ≤ leafCost P E k := by
  unfold reLeaf
  constructor
  · apply foldl_inv (fun n => TN P mls w E ⟨n, l, r⟩)
    · exact .inl rfl
    · intro b hb k hk
      split
      · exact hb
      · rcases addMin_cases b (Node.leaf k (val k)) with h | h <;> rw [h]
        · exact hb
        · refine .inr ⟨.leaf k, rfl, Nat.zero_le _, ⟨List.mem_range.1 hk, hm⟩, ?_⟩
          show leafCost P E k = val k
          rw [hval]
  · intro k hk hc
    refine foldl_meas_mem Node.sol _ ?_ _ _ k (List.mem_range.2 hk) _ ?_
    · intro b a; split
      · exact Int.le_refl _
      · exact addMin_le_left _ _
    · intro b
      rw [hval, if_neg (by omega)]
      exact addMin_le_right _ _

theorem mem_allPairs {nL a b : Nat} : (a, b) ∈ allPairs nL ↔ a < nL ∧ b < nL := by
  simp only [allPairs, List.mem_flatMap, List.mem_map, List.mem_range, Prod.mk.injEq]
  constructor
  · rintro ⟨x, hx, y, hy, rfl, rfl⟩; exact ⟨hx, hy⟩
  · rintro ⟨ha, hb⟩; exact ⟨a, ha, b, hb, rfl, rfl⟩

include hmay in
theorem reChild_spec (cap : Int) (g : Nat) (hg : g < P.nF) (E : Data) (v0 v1 : Nat → Int)
    (h0 : ∀ k, v0 k = leafCost P (without g E) k) (h1 : ∀ k, v1 k = leafCost P (having g E) k)
    (m0 : mls ≤ (without g E).length) (m1 : mls ≤ (having g E).length) (cur : TNode) (hcur : TN P mls w E cur) :
    TN P mls w E (reChild (tcOf P mls w) cap g v0 v1 cur) ∧
    (reChild (tcOf P mls w) cap g v0 v1 cur).parent.sol ≤ cur.parent.sol ∧
    ∀ a b, a < P.nL → b < P.nL → (Tree.node g (.leaf a) (.leaf b)).cost P E ≤ cap →
      (reChild (tcOf P mls w) cap g v0 v1 cur).parent.sol ≤ (Tree.node g (.leaf a) (.leaf b)).cost P E := by
  unfold reChild
  have mono : ∀ (r : TNode) (p : Nat × Nat),
      (if cap < (Node.combine g (Node.leaf p.1 (v0 p.1)) (Node.leaf p.2 (v1 p.2)) (tcOf P mls w).bc).sol then r
        else if (Node.combine g (Node.leaf p.1 (v0 p.1)) (Node.leaf p.2 (v1 p.2)) (tcOf P mls w).bc).sol < r.parent.sol then
          (⟨Node.combine g (Node.leaf p.1 (v0 p.1)) (Node.leaf p.2 (v1 p.2)) (tcOf P mls w).bc,
            Node.leaf p.1 (v0 p.1), Node.leaf p.2 (v1 p.2)⟩ : TNode) else r).parent.sol ≤ r.parent.sol := by
    intro r p
    split
    · exact Int.le_refl _
    · split
      · dsimp only; omega
      · exact Int.le_refl _
  refine ⟨?_, foldl_meas_le (fun t : TNode => t.parent.sol) _ mono _ _, fun a b ha hb hc => ?_⟩
  · apply foldl_inv (TN P mls w E)
    · exact hcur
    · rintro r hr ⟨a, b⟩ hp
      obtain ⟨ha, hb⟩ := mem_allPairs.1 hp
      dsimp only
      split
      · exact hr
      · split
        · refine .inr ⟨.node g (.leaf a) (.leaf b), rfl, by simp [Tree.depth], ⟨hg, hmay g hg, ⟨ha, m0⟩, hb, m1⟩, ?_⟩
          simp only [Tree.cost, Node.combine, Node.branch, Node.leaf, h0, h1, tcOf]
        · exact hr
  · refine foldl_meas_mem (fun t : TNode => t.parent.sol) _ mono _ _ (a, b) (mem_allPairs.2 ⟨ha, hb⟩) _ ?_
    intro r
    have e : (Node.combine g (Node.leaf a (v0 a)) (Node.leaf b (v1 b)) (tcOf P mls w).bc).sol =
        (Tree.node g (.leaf a) (.leaf b)).cost P E := by
      simp only [Tree.cost, Node.combine, Node.branch, Node.leaf, h0, h1, tcOf]
    dsimp only
    rw [e, if_neg (by omega)]
    split
    · dsimp only; omega
    · omega

include hmay in
theorem reLoop_spec (D : Data) (v : Node) (f : Nat) (st : TNode × TNode)
    (h0 : TN P mls w (without f D) st.1) (h1 : TN P mls w (having f D) st.2) :
    TN P mls w (without f D) (reLoop (tcOf P mls w) (statsOf P D) v f st).1 ∧
    TN P mls w (having f D) (reLoop (tcOf P mls w) (statsOf P D) v f st).2 ∧
    (v.nl = 0 → (reLoop (tcOf P mls w) (statsOf P D) v f st).1 = st.1) ∧
    (v.nr = 0 → (reLoop (tcOf P mls w) (statsOf P D) v f st).2 = st.2) ∧
    (∀ g a b, 0 < v.nl → g ≠ f → (Tree.node g (.leaf a) (.leaf b)).Legal P mls (without f D) →
      (Tree.node g (.leaf a) (.leaf b)).cost P (without f D) ≤ v.sol →
      (reLoop (tcOf P mls w) (statsOf P D) v f st).1.parent.sol ≤ (Tree.node g (.leaf a) (.leaf b)).cost P (without f D)) ∧
    (∀ g a b, 0 < v.nr → g ≠ f → (Tree.node g (.leaf a) (.leaf b)).Legal P mls (having f D) →
      (Tree.node g (.leaf a) (.leaf b)).cost P (having f D) ≤ v.sol →
      (reLoop (tcOf P mls w) (statsOf P D) v f st).2.parent.sol ≤ (Tree.node g (.leaf a) (.leaf b)).cost P (having f D)) := by
  unfold reLoop
  -- one step
  have step : ∀ (st : TNode × TNode) (g : Nat), g < P.nF → TN P mls w (without f D) st.1 → TN P mls w (having f D) st.2 →
      ∀ st', st' = (if g = f then st else
        (if 0 < v.nl ∧ ((tcOf P mls w).mls : Int) ≤ ((statsOf P D).counts f g).v00 ∧ ((tcOf P mls w).mls : Int) ≤ ((statsOf P D).counts f g).v01 then
          reChild (tcOf P mls w) v.sol g (fun k => ((statsOf P D).sols k f g).v00) (fun k => ((statsOf P D).sols k f g).v01) st.1 else st.1,
        if 0 < v.nr ∧ ((tcOf P mls w).mls : Int) ≤ ((statsOf P D).counts f g).v10 ∧ ((tcOf P mls w).mls : Int) ≤ ((statsOf P D).counts f g).v11 then
          reChild (tcOf P mls w) v.sol g (fun k => ((statsOf P D).sols k f g).v10) (fun k => ((statsOf P D).sols k f g).v11) st.2 else st.2)) →
      TN P mls w (without f D) st'.1 ∧ TN P mls w (having f D) st'.2 ∧ (v.nl = 0 → st'.1 = st.1) ∧ (v.nr = 0 → st'.2 = st.2) ∧
      st'.1.parent.sol ≤ st.1.parent.sol ∧ st'.2.parent.sol ≤ st.2.parent.sol ∧
      (∀ a b, 0 < v.nl → g ≠ f → (Tree.node g (.leaf a) (.leaf b)).Legal P mls (without f D) →
        (Tree.node g (.leaf a) (.leaf b)).cost P (without f D) ≤ v.sol →
        st'.1.parent.sol ≤ (Tree.node g (.leaf a) (.leaf b)).cost P (without f D)) ∧
      (∀ a b, 0 < v.nr → g ≠ f → (Tree.node g (.leaf a) (.leaf b)).Legal P mls (having f D) →
        (Tree.node g (.leaf a) (.leaf b)).cost P (having f D) ≤ v.sol →
        st'.2.parent.sol ≤ (Tree.node g (.leaf a) (.leaf b)).cost P (having f D)) := by
    intro st g hg a0 a1 st' hst'
    by_cases hgf : g = f
    · rw [if_pos hgf] at hst'
      subst hst'
      exact ⟨a0, a1, fun _ => rfl, fun _ => rfl, Int.le_refl _, Int.le_refl _, fun _ _ _ h => absurd hgf h, fun _ _ _ h => absurd hgf h⟩
    · rw [if_neg hgf] at hst'
      have hfg : f ≠ g := fun h => hgf h.symm
      have ec := counts_exact P D f g
      have es := fun k => costs_exact P D k f g hfg
      simp only [ec, es, countWith_eq, costWith_eq, tcOf, side_false, side_true] at hst'
      have c0 := reChild_spec P mls w hmay v.sol g hg (without f D)
        (fun k => leafCost P (without g (without f D)) k) (fun k => leafCost P (having g (without f D)) k) (fun _ => rfl) (fun _ => rfl)
      have c1 := reChild_spec P mls w hmay v.sol g hg (having f D)
        (fun k => leafCost P (without g (having f D)) k) (fun k => leafCost P (having g (having f D)) k) (fun _ => rfl) (fun _ => rfl)
      simp only [tcOf] at c0 c1
      have sL : TN P mls w (without f D) st'.1 ∧ (v.nl = 0 → st'.1 = st.1) ∧ st'.1.parent.sol ≤ st.1.parent.sol ∧
          (∀ a b, 0 < v.nl → g ≠ f → (Tree.node g (.leaf a) (.leaf b)).Legal P mls (without f D) →
            (Tree.node g (.leaf a) (.leaf b)).cost P (without f D) ≤ v.sol →
            st'.1.parent.sol ≤ (Tree.node g (.leaf a) (.leaf b)).cost P (without f D)) := by
        rw [hst']
        dsimp only
        split
        · rename_i hc
          obtain ⟨b1, b2, b3⟩ := c0 (by omega) (by omega) st.1 a0
          exact ⟨b1, fun h => by omega, b2, fun a b _ _ hl hcap => b3 a b hl.2.2.1.1 hl.2.2.2.1 hcap⟩
        · rename_i hc
          refine ⟨a0, fun _ => rfl, Int.le_refl _, fun a b hv _ hl _ => absurd ⟨hv, ?_, ?_⟩ hc⟩
          · have := hl.2.2.1.2; omega
          · have := hl.2.2.2.2; omega
      have sR : TN P mls w (having f D) st'.2 ∧ (v.nr = 0 → st'.2 = st.2) ∧ st'.2.parent.sol ≤ st.2.parent.sol ∧
          (∀ a b, 0 < v.nr → g ≠ f → (Tree.node g (.leaf a) (.leaf b)).Legal P mls (having f D) →
            (Tree.node g (.leaf a) (.leaf b)).cost P (having f D) ≤ v.sol →
            st'.2.parent.sol ≤ (Tree.node g (.leaf a) (.leaf b)).cost P (having f D)) := by
        rw [hst']
        dsimp only
        split
        · rename_i hc
          obtain ⟨b1, b2, b3⟩ := c1 (by omega) (by omega) st.2 a1
          exact ⟨b1, fun h => by omega, b2, fun a b _ _ hl hcap => b3 a b hl.2.2.1.1 hl.2.2.2.1 hcap⟩
        · rename_i hc
          refine ⟨a1, fun _ => rfl, Int.le_refl _, fun a b hv _ hl _ => absurd ⟨hv, ?_, ?_⟩ hc⟩
          · have := hl.2.2.1.2; omega
          · have := hl.2.2.2.2; omega
      exact ⟨sL.1, sR.1, sL.2.1, sR.2.1, sL.2.2.1, sR.2.2.1, sL.2.2.2, sR.2.2.2⟩
  have loop : ∀ (L : List Nat) (st : TNode × TNode), (∀ g ∈ L, g < P.nF) → TN P mls w (without f D) st.1 →
      TN P mls w (having f D) st.2 → ∀ st', st' = L.foldl (fun st g => if g = f then st else
        (if 0 < v.nl ∧ ((tcOf P mls w).mls : Int) ≤ ((statsOf P D).counts f g).v00 ∧ ((tcOf P mls w).mls : Int) ≤ ((statsOf P D).counts f g).v01 then
          reChild (tcOf P mls w) v.sol g (fun k => ((statsOf P D).sols k f g).v00) (fun k => ((statsOf P D).sols k f g).v01) st.1 else st.1,
        if 0 < v.nr ∧ ((tcOf P mls w).mls : Int) ≤ ((statsOf P D).counts f g).v10 ∧ ((tcOf P mls w).mls : Int) ≤ ((statsOf P D).counts f g).v11 then
          reChild (tcOf P mls w) v.sol g (fun k => ((statsOf P D).sols k f g).v10) (fun k => ((statsOf P D).sols k f g).v11) st.2 else st.2)) st →
      TN P mls w (without f D) st'.1 ∧ TN P mls w (having f D) st'.2 ∧ (v.nl = 0 → st'.1 = st.1) ∧ (v.nr = 0 → st'.2 = st.2) ∧
      st'.1.parent.sol ≤ st.1.parent.sol ∧ st'.2.parent.sol ≤ st.2.parent.sol ∧
      (∀ g ∈ L, ∀ a b, 0 < v.nl → g ≠ f → (Tree.node g (.leaf a) (.leaf b)).Legal P mls (without f D) →
        (Tree.node g (.leaf a) (.leaf b)).cost P (without f D) ≤ v.sol →
        st'.1.parent.sol ≤ (Tree.node g (.leaf a) (.leaf b)).cost P (without f D)) ∧
      (∀ g ∈ L, ∀ a b, 0 < v.nr → g ≠ f → (Tree.node g (.leaf a) (.leaf b)).Legal P mls (having f D) →
        (Tree.node g (.leaf a) (.leaf b)).cost P (having f D) ≤ v.sol →
        st'.2.parent.sol ≤ (Tree.node g (.leaf a) (.leaf b)).cost P (having f D)) := by
    intro L
    induction L with
    | nil =>
      intro st _ a0 a1 st' hst'
      subst hst'
      exact ⟨a0, a1, fun _ => rfl, fun _ => rfl, Int.le_refl _, Int.le_refl _, fun g hg => by simp at hg, fun g hg => by simp at hg⟩
    | cons g L ih =>
      intro st hL a0 a1 st' hst'
      rw [List.foldl_cons] at hst'
      obtain ⟨b1, b2, b3, b4, b5, b6, b7, b8⟩ := step st g (hL g (List.mem_cons_self ..)) a0 a1 _ rfl
      obtain ⟨c1, c2, c3, c4, c5, c6, c7, c8⟩ := ih _ (fun x hx => hL x (List.mem_cons_of_mem _ hx)) b1 b2 st' hst'
      refine ⟨c1, c2, fun h => (c3 h).trans (b3 h), fun h => (c4 h).trans (b4 h), Int.le_trans c5 b5, Int.le_trans c6 b6, ?_, ?_⟩
      · intro x hx a b q1 q2 q3 q4
        rcases List.mem_cons.1 hx with rfl | hx
        · exact Int.le_trans c5 (b7 a b q1 q2 q3 q4)
        · exact c7 x hx a b q1 q2 q3 q4
      · intro x hx a b q1 q2 q3 q4
        rcases List.mem_cons.1 hx with rfl | hx
        · exact Int.le_trans c6 (b8 a b q1 q2 q3 q4)
        · exact c8 x hx a b q1 q2 q3 q4
  obtain ⟨c1, c2, c3, c4, _, _, c7, c8⟩ := loop (List.range P.nF) st (fun g hg => List.mem_range.1 hg) h0 h1 _ rfl
  exact ⟨c1, c2, c3, c4, fun g a b q1 q2 q3 q4 => c7 g (List.mem_range.2 q3.1) a b q1 q2 q3 q4,
    fun g a b q1 q2 q3 q4 => c8 g (List.mem_range.2 q3.1) a b q1 q2 q3 q4⟩

include hmay in
/-- The depth-two construction returns a legal tree. If leaves hold at least one instance and costs are not
negative, it succeeds and the tree costs at most what the solution claims. -/
theorem terminalConstruct_spec (D : Data) (v : Node) (f : Nat) (l r : Tree) (hv : Rep v (.node f l r))
    (hd : (Tree.node f l r).depth ≤ 2) (hl : (Tree.node f l r).Legal P mls D) :
    (terminalConstruct (tcOf P mls w) (statsOf P D) v f = none ∨
      ∃ x, terminalConstruct (tcOf P mls w) (statsOf P D) v f = some (some x) ∧ x.depth ≤ 2 ∧ x.Legal P mls D) ∧
    ((Tree.node f l r).cost P D = v.sol → 1 ≤ mls → 0 ≤ P.bc → (∀ i ∈ D, ∀ k, 0 ≤ P.cost i k) → v.sol < w →
      ∃ x, terminalConstruct (tcOf P mls w) (statsOf P D) v f = some (some x) ∧ x.depth ≤ 2 ∧ x.Legal P mls D ∧
        x.cost P D ≤ v.sol) := by
  obtain ⟨hf, hm, hl0, hl1⟩ := hl
  obtain ⟨_, _, hnl, hnr⟩ := hv
  have hdl : l.depth ≤ 1 ∧ r.depth ≤ 1 := by simp only [Tree.depth] at hd; omega
  -- the start
  have e : TN P mls w (without f D) ⟨Node.empty w, Node.empty w, Node.empty w⟩ ∧
      TN P mls w (having f D) ⟨Node.empty w, Node.empty w, Node.empty w⟩ := ⟨.inl rfl, .inl rfl⟩
  have z0 := reLeaf_spec P mls w v.sol (fun k => ((statsOf P D).sols k f f).v00) (without f D) hl0.length
    (fun k => (costs_exact_one P D k f).1) (Node.empty w) (Node.empty w)
  have z1 := reLeaf_spec P mls w v.sol (fun k => ((statsOf P D).sols k f f).v11) (having f D) hl1.length
    (fun k => (costs_exact_one P D k f).2) (Node.empty w) (Node.empty w)
  -- both sides at the end
  have key : ∀ st : TNode × TNode, st = (
      let l0 : TNode := if v.nl = 0 then ⟨reLeaf (tcOf P mls w) v.sol fun k => ((statsOf P D).sols k f f).v00, Node.empty w, Node.empty w⟩
        else ⟨Node.empty w, Node.empty w, Node.empty w⟩
      let r0 : TNode := if v.nr = 0 then ⟨reLeaf (tcOf P mls w) v.sol fun k => ((statsOf P D).sols k f f).v11, Node.empty w, Node.empty w⟩
        else ⟨Node.empty w, Node.empty w, Node.empty w⟩
      if 0 < v.nl ∨ 0 < v.nr then reLoop (tcOf P mls w) (statsOf P D) v f (l0, r0) else (l0, r0)) →
      TN P mls w (without f D) st.1 ∧ TN P mls w (having f D) st.2 ∧
      (1 ≤ mls → l.cost P (without f D) ≤ v.sol → st.1.parent.sol ≤ l.cost P (without f D)) ∧
      (1 ≤ mls → r.cost P (having f D) ≤ v.sol → st.2.parent.sol ≤ r.cost P (having f D)) := by
    intro st hst
    dsimp only at hst
    have i0 : TN P mls w (without f D) (if v.nl = 0 then ⟨reLeaf (tcOf P mls w) v.sol fun k => ((statsOf P D).sols k f f).v00, Node.empty w, Node.empty w⟩
        else ⟨Node.empty w, Node.empty w, Node.empty w⟩) := by
      split
      · exact z0.1
      · exact e.1
    have i1 : TN P mls w (having f D) (if v.nr = 0 then ⟨reLeaf (tcOf P mls w) v.sol fun k => ((statsOf P D).sols k f f).v11, Node.empty w, Node.empty w⟩
        else ⟨Node.empty w, Node.empty w, Node.empty w⟩) := by
      split
      · exact z1.1
      · exact e.2
    have j0 : v.nl = 0 → (if v.nl = 0 then (⟨reLeaf (tcOf P mls w) v.sol fun k => ((statsOf P D).sols k f f).v00, Node.empty w, Node.empty w⟩ : TNode)
        else ⟨Node.empty w, Node.empty w, Node.empty w⟩).parent.sol = (reLeaf (tcOf P mls w) v.sol fun k => ((statsOf P D).sols k f f).v00).sol := by
      intro h; rw [if_pos h]
    have j1 : v.nr = 0 → (if v.nr = 0 then (⟨reLeaf (tcOf P mls w) v.sol fun k => ((statsOf P D).sols k f f).v11, Node.empty w, Node.empty w⟩ : TNode)
        else ⟨Node.empty w, Node.empty w, Node.empty w⟩).parent.sol = (reLeaf (tcOf P mls w) v.sol fun k => ((statsOf P D).sols k f f).v11).sol := by
      intro h; rw [if_pos h]
    generalize (if v.nl = 0 then (⟨reLeaf (tcOf P mls w) v.sol fun k => ((statsOf P D).sols k f f).v00, Node.empty w, Node.empty w⟩ : TNode)
        else ⟨Node.empty w, Node.empty w, Node.empty w⟩) = l0 at hst i0 j0
    generalize (if v.nr = 0 then (⟨reLeaf (tcOf P mls w) v.sol fun k => ((statsOf P D).sols k f f).v11, Node.empty w, Node.empty w⟩ : TNode)
        else ⟨Node.empty w, Node.empty w, Node.empty w⟩) = r0 at hst i1 j1
    have ng : ∀ (x : Bool) (t : Tree), 1 ≤ mls → ∀ g a b, t = Tree.node g (.leaf a) (.leaf b) → t.Legal P mls (side f x D) → g ≠ f := by
      intro x t h1 g a b ht hlg hgf
      subst hgf
      rw [ht] at hlg
      have q0 := hlg.2.2.1.2
      have q1 := hlg.2.2.2.2
      cases x with
      | false => rw [side_false, having_self_without] at q1; simp at q1; omega
      | true => rw [side_true, without_self_having] at q0; simp at q0; omega
    by_cases hb : 0 < v.nl ∨ 0 < v.nr
    · rw [if_pos hb] at hst
      obtain ⟨c1, c2, c3, c4, c5, c6⟩ := reLoop_spec P mls w hmay D v f (l0, r0) i0 i1
      rw [← hst] at c1 c2 c3 c4 c5 c6
      refine ⟨c1, c2, fun h1 hcap => ?_, fun h1 hcap => ?_⟩
      · rcases depth_one_cases hdl.1 with ⟨k, rfl⟩ | ⟨g, a, b, rfl⟩
        · have h0 : v.nl = 0 := by rw [← hnl]; rfl
          rw [c3 h0, j0 h0]; exact z0.2 k hl0.1 hcap
        · exact c5 g a b (by rw [← hnl]; simp [Tree.nodes]) (ng false _ h1 g a b rfl (by rw [side_false]; exact hl0)) hl0 hcap
      · rcases depth_one_cases hdl.2 with ⟨k, rfl⟩ | ⟨g, a, b, rfl⟩
        · have h0 : v.nr = 0 := by rw [← hnr]; rfl
          rw [c4 h0, j1 h0]; exact z1.2 k hl1.1 hcap
        · exact c6 g a b (by rw [← hnr]; simp [Tree.nodes]) (ng true _ h1 g a b rfl (by rw [side_true]; exact hl1)) hl1 hcap
    · rw [if_neg hb] at hst
      have n0 : v.nl = 0 := by omega
      have n1 : v.nr = 0 := by omega
      subst hst
      refine ⟨i0, i1, fun _ hcap => ?_, fun _ hcap => ?_⟩
      · obtain ⟨k, rfl⟩ := leaf_of_depth_zero (t := l) (.inr (by omega))
        dsimp only; rw [j0 n0]; exact z0.2 k hl0.1 hcap
      · obtain ⟨k, rfl⟩ := leaf_of_depth_zero (t := r) (.inr (by omega))
        dsimp only; rw [j1 n1]; exact z1.2 k hl1.1 hcap
  have key := key _ rfl
  unfold terminalConstruct
  dsimp only at key ⊢
  have hw : (tcOf P mls w).worst = w := rfl
  rw [hw]
  generalize (if 0 < v.nl ∨ 0 < v.nr then _ else _ : TNode × TNode) = st at key ⊢
  obtain ⟨k1, k2, k3, k4⟩ := key
  have build : ¬ (st.1.parent.sol = w ∨ st.2.parent.sol = w) → ∃ x, (if st.1.parent.sol = w ∨ st.2.parent.sol = w then none
      else some ((tnodeTree st.1).bind fun a => (tnodeTree st.2).map fun b => Tree.node f a b)) = some (some x) ∧
      x.depth ≤ 2 ∧ x.Legal P mls D ∧ x.cost P D = P.bc + (st.1.parent.sol + st.2.parent.sol) := by
    intro hn
    rw [if_neg hn]
    rcases k1 with h | ⟨a, a1, a2, a3, a4⟩
    · exact absurd (.inl h) hn
    rcases k2 with h | ⟨b, b1, b2, b3, b4⟩
    · exact absurd (.inr h) hn
    refine ⟨.node f a b, by rw [a1, b1]; rfl, by simp only [Tree.depth]; omega, ⟨hf, hm, a3, b3⟩, ?_⟩
    simp only [Tree.cost, a4, b4]
  constructor
  · by_cases hn : st.1.parent.sol = w ∨ st.2.parent.sol = w
    · left; rw [if_pos hn]
    · right
      obtain ⟨x, x1, x2, x3, _⟩ := build hn
      exact ⟨x, x1, x2, x3⟩
  · intro hc h1 hbc hnn hlt
    have p0 : 0 ≤ l.cost P (without f D) := Tree.cost_nonneg P l _ (fun i hi => hnn i (mem_without.1 hi).1) hbc
    have p1 : 0 ≤ r.cost P (having f D) := Tree.cost_nonneg P r _ (fun i hi => hnn i (mem_having.1 hi).1) hbc
    simp only [Tree.cost] at hc
    have q0 := k3 h1 (by omega)
    have q1 := k4 h1 (by omega)
    obtain ⟨x, x1, x2, x3, x4⟩ := build (by omega)
    exact ⟨x, x1, x2, x3, by omega⟩

end
end Streed
