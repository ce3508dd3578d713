import Verif.Lemmas.LeafBest

/-! Every leaf of the returned tree carries a label that costs least on the training instances it receives. -/

namespace Streed

/-! ### Depth-two trees -/

/-- One side of a depth-two tree: nothing yet, or a leaf or a stump with best labels. -/
def TB (P : Problem) (w : Int) (E : Data) (t : TNode) : Prop :=
  t.parent.sol = w ∨ ∃ x, tnodeTree t = some x ∧ BestLeaves P x E

theorem reLeaf_best (P : Problem) (mls : Nat) (w cap : Int) (val : Nat → Int) (E : Data) (hval : ∀ k, val k = leafCost P E k)
    (l r : Node) : TB P w E ⟨reLeaf (tcOf P mls w) cap val, l, r⟩ := by
  have h1 : reLeaf (tcOf P mls w) cap val = Node.empty w ∨
      ∃ k, reLeaf (tcOf P mls w) cap val = Node.leaf k (val k) ∧ val k ≤ cap := by
    unfold reLeaf
    apply foldl_inv (fun n => n = Node.empty w ∨ ∃ k, n = Node.leaf k (val k) ∧ val k ≤ cap)
    · exact .inl rfl
    · intro b hb k _
      split
      · exact hb
      · rename_i hc
        rcases addMin_cases b (Node.leaf k (val k)) with h | h <;> rw [h]
        · exact hb
        · exact .inr ⟨k, rfl, by omega⟩
  have h2 : ∀ j, j < P.nL → val j ≤ cap → (reLeaf (tcOf P mls w) cap val).sol ≤ val j := by
    intro j hj hc
    unfold reLeaf
    refine foldl_meas_mem Node.sol _ ?_ _ _ j (List.mem_range.2 hj) _ ?_
    · intro b a
      split
      · exact Int.le_refl _
      · exact addMin_le_left _ _
    · intro b
      rw [if_neg (by omega)]
      exact addMin_le_right _ _
  rcases h1 with h | ⟨k, h, hk⟩
  · left; rw [h]; rfl
  · right
    rw [h] at h2 ⊢
    refine ⟨.leaf k, rfl, fun j hj => ?_⟩
    rw [← hval, ← hval]
    by_cases hc : val j ≤ cap
    · exact h2 j hj hc
    · omega

theorem reChild_best (P : Problem) (mls : Nat) (w cap : Int) (g : Nat) (E : Data) (v0 v1 : Nat → Int)
    (h0 : ∀ k, v0 k = leafCost P (without g E) k) (h1 : ∀ k, v1 k = leafCost P (having g E) k) (cur : TNode) (hcur : TB P w E cur) :
    TB P w E (reChild (tcOf P mls w) cap g v0 v1 cur) := by
  have e1 : reChild (tcOf P mls w) cap g v0 v1 cur = cur ∨
      ∃ a b, a < P.nL ∧ b < P.nL ∧ reChild (tcOf P mls w) cap g v0 v1 cur =
        ⟨Node.combine g (Node.leaf a (v0 a)) (Node.leaf b (v1 b)) P.bc, Node.leaf a (v0 a), Node.leaf b (v1 b)⟩ ∧ P.bc + (v0 a + v1 b) ≤ cap := by
    unfold reChild
    apply foldl_inv (fun t => t = cur ∨ ∃ a b, a < P.nL ∧ b < P.nL ∧
      t = ⟨Node.combine g (Node.leaf a (v0 a)) (Node.leaf b (v1 b)) P.bc, Node.leaf a (v0 a), Node.leaf b (v1 b)⟩ ∧ P.bc + (v0 a + v1 b) ≤ cap)
    · exact .inl rfl
    · rintro t ht ⟨a, b⟩ hp
      obtain ⟨ha, hb⟩ := mem_allPairs.1 hp
      dsimp only
      split
      · exact ht
      · rename_i hc
        split
        · refine .inr ⟨a, b, ha, hb, rfl, ?_⟩
          simp only [Node.combine, Node.branch, Node.leaf, tcOf] at hc
          omega
        · exact ht
  have e2 : ∀ a b, a < P.nL → b < P.nL → P.bc + (v0 a + v1 b) ≤ cap →
      (reChild (tcOf P mls w) cap g v0 v1 cur).parent.sol ≤ P.bc + (v0 a + v1 b) := by
    intro a b ha hb hc
    unfold reChild
    refine foldl_meas_mem (fun t : TNode => t.parent.sol) _ ?_ _ _ (a, b) (mem_allPairs.2 ⟨ha, hb⟩) _ ?_
    · intro r p
      dsimp only
      split
      · exact Int.le_refl _
      · split
        · dsimp only; omega
        · exact Int.le_refl _
    · intro r
      have e : (Node.combine g (Node.leaf a (v0 a)) (Node.leaf b (v1 b)) (tcOf P mls w).bc).sol = P.bc + (v0 a + v1 b) := rfl
      dsimp only
      rw [e, if_neg (by omega)]
      split
      · dsimp only; omega
      · omega
  rcases e1 with h | ⟨a, b, ha, hb, h, hc⟩
  · rw [h]; exact hcur
  · right
    rw [h] at e2 ⊢
    have e3 : ∀ a' b', a' < P.nL → b' < P.nL → v0 a + v1 b ≤ v0 a' + v1 b' := by
      intro a' b' ha' hb'
      by_cases hcap : P.bc + (v0 a' + v1 b') ≤ cap
      · have := e2 a' b' ha' hb' hcap
        simp only [Node.combine, Node.branch, Node.leaf] at this
        omega
      · omega
    refine ⟨.node g (.leaf a) (.leaf b), rfl, fun j hj => ?_, fun j hj => ?_⟩
    · rw [← h0, ← h0]
      have := e3 j b hj hb; omega
    · rw [← h1, ← h1]
      have := e3 a j ha hj; omega

theorem reLoop_best (P : Problem) (mls : Nat) (w : Int) (D : Data) (v : Node) (f : Nat) (st : TNode × TNode)
    (h0 : TB P w (without f D) st.1) (h1 : TB P w (having f D) st.2) :
    TB P w (without f D) (reLoop (tcOf P mls w) (statsOf P D) v f st).1 ∧
    TB P w (having f D) (reLoop (tcOf P mls w) (statsOf P D) v f st).2 := by
  unfold reLoop
  apply foldl_inv (fun st : TNode × TNode => TB P w (without f D) st.1 ∧ TB P w (having f D) st.2)
  · exact ⟨h0, h1⟩
  · rintro st ⟨a0, a1⟩ g _
    by_cases hgf : g = f
    · rw [if_pos hgf]; exact ⟨a0, a1⟩
    · rw [if_neg hgf]
      have hfg : f ≠ g := fun h => hgf h.symm
      have es := fun k => costs_exact P D k f g hfg
      simp only [es, costWith_eq, side_false, side_true]
      constructor
      · split
        · exact reChild_best P mls w v.sol g (without f D) _ _ (fun _ => rfl) (fun _ => rfl) _ a0
        · exact a0
      · split
        · exact reChild_best P mls w v.sol g (having f D) _ _ (fun _ => rfl) (fun _ => rfl) _ a1
        · exact a1

theorem terminalConstruct_best (P : Problem) (mls : Nat) (w : Int) (D : Data) (v : Node) (f : Nat) (x : Tree)
    (h : terminalConstruct (tcOf P mls w) (statsOf P D) v f = some (some x)) : BestLeaves P x D := by
  have e : ∀ E, TB P w E ⟨Node.empty w, Node.empty w, Node.empty w⟩ := fun _ => .inl rfl
  unfold terminalConstruct at h
  dsimp only at h
  have i0 : TB P w (without f D) (if v.nl = 0 then
      (⟨reLeaf (tcOf P mls w) v.sol fun k => ((statsOf P D).sols k f f).v00, Node.empty w, Node.empty w⟩ : TNode)
      else ⟨Node.empty w, Node.empty w, Node.empty w⟩) := by
    split
    · exact reLeaf_best P mls w v.sol _ _ (fun k => (costs_exact_one P D k f).1) _ _
    · exact e _
  have i1 : TB P w (having f D) (if v.nr = 0 then
      (⟨reLeaf (tcOf P mls w) v.sol fun k => ((statsOf P D).sols k f f).v11, Node.empty w, Node.empty w⟩ : TNode)
      else ⟨Node.empty w, Node.empty w, Node.empty w⟩) := by
    split
    · exact reLeaf_best P mls w v.sol _ _ (fun k => (costs_exact_one P D k f).2) _ _
    · exact e _
  have hw : (tcOf P mls w).worst = w := rfl
  rw [hw] at h
  have key : ∀ st : TNode × TNode, st = (if 0 < v.nl ∨ 0 < v.nr then reLoop (tcOf P mls w) (statsOf P D) v f
      ((if v.nl = 0 then (⟨reLeaf (tcOf P mls w) v.sol fun k => ((statsOf P D).sols k f f).v00, Node.empty w, Node.empty w⟩ : TNode)
        else ⟨Node.empty w, Node.empty w, Node.empty w⟩),
       (if v.nr = 0 then (⟨reLeaf (tcOf P mls w) v.sol fun k => ((statsOf P D).sols k f f).v11, Node.empty w, Node.empty w⟩ : TNode)
        else ⟨Node.empty w, Node.empty w, Node.empty w⟩)) else
      ((if v.nl = 0 then (⟨reLeaf (tcOf P mls w) v.sol fun k => ((statsOf P D).sols k f f).v00, Node.empty w, Node.empty w⟩ : TNode)
        else ⟨Node.empty w, Node.empty w, Node.empty w⟩),
       (if v.nr = 0 then (⟨reLeaf (tcOf P mls w) v.sol fun k => ((statsOf P D).sols k f f).v11, Node.empty w, Node.empty w⟩ : TNode)
        else ⟨Node.empty w, Node.empty w, Node.empty w⟩))) → TB P w (without f D) st.1 ∧ TB P w (having f D) st.2 := by
    rintro st rfl
    split
    · exact reLoop_best P mls w D v f _ i0 i1
    · exact ⟨i0, i1⟩
  have key := key _ rfl
  generalize (if 0 < v.nl ∨ 0 < v.nr then _ else _ : TNode × TNode) = st at key h
  split at h
  · simp at h
  · rename_i hn
    rcases key.1 with h1 | ⟨a, a1, a2⟩
    · exact absurd (.inl h1) hn
    rcases key.2 with h1 | ⟨b, b1, b2⟩
    · exact absurd (.inr h1) hn
    rw [a1, b1] at h
    simp only [Option.bind_some, Option.map_some, Option.some.injEq] at h
    rw [← h]
    exact ⟨a2, b2⟩

/-! ### The recursion -/

section
variable {c : Cfg} {T : Data} (G : Base c T) (hclk : ∀ i, c.clock i = true)

theorem childLookup_best {s : St} (hq : CAll T (QB c) s.cache) {D : Data} {b : Branch} (hD : D = sel b T) (d : Nat) (zs : List Nat) :
    BestLabel c.P D (childLookup c s D b d zs).1 := by
  induction zs with
  | nil => exact BestLabel.empty _ _ _
  | cons y zs ih =>
    unfold childLookup
    dsimp only
    have h := BestLabel.ite (p := y = 0) (solveLeaf_best c D (Node.empty c.worst)) (hit_best hq hD (min (d - 1) y) y)
    generalize (if y = 0 then (solveLeaf c D (Node.empty c.worst)).1 else s.cache.retrieveOpt c.cc D b (min (d - 1) y) y) = v at h
    split
    · exact ih
    · exact h

include G in
theorem childSol_best {s : St} (hs : SOK c T s) (hq : CAll T (QB c) s.cache) {D : Data} {b : Branch} (hD : D = sel b T)
    (d n z : Nat) (hz : z + 1 ≤ 2 ^ (min (d - 1) z)) (look : Node × Option Nat) (hlook : BestLabel c.P D look.1) :
    CAll T (QB c) (childSol c D b d n z look s).2.cache ∧ BestLabel c.P D (childSol c D b d n z look s).1.1 := by
  unfold childSol
  cases look.2 with
  | some y => exact ⟨hq, hlook⟩
  | none =>
    dsimp only
    have hp := solveSub_sound G (min (d - 1) z) D b (Node.empty c.worst) (min (d - 1) z) z s (Nat.le_refl _) hD hz (Int.le_refl _) hs
    have h1 := solveSub_best G (min (d - 1) z) D b (Node.empty c.worst) (min (d - 1) z) z s (Nat.le_refl _) hD hz (Int.le_refl _) hs hq
    generalize solveSub c (min (d - 1) z) D b (Node.empty c.worst) (min (d - 1) z) z s = r at hp h1
    split
    · exact solveSub_best G (min (d - 1) z) D b (Node.empty c.worst) (min (d - 1) z) z r.2 (Nat.le_refl _) hD hz (Int.le_refl _) hp.st h1.1
    · exact h1

include G hclk in
theorem construct_best (hmay : c.useTerm = true → ∀ f, f < c.P.nF → c.P.may f = true) (fuel : Nat) (v : Node) (D : Data)
    (b : Branch) (d0 n0 : Nat) (s : St) (hfuel : d0 < fuel) (hD : D = sel b T) (hv : Real c.P c.mls d0 D v)
    (hn : v.numNodes ≤ n0) (hs : SOK c T s) (hb : BestLabel c.P D v) (hq : CAll T (QB c) s.cache) :
    (∀ t, (construct c fuel v D b d0 n0 s).1 = some t → BestLeaves c.P t D) ∧
    CAll T (QB c) (construct c fuel v D b d0 n0 s).2.cache := by
  induction fuel generalizing v D b d0 n0 s with
  | zero => omega
  | succ fuel ih =>
    have hO : False → Good c T ∧ c.useTerm = false := fun h => h.elim
    have hO' : ∀ {s}, False → StOK c T s := fun h => h.elim
    have hv0 := hv
    obtain ⟨t0, hrep, hdep, hleg, hcost⟩ := hv
    unfold construct
    dsimp only
    cases t0 with
    | leaf k =>
      rw [hrep.1]
      dsimp only
      refine ⟨fun t ht => ?_, hq⟩
      unfold labelTree at ht
      rw [hrep.2] at ht
      simp only [Option.map_some, Option.some.injEq] at ht
      subst ht
      intro j hj
      have h1 : leafCost c.P D k = v.sol := hcost
      rw [h1]
      exact hb hrep.1 hv0.nonempty j hj
    | node f l r =>
      have hnum : l.nodes + r.nodes + 1 = v.numNodes := by rw [← hrep.nodes]; simp [Tree.nodes]; omega
      have hd0 : l.depth + 1 ≤ d0 ∧ r.depth + 1 ≤ d0 := by simp only [Tree.depth] at hdep; omega
      have hdl : l.depth ≤ min d0 n0 - 1 ∧ r.depth ≤ min d0 n0 - 1 := by
        have := l.depth_le_nodes
        have := r.depth_le_nodes
        omega
      have hfeat : v.feature = some f := hrep.1
      have hnl : v.nl = l.nodes := hrep.2.2.1.symm
      have hnr : v.nr = r.nodes := hrep.2.2.2.symm
      obtain ⟨hf, hm, hl0, hl1⟩ := hleg
      rw [hfeat]
      dsimp only
      generalize hd : min d0 n0 = d at hdl ⊢
      have hd1 : 1 ≤ d := by omega
      have hp : 1 < 2 ^ d := Nat.one_lt_two_pow (by omega)
      rw [if_neg (by omega)]
      generalize hsp : (if ¬(d = 1 ∨ min n0 (2 ^ d - 1) = 1 ∨ v.numNodes = 1) ∧ c.useTerm = true ∧ d ≤ 2 then
        terminalConstruct c.tc (statsOf c.P D) v f else none) = sp
      have hspec : ∀ x, sp = some (some x) → BestLeaves c.P x D := by
        intro x hx
        rw [← hsp] at hx
        split at hx
        · exact terminalConstruct_best c.P c.mls c.worst D v f x hx
        · simp at hx
      cases sp with
      | some o => exact ⟨fun t ht => hspec t (by dsimp only at ht; rw [ht]), hq⟩
      | none =>
        dsimp only
        have e0 : without f D = sel (b.child f false) T := by rw [sel_child, ← hD, side_false]
        have e1 : having f D = sel (b.child f true) T := by rw [sel_child, ← hD, side_true]
        rw [hnl, hnr]
        generalize hmx : min (2 ^ (d - 1) - 1) (min n0 (2 ^ d - 1) - 1) = mx
        generalize hmn : min n0 (2 ^ d - 1) - 1 - mx = mn
        generalize min n0 (2 ^ d - 1) = n at *
        have hzs : ∀ t : Tree, t.depth ≤ d - 1 → t.nodes + 1 ≤ 2 ^ (min (d - 1) t.nodes) := by
          intro t htd
          refine Nat.le_trans t.nodes_lt_pow (Nat.pow_le_pow_right (by decide) ?_)
          have := t.depth_le_nodes
          omega
        have lookB : ∀ (E : Data) (b' : Branch) (zs : List Nat), E = sel b' T →
            BestLabel c.P E (if (c.useBr || c.useDs) = true then childLookup c s E b' d zs else (Node.empty c.worst, none)).1 := by
          intro E b' zs hE
          split
          · exact childLookup_best hq hE d zs
          · exact BestLabel.empty _ _ _
        have cl := childSol_spec G False hO hclk hs hO' hs hO' e0 d n mn (mx + 1 - max l.nodes mn) l hl0 hdl.1 _ rfl
        have bl := childSol_best G hs hq e0 d n l.nodes (hzs l hdl.1) _ (lookB _ _ (List.range' (max l.nodes mn) (mx + 1 - max l.nodes mn)) e0)
        generalize childSol c (without f D) (b.child f false) d n l.nodes _ s = x at cl bl ⊢
        have cr := childSol_spec G False hO hclk hs hO' cl.st hO' e1 d n mn (mx + 1 - max r.nodes mn) r hl1 hdl.2 _ rfl
        have br := childSol_best G cl.st bl.1 e1 d n r.nodes (hzs r hdl.2) _ (lookB _ _ (List.range' (max r.nodes mn) (mx + 1 - max r.nodes mn)) e1)
        generalize childSol c (having f D) (b.child f true) d n r.nodes _ x.2 = y at cr br ⊢
        have il := ih x.1.1 (without f D) (b.child f false) x.1.2.1 x.1.2.2 y.2
          (by have := cl.depth; omega) e0 cl.real cl.num cr.st bl.2 br.1
        obtain ⟨tl, u1, _, _, u4, _⟩ := construct_spec G False hO hclk hmay fuel x.1.1 (without f D) (b.child f false) x.1.2.1 x.1.2.2 y.2
          (by have := cl.depth; omega) e0 cl.real cl.num cr.st hO'
        generalize construct c fuel x.1.1 (without f D) (b.child f false) x.1.2.1 x.1.2.2 y.2 = tlr at u1 u4 il ⊢
        have ir := ih y.1.1 (having f D) (b.child f true) y.1.2.1 y.1.2.2 tlr.2
          (by have := cr.depth; omega) e1 cr.real cr.num u4 br.2 il.2
        generalize construct c fuel y.1.1 (having f D) (b.child f true) y.1.2.1 y.1.2.2 tlr.2 = trr at ir ⊢
        refine ⟨fun t ht => ?_, ir.2⟩
        rw [u1] at ht
        cases h2 : trr.1 with
        | none => rw [h2] at ht; simp at ht
        | some tr =>
          rw [h2] at ht
          simp only [Option.bind_some, Option.map_some, Option.some.injEq] at ht
          rw [← ht]
          exact ⟨il.1 tl u1, ir.1 tr h2⟩

end

/-! ### The whole run -/

section
variable {c : Cfg} {T : Data} (G : Base c T)
include G

/-- The outcome of the searches so far. -/
structure RunB (c : Cfg) (T : Data) (r : Run) : Prop where
  label : BestLabel c.P T r.result
  cache : CAll T (QB c) r.st.cache

theorem run_best (t : Top) {e : Nat} {r : Run} (hr : RunS c t T e r) (hb : RunB c T r) {d n : Nat} (hd : d ≤ t.maxDepth)
    (hp : n + 1 ≤ 2 ^ d) (b : Bool) (mdf : Int) :
    let x := solveSub c t.maxDepth T [] r.gUB d n r.st
    let result := Node.addMin r.result x.1
    RunB c T ⟨result, tighten c b result (Node.addMin r.gUB x.1), d, { x.2 with mdf := mdf }⟩ := by
  have h := solveSub_best G t.maxDepth T [] r.gUB d n r.st hd (sel_nil T).symm hp hr.ub hr.st hb.cache
  exact ⟨hb.label.addMin h.2, h.1⟩

theorem depthRuns_best (t : Top) (a m : Nat) (hmd : a + m ≤ t.maxDepth + 1) {e : Nat} {r : Run} (hr : RunS c t T e r)
    (hb : RunB c T r) (he : e ≤ a) : RunB c T (depthRuns c t T (List.range' a m) r) := by
  induction m generalizing a e r with
  | zero => exact hb
  | succ m ih =>
    simp only [List.range'_succ, depthRuns]
    have hpos : 1 ≤ 2 ^ a := Nat.one_le_two_pow
    have h1 : RunS c t T a (depthRun c t T r a) :=
      run_sound G t hr (d := a) (n := min t.maxNodes (2 ^ a - 1)) he (by omega) (by omega) (by omega) false a
    have h2 : RunB c T (depthRun c t T r a) :=
      run_best G t hr hb (d := a) (n := min t.maxNodes (2 ^ a - 1)) (by omega) (by omega) false a
    split
    · exact ⟨h2.label, h2.cache⟩
    · exact ih (a + 1) (by omega) h1.next ⟨h2.label, h2.cache⟩ (Nat.le_succ _)

theorem sizeRuns_best (t : Top) (a m : Nat) (hmn : a + m ≤ t.maxNodes + 1) (hfit : t.maxNodes + 1 ≤ 2 ^ t.maxDepth)
    {e : Nat} {r : Run} (hr : RunS c t T e r) (hb : RunB c T r)
    (he : e ≤ min t.maxDepth a) : RunB c T (sizeRuns c t T (List.range' a m) r) := by
  induction m generalizing a e r with
  | zero => exact hb
  | succ m ih =>
    simp only [List.range'_succ, sizeRuns]
    split
    · exact ⟨hb.label, hb.cache⟩
    · have hp : a + 1 ≤ 2 ^ (min t.maxDepth a) := by
        rcases Nat.le_total t.maxDepth a with h | h
        · rw [Nat.min_eq_left h]; omega
        · rw [Nat.min_eq_right h]; exact Nat.lt_two_pow_self
      have h1 : RunS c t T (min t.maxDepth a) (sizeRun c t T { r with st := r.st.next } a) :=
        run_sound G t hr.next (d := min t.maxDepth a) (n := a) he (by omega) (by omega) hp true (Nat.log2 (a + 1))
      have h2 : RunB c T (sizeRun c t T { r with st := r.st.next } a) :=
        run_best G t hr.next ⟨hb.label, hb.cache⟩ (d := min t.maxDepth a) (n := a) (by omega) hp true (Nat.log2 (a + 1))
      split
      · exact ⟨h2.label, h2.cache⟩
      · exact ih (a + 1) (by omega) h1.next ⟨h2.label, h2.cache⟩ (by omega)

theorem solve_bestLeaves (t : Top) (hfit : t.maxNodes + 1 ≤ 2 ^ t.maxDepth) : RunB c T (solve c t T).1 := by
  have hstart : (if (Node.empty c.worst).isEmpty = true then solveLeaf c T (Node.addMin (Node.empty c.worst) (Node.value t.ub))
      else (Node.empty c.worst, Node.empty c.worst)) = solveLeaf c T (startUB c t) := by
    rw [if_pos (by rfl)]; rfl
  unfold solve solveFrom
  dsimp only
  rw [hstart]
  have hub : (startUB c t).sol ≤ c.worst := by rw [(startUB_sol t).1]; omega
  have hleaf := solveLeaf_sound G (List.Sublist.refl T) (startUB c t) hub 0 t.maxNodes
  have h0 : RunS c t T 0 ⟨(solveLeaf c T (startUB c t)).1, (solveLeaf c T (startUB c t)).2, t.maxDepth, { St.init with mdf := 0 }⟩ :=
    ⟨hleaf.1, Nat.zero_le _, Nat.le_refl _, hleaf.2.1, ⟨(SOK.init (c := c) (T := T)).cache, (SOK.init (c := c) (T := T)).arch⟩,
      fun h7 h8 => hleaf.2.2 h8 (by rw [(startUB_sol t).1]; omega)⟩
  have b0 : RunB c T ⟨(solveLeaf c T (startUB c t)).1, (solveLeaf c T (startUB c t)).2, t.maxDepth, { St.init with mdf := 0 }⟩ :=
    ⟨solveLeaf_best c T _, CAll.init⟩
  split
  · have h := sizeRuns_best G t 1 t.maxNodes (by omega) hfit h0 b0 (Nat.zero_le _)
    exact ⟨h.label, h.cache⟩
  · have h := depthRuns_best G t (min 2 (min t.maxDepth t.maxNodes))
      (min t.maxDepth t.maxNodes + 1 - min 2 (min t.maxDepth t.maxNodes)) (by omega) h0 b0 (Nat.zero_le _)
    exact ⟨h.label, h.cache⟩

/-- **The labels of the returned tree.** Every leaf carries a label that costs least on the instances it receives. -/
theorem returned_bestLeaves (t : Top) {e : Nat} {r : Run} (hr : RunS c t T e r) (hb : RunB c T r)
    (hmay : c.useTerm = true → ∀ f, f < c.P.nF → c.P.may f = true) (x : Tree) (h : returned c T r = some (some x)) :
    BestLeaves c.P x T := by
  unfold returned at h
  split at h
  · simp at h
  · rename_i hw
    dsimp only at h
    have hv : ViewOf T T := List.Sublist.refl T
    have hne : r.result.isEmpty = false := (G.ne_iff hv hr.sound).2 (by have := G.sound_le hv hr.sound; omega)
    have h1 := hr.sound.real hne
    have hlog : min r.maxDepthSearched r.result.numNodes ≤
        min r.maxDepthSearched r.result.numNodes + 1 - Nat.log2 (r.result.numNodes + 1) + Nat.log2 (r.result.numNodes + 1) := by omega
    have h2 := rootDepth_spec hr.st (h1.1.mono hr.le) _ _ hlog
    generalize hd : min (rootDepth c T r.result r.st (min r.maxDepthSearched r.result.numNodes + 1 - Nat.log2 (r.result.numNodes + 1))
      (Nat.log2 (r.result.numNodes + 1))) r.maxDepthSearched = d at h2 h
    exact (construct_best (c := { c with clock := fun _ => true }) (G.clock _) (fun _ => rfl) hmay (d + 1) r.result T [] d
      r.result.numNodes r.st (Nat.lt_succ_self _) (sel_nil T).symm h2 (Nat.le_refl _) (hr.st.clock _) hb.label hb.cache).1 x
      (by simpa using h)

end
end Streed
