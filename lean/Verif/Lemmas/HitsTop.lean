import Verif.Lemmas.HitsSearch

/-! The tree returned by a search of depth at most three: its size, and its value with the depth-two solver. -/

namespace Streed

/-! ### The runs -/

/-- The outcome of the searches so far. -/
structure RunH (c : Cfg) (T : Data) (r : Run) : Prop where
  hi : HI c T r.st.cache
  trios : Trios c T r.st.cache
  root : r.result.isEmpty = false → RootOK c r.st.cache T r.result

theorem init_ans (w : Int) (E : Data) (d n : Nat) : Cache.init.ans w E d n = Node.empty w := rfl

theorem HI.init (c : Cfg) (T : Data) : HI c T Cache.init :=
  ⟨fun k es h => by simp [Cache.init, Store.find] at h, fun E d n _ h => by rw [init_ans] at h; simp [Node.empty, Node.isEmpty] at h,
    fun n _ h => by rw [init_ans] at h; simp [Node.empty, Node.isEmpty] at h⟩

theorem Trios.init (c : Cfg) (T : Data) : Trios c T Cache.init := by
  intro _ b _
  refine ⟨fun h => ?_, fun h => ?_⟩
  · rw [init_ans] at h; simp [Node.empty, Node.isEmpty] at h
  · rw [init_ans, init_ans] at h; simp [Node.empty, Node.isEmpty] at h

section
variable {c : Cfg} {T : Data} (G : Base c T) (hbr : c.useBr = false) (hds : c.useDs = true) (hmls : 1 ≤ c.mls)
include G hbr hds hmls

theorem run_h (t : Top) {e : Nat} {r : Run} (hr : RunS c t T e r) (hh : RunH c T r) {d n : Nat} (hd : d ≤ t.maxDepth) (hd3 : d ≤ 3)
    (hdn : d ≤ n) (hp : n + 1 ≤ 2 ^ d) (b : Bool) (mdf : Int) :
    let x := solveSub c t.maxDepth T [] r.gUB d n r.st
    let result := Node.addMin r.result x.1
    RunH c T ⟨result, tighten c b result (Node.addMin r.gUB x.1), d, { x.2 with mdf := mdf }⟩ := by
  have hpost := solveRoot_h G hbr hds hmls t.maxDepth (UB := r.gUB) (s := r.st) hd hd3 hdn hp hr.ub hr.st hh.hi hh.trios
  generalize solveSub c t.maxDepth T [] r.gUB d n r.st = x at hpost
  dsimp only
  refine ⟨hpost.hi, hpost.trios, ?_⟩
  dsimp only
  unfold Node.addMin
  split
  · exact hpost.root
  · exact fun h => (hh.root h).keep h hpost.keep

theorem depthRuns_h (t : Top) (a m : Nat) (hmd : a + m ≤ t.maxDepth + 1) (hmn : a + m ≤ t.maxNodes + 1) (h3 : t.maxDepth ≤ 3) {e : Nat} {r : Run}
    (hr : RunS c t T e r) (hh : RunH c T r) (he : e ≤ a) :
    ∃ e', RunS c t T e' (depthRuns c t T (List.range' a m) r) ∧ RunH c T (depthRuns c t T (List.range' a m) r) := by
  induction m generalizing a e r with
  | zero => exact ⟨e, hr, hh⟩
  | succ m ih =>
    simp only [List.range'_succ, depthRuns]
    have hpos : a < 2 ^ a := Nat.lt_two_pow_self
    have h1 : RunS c t T a (depthRun c t T r a) :=
      run_sound G t hr (d := a) (n := min t.maxNodes (2 ^ a - 1)) he (by omega) (by omega) (by omega) false a
    have h2 : RunH c T (depthRun c t T r a) :=
      run_h G hbr hds hmls t hr hh (d := a) (n := min t.maxNodes (2 ^ a - 1)) (by omega) (by omega) (by omega) (by omega) false a
    have h3 : RunH c T { depthRun c t T r a with st := (depthRun c t T r a).st.next } := ⟨h2.hi, h2.trios, h2.root⟩
    split
    · exact ⟨a, h1.next, h3⟩
    · exact ih (a + 1) (by omega) (by omega) h1.next h3 (Nat.le_succ _)

theorem sizeRuns_h (t : Top) (a m : Nat) (hmn : a + m ≤ t.maxNodes + 1) (hfit : t.maxNodes + 1 ≤ 2 ^ t.maxDepth) (h3 : t.maxDepth ≤ 3)
    {e : Nat} {r : Run} (hr : RunS c t T e r) (hh : RunH c T r) (he : e ≤ min t.maxDepth a) :
    ∃ e', RunS c t T e' (sizeRuns c t T (List.range' a m) r) ∧ RunH c T (sizeRuns c t T (List.range' a m) r) := by
  induction m generalizing a e r with
  | zero => exact ⟨e, hr, hh⟩
  | succ m ih =>
    simp only [List.range'_succ, sizeRuns]
    have hn : ∀ {r}, RunH c T r → RunH c T { r with st := r.st.next } := fun h => ⟨h.hi, h.trios, h.root⟩
    split
    · exact ⟨e, hr.next, hn hh⟩
    · have hp : a + 1 ≤ 2 ^ (min t.maxDepth a) := by
        rcases Nat.le_total t.maxDepth a with h | h
        · rw [Nat.min_eq_left h]; omega
        · rw [Nat.min_eq_right h]; exact Nat.lt_two_pow_self
      have h1 : RunS c t T (min t.maxDepth a) (sizeRun c t T { r with st := r.st.next } a) :=
        run_sound G t hr.next (d := min t.maxDepth a) (n := a) he (by omega) (by omega) hp true (Nat.log2 (a + 1))
      have h2 : RunH c T (sizeRun c t T { r with st := r.st.next } a) :=
        run_h G hbr hds hmls t hr.next (hn hh) (d := min t.maxDepth a) (n := a) (by omega) (by omega) (by omega) hp true (Nat.log2 (a + 1))
      split
      · exact ⟨_, h1.next, hn h2⟩
      · exact ih (a + 1) (by omega) h1.next (hn h2) (by omega)

theorem solve_h (t : Top) (hfit : t.maxNodes + 1 ≤ 2 ^ t.maxDepth) (h3 : t.maxDepth ≤ 3) :
    ∃ e, RunS c t T e (solve c t T).1 ∧ RunH c T (solve c t T).1 := by
  have hstart : (if (Node.empty c.worst).isEmpty = true then solveLeaf c T (Node.addMin (Node.empty c.worst) (Node.value t.ub))
      else (Node.empty c.worst, Node.empty c.worst)) = solveLeaf c T (startUB c t) := by
    rw [if_pos (by rfl)]; rfl
  unfold solve solveFrom
  dsimp only
  rw [hstart]
  have hub : (startUB c t).sol ≤ c.worst := by rw [(startUB_sol t).1]; omega
  have hleaf := solveLeaf_sound G (List.Sublist.refl T) (startUB c t) hub 0 t.maxNodes
  have h0 : RunS c t T 0 ⟨(solveLeaf c T (startUB c t)).1, (solveLeaf c T (startUB c t)).2, t.maxDepth, { St.init with mdf := 0 }⟩ :=
    ⟨hleaf.1, Nat.zero_le _, Nat.le_refl _, hleaf.2.1, ⟨(SOK.init (c := c) (T := T)).cache, (SOK.init (c := c) (T := T)).arch⟩,
      fun h7 h8 => hleaf.2.2 h8 (by rw [(startUB_sol t).1]; omega)⟩
  have h1 : RunH c T ⟨(solveLeaf c T (startUB c t)).1, (solveLeaf c T (startUB c t)).2, t.maxDepth, { St.init with mdf := 0 }⟩ :=
    ⟨HI.init c T, Trios.init c T, fun h => .inl (by have := (leaf_num G (List.Sublist.refl T) hub h).1; dsimp only; omega)⟩
  have hn : ∀ {r}, RunH c T r → RunH c T { r with st := r.st.next } := fun h => ⟨h.hi, h.trios, h.root⟩
  split
  · obtain ⟨e, h, h'⟩ := sizeRuns_h G hbr hds hmls t 1 t.maxNodes (by omega) hfit h3 h0 h1 (Nat.zero_le _)
    exact ⟨e, h.next, hn h'⟩
  · obtain ⟨e, h, h'⟩ := depthRuns_h G hbr hds hmls t (min 2 (min t.maxDepth t.maxNodes))
      (min t.maxDepth t.maxNodes + 1 - min 2 (min t.maxDepth t.maxNodes)) (by omega) (by omega) h3 h0 h1 (Nat.zero_le _)
    exact ⟨e, h.next, hn h'⟩

end

/-! ### Sizes of the trees of the depth-two solver -/

theorem reLeaf_feature (tc : TCfg) (cap : Int) (val : Nat → Int) : (reLeaf tc cap val).feature = none := by
  unfold reLeaf
  have : ∀ (l : List Nat) (r : Node), r.feature = none →
      (l.foldl (fun r k => if cap < val k then r else Node.addMin r (Node.leaf k (val k))) r).feature = none := by
    intro l
    induction l with
    | nil => intro r h; exact h
    | cons k l ih =>
      intro r h
      refine ih _ ?_
      dsimp only
      split
      · exact h
      · unfold Node.addMin; split
        · rfl
        · exact h
  exact this _ _ rfl

theorem reLoop_fst (tc : TCfg) (S : Stats) (v : Node) (f : Nat) (st : TNode × TNode) :
    (v.nl = 0 → (reLoop tc S v f st).1 = st.1) ∧ (v.nr = 0 → (reLoop tc S v f st).2 = st.2) := by
  unfold reLoop
  have : ∀ (l : List Nat) (st : TNode × TNode), (v.nl = 0 → (l.foldl (fun st g =>
    if g = f then st
    else
      let n := S.counts f g
      let q := fun k => S.sols k f g
      let l := if 0 < v.nl ∧ (tc.mls : Int) ≤ n.v00 ∧ (tc.mls : Int) ≤ n.v01 then
          reChild tc v.sol g (fun k => (q k).v00) (fun k => (q k).v01) st.1 else st.1
      let r := if 0 < v.nr ∧ (tc.mls : Int) ≤ n.v10 ∧ (tc.mls : Int) ≤ n.v11 then
          reChild tc v.sol g (fun k => (q k).v10) (fun k => (q k).v11) st.2 else st.2
      (l, r)) st).1 = st.1) ∧ (v.nr = 0 → (l.foldl (fun st g =>
    if g = f then st
    else
      let n := S.counts f g
      let q := fun k => S.sols k f g
      let l := if 0 < v.nl ∧ (tc.mls : Int) ≤ n.v00 ∧ (tc.mls : Int) ≤ n.v01 then
          reChild tc v.sol g (fun k => (q k).v00) (fun k => (q k).v01) st.1 else st.1
      let r := if 0 < v.nr ∧ (tc.mls : Int) ≤ n.v10 ∧ (tc.mls : Int) ≤ n.v11 then
          reChild tc v.sol g (fun k => (q k).v10) (fun k => (q k).v11) st.2 else st.2
      (l, r)) st).2 = st.2) := by
    intro l
    induction l with
    | nil => intro st; exact ⟨fun _ => rfl, fun _ => rfl⟩
    | cons g l ih =>
      intro st
      simp only [List.foldl_cons]
      refine ⟨fun h => ?_, fun h => ?_⟩
      · rw [(ih _).1 h]
        split
        · rfl
        · dsimp only; rw [if_neg (by omega)]
      · rw [(ih _).2 h]
        split
        · rfl
        · dsimp only; rw [if_neg (by omega)]
  exact this _ st

theorem labelTree_nodes {v : Node} {t : Tree} (h : labelTree v = some t) : t.nodes = 0 := by
  unfold labelTree at h
  cases hl : v.label with
  | none => rw [hl] at h; simp at h
  | some k => rw [hl] at h; simp at h; rw [← h]; rfl

theorem tnodeTree_nodes {x : TNode} {t : Tree} (h : tnodeTree x = some t) :
    t.nodes ≤ 1 ∧ (x.parent.feature = none → t.nodes = 0) := by
  unfold tnodeTree at h
  cases hf : x.parent.feature with
  | none =>
    rw [hf] at h
    have := labelTree_nodes h
    exact ⟨by omega, fun _ => this⟩
  | some g =>
    rw [hf] at h
    refine ⟨?_, fun h => by simp at h⟩
    dsimp only at h
    cases ha : labelTree x.left with
    | none => rw [ha] at h; simp at h
    | some a =>
      cases hb : labelTree x.right with
      | none => rw [ha, hb] at h; simp at h
      | some b =>
        rw [ha, hb] at h
        simp at h
        have := labelTree_nodes ha
        have := labelTree_nodes hb
        rw [← h]; simp only [Tree.nodes]; omega

theorem terminalConstruct_nodes (tc : TCfg) (S : Stats) (v : Node) (f : Nat) {x : Tree}
    (h : terminalConstruct tc S v f = some (some x)) : x.nodes ≤ 1 + v.nl + v.nr := by
  unfold terminalConstruct at h
  dsimp only at h
  generalize hl0 : (if v.nl = 0 then ({ parent := reLeaf tc v.sol fun k => (S.sols k f f).v00, left := Node.empty tc.worst, right := Node.empty tc.worst } : TNode)
    else ⟨Node.empty tc.worst, Node.empty tc.worst, Node.empty tc.worst⟩) = l0 at h
  generalize hr0 : (if v.nr = 0 then ({ parent := reLeaf tc v.sol fun k => (S.sols k f f).v11, left := Node.empty tc.worst, right := Node.empty tc.worst } : TNode)
    else ⟨Node.empty tc.worst, Node.empty tc.worst, Node.empty tc.worst⟩) = r0 at h
  generalize hst : (if 0 < v.nl ∨ 0 < v.nr then reLoop tc S v f (l0, r0) else (l0, r0)) = st at h
  have e1 : v.nl = 0 → st.1.parent.feature = none := by
    intro h0
    rw [if_pos h0] at hl0
    rw [← hst]
    split
    · rw [(reLoop_fst tc S v f (l0, r0)).1 h0, ← hl0]; exact reLeaf_feature _ _ _
    · rw [← hl0]; exact reLeaf_feature _ _ _
  have e2 : v.nr = 0 → st.2.parent.feature = none := by
    intro h0
    rw [if_pos h0] at hr0
    rw [← hst]
    split
    · rw [(reLoop_fst tc S v f (l0, r0)).2 h0, ← hr0]; exact reLeaf_feature _ _ _
    · rw [← hr0]; exact reLeaf_feature _ _ _
  split at h
  · simp at h
  · simp only [Option.some.injEq] at h
    cases ha : tnodeTree st.1 with
    | none => rw [ha] at h; simp at h
    | some a =>
      cases hb : tnodeTree st.2 with
      | none => rw [ha, hb] at h; simp at h
      | some b =>
        rw [ha, hb] at h
        simp at h
        have n1 := tnodeTree_nodes ha
        have n2 := tnodeTree_nodes hb
        rw [← h]
        simp only [Tree.nodes]
        have f1 : a.nodes ≤ v.nl := by
          rcases Nat.eq_zero_or_pos v.nl with h0 | h0
          · rw [n1.2 (e1 h0)]; omega
          · have := n1.1; omega
        have f2 : b.nodes ≤ v.nr := by
          rcases Nat.eq_zero_or_pos v.nr with h0 | h0
          · rw [n2.2 (e2 h0)]; omega
          · have := n2.1; omega
        omega

/-! ### Building the tree -/

theorem construct_leaf (c : Cfg) (fuel : Nat) {v : Node} {D : Data} (b : Branch) (d0 n0 : Nat) (s : St) {k : Nat}
    (h : Rep v (.leaf k)) : construct c (fuel + 1) v D b d0 n0 s = (some (.leaf k), s) := by
  unfold construct
  dsimp only
  rw [h.1]
  dsimp only
  unfold labelTree
  rw [h.2]; rfl

theorem construct_min (c : Cfg) (fuel : Nat) (v : Node) (D : Data) (b : Branch) (d0 n0 : Nat) (s : St) :
    construct c fuel v D b (min d0 n0) n0 s = construct c fuel v D b d0 n0 s := by
  cases fuel with
  | zero => rfl
  | succ fuel =>
    unfold construct
    rw [show min (min d0 n0) n0 = min d0 n0 by omega]

section
variable {c : Cfg} {T : Data} (G : Base c T) (hbr : c.useBr = false) (hds : c.useDs = true) (hmls : 1 ≤ c.mls)
  (hclk : ∀ i, c.clock i = true)

include G in
/-- A leaf found by the search, as a tree. -/
theorem leaf_tree {E : Data} (hv : ViewOf T E) (hm : c.mls ≤ E.length) :
    ∃ k, Rep (solveLeaf c E (Node.empty c.worst)).1 (.leaf k) ∧ (Tree.leaf k).cost c.P E = (solveLeaf c E (Node.empty c.worst)).1.sol ∧
      (solveLeaf c E (Node.empty c.worst)).1.isEmpty = false := by
  have h := solveLeaf_sound G hv (Node.empty c.worst) (Int.le_refl _) 0 0
  have hlt := h.2.2 hm (Int.le_refl _)
  have hne : (solveLeaf c E (Node.empty c.worst)).1.isEmpty = false := (G.ne_iff hv h.1).2 hlt
  obtain ⟨t, t1, t2, t3, t4⟩ := (h.1.real hne).1
  obtain ⟨k, rfl⟩ := leaf_of_depth_zero (t := t) (.inl (by omega))
  exact ⟨k, t1, t4, hne⟩

include G hds in
/-- A child of size zero becomes a leaf. -/
theorem zero_child {E : Data} (hv : ViewOf T E) (hm : c.mls ≤ E.length) (s s1 : St) (b : Branch) (d n k : Nat) :
    childSol c E b d n 0 (if c.useBr || c.useDs then childLookup c s E b d (List.range' 0 (k + 1)) else (Node.empty c.worst, none)) s1
      = (((solveLeaf c E (Node.empty c.worst)).1, min (d - 1) 0, 0), s1) := by
  obtain ⟨_, _, _, hne⟩ := leaf_tree G hv hm
  have hl : childLookup c s E b d (List.range' 0 (k + 1)) = ((solveLeaf c E (Node.empty c.worst)).1, some 0) := by
    rw [List.range'_succ]
    unfold childLookup
    simp only [if_true]
    rw [hne]
    rfl
  rw [if_pos (by rw [hds]; simp), hl]
  rfl

include G hds hclk in
/-- A split of depth at most two built from its children. -/
theorem con_split (hmay : c.useTerm = true → ∀ f, f < c.P.nF → c.P.may f = true) (fuel : Nat) (v : Node) (D : Data)
    (b : Branch) (d0 n0 : Nat) (s : St) (hfuel : d0 < fuel) (hD : D = sel b T) {f : Nat} {l r : Tree} (hrep : Rep v (.node f l r))
    (hdep : (Tree.node f l r).depth ≤ d0) (hleg : (Tree.node f l r).Legal c.P c.mls D)
    (hn : v.numNodes ≤ n0) (hs : SOK c T s) (h2 : min d0 n0 ≤ 2) (hmn : min n0 (2 ^ min d0 n0 - 1) - 1 ≤ 2 ^ (min d0 n0 - 1) - 1)
    (hterm : c.useTerm = true → min d0 n0 = 1 ∨ v.numNodes = 1) :
    ∃ x y, (construct c fuel v D b d0 n0 s).1 = some (.node f x y) ∧ x.depth ≤ min d0 n0 - 1 ∧ y.depth ≤ min d0 n0 - 1 ∧
      (l.nodes = 0 → x.nodes = 0 ∧ x.cost c.P (without f D) ≤ l.cost c.P (without f D)) ∧
      (r.nodes = 0 → y.nodes = 0 ∧ y.cost c.P (having f D) ≤ r.cost c.P (having f D)) := by
  cases fuel with
  | zero => omega
  | succ fuel =>
    have hnum : l.nodes + r.nodes + 1 = v.numNodes := by rw [← hrep.nodes]; simp [Tree.nodes]; omega
    have hd0 : l.depth + 1 ≤ d0 ∧ r.depth + 1 ≤ d0 := by simp only [Tree.depth] at hdep; omega
    have hdl : l.depth ≤ min d0 n0 - 1 ∧ r.depth ≤ min d0 n0 - 1 := by
      have := l.depth_le_nodes
      have := r.depth_le_nodes
      omega
    have hfeat : v.feature = some f := hrep.1
    have hnl : v.nl = l.nodes := hrep.2.2.1.symm
    have hnr : v.nr = r.nodes := hrep.2.2.2.symm
    obtain ⟨hf, hm, hl0, hl1⟩ := hleg
    unfold construct
    dsimp only
    rw [hfeat]
    dsimp only
    generalize hd : min d0 n0 = d at hdl h2 hmn hterm ⊢
    have hd1 : 1 ≤ d := by omega
    have hp : 1 < 2 ^ d := Nat.one_lt_two_pow (by omega)
    rw [if_neg (by omega), if_neg (by
      rintro ⟨q1, q2, _⟩
      exact q1 ((hterm q2).imp_right .inr))]
    dsimp only
    have e0 : without f D = sel (b.child f false) T := by rw [sel_child, ← hD, side_false]
    have e1 : having f D = sel (b.child f true) T := by rw [sel_child, ← hD, side_true]
    have v0 : ViewOf T (without f D) := by rw [e0]; exact sel_view _ T
    have v1 : ViewOf T (having f D) := by rw [e1]; exact sel_view _ T
    rw [hnl, hnr]
    generalize hmx : min (2 ^ (d - 1) - 1) (min n0 (2 ^ d - 1) - 1) = mx
    have hmn0 : min n0 (2 ^ d - 1) - 1 - mx = 0 := by omega
    rw [hmn0]
    generalize min n0 (2 ^ d - 1) = n at *
    have F : False → Good c T ∧ c.useTerm = false := fun h => h.elim
    have cl := childSol_spec G False F hclk hs (fun h => h.elim) hs (fun h => h.elim) e0 d n 0 (mx + 1 - max l.nodes 0) l hl0 hdl.1 _ rfl
    have zl : l.nodes = 0 → childSol c (without f D) (b.child f false) d n l.nodes
        (if c.useBr || c.useDs then childLookup c s (without f D) (b.child f false) d (List.range' (max l.nodes 0) (mx + 1 - max l.nodes 0))
          else (Node.empty c.worst, none)) s = (((solveLeaf c (without f D) (Node.empty c.worst)).1, min (d - 1) 0, 0), s) := by
      intro h0
      rw [h0]
      exact zero_child G hds v0 hl0.length s s (b.child f false) d n mx
    generalize childSol c (without f D) (b.child f false) d n l.nodes _ s = x at cl zl ⊢
    have cr := childSol_spec G False F hclk hs (fun h => h.elim) cl.st (fun h => h.elim) e1 d n 0 (mx + 1 - max r.nodes 0) r hl1 hdl.2 _ rfl
    have zr : r.nodes = 0 → childSol c (having f D) (b.child f true) d n r.nodes
        (if c.useBr || c.useDs then childLookup c s (having f D) (b.child f true) d (List.range' (max r.nodes 0) (mx + 1 - max r.nodes 0))
          else (Node.empty c.worst, none)) x.2 = (((solveLeaf c (having f D) (Node.empty c.worst)).1, min (d - 1) 0, 0), x.2) := by
      intro h0
      rw [h0]
      exact zero_child G hds v1 hl1.length s x.2 (b.child f true) d n mx
    generalize childSol c (having f D) (b.child f true) d n r.nodes _ x.2 = y at cr zr ⊢
    obtain ⟨tl, u1, u2, u3, u4, _⟩ := construct_spec G False F hclk hmay fuel x.1.1 (without f D) (b.child f false) x.1.2.1 x.1.2.2 y.2
      (by have := cl.depth; omega) e0 cl.real cl.num cr.st (fun h => h.elim)
    have zl' : l.nodes = 0 → tl.nodes = 0 ∧ tl.cost c.P (without f D) ≤ l.cost c.P (without f D) := by
      intro h0
      rw [zl h0] at u1
      obtain ⟨k, k1, k2, _⟩ := leaf_tree G v0 hl0.length
      cases fuel with
      | zero => have := cl.depth; omega
      | succ fuel =>
        rw [construct_leaf c fuel _ _ _ _ k1] at u1
        simp only [Option.some.injEq] at u1
        rw [← u1, k2]
        refine ⟨rfl, ?_⟩
        obtain ⟨j, rfl⟩ := leaf_of_depth_zero (t := l) (.inr (by omega))
        exact leaf_best (x := Node.leaf j ((Tree.leaf j).cost c.P (without f D))) (d := 0)
          ⟨.leaf j, ⟨rfl, rfl⟩, Nat.le_refl _, hl0, rfl⟩ rfl
    generalize construct c fuel x.1.1 (without f D) (b.child f false) x.1.2.1 x.1.2.2 y.2 = tlr at u1 u4 ⊢
    obtain ⟨tr, w1, w2, w3, w4, _⟩ := construct_spec G False F hclk hmay fuel y.1.1 (having f D) (b.child f true) y.1.2.1 y.1.2.2 tlr.2
      (by have := cr.depth; omega) e1 cr.real cr.num u4 (fun h => h.elim)
    have zr' : r.nodes = 0 → tr.nodes = 0 ∧ tr.cost c.P (having f D) ≤ r.cost c.P (having f D) := by
      intro h0
      rw [zr h0] at w1
      obtain ⟨k, k1, k2, _⟩ := leaf_tree G v1 hl1.length
      cases fuel with
      | zero => have := cr.depth; omega
      | succ fuel =>
        rw [construct_leaf c fuel _ _ _ _ k1] at w1
        simp only [Option.some.injEq] at w1
        rw [← w1, k2]
        refine ⟨rfl, ?_⟩
        obtain ⟨j, rfl⟩ := leaf_of_depth_zero (t := r) (.inr (by omega))
        exact leaf_best (x := Node.leaf j ((Tree.leaf j).cost c.P (having f D))) (d := 0)
          ⟨.leaf j, ⟨rfl, rfl⟩, Nat.le_refl _, hl1, rfl⟩ rfl
    generalize construct c fuel y.1.1 (having f D) (b.child f true) y.1.2.1 y.1.2.2 tlr.2 = trr at w1 w4 ⊢
    exact ⟨tl, tr, by rw [u1, w1]; rfl, by have := cl.depth; omega, by have := cr.depth; omega, zl', zr'⟩

include G hds hmls hclk in
/-- A solution of depth at most two is built within its budget. With the depth-two solver, and a budget that equals the number of
nodes of the solution, the tree costs at most the claimed value. -/
theorem con_small (hmay : c.useTerm = true → ∀ f, f < c.P.nF → c.P.may f = true) (fuel : Nat) (v : Node) (D : Data)
    (b : Branch) (d0 n0 : Nat) (s : St) (hfuel : d0 < fuel) (hD : D = sel b T) (hv : Real c.P c.mls d0 D v)
    (hn : v.numNodes ≤ n0) (hs : SOK c T s) (h2 : min d0 n0 ≤ 2) :
    ∃ t, (construct c fuel v D b d0 n0 s).1 = some t ∧ t.nodes ≤ n0 ∧ SOK c T (construct c fuel v D b d0 n0 s).2 ∧
      (c.useTerm = true → v.numNodes = n0 → t.cost c.P D ≤ v.sol) := by
  have F : False → Good c T ∧ c.useTerm = false := fun h => h.elim
  have hV : ViewOf T D := by rw [hD]; exact sel_view b T
  obtain ⟨t, t1, t2, t3, t4, _⟩ := construct_spec G False F hclk hmay fuel v D b (min d0 n0) n0 s (by omega) hD
    (hv.depth_min (by omega)) hn hs (fun h => h.elim)
  rw [construct_min] at t1 t4
  obtain ⟨t0, hrep, hdep, hleg, hcost⟩ := hv
  cases fuel with
  | zero => omega
  | succ fuel =>
    cases t0 with
    | leaf k =>
      have e := construct_leaf c fuel (D := D) b d0 n0 s hrep
      exact ⟨.leaf k, by rw [e], Nat.zero_le _, t4, fun _ _ => Int.le_of_eq hcost⟩
    | node f l r =>
      have hnum : l.nodes + r.nodes + 1 = v.numNodes := by rw [← hrep.nodes]; simp [Tree.nodes]; omega
      have hd0 : 1 ≤ min d0 n0 := by simp only [Tree.depth] at hdep; omega
      have hpw := t.nodes_lt_pow
      have hsub : ∀ t' : Tree, t'.depth ≤ min d0 n0 - 1 → t'.nodes + 1 ≤ 2 ^ (min d0 n0 - 1) := fun t' h =>
        Nat.le_trans t'.nodes_lt_pow (Nat.pow_le_pow_right (by decide) h)
      -- the depth-two solver is used
      by_cases hc : c.useTerm = true ∧ min d0 n0 = 2 ∧ v.numNodes ≠ 1
      · obtain ⟨c1, c2, c3⟩ := hc
        have hlt : v.sol < c.worst := by rw [← hcost]; exact G.small D hV _ hleg
        have hdd : (Tree.node f l r).depth ≤ 2 := by
          have := (Tree.node f l r).depth_le_nodes
          have : (Tree.node f l r).nodes ≤ n0 := by rw [hrep.nodes]; exact hn
          omega
        obtain ⟨x, x1, _, _, x4⟩ := (terminalConstruct_spec c.P c.mls c.worst (hmay c1) D v f l r hrep hdd hleg).2 hcost
          hmls G.bc (fun i hi k => G.nonneg i (hV.subset hi) k) hlt
        have hx := terminalConstruct_nodes _ _ _ _ x1
        have e : construct c (fuel + 1) v D b d0 n0 s = (some x, s) := by
          unfold construct
          dsimp only
          rw [hrep.1, c2]
          dsimp only
          have hn3 : min n0 (2 ^ 2 - 1) ≠ 0 ∧ min n0 (2 ^ 2 - 1) ≠ 1 := by omega
          rw [if_neg (by omega), if_pos ⟨by omega, c1, Nat.le_refl _⟩]
          change (match terminalConstruct (tcOf c.P c.mls c.worst) (statsOf c.P D) v f with | some t => (t, s) | none => _) = _
          rw [x1]
        refine ⟨x, by rw [e], ?_, t4, fun _ _ => x4⟩
        have e1 := hrep.2.2.1
        have e2 := hrep.2.2.2
        omega
      · -- built from the children
        by_cases h3 : 3 ≤ n0 ∧ min d0 n0 = 2
        · refine ⟨t, t1, ?_, t4, fun q1 q2 => ?_⟩
          · have := Nat.pow_le_pow_right (show 0 < 2 by decide) t2
            rw [h3.2] at this
            omega
          · exact absurd ⟨q1, h3.2, by omega⟩ hc
        have hb : min d0 n0 = 1 ∨ (min d0 n0 = 2 ∧ n0 = 2) := by omega
        have hmn : min n0 (2 ^ min d0 n0 - 1) - 1 ≤ 2 ^ (min d0 n0 - 1) - 1 := by
          rcases hb with h | ⟨h, h'⟩
          · rw [h]; omega
          · rw [h]; omega
        obtain ⟨x, y, x1, x2, x3, x4, x5⟩ := con_split G hds hclk hmay (fuel + 1) v D b d0 n0 s hfuel hD hrep hdep hleg hn hs h2 hmn
          (fun hu => by
            by_cases h1 : v.numNodes = 1
            · exact .inr h1
            · exact .inl (by
                rcases hb with h | ⟨h, _⟩
                · exact h
                · exact absurd ⟨hu, h, h1⟩ hc))
        have nx := hsub x x2
        have ny := hsub y x3
        refine ⟨.node f x y, x1, ?_, t4, fun q1 q2 => ?_⟩
        · simp only [Tree.nodes]
          rcases hb with h | ⟨h, h'⟩
          · rw [h] at nx ny
            omega
          · rw [h] at nx ny
            rcases Nat.eq_zero_or_pos l.nodes with hl | hl
            · have := (x4 hl).1
              rcases Nat.eq_zero_or_pos r.nodes with hr | hr
              · have := (x5 hr).1; omega
              · omega
            · rcases Nat.eq_zero_or_pos r.nodes with hr | hr
              · have := (x5 hr).1; omega
              · omega
        · have h1 : v.numNodes = 1 := by
            rcases hb with h | ⟨h, h'⟩
            · have hl := l.nodes_lt_pow
              have hr := r.nodes_lt_pow
              have e1 : l.depth = 0 ∧ r.depth = 0 := by
                simp only [Tree.depth] at hdep
                have := l.depth_le_nodes
                have := r.depth_le_nodes
                omega
              rw [e1.1] at hl; rw [e1.2] at hr; omega
            · by_cases h1 : v.numNodes = 1
              · exact h1
              · exact absurd ⟨q1, h, h1⟩ hc
          have a := (x4 (by omega)).2
          have b := (x5 (by omega)).2
          rw [← hcost]
          simp only [Tree.cost]; omega

include G hbr hds in
/-- A child that can be looked up. -/
theorem hit_child {s s1 : St} (hs : SOK c T s) {E : Data} {b : Branch} (hE : E = sel b T) (hm : c.mls ≤ E.length) {z : Nat} {x : Int}
    (h : CH c s.cache E z x) (n k : Nat) :
    ∃ w, childSol c E b 3 n z (if c.useBr || c.useDs then childLookup c s E b 3 (List.range' z (k + 1)) else (Node.empty c.worst, none)) s1
      = ((w, min 2 z, z), s1) ∧ Real c.P c.mls (min 2 z) E w ∧ w.numNodes ≤ z ∧ (c.useTerm = true → w.numNodes = z ∧ w.sol ≤ x) := by
  have hV : ViewOf T E := by rw [hE]; exact sel_view b T
  rcases h.2 with ⟨h0, h1⟩ | ⟨h0, h1, h2⟩
  · subst h0
    obtain ⟨k', k1, k2, hne⟩ := leaf_tree G hV hm
    have hr := (solveLeaf_sound G hV (Node.empty c.worst) (Int.le_refl _) 0 0).1.real hne
    exact ⟨_, zero_child G hds hV hm s s1 b 3 n k, hr.1, hr.2, fun u => ⟨by have := hr.2; omega, h1 u⟩⟩
  · have ea : s.cache.retrieveOpt c.cc E b (min 2 z) z = s.cache.ans c.worst E (min 2 z) z :=
      retrieveOpt_ans (cc := c.cc) hbr hds s.cache E b _ _
    have hl : childLookup c s E b 3 (List.range' z (k + 1)) = (s.cache.ans c.worst E (min 2 z) z, some z) := by
      rw [List.range'_succ]
      unfold childLookup
      dsimp only
      rw [if_neg (show ¬ z = 0 by omega), show min (3 - 1) z = min 2 z from rfl, ea, h1]
      rfl
    have hr := (hs.hit (c := c) hE (min 2 z) z).real (by rw [ea]; exact h1)
    rw [ea] at hr
    refine ⟨_, ?_, hr.1, hr.2, h2⟩
    rw [if_pos (by rw [hds]; simp), hl]
    rfl

include G hbr hds hmls hclk in
/-- A solution of depth three whose two children can be looked up. -/
theorem con_root (hmay : c.useTerm = true → ∀ f, f < c.P.nF → c.P.may f = true) (fuel : Nat) (v : Node) (D : Data)
    (b : Branch) (s : St) (hfuel : 3 < fuel) (hD : D = sel b T) (hv : Real c.P c.mls 3 D v)
    (h3 : 3 ≤ v.numNodes) (hs : SOK c T s) (hq : Q c s.cache D v) :
    ∃ t, (construct c fuel v D b 3 v.numNodes s).1 = some t ∧ t.nodes ≤ v.numNodes ∧ (c.useTerm = true → t.cost c.P D ≤ v.sol) := by
  cases fuel with
  | zero => omega
  | succ fuel =>
    obtain ⟨t0, hrep, hdep, hleg, hcost⟩ := hv
    obtain ⟨f, xl, xr, q1, q2, q3, q4⟩ := hq
    cases t0 with
    | leaf k => rw [hrep.1] at q1; simp at q1
    | node f' l r =>
      have hff : f' = f := by have := hrep.1; rw [q1] at this; simpa using this.symm
      subst hff
      have hnum : l.nodes + r.nodes + 1 = v.numNodes := by rw [← hrep.nodes]; simp [Tree.nodes]; omega
      have hnl : v.nl = l.nodes := hrep.2.2.1.symm
      have hnr : v.nr = r.nodes := hrep.2.2.2.symm
      obtain ⟨hf, hm, hl0, hl1⟩ := hleg
      have hnlr : v.nl + v.nr + 1 = v.numNodes := by omega
      have b1 := q2.1
      have b2 := q3.1
      unfold construct
      dsimp only
      rw [q1]
      dsimp only
      rw [show min 3 v.numNodes = 3 by omega]
      rw [show min v.numNodes (2 ^ 3 - 1) = v.numNodes by omega]
      rw [if_neg (by omega), if_neg (by omega)]
      dsimp only
      rw [show min (2 ^ (3 - 1) - 1) (v.numNodes - 1) = min 3 (v.numNodes - 1) by rfl]
      rw [show max v.nl (v.numNodes - 1 - min 3 (v.numNodes - 1)) = v.nl by omega,
        show max v.nr (v.numNodes - 1 - min 3 (v.numNodes - 1)) = v.nr by omega,
        show min 3 (v.numNodes - 1) + 1 - v.nl = (min 3 (v.numNodes - 1) - v.nl) + 1 by omega,
        show min 3 (v.numNodes - 1) + 1 - v.nr = (min 3 (v.numNodes - 1) - v.nr) + 1 by omega]
      have e0 : without f' D = sel (b.child f' false) T := by rw [sel_child, ← hD, side_false]
      have e1 : having f' D = sel (b.child f' true) T := by rw [sel_child, ← hD, side_true]
      obtain ⟨wl, l1, l2, l3, l4⟩ := hit_child G hbr hds (s1 := s) hs e0 hl0.length q2 v.numNodes (min 3 (v.numNodes - 1) - v.nl)
      rw [l1]
      dsimp only
      obtain ⟨wr, r1, r2, r3, r4⟩ := hit_child G hbr hds (s1 := s) hs e1 hl1.length q3 v.numNodes (min 3 (v.numNodes - 1) - v.nr)
      rw [r1]
      dsimp only
      obtain ⟨tl, u1, u2, u3, u4⟩ := con_small G hds hmls hclk hmay fuel wl (without f' D) (b.child f' false) (min 2 v.nl) v.nl s
        (by omega) e0 l2 l3 hs (by omega)
      generalize construct c fuel wl (without f' D) (b.child f' false) (min 2 v.nl) v.nl s = tlr at u1 u3 ⊢
      obtain ⟨tr, w1, w2, w3, w4⟩ := con_small G hds hmls hclk hmay fuel wr (having f' D) (b.child f' true) (min 2 v.nr) v.nr tlr.2
        (by omega) e1 r2 r3 u3 (by omega)
      refine ⟨.node f' tl tr, by rw [u1, w1]; rfl, by simp only [Tree.nodes]; omega, fun u => ?_⟩
      have a := u4 u (l4 u).1
      have a' := (l4 u).2
      have b := w4 u (r4 u).1
      have b' := (r4 u).2
      rw [q4]
      simp only [Tree.cost]; omega

end

/-! ### The returned tree -/

theorem leafLoop_anyClock (c : Cfg) (k : Nat → Bool) (D : Data) (ks : List Nat) (r UB : Node) :
    leafLoop { c with clock := k } D ks r UB = leafLoop c D ks r UB := by
  induction ks generalizing r UB with
  | nil => rfl
  | cons a ks ih =>
    unfold leafLoop
    dsimp only
    rw [ih, ih]
    rfl

theorem solveLeaf_anyClock (c : Cfg) (k : Nat → Bool) (D : Data) (UB : Node) :
    solveLeaf { c with clock := k } D UB = solveLeaf c D UB := by
  unfold solveLeaf
  rw [leafLoop_anyClock]

theorem CH.clock {c : Cfg} {C : Cache} {E : Data} {z : Nat} {x : Int} (h : CH c C E z x) (k : Nat → Bool) :
    CH { c with clock := k } C E z x := by
  unfold CH
  rw [solveLeaf_anyClock]
  exact h

theorem Q.clock {c : Cfg} {C : Cache} {D : Data} {v : Node} (h : Q c C D v) (k : Nat → Bool) : Q { c with clock := k } C D v := by
  obtain ⟨f, xl, xr, h1, h2, h3, h4⟩ := h
  exact ⟨f, xl, xr, h1, h2.clock k, h3.clock k, h4⟩

section
variable {c : Cfg} {T : Data} (G : Base c T) (hbr : c.useBr = false) (hds : c.useDs = true) (hmls : 1 ≤ c.mls)
include G hbr hds hmls

/-- **The returned tree, up to depth three.** It has at most as many nodes as the solution found, and with the depth-two solver it
costs at most the value found. -/
theorem returned_h (t : Top) (h3 : t.maxDepth ≤ 3) {e : Nat} {r : Run} (hr : RunS c t T e r) (hh : RunH c T r)
    (hmay : c.useTerm = true → ∀ f, f < c.P.nF → c.P.may f = true) {tr : Tree} (h : returned c T r = some (some tr)) :
    tr.nodes ≤ r.result.numNodes ∧ r.result.numNodes ≤ t.maxNodes ∧ (c.useTerm = true → tr.cost c.P T ≤ r.result.sol) := by
  unfold returned at h
  by_cases hw : r.result.sol = c.worst
  · rw [if_pos hw] at h; simp at h
  rw [if_neg hw] at h
  dsimp only at h
  have hv : ViewOf T T := List.Sublist.refl T
  have hne : r.result.isEmpty = false := (G.ne_iff hv hr.sound).2 (by have := G.sound_le hv hr.sound; omega)
  have h1 := hr.sound.real hne
  have hlog : min r.maxDepthSearched r.result.numNodes ≤
      min r.maxDepthSearched r.result.numNodes + 1 - Nat.log2 (r.result.numNodes + 1) + Nat.log2 (r.result.numNodes + 1) := by omega
  have h2 := rootDepth_spec hr.st (h1.1.mono hr.le) _ _ hlog
  have hroot := hh.root hne
  have htwo : r.st.cache.ans c.worst T 2 3 = r.result → 3 ≤ r.result.numNodes →
      min (rootDepth c T r.result r.st (min r.maxDepthSearched r.result.numNodes + 1 - Nat.log2 (r.result.numNodes + 1))
    (Nat.log2 (r.result.numNodes + 1))) r.maxDepthSearched ≤ 2 := by
    intro ha h3'
    have ea : r.st.cache.retrieveOpt c.cc T [] 2 3 = r.st.cache.ans c.worst T 2 3 := retrieveOpt_ans (cc := c.cc) hbr hds r.st.cache T [] 2 3
    have hle := ((hr.st.hit (c := c) (sel_nil T).symm 2 3).real (by rw [ea, ha]; exact hne)).2
    rw [ea, ha] at hle
    have hk : r.result.numNodes = 3 := by omega
    have hl : Nat.log2 (3 + 1) = 2 := by decide
    rw [hk, hl]
    rcases Nat.lt_or_ge r.maxDepthSearched 2 with hm | hm
    · omega
    · obtain ⟨j, hj⟩ : ∃ j, min r.maxDepthSearched 3 + 1 - 2 = j + 1 := ⟨min r.maxDepthSearched 3 - 2, by omega⟩
      rw [hj]
      unfold rootDepth
      have ei : r.st.cache.isOptCached c.cc T [] 2 3 = !(r.st.cache.ans c.worst T 2 3).isEmpty :=
        isOptCached_ans (cc := c.cc) hbr hds hh.hi.one T [] 2 3
      rw [hk, if_pos ⟨by rw [ei, ha, hne]; rfl, by rw [ea, ha]⟩]
      omega
  generalize hd : min (rootDepth c T r.result r.st (min r.maxDepthSearched r.result.numNodes + 1 - Nat.log2 (r.result.numNodes + 1))
    (Nat.log2 (r.result.numNodes + 1))) r.maxDepthSearched = d at h2 h htwo
  have hdm : d ≤ 3 := by have := hr.mds; omega
  have hsmall : min d r.result.numNodes ≤ 2 →
      tr.nodes ≤ r.result.numNodes ∧ r.result.numNodes ≤ t.maxNodes ∧ (c.useTerm = true → tr.cost c.P T ≤ r.result.sol) := by
    intro hs2
    obtain ⟨t', u1, u2, _, u4⟩ := con_small (c := { c with clock := fun _ => true }) (G.clock _) hds hmls (fun _ => rfl) hmay (d + 1)
      r.result T [] d r.result.numNodes r.st (Nat.lt_succ_self _) (sel_nil T).symm h2 (Nat.le_refl _) (hr.st.clock _) hs2
    rw [u1] at h
    simp only [Option.some.injEq] at h
    rw [← h]
    exact ⟨u2, h1.2, fun u => u4 u rfl⟩
  rcases Nat.lt_or_ge r.result.numNodes 3 with hk | hk
  · exact hsmall (by omega)
  rcases hroot with hx | hx | hx
  · omega
  · exact hsmall (by have := htwo hx hk; omega)
  · rcases Nat.lt_or_ge d 3 with hd3 | hd3
    · exact hsmall (by omega)
    · obtain rfl : d = 3 := by omega
      obtain ⟨t', u1, u2, u4⟩ := con_root (c := { c with clock := fun _ => true }) (G.clock _) hbr hds hmls (fun _ => rfl) hmay (3 + 1)
        r.result T [] r.st (by omega) (sel_nil T).symm h2 hk (hr.st.clock _) (hx.clock _)
      rw [u1] at h
      simp only [Option.some.injEq] at h
      rw [← h]
      exact ⟨u2, h1.2, u4⟩

end

end Streed
