import Verif.Model.TolTree
import Verif.Lemmas.TolSound
import Verif.Lemmas.LeafBestTree

/-! The tree returned by the search with tolerant comparisons: legal and within the depth limit. -/

namespace Streed.Tol

/-- The largest value that `v` does not strictly dominate. -/
def capOf (v : Int) : Int := 10001 * v / 10000

theorem sdom_cap (a b : Int) : sdom a b ↔ capOf a < b := by unfold sdom capOf; omega

theorem reLeaf_eq (c : TCfg) (cap : Int) (val : Nat → Int) : reLeaf c cap val = Streed.reLeaf c (capOf cap) val := by
  unfold reLeaf Streed.reLeaf
  simp only [sdom_cap]

theorem reChild_eq (c : TCfg) (cap : Int) (g : Nat) (v0 v1 : Nat → Int) (cur : TNode) :
    reChild c cap g v0 v1 cur = Streed.reChild c (capOf cap) g v0 v1 cur := by
  unfold reChild Streed.reChild
  simp only [sdom_cap]

theorem reLoop_eq (c : TCfg) (S : Stats) (v : Node) (f : Nat) (st : TNode × TNode) :
    reLoop c S v f st = Streed.reLoop c S { v with sol := capOf v.sol } f st := by
  unfold reLoop Streed.reLoop
  simp only [reChild_eq]

/-- The depth-two construction with tolerance is the exact one for a solution that claims a little more. -/
theorem terminalConstruct_eq (c : TCfg) (S : Stats) (v : Node) (f : Nat) :
    terminalConstruct c S v f = Streed.terminalConstruct c S { v with sol := capOf v.sol } f := by
  unfold terminalConstruct Streed.terminalConstruct
  simp only [reLoop_eq, reLeaf_eq]

section
variable {c : Cfg} {T : Data} (G : Base c T) (hclk : ∀ i, c.clock i = true)

/-- What is needed of a child solution that is built next. -/
structure ChildOK (c : Cfg) (T : Data) (D : Data) (d : Nat) (x : (Node × Nat × Nat) × St) : Prop where
  real : Real c.P c.mls x.1.2.1 D x.1.1
  num : x.1.1.numNodes ≤ x.1.2.2
  depth : x.1.2.1 ≤ d
  st : SOK c T x.2

include G in
theorem childLookup_spec {s : St} (hs : SOK c T s) {D : Data} {b : Branch} (hD : D = sel b T)
    (d : Nat) (t : Tree) (zs : List Nat)
    (hz : ∀ z ∈ zs, t.nodes ≤ z) (z : Nat) (h : (childLookup c s D b d zs).2 = some z) :
    Real c.P c.mls (min (d - 1) z) D (childLookup c s D b d zs).1 ∧ (childLookup c s D b d zs).1.numNodes ≤ z := by
  have hv : ViewOf T D := by rw [hD]; exact sel_view b T
  induction zs with
  | nil => simp [childLookup] at h
  | cons y zs ih =>
    have hy := hz y (List.mem_cons_self ..)
    unfold childLookup at h ⊢
    dsimp only at h ⊢
    by_cases h0 : y = 0
    · subst h0
      simp only [if_true] at h ⊢
      split at h <;> rename_i hemp
      · simp only [hemp, if_true] at h ⊢
        exact ih (fun z hz' => hz z (List.mem_cons_of_mem _ hz')) h
      · simp only [if_neg hemp] at h ⊢
        simp only [Option.some.injEq] at h
        subst h
        have hne : (solveLeaf c D (Node.empty c.worst)).1.isEmpty = false := by simpa using hemp
        have h1 := (solveLeaf_sound G hv (Node.empty c.worst) (Int.le_refl _) (min (d - 1) 0) 0).1.real hne
        exact h1
    · simp only [if_neg h0] at h ⊢
      split at h <;> rename_i hemp
      · simp only [hemp, if_true] at h ⊢
        exact ih (fun z hz' => hz z (List.mem_cons_of_mem _ hz')) h
      · simp only [if_neg hemp] at h ⊢
        simp only [Option.some.injEq] at h
        subst h
        have hne : (s.cache.retrieveOpt c.cc D b (min (d - 1) y) y).isEmpty = false := by simpa using hemp
        have h1 := (hs.hit hD (min (d - 1) y) y).real hne
        exact h1

include G hclk in
theorem childSol_spec {s s1 : St} (hs : SOK c T s) (hs1 : SOK c T s1)
    {D : Data} {b : Branch} (hD : D = sel b T) (d n mn cnt : Nat) (t : Tree) (htl : t.Legal c.P c.mls D)
    (htd : t.depth ≤ d - 1) (look : Node × Option Nat)
    (hlook : look = if c.useBr || c.useDs then childLookup c s D b d (List.range' (max t.nodes mn) cnt) else (Node.empty c.worst, none)) :
    ChildOK c T D (d - 1) (childSol c D b d n t.nodes look s1) := by
  have hm : c.mls ≤ D.length := htl.length
  unfold childSol
  cases h : look.2 with
  | some z =>
    dsimp only
    rw [hlook] at h
    split at h
    · rename_i hu
      rw [if_pos hu] at hlook
      have := childLookup_spec G hs hD d t (List.range' (max t.nodes mn) cnt)
        (fun z hz => by have := List.mem_range'_1.1 hz; omega) z h
      rw [← hlook] at this
      exact ⟨this.1, this.2, Nat.min_le_left _ _, hs1⟩
    · simp at h
  | none =>
    dsimp only
    have hz : t.nodes + 1 ≤ 2 ^ (min (d - 1) t.nodes) := by
      refine Nat.le_trans t.nodes_lt_pow (Nat.pow_le_pow_right (by decide) ?_)
      have := t.depth_le_nodes
      omega
    have hp := solveSub_sound G (min (d - 1) t.nodes) D b (Node.empty c.worst) (min (d - 1) t.nodes) t.nodes s1
      (Nat.le_refl _) hD hz (Int.le_refl _) hs1
    generalize solveSub c (min (d - 1) t.nodes) D b (Node.empty c.worst) (min (d - 1) t.nodes) t.nodes s1 = r at hp
    have hv : ViewOf T D := by rw [hD]; exact sel_view b T
    have hne : r.1.isEmpty = false := (G.ne_iff hv hp.sound).2 (hp.ne hclk hm (Int.le_refl _))
    rw [if_neg (by rw [hne]; simp)]
    have h1 := hp.sound.real hne
    refine ⟨h1.1, ?_, Nat.min_le_left _ _, hp.st⟩
    dsimp only
    split <;> omega

include G hclk in
/-- The construction of a tree from a solution. -/
theorem construct_spec (hmay : c.useTerm = true → ∀ f, f < c.P.nF → c.P.may f = true) (fuel : Nat) (v : Node) (D : Data)
    (b : Branch) (d0 n0 : Nat) (s : St) (hfuel : d0 < fuel) (hD : D = sel b T) (hv : Real c.P c.mls d0 D v)
    (hn : v.numNodes ≤ n0) (hs : SOK c T s) :
    ∃ t, (construct c fuel v D b d0 n0 s).1 = some t ∧ t.depth ≤ d0 ∧ t.Legal c.P c.mls D ∧
      SOK c T (construct c fuel v D b d0 n0 s).2 := by
  induction fuel generalizing v D b d0 n0 s with
  | zero => omega
  | succ fuel ih =>
    have hv0 := hv
    obtain ⟨t0, hrep, hdep, hleg, hcost⟩ := hv
    unfold construct
    dsimp only
    cases t0 with
    | leaf k =>
      rw [hrep.1]
      dsimp only
      refine ⟨.leaf k, by unfold labelTree; rw [hrep.2]; rfl, Nat.zero_le _, hleg, hs⟩
    | node f l r =>
      have hnum : l.nodes + r.nodes + 1 = v.numNodes := by rw [← hrep.nodes]; simp [Tree.nodes]; omega
      have hd0 : l.depth + 1 ≤ d0 ∧ r.depth + 1 ≤ d0 := by simp only [Tree.depth] at hdep; omega
      have hdl : l.depth ≤ min d0 n0 - 1 ∧ r.depth ≤ min d0 n0 - 1 := by
        have := l.depth_le_nodes
        have := r.depth_le_nodes
        omega
      have hfeat : v.feature = some f := hrep.1
      have hnl : v.nl = l.nodes := hrep.2.2.1.symm
      have hnr : v.nr = r.nodes := hrep.2.2.2.symm
      obtain ⟨hf, hm, hl0, hl1⟩ := hleg
      rw [hfeat]
      dsimp only
      generalize hd : min d0 n0 = d at hdl ⊢
      have hd1 : 1 ≤ d := by omega
      have hp : 1 < 2 ^ d := Nat.one_lt_two_pow (by omega)
      rw [if_neg (by omega)]
      -- the depth-two shortcut
      generalize hsp : (if ¬(d = 1 ∨ min n0 (2 ^ d - 1) = 1 ∨ v.numNodes = 1) ∧ c.useTerm = true ∧ d ≤ 2 then
        terminalConstruct c.tc (statsOf c.P D) v f else none) = sp
      have hspec : sp = none ∨ ∃ x, sp = some (some x) ∧ x.depth ≤ d0 ∧ x.Legal c.P c.mls D ∧ c.useTerm = true := by
        rw [← hsp]
        split
        · rename_i hc
          have h2 : (Tree.node f l r).depth ≤ 2 := by simp only [Tree.depth]; omega
          rw [terminalConstruct_eq]
          have := (terminalConstruct_spec c.P c.mls c.worst (hmay hc.2.1) D { v with sol := capOf v.sol } f l r hrep h2 ⟨hf, hm, hl0, hl1⟩).1
          rcases this with h | ⟨x, x1, x2, x3⟩
          · exact .inl h
          · exact .inr ⟨x, x1, by omega, x3, hc.2.1⟩
        · exact .inl rfl
      rcases hspec with h | ⟨x, x1, x2, x3, x4⟩
      · subst h
        dsimp only
        have e0 : without f D = sel (b.child f false) T := by rw [sel_child, ← hD, side_false]
        have e1 : having f D = sel (b.child f true) T := by rw [sel_child, ← hD, side_true]
        rw [hnl, hnr]
        generalize hmx : min (2 ^ (d - 1) - 1) (min n0 (2 ^ d - 1) - 1) = mx
        generalize hmn : min n0 (2 ^ d - 1) - 1 - mx = mn
        generalize min n0 (2 ^ d - 1) = n at *
        have cl := childSol_spec G hclk hs hs e0 d n mn (mx + 1 - max l.nodes mn) l hl0 hdl.1 _ rfl
        generalize childSol c (without f D) (b.child f false) d n l.nodes _ s = x at cl ⊢
        have cr := childSol_spec G hclk hs cl.st e1 d n mn (mx + 1 - max r.nodes mn) r hl1 hdl.2 _ rfl
        generalize childSol c (having f D) (b.child f true) d n r.nodes _ x.2 = y at cr ⊢
        obtain ⟨tl, u1, u2, u3, u4⟩ := ih x.1.1 (without f D) (b.child f false) x.1.2.1 x.1.2.2 y.2
          (by have := cl.depth; omega) e0 cl.real cl.num cr.st
        generalize construct c fuel x.1.1 (without f D) (b.child f false) x.1.2.1 x.1.2.2 y.2 = tlr at u1 u4 ⊢
        obtain ⟨tr, w1, w2, w3, w4⟩ := ih y.1.1 (having f D) (b.child f true) y.1.2.1 y.1.2.2 tlr.2
          (by have := cr.depth; omega) e1 cr.real cr.num u4
        generalize construct c fuel y.1.1 (having f D) (b.child f true) y.1.2.1 y.1.2.2 tlr.2 = trr at w1 w4 ⊢
        refine ⟨.node f tl tr, by rw [u1, w1]; rfl, ?_, ⟨hf, hm, u3, w3⟩, w4⟩
        have := cl.depth
        have := cr.depth
        simp only [Tree.depth]; omega
      · subst x1
        dsimp only
        exact ⟨x, rfl, x2, x3, hs⟩

end

/-! ### The whole run -/

section
variable {c : Cfg} {T : Data} (G : Base c T)
include G

theorem run_sound (t : Top) {e : Nat} {r : Run} (hr : RunS c t T e r) {d n : Nat} (he : e ≤ d) (hd : d ≤ t.maxDepth)
    (hn : n ≤ t.maxNodes) (hp : n + 1 ≤ 2 ^ d) (b : Bool) (mdf : Int) :
    let x := solveSub c t.maxDepth T [] r.gUB d n r.st
    let result := Node.addMin r.result x.1
    RunS c t T d ⟨result, tighten c b result (Node.addMin r.gUB x.1), d, { x.2 with mdf := mdf }⟩ := by
  have hpost := solveSub_sound G t.maxDepth T [] r.gUB d n r.st hd (sel_nil T).symm hp hr.ub hr.st
  generalize solveSub c t.maxDepth T [] r.gUB d n r.st = x at hpost
  dsimp only
  have h1 : Sound c.P c.mls c.worst d t.maxNodes T x.1 := hpost.sound.mono (Nat.le_refl _) hn
  have h2 : Sound c.P c.mls c.worst d t.maxNodes T r.result := hr.sound.mono he (Nat.le_refl _)
  have h3 : Sound c.P c.mls c.worst d t.maxNodes T (Node.addMin r.result x.1) := h2.addMin h1
  have hv : ViewOf T T := List.Sublist.refl T
  have h4 := G.sound_le hv h3
  have h5 := G.sound_le hv h1
  refine ⟨h3, Nat.le_refl _, hd, ?_, ⟨hpost.st.cache, hpost.st.arch⟩, fun h7 h8 => ?_⟩
  rotate_left
  · have := hr.ne h7 h8
    dsimp only
    unfold Node.addMin; split <;> omega
  have h6 : (Node.addMin r.gUB x.1).sol ≤ c.worst := by
    unfold Node.addMin; split <;> [exact h5; exact hr.ub]
  have := G.md
  dsimp only
  unfold tighten
  split
  · exact h6
  · dsimp only
    split <;> omega

theorem depthRuns_sound (t : Top) (a m : Nat) (hmd : a + m ≤ t.maxDepth + 1) {e : Nat} {r : Run} (hr : RunS c t T e r)
    (he : e ≤ a) : ∃ e', RunS c t T e' (depthRuns c t T (List.range' a m) r) := by
  induction m generalizing a e r with
  | zero => exact ⟨e, hr⟩
  | succ m ih =>
    simp only [List.range'_succ, depthRuns]
    have hpos : 1 ≤ 2 ^ a := Nat.one_le_two_pow
    have h1 : RunS c t T a (depthRun c t T r a) :=
      run_sound G t hr (d := a) (n := min t.maxNodes (2 ^ a - 1)) he (by omega) (by omega) (by omega) false a
    split
    · exact ⟨a, h1.next⟩
    · exact ih (a + 1) (by omega) h1.next (Nat.le_succ _)

theorem sizeRuns_sound (t : Top) (a m : Nat) (hmn : a + m ≤ t.maxNodes + 1) (hfit : t.maxNodes + 1 ≤ 2 ^ t.maxDepth)
    {e : Nat} {r : Run} (hr : RunS c t T e r)
    (he : e ≤ min t.maxDepth a) : ∃ e', RunS c t T e' (sizeRuns c t T (List.range' a m) r) := by
  induction m generalizing a e r with
  | zero => exact ⟨e, hr⟩
  | succ m ih =>
    simp only [List.range'_succ, sizeRuns]
    split
    · exact ⟨e, hr.next⟩
    · have hp : a + 1 ≤ 2 ^ (min t.maxDepth a) := by
        rcases Nat.le_total t.maxDepth a with h | h
        · rw [Nat.min_eq_left h]; omega
        · rw [Nat.min_eq_right h]; exact Nat.lt_two_pow_self
      have h1 : RunS c t T (min t.maxDepth a) (sizeRun c t T { r with st := r.st.next } a) :=
        run_sound G t hr.next (d := min t.maxDepth a) (n := a) he (by omega) (by omega) hp true (Nat.log2 (a + 1))
      split
      · exact ⟨_, h1.next⟩
      · exact ih (a + 1) (by omega) h1.next (by omega)

/-- Whatever the options and the clock, the solution found by `Solve` describes a legal tree. -/
theorem solve_sound (t : Top) (hfit : t.maxNodes + 1 ≤ 2 ^ t.maxDepth) : ∃ e, RunS c t T e (solve c t T).1 := by
  have hstart : (if (Node.empty c.worst).isEmpty = true then solveLeaf c T (Node.addMin (Node.empty c.worst) (Node.value t.ub))
      else (Node.empty c.worst, Node.empty c.worst)) = solveLeaf c T (startUB c t) := by
    rw [if_pos (by rfl)]; rfl
  unfold solve solveFrom
  dsimp only
  rw [hstart]
  have hub : (startUB c t).sol ≤ c.worst := by rw [(startUB_sol t).1]; omega
  have hleaf := solveLeaf_sound G (List.Sublist.refl T) (startUB c t) hub 0 t.maxNodes
  have h0 : RunS c t T 0 ⟨(solveLeaf c T (startUB c t)).1, (solveLeaf c T (startUB c t)).2, t.maxDepth, { St.init with mdf := 0 }⟩ :=
    ⟨hleaf.1, Nat.zero_le _, Nat.le_refl _, hleaf.2.1, ⟨(SOK.init (c := c) (T := T)).cache, (SOK.init (c := c) (T := T)).arch⟩,
      fun h7 h8 => hleaf.2.2 h8 (by rw [(startUB_sol t).1]; omega)⟩
  split
  · obtain ⟨e, h⟩ := sizeRuns_sound G t 1 t.maxNodes (by omega) hfit h0 (Nat.zero_le _)
    exact ⟨e, h.next⟩
  · obtain ⟨e, h⟩ := depthRuns_sound G t (min 2 (min t.maxDepth t.maxNodes))
      (min t.maxDepth t.maxNodes + 1 - min 2 (min t.maxDepth t.maxNodes)) (by omega) h0 (Nat.zero_le _)
    exact ⟨e, h.next⟩

/-- **The returned tree.** A run with a result returns a tree; it is legal and not too deep. -/
theorem returned_spec (t : Top) {e : Nat} {r : Run} (hr : RunS c t T e r)
    (hmay : c.useTerm = true → ∀ f, f < c.P.nF → c.P.may f = true) :
    (returned c T r = none ∧ r.result.sol = c.worst) ∨
    ∃ tr, returned c T r = some (some tr) ∧ tr.depth ≤ t.maxDepth ∧ tr.Legal c.P c.mls T := by
  unfold returned
  by_cases hw : r.result.sol = c.worst
  · exact .inl ⟨by rw [if_pos hw], hw⟩
  right
  rw [if_neg hw]
  dsimp only
  have hv : ViewOf T T := List.Sublist.refl T
  have hne : r.result.isEmpty = false := (G.ne_iff hv hr.sound).2 (by have := G.sound_le hv hr.sound; omega)
  have h1 := hr.sound.real hne
  have hlog : min r.maxDepthSearched r.result.numNodes ≤
      min r.maxDepthSearched r.result.numNodes + 1 - Nat.log2 (r.result.numNodes + 1) + Nat.log2 (r.result.numNodes + 1) := by omega
  have h2 := rootDepth_spec hr.st (h1.1.mono hr.le) _ _ hlog
  generalize hd : min (rootDepth c T r.result r.st (min r.maxDepthSearched r.result.numNodes + 1 - Nat.log2 (r.result.numNodes + 1))
    (Nat.log2 (r.result.numNodes + 1))) r.maxDepthSearched = d at h2 ⊢
  have hdm : d ≤ t.maxDepth := by have := hr.mds; omega
  obtain ⟨tr, q1, q2, q3, _⟩ := construct_spec (c := { c with clock := fun _ => true }) (G.clock _)
    (fun _ => rfl) hmay (d + 1) r.result T [] d r.result.numNodes r.st (Nat.lt_succ_self _) (sel_nil T).symm h2 (Nat.le_refl _)
    (hr.st.clock _)
  exact ⟨tr, by rw [q1], by omega, q3⟩

end
end Streed.Tol
