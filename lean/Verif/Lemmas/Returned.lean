import Verif.Lemmas.Rebuild

/-! The returned tree: legal, within the depth limit, and (without the depth-two solver) as good as claimed. -/

namespace Streed

section
variable {c : Cfg} {T : Data} (G : Base c T) (O : Prop) (hO : O → Good c T ∧ c.useTerm = false)
  (hclk : ∀ i, c.clock i = true)

/-- What is needed of a child solution that is built next. -/
structure ChildOK (c : Cfg) (T : Data) (O : Prop) (D : Data) (d : Nat) (cost : Int) (x : (Node × Nat × Nat) × St) : Prop where
  real : Real c.P c.mls x.1.2.1 D x.1.1
  num : x.1.1.numNodes ≤ x.1.2.2
  depth : x.1.2.1 ≤ d
  st : SOK c T x.2
  opt : O → StOK c T x.2 ∧ x.1.1.sol ≤ cost

include G hO hclk in
theorem childLookup_spec {s : St} (hs : SOK c T s) (hs' : O → StOK c T s) {D : Data} {b : Branch} (hD : D = sel b T)
    (d : Nat) (t : Tree) (hm : c.mls ≤ D.length) (htl : t.Legal c.P c.mls D) (htd : t.depth ≤ d - 1) (zs : List Nat)
    (hz : ∀ z ∈ zs, t.nodes ≤ z) (z : Nat) (h : (childLookup c s D b d zs).2 = some z) :
    Real c.P c.mls (min (d - 1) z) D (childLookup c s D b d zs).1 ∧ (childLookup c s D b d zs).1.numNodes ≤ z ∧
    (O → (childLookup c s D b d zs).1.sol ≤ t.cost c.P D) := by
  have hv : ViewOf T D := by rw [hD]; exact sel_view b T
  induction zs with
  | nil => simp [childLookup] at h
  | cons y zs ih =>
    have hy := hz y (List.mem_cons_self ..)
    unfold childLookup at h ⊢
    dsimp only at h ⊢
    by_cases h0 : y = 0
    · subst h0
      simp only [if_true] at h ⊢
      split at h <;> rename_i hemp
      · simp only [hemp, if_true] at h ⊢
        exact ih (fun z hz' => hz z (List.mem_cons_of_mem _ hz')) h
      · simp only [if_neg hemp] at h ⊢
        simp only [Option.some.injEq] at h
        subst h
        have hne : (solveLeaf c D (Node.empty c.worst)).1.isEmpty = false := by simpa using hemp
        have h1 := (solveLeaf_sound G hv (Node.empty c.worst) (Int.le_refl _) (min (d - 1) 0) 0).1.real hne
        refine ⟨h1.1, h1.2, fun o => ?_⟩
        obtain ⟨k, rfl⟩ := leaf_of_depth_zero (t := t) (.inr (by omega))
        exact ((solveLeaf_spec (hO o).1 hv hm (Node.empty c.worst)).2 hne).2.2 k htl.1
    · simp only [if_neg h0] at h ⊢
      split at h <;> rename_i hemp
      · simp only [hemp, if_true] at h ⊢
        exact ih (fun z hz' => hz z (List.mem_cons_of_mem _ hz')) h
      · simp only [if_neg hemp] at h ⊢
        simp only [Option.some.injEq] at h
        subst h
        have hne : (s.cache.retrieveOpt c.cc D b (min (d - 1) y) y).isEmpty = false := by simpa using hemp
        have h1 := (hs.hit hD (min (d - 1) y) y).real hne
        refine ⟨h1.1, h1.2, fun o => ?_⟩
        have h2 := (retrieveOpt_spec (hs' o).cache hD hne).2 (fun i _ => hclk i)
        refine h2.lower (.inl (hO o).2) t ⟨?_, hy, htl⟩
        have := t.depth_le_nodes
        omega

include G hO hclk in
theorem childSol_spec {s s1 : St} (hs : SOK c T s) (hs' : O → StOK c T s) (hs1 : SOK c T s1) (hs1' : O → StOK c T s1)
    {D : Data} {b : Branch} (hD : D = sel b T) (d n mn cnt : Nat) (t : Tree) (htl : t.Legal c.P c.mls D)
    (htd : t.depth ≤ d - 1) (look : Node × Option Nat)
    (hlook : look = if c.useBr || c.useDs then childLookup c s D b d (List.range' (max t.nodes mn) cnt) else (Node.empty c.worst, none)) :
    ChildOK c T O D (d - 1) (t.cost c.P D) (childSol c D b d n t.nodes look s1) := by
  have hm : c.mls ≤ D.length := htl.length
  unfold childSol
  cases h : look.2 with
  | some z =>
    dsimp only
    rw [hlook] at h
    split at h
    · rename_i hu
      rw [if_pos hu] at hlook
      have := childLookup_spec G O hO hclk hs hs' hD d t hm htl htd (List.range' (max t.nodes mn) cnt)
        (fun z hz => by have := List.mem_range'_1.1 hz; omega) z h
      rw [← hlook] at this
      exact ⟨this.1, this.2.1, Nat.min_le_left _ _, hs1, fun o => ⟨hs1' o, this.2.2 o⟩⟩
    · simp at h
  | none =>
    dsimp only
    have hz : t.nodes + 1 ≤ 2 ^ (min (d - 1) t.nodes) := by
      refine Nat.le_trans t.nodes_lt_pow (Nat.pow_le_pow_right (by decide) ?_)
      have := t.depth_le_nodes
      omega
    have hp := solveSub_sound G (min (d - 1) t.nodes) D b (Node.empty c.worst) (min (d - 1) t.nodes) t.nodes s1
      (Nat.le_refl _) hD hz (Int.le_refl _) hs1
    have hpo : O → Post c T D (Node.empty c.worst) (min (d - 1) t.nodes) t.nodes s1
        (solveSub c (min (d - 1) t.nodes) D b (Node.empty c.worst) (min (d - 1) t.nodes) t.nodes s1) := fun o =>
      solveSub_spec (hO o).1 (min (d - 1) t.nodes) D b (Node.empty c.worst) (min (d - 1) t.nodes) t.nodes s1
        (Nat.le_refl _) hD hm (.inl (hO o).2) hz (hs1' o)
    generalize solveSub c (min (d - 1) t.nodes) D b (Node.empty c.worst) (min (d - 1) t.nodes) t.nodes s1 = r at hp hpo
    have hv : ViewOf T D := by rw [hD]; exact sel_view b T
    have hne : r.1.isEmpty = false := (G.ne_iff hv hp.sound).2 (hp.ne hclk hm (Int.le_refl _))
    rw [if_neg (by rw [hne]; simp)]
    have h1 := hp.sound.real hne
    refine ⟨h1.1, ?_, Nat.min_le_left _ _, hp.st, fun o => ⟨(hpo o).st fun _ h => ?_, ?_⟩⟩
    · dsimp only
      split <;> omega
    · rw [(hO o).2] at h; simp at h
    · have h2 := (hpo o).low (fun i _ => hclk i) hne t ⟨by have := t.depth_le_nodes; omega, Nat.le_refl _, htl⟩
      have h3 := (hO o).1.small D hv t htl
      rcases h2 with h2 | ⟨_, h2⟩
      · exact h2
      · simp only [Node.empty] at h2; omega

include G hO hclk in
/-- The construction of a tree from a solution. With an exact search (`O`) the tree is at least as good as the solution. -/
theorem construct_spec (hmay : c.useTerm = true → ∀ f, f < c.P.nF → c.P.may f = true) (fuel : Nat) (v : Node) (D : Data)
    (b : Branch) (d0 n0 : Nat) (s : St) (hfuel : d0 < fuel) (hD : D = sel b T) (hv : Real c.P c.mls d0 D v)
    (hn : v.numNodes ≤ n0) (hs : SOK c T s) (hs' : O → StOK c T s) :
    ∃ t, (construct c fuel v D b d0 n0 s).1 = some t ∧ t.depth ≤ d0 ∧ t.Legal c.P c.mls D ∧
      SOK c T (construct c fuel v D b d0 n0 s).2 ∧
      (O → StOK c T (construct c fuel v D b d0 n0 s).2 ∧ t.cost c.P D ≤ v.sol) := by
  induction fuel generalizing v D b d0 n0 s with
  | zero => omega
  | succ fuel ih =>
    have hv0 := hv
    obtain ⟨t0, hrep, hdep, hleg, hcost⟩ := hv
    unfold construct
    dsimp only
    cases t0 with
    | leaf k =>
      rw [hrep.1]
      dsimp only
      refine ⟨.leaf k, by unfold labelTree; rw [hrep.2]; rfl, Nat.zero_le _, hleg, hs, fun o => ⟨hs' o, Int.le_of_eq hcost⟩⟩
    | node f l r =>
      have hnum : l.nodes + r.nodes + 1 = v.numNodes := by rw [← hrep.nodes]; simp [Tree.nodes]; omega
      have hd0 : l.depth + 1 ≤ d0 ∧ r.depth + 1 ≤ d0 := by simp only [Tree.depth] at hdep; omega
      have hdl : l.depth ≤ min d0 n0 - 1 ∧ r.depth ≤ min d0 n0 - 1 := by
        have := l.depth_le_nodes
        have := r.depth_le_nodes
        omega
      have hfeat : v.feature = some f := hrep.1
      have hnl : v.nl = l.nodes := hrep.2.2.1.symm
      have hnr : v.nr = r.nodes := hrep.2.2.2.symm
      obtain ⟨hf, hm, hl0, hl1⟩ := hleg
      rw [hfeat]
      dsimp only
      generalize hd : min d0 n0 = d at hdl ⊢
      have hd1 : 1 ≤ d := by omega
      have hp : 1 < 2 ^ d := Nat.one_lt_two_pow (by omega)
      rw [if_neg (by omega)]
      -- the depth-two shortcut
      generalize hsp : (if ¬(d = 1 ∨ min n0 (2 ^ d - 1) = 1 ∨ v.numNodes = 1) ∧ c.useTerm = true ∧ d ≤ 2 then
        terminalConstruct c.tc (statsOf c.P D) v f else none) = sp
      have hspec : sp = none ∨ ∃ x, sp = some (some x) ∧ x.depth ≤ d0 ∧ x.Legal c.P c.mls D ∧ c.useTerm = true := by
        rw [← hsp]
        split
        · rename_i hc
          have h2 : (Tree.node f l r).depth ≤ 2 := by simp only [Tree.depth]; omega
          have := (terminalConstruct_spec c.P c.mls c.worst (hmay hc.2.1) D v f l r hrep h2 ⟨hf, hm, hl0, hl1⟩).1
          rcases this with h | ⟨x, x1, x2, x3⟩
          · exact .inl h
          · exact .inr ⟨x, x1, by omega, x3, hc.2.1⟩
        · exact .inl rfl
      rcases hspec with h | ⟨x, x1, x2, x3, x4⟩
      · subst h
        dsimp only
        have e0 : without f D = sel (b.child f false) T := by rw [sel_child, ← hD, side_false]
        have e1 : having f D = sel (b.child f true) T := by rw [sel_child, ← hD, side_true]
        rw [hnl, hnr]
        generalize hmx : min (2 ^ (d - 1) - 1) (min n0 (2 ^ d - 1) - 1) = mx
        generalize hmn : min n0 (2 ^ d - 1) - 1 - mx = mn
        generalize min n0 (2 ^ d - 1) = n at *
        have cl := childSol_spec G O hO hclk hs hs' hs hs' e0 d n mn (mx + 1 - max l.nodes mn) l hl0 hdl.1 _ rfl
        generalize childSol c (without f D) (b.child f false) d n l.nodes _ s = x at cl ⊢
        have cr := childSol_spec G O hO hclk hs hs' cl.st (fun o => (cl.opt o).1) e1 d n mn (mx + 1 - max r.nodes mn) r hl1 hdl.2 _ rfl
        generalize childSol c (having f D) (b.child f true) d n r.nodes _ x.2 = y at cr ⊢
        obtain ⟨tl, u1, u2, u3, u4, u5⟩ := ih x.1.1 (without f D) (b.child f false) x.1.2.1 x.1.2.2 y.2
          (by have := cl.depth; omega) e0 cl.real cl.num cr.st (fun o => (cr.opt o).1)
        generalize construct c fuel x.1.1 (without f D) (b.child f false) x.1.2.1 x.1.2.2 y.2 = tlr at u1 u4 u5 ⊢
        obtain ⟨tr, w1, w2, w3, w4, w5⟩ := ih y.1.1 (having f D) (b.child f true) y.1.2.1 y.1.2.2 tlr.2
          (by have := cr.depth; omega) e1 cr.real cr.num u4 (fun o => (u5 o).1)
        generalize construct c fuel y.1.1 (having f D) (b.child f true) y.1.2.1 y.1.2.2 tlr.2 = trr at w1 w4 w5 ⊢
        refine ⟨.node f tl tr, by rw [u1, w1]; rfl, ?_, ⟨hf, hm, u3, w3⟩, w4, fun o => ⟨(w5 o).1, ?_⟩⟩
        · have := cl.depth
          have := cr.depth
          simp only [Tree.depth]; omega
        · have a := (u5 o).2
          have b := (w5 o).2
          have a' := (cl.opt o).2
          have b' := (cr.opt o).2
          rw [← hcost]
          simp only [Tree.cost]; omega
      · subst x1
        dsimp only
        refine ⟨x, rfl, x2, x3, hs, fun o => ?_⟩
        rw [(hO o).2] at x4; simp at x4

end
end Streed
