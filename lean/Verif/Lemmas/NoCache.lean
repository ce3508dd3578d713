import Verif.Lemmas.HitsTop

/-! Without caches every child of the returned tree is solved again with the size recorded in its parent. -/

namespace Streed

section
variable {c : Cfg} {T : Data} (G : Base c T) (hbr : c.useBr = false) (hds : c.useDs = false) (hclk : ∀ i, c.clock i = true)

include hbr hds in
theorem childSol_size (E : Data) (b : Branch) (d n z : Nat) (s : St) :
    (childSol c E b d n z (Node.empty c.worst, none) s).1.2.2 = z := by
  unfold childSol
  rw [hbr, hds]
  simp only [Bool.or_self, Bool.false_eq_true, if_false]
  split <;> rfl

include G hbr hds hclk in
theorem construct_size (hmay : c.useTerm = true → ∀ f, f < c.P.nF → c.P.may f = true) (fuel : Nat) (v : Node) (D : Data)
    (b : Branch) (d0 n0 : Nat) (s : St) (hfuel : d0 < fuel) (hD : D = sel b T) (hv : Real c.P c.mls d0 D v)
    (hn : v.numNodes ≤ n0) (hs : SOK c T s) {t : Tree} (ht : (construct c fuel v D b d0 n0 s).1 = some t) : t.nodes ≤ n0 := by
  induction fuel generalizing v D b d0 n0 s t with
  | zero => omega
  | succ fuel ih =>
    obtain ⟨t0, hrep, hdep, hleg, hcost⟩ := hv
    cases t0 with
    | leaf k =>
      rw [construct_leaf c fuel b d0 n0 s hrep] at ht
      simp only [Option.some.injEq] at ht
      rw [← ht]; exact Nat.zero_le _
    | node f l r =>
      have hnum : l.nodes + r.nodes + 1 = v.numNodes := by rw [← hrep.nodes]; simp [Tree.nodes]; omega
      have hd0 : l.depth + 1 ≤ d0 ∧ r.depth + 1 ≤ d0 := by simp only [Tree.depth] at hdep; omega
      have hdl : l.depth ≤ min d0 n0 - 1 ∧ r.depth ≤ min d0 n0 - 1 := by
        have := l.depth_le_nodes
        have := r.depth_le_nodes
        omega
      have hfeat : v.feature = some f := hrep.1
      have hnl : v.nl = l.nodes := hrep.2.2.1.symm
      have hnr : v.nr = r.nodes := hrep.2.2.2.symm
      obtain ⟨hf, hm, hl0, hl1⟩ := hleg
      unfold construct at ht
      dsimp only at ht
      rw [hfeat] at ht
      dsimp only at ht
      generalize hd : min d0 n0 = d at hdl ht
      have hd1 : 1 ≤ d := by omega
      have hp : 1 < 2 ^ d := Nat.one_lt_two_pow (by omega)
      rw [if_neg (by omega)] at ht
      generalize hsp : (if ¬(d = 1 ∨ min n0 (2 ^ d - 1) = 1 ∨ v.numNodes = 1) ∧ c.useTerm = true ∧ d ≤ 2 then
        terminalConstruct c.tc (statsOf c.P D) v f else none) = sp at ht
      cases sp with
      | some x =>
        dsimp only at ht
        rw [ht] at hsp
        split at hsp
        · have := terminalConstruct_nodes _ _ _ _ hsp
          omega
        · simp at hsp
      | none =>
        dsimp only at ht
        have e0 : without f D = sel (b.child f false) T := by rw [sel_child, ← hD, side_false]
        have e1 : having f D = sel (b.child f true) T := by rw [sel_child, ← hD, side_true]
        rw [hnl, hnr] at ht
        generalize hmx : min (2 ^ (d - 1) - 1) (min n0 (2 ^ d - 1) - 1) = mx at ht
        generalize min n0 (2 ^ d - 1) = n at *
        have F : False → Good c T ∧ c.useTerm = false := fun h => h.elim
        have hno : ∀ x : Node × Option Nat, (if (c.useBr || c.useDs) = true then x else (Node.empty c.worst, none)) = (Node.empty c.worst, none) :=
          fun x => if_neg (by rw [hbr, hds]; simp)
        have cl := childSol_spec G False F hclk hs (fun h => h.elim) hs (fun h => h.elim) e0 d n 0 0 l hl0 hdl.1 _ (hno _).symm
        rw [hno, hno] at ht
        have zl := childSol_size hbr hds (without f D) (b.child f false) d n l.nodes s
        generalize childSol c (without f D) (b.child f false) d n l.nodes _ s = x at cl zl ht
        have cr := childSol_spec G False F hclk hs (fun h => h.elim) cl.st (fun h => h.elim) e1 d n 0 0 r hl1 hdl.2 _ (hno _).symm
        have zr := childSol_size hbr hds (having f D) (b.child f true) d n r.nodes x.2
        generalize childSol c (having f D) (b.child f true) d n r.nodes _ x.2 = y at cr zr ht
        obtain ⟨tl, u1, u2, u3, u4, _⟩ := construct_spec G False F hclk hmay fuel x.1.1 (without f D) (b.child f false) x.1.2.1 x.1.2.2 y.2
          (by have := cl.depth; omega) e0 cl.real cl.num cr.st (fun h => h.elim)
        have nl := ih x.1.1 (without f D) (b.child f false) x.1.2.1 x.1.2.2 y.2
          (by have := cl.depth; omega) e0 cl.real cl.num cr.st u1
        generalize construct c fuel x.1.1 (without f D) (b.child f false) x.1.2.1 x.1.2.2 y.2 = tlr at u1 u4 ht
        obtain ⟨tr, w1, w2, w3, w4, _⟩ := construct_spec G False F hclk hmay fuel y.1.1 (having f D) (b.child f true) y.1.2.1 y.1.2.2 tlr.2
          (by have := cr.depth; omega) e1 cr.real cr.num u4 (fun h => h.elim)
        have nr := ih y.1.1 (having f D) (b.child f true) y.1.2.1 y.1.2.2 tlr.2
          (by have := cr.depth; omega) e1 cr.real cr.num u4 w1
        generalize construct c fuel y.1.1 (having f D) (b.child f true) y.1.2.1 y.1.2.2 tlr.2 = trr at w1 w4 ht
        rw [u1, w1] at ht
        simp only [Option.bind_some, Option.map_some, Option.some.injEq] at ht
        rw [← ht]
        simp only [Tree.nodes]
        omega

include G hbr hds in
/-- Without caches the returned tree has at most as many nodes as the solution found. -/
theorem returned_size (t : Top) {e : Nat} {r : Run} (hr : RunS c t T e r)
    (hmay : c.useTerm = true → ∀ f, f < c.P.nF → c.P.may f = true) {tr : Tree} (h : returned c T r = some (some tr)) :
    tr.nodes ≤ r.result.numNodes ∧ r.result.numNodes ≤ t.maxNodes := by
  unfold returned at h
  by_cases hw : r.result.sol = c.worst
  · rw [if_pos hw] at h; simp at h
  rw [if_neg hw] at h
  dsimp only at h
  have hv : ViewOf T T := List.Sublist.refl T
  have hne : r.result.isEmpty = false := (G.ne_iff hv hr.sound).2 (by have := G.sound_le hv hr.sound; omega)
  have h1 := hr.sound.real hne
  have hlog : min r.maxDepthSearched r.result.numNodes ≤
      min r.maxDepthSearched r.result.numNodes + 1 - Nat.log2 (r.result.numNodes + 1) + Nat.log2 (r.result.numNodes + 1) := by omega
  have h2 := rootDepth_spec hr.st (h1.1.mono hr.le) _ _ hlog
  simp only [Option.some.injEq] at h
  exact ⟨construct_size (c := { c with clock := fun _ => true }) (G.clock _) hbr hds (fun _ => rfl) hmay _ r.result T [] _ _ r.st
    (Nat.lt_succ_self _) (sel_nil T).symm h2 (Nat.le_refl _) (hr.st.clock _) h, h1.2⟩

end
end Streed
