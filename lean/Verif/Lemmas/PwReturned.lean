import Verif.Model.PwTree
import Verif.Lemmas.PwSound

/-! The tree returned by the search with fitted leaves: it exists, is legal, within the depth limit and close to the value found. -/

namespace Streed.Pw.Feas
open Apx (tol tol_pos tol_one)

/-- The factor that one level of the construction may lose. -/
def factor (p : Task) : ℚ := tol ^ (p.c.P.nF + 1)

theorem factor_one (p : Task) : 1 ≤ factor p := one_le_pow₀ tol_one

theorem factor_loss (p : Task) (D : Data) {z : ℚ} (hz : 0 ≤ z) : tol * (loss p D * z) ≤ factor p * z := by
  unfold factor
  rw [pow_succ', mul_assoc]
  exact mul_le_mul_of_nonneg_left (mul_le_mul_of_nonneg_right (loss_le p D) hz) tol_pos.le

section
variable {p : Task} {T : Data} {H : Prop} (G : Base p T) (hclk : ∀ i, p.c.clock i = true) (hH : H → Open p T)

/-- Both invariants of the state; the second one is only asked for under `H`. -/
structure Both (H : Prop) (p : Task) (T : Data) (s : St) : Prop where
  feas : SOK p T s
  near : H → Pw.SOK p T s

/-- What is needed of a child solution that is built next. -/
structure ChildOK (H : Prop) (p : Task) (T : Data) (D : Data) (d : Nat) (t : Tree) (x : (Node × Nat × Nat) × St) : Prop where
  real : Real p x.1.2.1 D x.1.1
  num : x.1.1.numNodes ≤ x.1.2.2
  depth : x.1.2.1 ≤ d
  st : Both H p T x.2
  near : H → (x.1.1.sol : ℚ) ≤ factor p * (p.fitting.cost t D : ℚ)

include hclk in
theorem allOK (k : Nat) : AllOK p.c k := fun _ _ => hclk _

include G hclk hH in
theorem childLookup_spec {s : St} (hs : Both H p T s) {D : Data} {b : Branch} (hD : D = sel b T)
    (d : Nat) (t : Tree) (htl : p.fitting.Legal t D) (htd : t.depth ≤ d - 1) (zs : List Nat)
    (hz : ∀ z ∈ zs, t.nodes ≤ z) (z : Nat) (h : (childLookup p s D b d zs).2 = some z) :
    Real p (min (d - 1) z) D (childLookup p s D b d zs).1 ∧ (childLookup p s D b d zs).1.numNodes ≤ z ∧
    (H → ((childLookup p s D b d zs).1.sol : ℚ) ≤ factor p * (p.fitting.cost t D : ℚ)) := by
  have hv : ViewOf T D := by rw [hD]; exact sel_view b T
  have hc0 : (0 : ℚ) ≤ p.fitting.cost t D := by exact_mod_cast G.cost_nonneg hv t
  induction zs with
  | nil => simp [childLookup] at h
  | cons y zs ih =>
    have hy := hz y (List.mem_cons_self ..)
    unfold childLookup at h ⊢
    dsimp only at h ⊢
    by_cases h0 : y = 0
    · subst h0
      simp only [if_true] at h ⊢
      split at h <;> rename_i hemp
      · simp only [hemp, if_true] at h ⊢
        exact ih (fun z hz' => hz z (List.mem_cons_of_mem _ hz')) h
      · simp only [if_neg hemp] at h ⊢
        simp only [Option.some.injEq] at h
        subst h
        have hne : (solveLeaf p D (Node.empty p.c.worst)).1.isEmpty = false := by simpa using hemp
        have h1 := (solveLeaf_sound G hv (Node.empty p.c.worst) (Int.le_refl _) (min (d - 1) 0) 0).1.real hne
        refine ⟨h1.1, h1.2, fun _ => ?_⟩
        obtain ⟨k, rfl⟩ := leaf_of_depth_zero (t := t) (.inr (by omega))
        obtain ⟨x, hx⟩ := Option.isSome_iff_exists.1 htl.2
        have hx : p.leaf D = some x := hx
        have hw : p.c.mls ≤ p.weight D := htl.1
        have e : (solveLeaf p D (Node.empty p.c.worst)).1.sol = x := by
          revert hne
          unfold solveLeaf Task.leafNode
          rw [if_neg (by omega), hx]
          dsimp only
          split
          · intro hne; simp [Node.empty, Node.isEmpty] at hne
          · intro _; rfl
        rw [e, leaf_cost hx]
        rw [leaf_cost hx] at hc0
        have := factor_one p
        nlinarith
    · simp only [if_neg h0] at h ⊢
      split at h <;> rename_i hemp
      · simp only [hemp, if_true] at h ⊢
        exact ih (fun z hz' => hz z (List.mem_cons_of_mem _ hz')) h
      · simp only [if_neg hemp] at h ⊢
        simp only [Option.some.injEq] at h
        subst h
        have hne : (s.cache.retrieveOpt p.c.cc D b (min (d - 1) y) y).isEmpty = false := by simpa using hemp
        have h1 := (hs.feas.hit hD (min (d - 1) y) y).real hne
        refine ⟨h1.1, h1.2, fun h => ?_⟩
        have hdn := t.depth_le_nodes
        exact le_trans (((hs.near h).hit hD (min (d - 1) y) y).2 (hH h) (allOK hclk _) hne t ⟨by omega, hy, htl⟩) (factor_loss p D hc0)

include G hclk hH in
theorem childSol_spec {s s1 : St} (hs : Both H p T s) (hs1 : Both H p T s1)
    {D : Data} {b : Branch} (hD : D = sel b T) (d n mn cnt : Nat) (t : Tree) (htl : p.fitting.Legal t D)
    (htd : t.depth ≤ d - 1) (look : Node × Option Nat)
    (hlook : look = if p.c.useBr || p.c.useDs then childLookup p s D b d (List.range' (max t.nodes mn) cnt)
      else (Node.empty p.c.worst, none)) :
    ChildOK H p T D (d - 1) t (childSol p D b d n t.nodes look s1) := by
  have hv : ViewOf T D := by rw [hD]; exact sel_view b T
  have hm : p.c.mls ≤ p.weight D := G.legal_weight hv htl
  have hc0 : (0 : ℚ) ≤ p.fitting.cost t D := by exact_mod_cast G.cost_nonneg hv t
  unfold childSol
  cases h : look.2 with
  | some z =>
    dsimp only
    rw [hlook] at h
    split at h
    · rename_i hu
      rw [if_pos hu] at hlook
      have := childLookup_spec G hclk hH hs hD d t htl htd (List.range' (max t.nodes mn) cnt)
        (fun z hz => by have := List.mem_range'_1.1 hz; omega) z h
      rw [← hlook] at this
      exact ⟨this.1, this.2.1, Nat.min_le_left _ _, hs1, this.2.2⟩
    · simp at h
  | none =>
    dsimp only
    have hdn := t.depth_le_nodes
    have hz : t.nodes + 1 ≤ 2 ^ (min (d - 1) t.nodes) :=
      Nat.le_trans t.nodes_lt_pow (Nat.pow_le_pow_right (by decide) (by omega))
    have hp := solveSub_sound G (min (d - 1) t.nodes) D b (Node.empty p.c.worst) (min (d - 1) t.nodes) t.nodes s1
      (Nat.le_refl _) hD hz (Int.le_refl _) hs1.feas
    have hq := solveSub_spec G.fair (min (d - 1) t.nodes) D b (Node.empty p.c.worst) (min (d - 1) t.nodes) t.nodes s1
      (Nat.le_refl _) hD hz
    generalize solveSub p (min (d - 1) t.nodes) D b (Node.empty p.c.worst) (min (d - 1) t.nodes) t.nodes s1 = r at hp hq
    have hne : r.1.isEmpty = false := (G.ne_iff hv hp.sound).2 (hp.ne hclk hm (Int.le_refl _))
    rw [if_neg (by rw [hne]; simp)]
    have h1 := hp.sound.real hne
    refine ⟨h1.1, ?_, Nat.min_le_left _ _, ⟨hp.st, fun h => (hq (hs1.near h)).st⟩, fun h => ?_⟩
    · dsimp only
      split <;> omega
    · rcases (hq (hs1.near h)).low (hH h) (allOK hclk _) hne t ⟨by omega, Nat.le_refl _, htl⟩ with h2 | h2
      · exact le_trans h2 (factor_loss p D hc0)
      · have := G.small D hv t htl
        simp only [Node.empty] at h2
        omega

include G hclk hH in
/-- The construction of a tree from a solution. -/
theorem construct_spec (fuel : Nat) (v : Node) (D : Data)
    (b : Branch) (d0 n0 : Nat) (s : St) (hfuel : d0 < fuel) (hD : D = sel b T) (hv : Real p d0 D v)
    (hn : v.numNodes ≤ n0) (hs : Both H p T s) :
    ∃ t, (construct p fuel v D b d0 n0 s).1 = some t ∧ t.depth ≤ d0 ∧ p.fitting.Legal t D ∧
      Both H p T (construct p fuel v D b d0 n0 s).2 ∧
      (H → (p.fitting.cost t D : ℚ) ≤ factor p ^ d0 * (v.sol : ℚ)) := by
  induction fuel generalizing v D b d0 n0 s with
  | zero => omega
  | succ fuel ih =>
    have hvw : ViewOf T D := by rw [hD]; exact sel_view b T
    obtain ⟨t0, hrep, hdep, hleg, hcost⟩ := hv
    have hf1 : ∀ k, (1 : ℚ) ≤ factor p ^ k := fun k => one_le_pow₀ (factor_one p)
    unfold construct
    dsimp only
    cases t0 with
    | leaf k =>
      rw [hrep.1]
      dsimp only
      refine ⟨.leaf k, by unfold labelTree; rw [hrep.2]; rfl, Nat.zero_le _, hleg, hs, fun _ => ?_⟩
      have h0 : (0 : ℚ) ≤ p.fitting.cost (.leaf k) D := by exact_mod_cast G.cost_nonneg hvw _
      rw [← hcost]
      have := hf1 d0
      nlinarith
    | node f l r =>
      have hnum : l.nodes + r.nodes + 1 = v.numNodes := by rw [← hrep.nodes]; simp [Tree.nodes]; omega
      have hd0 : l.depth + 1 ≤ d0 ∧ r.depth + 1 ≤ d0 := by simp only [Tree.depth] at hdep; omega
      have hdl : l.depth ≤ min d0 n0 - 1 ∧ r.depth ≤ min d0 n0 - 1 := by
        have := l.depth_le_nodes
        have := r.depth_le_nodes
        omega
      have hfeat : v.feature = some f := hrep.1
      have hnl : v.nl = l.nodes := hrep.2.2.1.symm
      have hnr : v.nr = r.nodes := hrep.2.2.2.symm
      obtain ⟨hf, hl0, hl1⟩ := hleg
      rw [hfeat]
      dsimp only
      generalize hd : min d0 n0 = d at hdl ⊢
      have hd1 : 1 ≤ d := by omega
      have hp : 1 < 2 ^ d := Nat.one_lt_two_pow (by omega)
      rw [if_neg (by omega)]
      have e0 : without f D = sel (b.child f false) T := by rw [sel_child, ← hD, side_false]
      have e1 : having f D = sel (b.child f true) T := by rw [sel_child, ← hD, side_true]
      rw [hnl, hnr]
      generalize hmx : min (2 ^ (d - 1) - 1) (min n0 (2 ^ d - 1) - 1) = mx
      generalize hmn : min n0 (2 ^ d - 1) - 1 - mx = mn
      generalize min n0 (2 ^ d - 1) = n at *
      have cl := childSol_spec G hclk hH hs hs e0 d n mn (mx + 1 - max l.nodes mn) l hl0 hdl.1 _ rfl
      generalize childSol p (without f D) (b.child f false) d n l.nodes _ s = x at cl ⊢
      have cr := childSol_spec G hclk hH hs cl.st e1 d n mn (mx + 1 - max r.nodes mn) r hl1 hdl.2 _ rfl
      generalize childSol p (having f D) (b.child f true) d n r.nodes _ x.2 = y at cr ⊢
      obtain ⟨tl, u1, u2, u3, u4, u5⟩ := ih x.1.1 (without f D) (b.child f false) x.1.2.1 x.1.2.2 y.2
        (by have := cl.depth; omega) e0 cl.real cl.num cr.st
      generalize construct p fuel x.1.1 (without f D) (b.child f false) x.1.2.1 x.1.2.2 y.2 = tlr at u1 u4 ⊢
      obtain ⟨tr, w1, w2, w3, w4, w5⟩ := ih y.1.1 (having f D) (b.child f true) y.1.2.1 y.1.2.2 tlr.2
        (by have := cr.depth; omega) e1 cr.real cr.num u4
      generalize construct p fuel y.1.1 (having f D) (b.child f true) y.1.2.1 y.1.2.2 tlr.2 = trr at w1 w4 ⊢
      have cd := cl.depth
      have cd' := cr.depth
      refine ⟨.node f tl tr, by rw [u1, w1]; rfl, ?_, ⟨hf, u3, w3⟩, w4, fun O => ?_⟩
      · simp only [Tree.depth]; omega
      · have side : ∀ (c : ℚ) (k : Nat) (xs cost : ℚ), k + 1 ≤ d0 → c ≤ factor p ^ k * xs → xs ≤ factor p * cost → 0 ≤ cost →
            c ≤ factor p ^ d0 * cost := by
          intro c k xs cost hk h1 h2 h3
          calc c ≤ factor p ^ k * xs := h1
            _ ≤ factor p ^ k * (factor p * cost) := mul_le_mul_of_nonneg_left h2 (le_trans zero_le_one (hf1 k))
            _ = factor p ^ (k + 1) * cost := by rw [pow_succ]; ring
            _ ≤ factor p ^ d0 * cost := mul_le_mul_of_nonneg_right (pow_le_pow_right₀ (factor_one p) hk) h3
        have h1 := side _ _ _ _ (by omega) (u5 O) (cl.near O) (by exact_mod_cast G.cost_nonneg ((without_sublist f D).trans hvw) l)
        have h2 := side _ _ _ _ (by omega) (w5 O) (cr.near O) (by exact_mod_cast G.cost_nonneg ((having_sublist f D).trans hvw) r)
        rw [← hcost]
        simp only [Fitting.cost]
        push_cast
        have hb : (0 : ℚ) ≤ (p.fitting.bc : ℚ) := by exact_mod_cast G.bc
        have h3 := hf1 d0
        have h4 : (p.fitting.bc : ℚ) ≤ factor p ^ d0 * p.fitting.bc := by nlinarith
        linarith

end

/-! ### The whole run -/

/-- What is known of a run. -/
structure RunS (p : Task) (t : Top) (T : Data) (e : Nat) (r : Run) : Prop where
  sound : Sound p e t.maxNodes T r.result
  le : e ≤ r.maxDepthSearched
  mds : r.maxDepthSearched ≤ t.maxDepth
  ub : r.gUB.sol ≤ p.c.worst
  st : Both True p T r.st
  ne : p.c.worst ≤ t.ub → p.c.mls ≤ p.weight T → r.result.sol < p.c.worst

theorem RunS.next {p : Task} {t : Top} {T : Data} {e : Nat} {r : Run} (h : RunS p t T e r) : RunS p t T e { r with st := r.st.next } :=
  ⟨h.sound, h.le, h.mds, h.ub, ⟨h.st.feas.next, fun h' => (h.st.near h').next⟩, h.ne⟩

section
variable {p : Task} {T : Data} (G : Base p T)
include G

theorem run_sound (t : Top) {e : Nat} {r : Run} (hr : RunS p t T e r) {d n : Nat} (he : e ≤ d) (hd : d ≤ t.maxDepth)
    (hn : n ≤ t.maxNodes) (hp : n + 1 ≤ 2 ^ d) (b : Bool) (mdf : Int) :
    let x := solveSub p t.maxDepth T [] r.gUB d n r.st
    let result := Node.addMin r.result x.1
    RunS p t T d ⟨result, tighten p.c b result (Node.addMin r.gUB x.1), d, { x.2 with mdf := mdf }⟩ := by
  have hpost := solveSub_sound G t.maxDepth T [] r.gUB d n r.st hd (sel_nil T).symm hp hr.ub hr.st.feas
  have hq := solveSub_spec G.fair t.maxDepth T [] r.gUB d n r.st hd (sel_nil T).symm hp (hr.st.near trivial)
  generalize solveSub p t.maxDepth T [] r.gUB d n r.st = x at hpost hq
  dsimp only
  have h1 : Sound p d t.maxNodes T x.1 := hpost.sound.mono (Nat.le_refl _) hn
  have h2 : Sound p d t.maxNodes T r.result := hr.sound.mono he (Nat.le_refl _)
  have h3 : Sound p d t.maxNodes T (Node.addMin r.result x.1) := h2.addMin h1
  have hv : ViewOf T T := List.Sublist.refl T
  have h4 := G.sound_le hv h3
  have h5 := G.sound_le hv h1
  refine ⟨h3, Nat.le_refl _, hd, ?_, ⟨⟨hpost.st.cache, hpost.st.arch⟩, fun _ => ⟨hq.st.cache, hq.st.arch⟩⟩, fun h7 h8 => ?_⟩
  rotate_left
  · have := hr.ne h7 h8
    dsimp only
    unfold Node.addMin; split <;> omega
  have h6 : (Node.addMin r.gUB x.1).sol ≤ p.c.worst := by
    unfold Node.addMin; split <;> [exact h5; exact hr.ub]
  have := G.md
  dsimp only
  unfold tighten
  split
  · exact h6
  · dsimp only
    split <;> omega

theorem depthRuns_sound (t : Top) (a m : Nat) (hmd : a + m ≤ t.maxDepth + 1) {e : Nat} {r : Run} (hr : RunS p t T e r)
    (he : e ≤ a) : ∃ e', RunS p t T e' (depthRuns p t T (List.range' a m) r) := by
  induction m generalizing a e r with
  | zero => exact ⟨e, hr⟩
  | succ m ih =>
    simp only [List.range'_succ, depthRuns]
    have hpos : 1 ≤ 2 ^ a := Nat.one_le_two_pow
    have h1 : RunS p t T a (depthRun p t T r a) :=
      run_sound G t hr (d := a) (n := min t.maxNodes (2 ^ a - 1)) he (by omega) (by omega) (by omega) false a
    split
    · exact ⟨a, h1.next⟩
    · exact ih (a + 1) (by omega) h1.next (Nat.le_succ _)

theorem sizeRuns_sound (t : Top) (a m : Nat) (hmn : a + m ≤ t.maxNodes + 1) (hfit : t.maxNodes + 1 ≤ 2 ^ t.maxDepth)
    {e : Nat} {r : Run} (hr : RunS p t T e r)
    (he : e ≤ min t.maxDepth a) : ∃ e', RunS p t T e' (sizeRuns p t T (List.range' a m) r) := by
  induction m generalizing a e r with
  | zero => exact ⟨e, hr⟩
  | succ m ih =>
    simp only [List.range'_succ, sizeRuns]
    split
    · exact ⟨e, hr.next⟩
    · have hp : a + 1 ≤ 2 ^ (min t.maxDepth a) := by
        rcases Nat.le_total t.maxDepth a with h | h
        · rw [Nat.min_eq_left h]; omega
        · rw [Nat.min_eq_right h]; exact Nat.lt_two_pow_self
      have h1 : RunS p t T (min t.maxDepth a) (sizeRun p t T { r with st := r.st.next } a) :=
        run_sound G t hr.next (d := min t.maxDepth a) (n := a) he (by omega) (by omega) hp true (Nat.log2 (a + 1))
      split
      · exact ⟨_, h1.next⟩
      · exact ih (a + 1) (by omega) h1.next (by omega)

/-- Whatever the options and the clock, the solution found by `Solve` describes a legal tree, and there is one unless an upper bound was
given or there are too few rows. -/
theorem solve_sound (t : Top) (hfit : t.maxNodes + 1 ≤ 2 ^ t.maxDepth) : ∃ e, RunS p t T e (solve p t T).1 := by
  have hstart : solveLeaf p T (Node.addMin (Node.empty p.c.worst) (Node.value t.ub)) = solveLeaf p T (startUB p.c t) := rfl
  unfold solve
  dsimp only
  rw [hstart]
  have hub : (startUB p.c t).sol ≤ p.c.worst := by rw [(startUB_sol t).1]; omega
  have hleaf := solveLeaf_sound G (List.Sublist.refl T) (startUB p.c t) hub 0 t.maxNodes
  have h0 : RunS p t T 0 ⟨(solveLeaf p T (startUB p.c t)).1, (solveLeaf p T (startUB p.c t)).2, t.maxDepth, St.init⟩ :=
    ⟨hleaf.1, Nat.zero_le _, Nat.le_refl _, hleaf.2.1, ⟨SOK.init, fun _ => Pw.SOK.init⟩,
      fun h7 h8 => hleaf.2.2 h8 (by rw [(startUB_sol t).1]; omega)⟩
  split
  · obtain ⟨e, h⟩ := sizeRuns_sound G t 1 t.maxNodes (by omega) hfit h0 (Nat.zero_le _)
    exact ⟨e, h.next⟩
  · obtain ⟨e, h⟩ := depthRuns_sound G t (min 2 (min t.maxDepth t.maxNodes))
      (min t.maxDepth t.maxNodes + 1 - min 2 (min t.maxDepth t.maxNodes)) (by omega) h0 (Nat.zero_le _)
    exact ⟨e, h.next⟩

omit G in
theorem rootDepth_spec {s : St} (hs : SOK p T s) {v : Node} {m : Nat} (hv : Real p m T v) (k d : Nat)
    (hk : min m v.numNodes ≤ k + d) : Real p (min (rootDepth p.c T v s k d) m) T v := by
  induction k generalizing d with
  | zero => exact (hv.depth_min (Nat.le_refl _)).mono (by simp only [rootDepth]; omega)
  | succ k ih =>
    unfold rootDepth
    split
    · rename_i h
      have h1 := hs.hit (sel_nil T).symm d v.numNodes
      rw [h.2] at h1
      have h2 := (h1.real hv.nonempty).1
      rcases Nat.le_total d m with hd | hd
      · rw [Nat.min_eq_left hd]; exact h2
      · rw [Nat.min_eq_right hd]; exact hv
    · exact ih (d + 1) (by omega)

theorem Base.untimed : Base p.untimed T :=
  ⟨G.bc, G.worst, G.md, G.leaf, G.ex, G.split, G.small, ⟨G.fair.sorted, G.fair.labels, G.fair.order⟩, G.sim⟩

omit G in
theorem open_untimed : Open p.untimed T ↔ Open p T :=
  ⟨fun O => ⟨O.noLB, O.ub, O.md, O.bc, O.mls, O.q, O.nil, O.split, O.leaf, O.all, O.redundant, O.big⟩,
    fun O => ⟨O.noLB, O.ub, O.md, O.bc, O.mls, O.q, O.nil, O.split, O.leaf, O.all, O.redundant, O.big⟩⟩

/-- **The returned tree.** A run with a result returns a tree; it is legal and not too deep. -/
theorem returned_spec (t : Top) {e : Nat} {r : Run} (hr : RunS p t T e r) (O : Prop) (hO : O → Open p T ∧ AllOK p.c r.st.tick) :
    (returned p T r = none ∧ r.result.sol = p.c.worst) ∨
    ∃ tr, returned p T r = some (some tr) ∧ tr.depth ≤ t.maxDepth ∧ p.fitting.Legal tr T ∧
      (O → (p.fitting.cost tr T : ℚ) ≤ factor p ^ t.maxDepth * (r.result.sol : ℚ)) := by
  unfold returned
  by_cases hw : r.result.sol = p.c.worst
  · exact .inl ⟨by rw [if_pos hw], hw⟩
  right
  rw [if_neg hw]
  dsimp only
  have hv : ViewOf T T := List.Sublist.refl T
  have hne : r.result.isEmpty = false := (G.ne_iff hv hr.sound).2 (by have := G.sound_le hv hr.sound; omega)
  have h1 := hr.sound.real hne
  have hlog : min r.maxDepthSearched r.result.numNodes ≤
      min r.maxDepthSearched r.result.numNodes + 1 - Nat.log2 (r.result.numNodes + 1) + Nat.log2 (r.result.numNodes + 1) := by omega
  have h2 := rootDepth_spec hr.st.feas (h1.1.mono hr.le) _ _ hlog
  generalize hd : min (rootDepth p.c T r.result r.st (min r.maxDepthSearched r.result.numNodes + 1 - Nat.log2 (r.result.numNodes + 1))
    (Nat.log2 (r.result.numNodes + 1))) r.maxDepthSearched = d at h2 ⊢
  have hdm : d ≤ t.maxDepth := by have := hr.mds; omega
  have hst : Both O p.untimed T r.st :=
    ⟨⟨hr.st.feas.cache, hr.st.feas.arch⟩, fun h => ⟨callMono (hr.st.near trivial).cache fun D e q he =>
      ⟨(q he).1, (q he).2.1, fun _ _ => (q he).2.2 (hO h).1 (hO h).2⟩, hr.st.feas.arch⟩⟩
  obtain ⟨tr, q1, q2, q3, _, q5⟩ := construct_spec G.untimed (fun _ => rfl) (fun h => open_untimed.2 (hO h).1) (d + 1) r.result T [] d
    r.result.numNodes r.st (Nat.lt_succ_self _) (sel_nil T).symm h2 (Nat.le_refl _) hst
  refine ⟨tr, by rw [q1], by omega, q3, fun h => le_trans (q5 h) ?_⟩
  have h0 : (0 : ℚ) ≤ r.result.sol := by exact_mod_cast G.sound_nonneg hv hr.sound
  exact mul_le_mul_of_nonneg_right (pow_le_pow_right₀ (factor_one p) hdm) h0

end
end Streed.Pw.Feas
