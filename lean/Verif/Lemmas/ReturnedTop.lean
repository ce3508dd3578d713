import Verif.Lemmas.Returned

/-! The tree returned by `Solve`. -/

namespace Streed

/-- The outcome of the searches so far, for any options and any clock: the solution fits in depth `e`. -/
structure RunS (c : Cfg) (t : Top) (T : Data) (e : Nat) (r : Run) : Prop where
  sound : Sound c.P c.mls c.worst e t.maxNodes T r.result
  le : e ≤ r.maxDepthSearched
  mds : r.maxDepthSearched ≤ t.maxDepth
  ub : r.gUB.sol ≤ c.worst
  st : SOK c T r.st
  ne : c.worst ≤ t.ub → c.mls ≤ T.length → r.result.sol < c.worst

section
variable {c : Cfg} {T : Data} (G : Base c T)
include G

omit G in
theorem RunS.next {t : Top} {e : Nat} {r : Run} (h : RunS c t T e r) : RunS c t T e { r with st := r.st.next } :=
  ⟨h.sound, h.le, h.mds, h.ub, h.st.next, h.ne⟩

theorem run_sound (t : Top) {e : Nat} {r : Run} (hr : RunS c t T e r) {d n : Nat} (he : e ≤ d) (hd : d ≤ t.maxDepth)
    (hn : n ≤ t.maxNodes) (hp : n + 1 ≤ 2 ^ d) (b : Bool) (mdf : Int) :
    let x := solveSub c t.maxDepth T [] r.gUB d n r.st
    let result := Node.addMin r.result x.1
    RunS c t T d ⟨result, tighten c b result (Node.addMin r.gUB x.1), d, { x.2 with mdf := mdf }⟩ := by
  have hpost := solveSub_sound G t.maxDepth T [] r.gUB d n r.st hd (sel_nil T).symm hp hr.ub hr.st
  generalize solveSub c t.maxDepth T [] r.gUB d n r.st = x at hpost
  dsimp only
  have h1 : Sound c.P c.mls c.worst d t.maxNodes T x.1 := hpost.sound.mono (Nat.le_refl _) hn
  have h2 : Sound c.P c.mls c.worst d t.maxNodes T r.result := hr.sound.mono he (Nat.le_refl _)
  have h3 : Sound c.P c.mls c.worst d t.maxNodes T (Node.addMin r.result x.1) := h2.addMin h1
  have hv : ViewOf T T := List.Sublist.refl T
  have h4 := G.sound_le hv h3
  have h5 := G.sound_le hv h1
  refine ⟨h3, Nat.le_refl _, hd, ?_, ⟨hpost.st.cache, hpost.st.arch⟩, fun h7 h8 => ?_⟩
  rotate_left
  · have := hr.ne h7 h8
    dsimp only
    unfold Node.addMin; split <;> omega
  have h6 : (Node.addMin r.gUB x.1).sol ≤ c.worst := by
    unfold Node.addMin; split <;> [exact h5; exact hr.ub]
  have := G.md
  dsimp only
  unfold tighten
  split
  · exact h6
  · dsimp only
    split <;> omega

theorem depthRuns_sound (t : Top) (a m : Nat) (hmd : a + m ≤ t.maxDepth + 1) {e : Nat} {r : Run} (hr : RunS c t T e r)
    (he : e ≤ a) : ∃ e', RunS c t T e' (depthRuns c t T (List.range' a m) r) := by
  induction m generalizing a e r with
  | zero => exact ⟨e, hr⟩
  | succ m ih =>
    simp only [List.range'_succ, depthRuns]
    have hpos : 1 ≤ 2 ^ a := Nat.one_le_two_pow
    have h1 : RunS c t T a (depthRun c t T r a) :=
      run_sound G t hr (d := a) (n := min t.maxNodes (2 ^ a - 1)) he (by omega) (by omega) (by omega) false a
    split
    · exact ⟨a, h1.next⟩
    · exact ih (a + 1) (by omega) h1.next (Nat.le_succ _)

theorem sizeRuns_sound (t : Top) (a m : Nat) (hmn : a + m ≤ t.maxNodes + 1) (hfit : t.maxNodes + 1 ≤ 2 ^ t.maxDepth)
    {e : Nat} {r : Run} (hr : RunS c t T e r)
    (he : e ≤ min t.maxDepth a) : ∃ e', RunS c t T e' (sizeRuns c t T (List.range' a m) r) := by
  induction m generalizing a e r with
  | zero => exact ⟨e, hr⟩
  | succ m ih =>
    simp only [List.range'_succ, sizeRuns]
    split
    · exact ⟨e, hr.next⟩
    · have hp : a + 1 ≤ 2 ^ (min t.maxDepth a) := by
        rcases Nat.le_total t.maxDepth a with h | h
        · rw [Nat.min_eq_left h]; omega
        · rw [Nat.min_eq_right h]; exact Nat.lt_two_pow_self
      have h1 : RunS c t T (min t.maxDepth a) (sizeRun c t T { r with st := r.st.next } a) :=
        run_sound G t hr.next (d := min t.maxDepth a) (n := a) he (by omega) (by omega) hp true (Nat.log2 (a + 1))
      split
      · exact ⟨_, h1.next⟩
      · exact ih (a + 1) (by omega) h1.next (by omega)

/-- Whatever the options and the clock, the solution found by `Solve` describes a legal tree. -/
theorem solve_sound (t : Top) (hfit : t.maxNodes + 1 ≤ 2 ^ t.maxDepth) : ∃ e, RunS c t T e (solve c t T).1 := by
  have hstart : (if (Node.empty c.worst).isEmpty = true then solveLeaf c T (Node.addMin (Node.empty c.worst) (Node.value t.ub))
      else (Node.empty c.worst, Node.empty c.worst)) = solveLeaf c T (startUB c t) := by
    rw [if_pos (by rfl)]; rfl
  unfold solve solveFrom
  dsimp only
  rw [hstart]
  have hub : (startUB c t).sol ≤ c.worst := by rw [(startUB_sol t).1]; omega
  have hleaf := solveLeaf_sound G (List.Sublist.refl T) (startUB c t) hub 0 t.maxNodes
  have h0 : RunS c t T 0 ⟨(solveLeaf c T (startUB c t)).1, (solveLeaf c T (startUB c t)).2, t.maxDepth, { St.init with mdf := 0 }⟩ :=
    ⟨hleaf.1, Nat.zero_le _, Nat.le_refl _, hleaf.2.1, ⟨(SOK.init (c := c) (T := T)).cache, (SOK.init (c := c) (T := T)).arch⟩,
      fun h7 h8 => hleaf.2.2 h8 (by rw [(startUB_sol t).1]; omega)⟩
  split
  · obtain ⟨e, h⟩ := sizeRuns_sound G t 1 t.maxNodes (by omega) hfit h0 (Nat.zero_le _)
    exact ⟨e, h.next⟩
  · obtain ⟨e, h⟩ := depthRuns_sound G t (min 2 (min t.maxDepth t.maxNodes))
      (min t.maxDepth t.maxNodes + 1 - min 2 (min t.maxDepth t.maxNodes)) (by omega) h0 (Nat.zero_le _)
    exact ⟨e, h.next⟩

omit G in
/-- At the depth chosen for the root the solution is real. -/
theorem rootDepth_spec {s : St} (hs : SOK c T s) {v : Node} {m : Nat} (hv : Real c.P c.mls m T v) (k d : Nat)
    (hk : min m v.numNodes ≤ k + d) : Real c.P c.mls (min (rootDepth c T v s k d) m) T v := by
  induction k generalizing d with
  | zero => exact (hv.depth_min (Nat.le_refl _)).mono (by simp only [rootDepth]; omega)
  | succ k ih =>
    unfold rootDepth
    split
    · rename_i h
      have h1 := hs.hit (c := c) (sel_nil T).symm d v.numNodes
      rw [h.2] at h1
      have h2 := (h1.real hv.nonempty).1
      rcases Nat.le_total d m with hd | hd
      · rw [Nat.min_eq_left hd]; exact h2
      · rw [Nat.min_eq_right hd]; exact hv
    · exact ih (d + 1) (by omega)

omit G in
theorem SOK.clock {s : St} (h : SOK c T s) (k : Nat → Bool) : SOK { c with clock := k } T s := ⟨h.cache, h.arch⟩

theorem Base.clock (k : Nat → Bool) : Base { c with clock := k } T :=
  ⟨G.labels, G.bc, G.nonneg, G.worst, G.small, G.custom, G.md, G.sorted, G.inRange, G.order, G.worstPer, G.simInst⟩

/-- **The returned tree.** A run with a result returns a tree; it is legal and not too deep. With an exact
search (`O`) and no depth-two solver its cost is at most the value found. -/
theorem returned_spec (O : Prop) (t : Top) {e : Nat} {r : Run} (hr : RunS c t T e r)
    (hmay : c.useTerm = true → ∀ f, f < c.P.nF → c.P.may f = true)
    (hO : O → (Good { c with clock := fun _ => true } T ∧ c.useTerm = false) ∧ StOK { c with clock := fun _ => true } T r.st) :
    (returned c T r = none ∧ r.result.sol = c.worst) ∨
    ∃ tr, returned c T r = some (some tr) ∧ tr.depth ≤ t.maxDepth ∧ tr.Legal c.P c.mls T ∧
      (O → tr.cost c.P T ≤ r.result.sol) := by
  unfold returned
  by_cases hw : r.result.sol = c.worst
  · exact .inl ⟨by rw [if_pos hw], hw⟩
  right
  rw [if_neg hw]
  dsimp only
  have hv : ViewOf T T := List.Sublist.refl T
  have hne : r.result.isEmpty = false := (G.ne_iff hv hr.sound).2 (by have := G.sound_le hv hr.sound; omega)
  have h1 := hr.sound.real hne
  have hlog : min r.maxDepthSearched r.result.numNodes ≤
      min r.maxDepthSearched r.result.numNodes + 1 - Nat.log2 (r.result.numNodes + 1) + Nat.log2 (r.result.numNodes + 1) := by omega
  have h2 := rootDepth_spec hr.st (h1.1.mono hr.le) _ _ hlog
  generalize hd : min (rootDepth c T r.result r.st (min r.maxDepthSearched r.result.numNodes + 1 - Nat.log2 (r.result.numNodes + 1))
    (Nat.log2 (r.result.numNodes + 1))) r.maxDepthSearched = d at h2 ⊢
  have hdm : d ≤ t.maxDepth := by have := hr.mds; omega
  obtain ⟨tr, q1, q2, q3, _, q5⟩ := construct_spec (c := { c with clock := fun _ => true }) (G.clock _) O (fun o => (hO o).1)
    (fun _ => rfl) hmay (d + 1) r.result T [] d r.result.numNodes r.st (Nat.lt_succ_self _) (sel_nil T).symm h2 (Nat.le_refl _)
    (hr.st.clock _) (fun o => (hO o).2)
  exact ⟨tr, by rw [q1], by omega, q3, fun o => (q5 o).2⟩

end

section
variable {c : Cfg} {T : Data} (G : Good c T) (hu : c.useTerm = false)
include G hu

theorem depthRuns_st (t : Top) (hm : c.mls ≤ T.length) (a m : Nat) (hmd : a + m ≤ t.maxDepth + 1) (r : Run)
    (hr : RunOK c t T r) (hs : StOK c T r.st) : StOK c T (depthRuns c t T (List.range' a m) r).st := by
  induction m generalizing a r with
  | zero => exact hs
  | succ m ih =>
    simp only [List.range'_succ, depthRuns]
    have hpos : 1 ≤ 2 ^ a := Nat.one_le_two_pow
    have hstep := run_step G t hr hs hm (d := a) (n := min t.maxNodes (2 ^ a - 1)) (by omega) (by omega)
      (.inl hu) (by omega) false a a
    dsimp only at hstep
    obtain ⟨g1, _, g3, _, _⟩ := hstep
    change RunOK c t T (depthRun c t T r a) at g1
    change _ → StOK c T (depthRun c t T r a).st at g3
    generalize depthRun c t T r a = r1 at g1 g3
    have g3 := g3 (fun _ h => by rw [hu] at h; simp at h)
    split
    · exact g3.next
    · exact ih (a + 1) (by omega) { r1 with st := r1.st.next } ⟨g1.real, g1.emp, g1.ubE, g1.ubN⟩ g3.next

theorem sizeRuns_st (t : Top) (hm : c.mls ≤ T.length) (a m : Nat) (hmn : a + m ≤ t.maxNodes + 1)
    (hfit : t.maxNodes + 1 ≤ 2 ^ t.maxDepth) (r : Run)
    (hr : RunOK c t T r) (hs : StOK c T r.st) : StOK c T (sizeRuns c t T (List.range' a m) r).st := by
  induction m generalizing a r with
  | zero => exact hs
  | succ m ih =>
    simp only [List.range'_succ, sizeRuns]
    split
    · exact hs.next
    have hp : a + 1 ≤ 2 ^ (min t.maxDepth a) := by
      rcases Nat.le_total t.maxDepth a with h | h
      · rw [Nat.min_eq_left h]; omega
      · rw [Nat.min_eq_right h]; exact Nat.lt_two_pow_self
    have rn : RunOK c t T { r with st := r.st.next } := ⟨hr.real, hr.emp, hr.ubE, hr.ubN⟩
    have hstep := run_step G t rn hs.next hm (d := min t.maxDepth a) (n := a) (by omega) (by omega)
      (.inl hu) hp true (min t.maxDepth a) (Nat.log2 (a + 1))
    dsimp only at hstep
    obtain ⟨g1, _, g3, _, _⟩ := hstep
    change RunOK c t T (sizeRun c t T { r with st := r.st.next } a) at g1
    change _ → StOK c T (sizeRun c t T { r with st := r.st.next } a).st at g3
    generalize sizeRun c t T { r with st := r.st.next } a = r1 at g1 g3
    have g3 := g3 (fun _ h => by rw [hu] at h; simp at h)
    split
    · exact g3.next
    · exact ih (a + 1) (by omega) { r1 with st := r1.st.next } ⟨g1.real, g1.emp, g1.ubE, g1.ubN⟩ g3.next

/-- Without the depth-two solver the caches hold facts at the end of the run. -/
theorem solve_st (t : Top) (hm : c.mls ≤ T.length) (hfit : t.maxNodes + 1 ≤ 2 ^ t.maxDepth) :
    StOK c T (solve c t T).1.st := by
  have hstart : (if (Node.empty c.worst).isEmpty = true then solveLeaf c T (Node.addMin (Node.empty c.worst) (Node.value t.ub))
      else (Node.empty c.worst, Node.empty c.worst)) = solveLeaf c T (startUB c t) := by
    rw [if_pos (by rfl)]; rfl
  unfold solve solveFrom
  dsimp only
  rw [hstart]
  have h0 := start_ok G t hm t.maxDepth { St.init with mdf := 0 }
  have hs0 : StOK c T { St.init with mdf := 0 } :=
    ⟨CInv.init c T _, fun d p hp => by simp [St.init, Tbl.get] at hp⟩
  split
  · exact (sizeRuns_st G hu t hm 1 t.maxNodes (by omega) hfit _ h0 hs0).next
  · exact (depthRuns_st G hu t hm (min 2 (min t.maxDepth t.maxNodes))
      (min t.maxDepth t.maxNodes + 1 - min 2 (min t.maxDepth t.maxNodes)) (by omega) _ h0 hs0).next

omit hu in
theorem Good.clock (k : Nat → Bool) : Good { c with clock := k } T :=
  ⟨G.labels, G.bc, G.bcLB, G.nonneg, G.small, G.mls, G.term, G.sim, G.sparse, G.custom, G.md, G.sorted, G.inRange, G.order,
    G.redundant, G.worstPer, G.simInst⟩

omit G hu in
theorem EntryOK.clock {H : Prop} {D : Data} {e : Entry} (h : EntryOK c H D e) (hH : H) (k : Nat → Bool) (H' : Prop) :
    EntryOK { c with clock := k } H' D e :=
  ⟨h.real, fun _ he => h.opt hH he, fun _ he => h.lb hH he⟩

omit G hu in
theorem StOK.clock {s : St} (h : StOK c T s) (hH : AllOK c s.tick) (k : Nat → Bool) :
    StOK { c with clock := k } T s :=
  ⟨⟨fun b es e x hx => (h.cache.br b es e x hx).clock hH k _, fun D es v e x hx => (h.cache.ds D es v e x hx).clock hH k _⟩,
    h.arch⟩

omit hu in
/-- A good configuration is a sound one. -/
theorem Good.base (hc : ∀ D, ViewOf T D → c.customLB D ≤ c.worst) (hw : ∀ k, 0 ≤ c.worstPer k ∨ ∀ i ∈ T, i.label ≠ k)
    (hw0 : 0 ≤ c.worst) (hs : ∀ w, c.simInst = some w → ∀ i ∈ T, 0 ≤ w i) : Base c T :=
  ⟨G.labels, G.bc, G.nonneg, hw0, G.small, hc, G.md.1, G.sorted, G.inRange,
    fun D f h => (G.order D f).1 h, hw, hs⟩

end
end Streed
