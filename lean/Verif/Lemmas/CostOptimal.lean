import Verif.Lemmas.CostSolve

/-! The search with test costs that depend on the path meets its specification. -/

namespace Streed.Ctx

/-- What the results of the depth-two solver state about `D` below path `b`. -/
structure TermSpec (c : Cfg) (τ : Prices) (b : Branch) (D : Data) (n : Nat) (r : TResults) : Prop where
  q1 : Sound c.P τ c.mls c.worst 1 1 b D r.one
  q2 : Sound c.P τ c.mls c.worst 2 2 b D r.two
  q3 : Sound c.P τ c.mls c.worst 2 3 b D r.three
  one : ∀ t : Tree, t.depth ≤ 1 → t.Legal c.P c.mls D → r.one.sol ≤ cost c.P τ b t D
  two : n ≠ 1 → r.two.sol ≤ r.one.sol
  three : n ≠ 1 → ∀ t : Tree, t.depth ≤ 2 → t.Legal c.P c.mls D → r.three.sol ≤ cost c.P τ b t D
  emp : n = 1 → r.two = Node.empty c.worst ∧ r.three = Node.empty c.worst

theorem Real.move {c : Cfg} {τ : Prices} {b b' : Branch} {D : Data} {d : Nat} {v : Node} (h : Real c.P τ c.mls d b' D v)
    (hd : d ≤ 2) (hs : Same c τ D b b') : Real c.P τ c.mls d b D v := by
  obtain ⟨t, h1, h2, h3, h4⟩ := h
  exact ⟨t, h1, h2, h3, by rw [hs t (by omega) h3]; exact h4⟩

theorem Sound.move {c : Cfg} {τ : Prices} {b b' : Branch} {D : Data} {d n : Nat} {v : Node}
    (h : Sound c.P τ c.mls c.worst d n b' D v) (hd : d ≤ 2) (hs : Same c τ D b b') :
    Sound c.P τ c.mls c.worst d n b D v := by
  rcases h with h | ⟨h, h'⟩
  · exact .inl h
  · exact .inr ⟨h.move hd hs, h'⟩

theorem TermSpec.move {c : Cfg} {τ : Prices} {b b' : Branch} {D : Data} {n n' : Nat} {r : TResults} (h : TermSpec c τ b' D n' r)
    (hs : Same c τ D b b') (hn : n = 1 ↔ n' = 1) : TermSpec c τ b D n r :=
  ⟨h.q1.move (by decide) hs, h.q2.move (by decide) hs, h.q3.move (by decide) hs,
    fun t h1 h2 => by rw [hs t (by omega) h2]; exact h.one t h1 h2, fun h1 => h.two fun h2 => h1 (hn.2 h2),
    fun h1 t h2 h3 => by rw [hs t h2 h3]; exact h.three (fun h4 => h1 (hn.2 h4)) t h2 h3, fun h1 => h.emp (hn.1 h1)⟩

section
variable {c : Cfg} {τ : Prices} {T : Data} {m : Nat} (G : Good c τ T m)
include G

theorem results_spec {b : Branch} {D : Data} {n : Nat} (hD : D = sel b T) (hm : c.mls ≤ D.length) (ht : c.useTerm = true)
    (h2 : n ≠ 1 → 2 ≤ m) : TermSpec c τ b D n (results c τ D b n) := by
  have hv1 : ViewOf T D := by rw [hD]; exact sel_view b T
  obtain ⟨hmls, hu⟩ := G.term ht
  have etc : c.tc = tcOf c.P c.mls c.worst := rfl
  have hsnd := terminal_sound c.P τ c.mls c.worst b D G.side n
  have er : results c τ D b n = terminal (tcOf c.P c.mls c.worst) (statsOf c.P D) (τ b) (table τ b) b n := rfl
  rw [← er] at hsnd
  refine ⟨hsnd.1, hsnd.2.1, hsnd.2.2, fun t h1 h2 => ?_, fun hn => ?_, fun hn t h1 h3 => ?_, fun hn => ?_⟩
  · have h3 := oneNode_le c.P τ c.mls c.worst b D (G.prices b) t h1 h2
    rw [er]
    unfold terminal
    rw [if_neg (by simp only [statsOf, tcOf]; omega)]
    dsimp only
    split
    · exact h3
    · split <;> exact h3
  · rw [er]
    unfold terminal
    rw [if_neg (by simp only [statsOf, tcOf]; omega)]
    dsimp only
    rw [if_neg hn]
    split <;> exact addMin_le_right _ _
  · have hw := G.small b t (by have := h2 hn; omega) (by rw [← hD]; exact h3)
    rw [← hD] at hw
    have h4 := terminal_three_le c.P τ c.worst b D G.side G.prices n hn (by rw [hD]; exact sel_pathOK b T)
      (fun i hi => G.nonneg i (hv1.subset hi)) t h1 (by rw [← hmls]; exact h3) hw
    rw [er, hmls]; exact h4
  · subst hn
    rw [er]; unfold terminal; split
    · exact ⟨rfl, rfl⟩
    · exact ⟨rfl, rfl⟩

/-- Remembered results are results for the present path too. -/
theorem recall_spec {k : Nat} {b : Branch} {D : Data} {n : Nat} {M : TMem} (hM : MemOK c τ T m M) (hr : Reach c T k b)
    (hk : k = 0 ∨ k + 2 ≤ m) (h2 : n ≠ 1 → k + 2 ≤ m) (hD : D = sel b T) (hm : c.mls ≤ D.length) (ht : c.useTerm = true) :
    TermSpec c τ b D n (recall c τ D b n M).1 ∧ MemOK c τ T m (recall c τ D b n M).2 := by
  have hv1 : ViewOf T D := by rw [hD]; exact sel_view b T
  have fresh : TermSpec c τ b D n (results c τ D b n) ∧ MemOK c τ T m (some (D, n, results c τ D b n)) :=
    ⟨results_spec G hD hm ht (fun h => by have := h2 h; omega), k, b, hr, hk, h2, hD, hm, rfl⟩
  unfold recall
  cases M with
  | none => exact fresh
  | some p =>
    obtain ⟨E, n', r⟩ := p
    have hM' := hM
    obtain ⟨k', b', g1, g2, g3, g4, g5, g6⟩ := hM'
    unfold unchanged
    dsimp only
    split
    · rename_i heq
      split at heq
      · rename_i hc
        simp only [Option.some.injEq] at heq
        subst heq
        simp only [Bool.and_eq_true, beq_iff_eq] at hc
        have hE : E = D := diff_zero G (by rw [g4]; exact sel_view b' T) hv1 hc.2
        subst hE
        refine ⟨?_, hM⟩
        rw [g6]
        have hsame := G.stable ht k k' b b' hr g1 hk g2 (by rw [← hD, ← g4]) (by rw [← hD]; exact hm)
        rw [← hD] at hsame
        refine (results_spec G g4 g5 ht (fun h => by have := g3 h; omega)).move hsame ?_
        have := hc.1
        by_cases h1 : n = 1 <;> by_cases h2 : n' = 1 <;> simp [h1, h2] at this ⊢
      · simp at heq
    · exact fresh

theorem lowerCached_spec {H : Prop} {s : St} (hs : CInv c τ T H s.cache) {D : Data} {b : Branch} (hD : D = sel b T) (n : Nat) (q : Nat)
    {l : Nat} {w : Node} (h : lowerCached c s D b n q = some (l, w)) :
    l ≤ q ∧ Real c.P τ c.mls l b D w ∧ w.numNodes ≤ n := by
  induction q with
  | zero => simp [lowerCached] at h
  | succ q ih =>
    unfold lowerCached at h
    dsimp only at h
    split at h
    · rename_i hc
      have h1 := retrieveOpt_spec hs G.ds hD (isOptCached_retrieve hc)
      simp only [Option.some.injEq, Prod.mk.injEq] at h
      obtain ⟨rfl, rfl⟩ := h
      refine ⟨Nat.le_refl _, h1.1.1, ?_⟩
      have := h1.1.2; omega
    · have := ih h
      exact ⟨by omega, this.2⟩

/-- The leaf result as the result of a call with any budget that allows only leaves. -/
theorem leaf_post {b : Branch} {D : Data} (hD : D = sel b T) (hm : c.mls ≤ D.length) (UB : Node) (d n : Nat) (s s' : St)
    (ht : s.tick ≤ s'.tick) (hs : StOK c τ T m s') (hl : ∀ t, Allowed c.P c.mls d n D t → ∃ k, t = .leaf k) :
    Post c τ T m b D UB d n s ((solveLeaf c D UB).1, s') := by
  obtain ⟨h1, h2⟩ := solveLeaf_spec G hD hm UB
  refine ⟨ht, fun _ => hs, fun he => ?_, fun he => (h1 he).1, fun _ he t ht => ?_, fun _ he t ht => ?_⟩
  · have := (h2 he).1
    exact ⟨this.mono (Nat.zero_le _), by rw [this.numNodes_zero]; exact Nat.zero_le _⟩
  · obtain ⟨k, rfl⟩ := hl t ht
    exact (h2 he).2.2 k ht.2.2.1
  · obtain ⟨k, rfl⟩ := hl t ht
    exact (h1 he).2.2 k ht.2.2.1

/-- The local variables before the feature loop. -/
theorem start_spec {D : Data} {b : Branch} {d n : Nat} (hdm : d ≤ m) {s : St} (hs : StOK c τ T m s) (hD : D = sel b T)
    (hm : c.mls ≤ D.length) (UB : Node) :
    LocOK c τ b D d n UB (startLoc c D b UB d n s) ∧
    ∀ k, k < c.P.nL → ((startLoc c D b UB d n s).sols.isEmpty = false → (startLoc c D b UB d n s).sols.sol ≤ leafCost c.P D k) ∧
      ((startLoc c D b UB d n s).sols.isEmpty = true → c.useUB = true ∧ UB.sol < leafCost c.P D k) := by
  obtain ⟨h1, h2⟩ := solveLeaf_spec G hD hm UB
  unfold startLoc
  generalize solveLeaf c D UB = lf at h1 h2
  have base : LocOK c τ b D d n UB ⟨lf.1, lf.2, Node.empty c.worst⟩ ∧
      ∀ k, k < c.P.nL → (lf.1.isEmpty = false → lf.1.sol ≤ leafCost c.P D k) ∧
      (lf.1.isEmpty = true → c.useUB = true ∧ UB.sol < leafCost c.P D k) := by
    refine ⟨⟨fun he => ?_, fun he hu => (h2 he).2.1 hu, fun he => ⟨(h1 he).1, (h1 he).2.1⟩⟩,
      fun k hk => ⟨fun he => (h2 he).2.2 k hk, fun he => (h1 he).2.2 k hk⟩⟩
    have := (h2 he).1
    exact ⟨this.mono (Nat.zero_le _), by dsimp only; rw [this.numNodes_zero]; exact Nat.zero_le _⟩
  dsimp only
  cases hlow : lowerCached c s D b n (d - 1) with
  | none => exact base
  | some p =>
    obtain ⟨l, w⟩ := p
    obtain ⟨a1, a2, a3⟩ := lowerCached_spec G hs.cache hD n (d - 1) hlow
    have a2' : Real c.P τ c.mls d b D w := a2.mono (by omega)
    have hsm := Real.small G hD (by omega) a2
    have hne := a2.nonempty
    dsimp only
    split
    · exact base
    · rename_i hc
      have hle : c.useUB = true → w.sol ≤ lf.2.sol := fun hu => by
        by_contra hcon; exact hc ⟨hu, by omega⟩
      have hUB : c.useUB = true → (Node.addMin lf.2 w).sol = w.sol := by
        intro hu
        have := hle hu
        unfold Node.addMin; split <;> omega
      cases he : lf.1.isEmpty with
      | true =>
        obtain ⟨e1, e2, e3⟩ := h1 he
        have ew : Node.addMin lf.1 w = w := by rw [e1]; exact if_pos hsm
        rw [ew]
        refine ⟨⟨fun _ => ⟨a2', a3⟩, fun _ hu => ⟨hUB hu, ?_⟩, fun h => ?_⟩, fun k hk => ⟨fun _ => ?_, fun h => ?_⟩⟩
        · have := hle hu; rw [e2] at this; exact this
        · dsimp only at h; rw [hne] at h; simp at h
        · have h4 := e3 k hk
          have := hle h4.1; rw [e2] at this
          dsimp only; omega
        · dsimp only at h; rw [hne] at h; simp at h
      | false =>
        obtain ⟨e1, e2, e3⟩ := h2 he
        have hne2 : (Node.addMin lf.1 w).isEmpty = false := by
          rcases addMin_cases lf.1 w with h | h <;> rw [h] <;> assumption
        refine ⟨⟨fun _ => ?_, fun _ hu => ⟨?_, ?_⟩, fun h => ?_⟩, fun k hk => ⟨fun _ => ?_, fun h => ?_⟩⟩
        · rcases addMin_cases lf.1 w with h | h <;> dsimp only <;> rw [h]
          · exact base.1.real he
          · exact ⟨a2', a3⟩
        · have h4 := hle hu
          have h5 := (e2 hu).1
          dsimp only
          rw [hUB hu]
          unfold Node.addMin; split <;> omega
        · exact Int.le_trans (addMin_le_left _ _) (e2 hu).2
        · dsimp only at h; rw [hne2] at h; simp at h
        · exact Int.le_trans (addMin_le_left _ _) (e3 k hk)
        · dsimp only at h; rw [hne2] at h; simp at h

omit G in
theorem StOK.setCache {s : St} (h : StOK c τ T m s) {C : Cache} (hC : CInv c τ T (AllOK c s.tick) C) :
    StOK c τ T m { s with cache := C } := ⟨hC, h.mem⟩

theorem generalCase_spec {rec : Rec} {k : Nat} {D : Data} {b : Branch} {d n : Nat} {UB : Node} {s : St}
    (hrec : RecOK c τ T m rec (d - 1)) (hr : Reach c T k b) (hk : k + d ≤ m) (hD : D = sel b T) (hm : c.mls ≤ D.length)
    (hd : 1 ≤ d) (hn : 1 ≤ n) (hp : n + 1 ≤ 2 ^ d) (hb : BudOK c d n) (ht : c.useTerm = true → 3 ≤ d) (hs : StOK c τ T m s) :
    Post c τ T m b D UB d n s (generalCase c τ rec D b UB d n s) := by
  unfold generalCase
  dsimp only
  split
  · rename_i hlen
    refine leaf_post G hD hm UB d n s s (Nat.le_refl _) hs fun t ht => ?_
    cases t with
    | leaf k => exact ⟨k, rfl⟩
    | node f l r => have := ht.2.2.length_node; omega
  · have hst := start_spec G (d := d) (n := n) (by omega) hs hD hm UB
    generalize startLoc c D b UB d n s = v0 at hst
    obtain ⟨l0, k0⟩ := hst
    have hblb : AllOK c s.tick → LowB c τ d n b D (computeLB c s D b d n).sol := fun hH =>
      (computeLB_spec G hs hD d n hH).lower hb
    have hf := featLoop_spec G hrec hr hk hD hd hn hp hb ht (c.order D) (fun f hf => (G.order D f).1 hf) v0 s (fun _ => False)
      hs l0 hblb (fun _ _ h => h.elim) (fun _ h => h.elim)
    generalize featLoop c τ rec D b d n (computeLB c s D b d n) (c.order D) v0 s = r at hf
    obtain ⟨t1, s1, l1, st1, c1⟩ := hf
    -- every allowed tree is accounted for
    have fin : AllOK c r.2.tick → ∀ t, Allowed c.P c.mls d n D t → Covers c UB r.1 (cost c.P τ b t D) := by
      intro hH t ht
      cases t with
      | node f l rr => exact c1 hH _ (.inr ⟨f, (G.order D f).2 ht.2.2.1, l, rr, ht, rfl⟩)
      | leaf k =>
        have hk := ht.2.2.1
        obtain ⟨k1, k2⟩ := k0 k hk
        have hval : cost c.P τ b (Tree.leaf k) D = leafCost c.P D k := rfl
        rw [hval]
        refine ⟨fun he => ?_, fun he => ?_⟩
        · cases he0 : v0.sols.isEmpty with
          | false => exact Int.le_trans (st1 he0).2 (k1 he0)
          | true =>
            have h3 := k2 he0
            have := (l1.ub he h3.1).2
            omega
        · have he0 : v0.sols.isEmpty = true := by
            cases he0 : v0.sols.isEmpty with
            | true => rfl
            | false => rw [(st1 he0).1] at he; simp at he
          exact k2 he0
    have low : AllOK c r.2.tick → r.1.sols.isEmpty = false → LowB c τ d n b D r.1.sols.sol :=
      fun hH he t ht => (fin hH t ht).1 he
    have hC : c.useLB = false → CInv c τ T (AllOK c r.2.tick) (if r.1.sols.isEmpty = false then r.2.cache.storeOpt c.cc D b r.1.sols d n
        else r.2.cache.updateLB c.cc D b (if r.1.inf.sol = c.worst then UB else Node.addMax r.1.inf UB) d n) := by
      intro hulb
      split
      · rename_i he
        obtain ⟨g1, g2⟩ := l1.real he
        exact storeOpt_inv s1.cache hD g1 g2 fun hH => (low hH he).lbok
      · rw [updateLB_off hulb]; exact s1.cache
    rw [updateArchive_off G.sim]
    refine ⟨t1, fun h => s1.setCache (hC ?_), l1.real, fun he => (l1.emp he).1, low, fun hH he t ht => (fin hH t ht).2 he⟩
    cases hu : c.useLB with
    | false => rfl
    | true =>
      have h1 := (h hu).1
      have h2 := ht (G.lb hu).1
      omega

omit G in
theorem storeTerminal_inv {H : Prop} {C : Cache} (hC : CInv c τ T H C) {D : Data} {b : Branch} (hD : D = sel b T)
    {UB v : Node} {d n : Nat}
    (hv : v.isEmpty = false → Real c.P τ c.mls d b D v ∧ v.numNodes ≤ n ∧ (H → LBOK c τ d n b D v.sol))
    (he : c.useLB = true → v.isEmpty = true → UB.isEmpty = true) : CInv c τ T H (storeTerminal c D b UB v d n C) := by
  unfold storeTerminal
  split
  · exact hC
  · split
    · rename_i h
      obtain ⟨h1, h2, h3⟩ := hv h
      exact storeOpt_inv hC hD h1 h2 h3
    · rename_i h
      cases hulb : c.useLB with
      | false => rw [updateLB_off hulb]; exact hC
      | true =>
        have h := he hulb (by simpa using h)
        exact updateLB_inv hC hD fun _ h' => by rw [h] at h'; simp at h'

theorem solveTerminal_spec {k : Nat} {D : Data} {b : Branch} {d n : Nat} {UB : Node} {s : St} (hr : Reach c T k b)
    (hk : k + d ≤ m) (h2 : k = 0 ∨ 2 ≤ d) (hD : D = sel b T)
    (hm : c.mls ≤ D.length) (hd : 1 ≤ d) (hd2 : d ≤ 2) (hb : BudOK c d n) (ht : c.useTerm = true) (hs : StOK c τ T m s) :
    Post c τ T m b D UB d n s (solveTerminal c τ D b UB d n s) := by
  obtain ⟨hmls, hu⟩ := G.term ht
  have hpow : n + 1 = 2 ^ d := by
    rcases hb with h | h
    · rw [ht] at h; simp at h
    · exact h
  have hdn : (d = 1 ∧ n = 1) ∨ (d = 2 ∧ n = 3) := by
    have : d = 1 ∨ d = 2 := by omega
    rcases this with rfl | rfl <;> omega
  have lsm : leafCost c.P D 0 < c.worst := by
    have := G.small b (.leaf 0) (Nat.zero_le _) ⟨G.labels, by rw [← hD]; exact hm⟩
    rw [← hD] at this; exact this
  have h3 : n ≠ 1 → k + 2 ≤ m := fun h => by omega
  unfold solveTerminal
  dsimp only
  generalize decide (probe c.P.nL D s.mem1 < probe c.P.nL D s.mem2) = first
  have hx := recall_spec G (M := if first = true then s.mem1 else s.mem2) (by split; exacts [hs.mem.1, hs.mem.2]) hr (by omega) h3 hD hm ht
  generalize recall c τ D b n (if first = true then s.mem1 else s.mem2) = x at hx
  obtain ⟨hx, hmem⟩ := hx
  generalize x.1 = r at hx
  have hleaf : r.one.sol < c.worst :=
    Int.lt_of_le_of_lt (hx.one (.leaf 0) (Nat.zero_le _) ⟨G.labels, hm⟩) lsm
  have hne1 : r.one.isEmpty = false := (hx.q1.real_lt hleaf).1.nonempty
  have lb1 : LBOK c τ 1 1 b D r.one.sol := LowB.lbok fun t ht => hx.one t ht.1 ht.2.2
  have lb2 : n ≠ 1 → LBOK c τ 2 2 b D r.two.sol := by
    intro hn d' n' hb' hd' hn' t ht'
    have : d' ≤ 1 := by
      rcases hb' with h | h
      · rw [ht] at h; simp at h
      · have : d' = 0 ∨ d' = 1 ∨ d' = 2 := by omega
        rcases this with rfl | rfl | rfl
        · omega
        · omega
        · omega
    exact Int.le_trans (hx.two hn) (hx.one t (by have := ht'.1; omega) ht'.2.2)
  have lb3 : n ≠ 1 → LBOK c τ 2 3 b D r.three.sol := fun hn => LowB.lbok fun t ht => hx.three hn t ht.1 ht.2.2
  have hne2 : n ≠ 1 → r.two.isEmpty = false := fun hn => (hx.q2.real_lt (by have := hx.two hn; omega)).1.nonempty
  have hne3 : n ≠ 1 → r.three.isEmpty = false := fun hn => by
    refine (hx.q3.real_lt ?_).1.nonempty
    exact Int.lt_of_le_of_lt (hx.three hn (.leaf 0) (Nat.zero_le _) ⟨G.labels, hm⟩) lsm
  have hC : (c.useLB = true → n = 1 → UB.isEmpty = true) → CInv c τ T (AllOK c s.tick)
      (storeTerminal c D b UB r.three 2 3 (storeTerminal c D b UB r.two 2 2 (storeTerminal c D b UB r.one 1 1 s.cache))) := by
    intro hUB
    have e23 : ∀ v : Node, (n ≠ 1 → v.isEmpty = false) → c.useLB = true → v.isEmpty = true → UB.isEmpty = true := by
      intro v hv hl he
      apply hUB hl
      by_contra hn
      rw [hv hn] at he; simp at he
    refine storeTerminal_inv (storeTerminal_inv (storeTerminal_inv hs.cache hD ?_ ?_) hD ?_ (e23 _ hne2)) hD ?_ (e23 _ hne3)
    · intro he
      exact ⟨(hx.q1.real he).1, (hx.q1.real he).2, fun _ => lb1⟩
    · intro _ he; rw [hne1] at he; simp at he
    · intro he
      refine ⟨(hx.q2.real he).1, (hx.q2.real he).2, fun _ => lb2 fun hn => ?_⟩
      rw [(hx.emp hn).1] at he; simp [Node.empty, Node.isEmpty] at he
    · intro he
      refine ⟨(hx.q3.real he).1, (hx.q3.real he).2, fun _ => lb3 fun hn => ?_⟩
      rw [(hx.emp hn).2] at he; simp [Node.empty, Node.isEmpty] at he
  rw [updateArchive_off G.sim]
  generalize hs' : ({ s with
      cache := storeTerminal c D b UB r.three 2 3 (storeTerminal c D b UB r.two 2 2 (storeTerminal c D b UB r.one 1 1 s.cache)),
      mem1 := if first = true then x.2 else s.mem1, mem2 := if first = true then s.mem2 else x.2 } : St) = s'
  have hst : (c.useLB = true → d ≤ 2 ∧ (n = 1 → UB.isEmpty = true)) → StOK c τ T m s' := by
    intro h
    subst hs'
    refine ⟨hC fun hl hn => (h hl).2 hn, ?_, ?_⟩ <;> dsimp only <;> split
    exacts [hmem, hs.mem.1, hs.mem.2, hmem]
  have htick : s'.tick = s.tick := by rw [← hs']
  have main : ∀ v : Node, v.isEmpty = false → Real c.P τ c.mls d b D v → v.numNodes ≤ n → LowB c τ d n b D v.sol →
      Post c τ T m b D UB d n s (if UB.sol < v.sol then Node.empty c.worst else v, s') := by
    intro v hv1 hv2 hv3 hv4
    refine ⟨by rw [htick], hst, ?_, ?_, ?_, ?_⟩ <;> dsimp only
    · split
      · intro h; simp [Node.empty, Node.isEmpty] at h
      · exact fun _ => ⟨hv2, hv3⟩
    · split
      · exact fun _ => rfl
      · intro h; rw [hv1] at h; simp at h
    · split
      · intro _ h; simp [Node.empty, Node.isEmpty] at h
      · exact fun _ _ t ht => hv4 t ht
    · split
      · rename_i hlt
        intro _ _ t ht
        have := hv4 t ht
        exact ⟨hu, by omega⟩
      · intro _ h; rw [hv1] at h; simp at h
  rcases hdn with ⟨rfl, rfl⟩ | ⟨rfl, rfl⟩
  · rw [if_pos rfl]
    exact main _ hne1 (hx.q1.real hne1).1 (hx.q1.real hne1).2 (lb1.lower hb)
  · have h3 := hne3 (by decide)
    exact main _ h3 (hx.q3.real h3).1 (hx.q3.real h3).2 ((lb3 (by decide)).lower hb)

omit G in
/-- Shift the start of a call. -/
theorem Post.shift {b : Branch} {D : Data} {UB : Node} {d n : Nat} {s s' : St} {r : Node × St} (h : Post c τ T m b D UB d n s' r)
    (ht : s.tick ≤ s'.tick) : Post c τ T m b D UB d n s r := ⟨Nat.le_trans ht h.tick, h.st, h.real, h.emp, h.low, h.inf⟩

theorem subTree_spec {rec : Rec} {k : Nat} {D : Data} {b : Branch} {d n : Nat} {UB : Node} {s : St}
    (hrec : 1 ≤ d → RecOK c τ T m rec (d - 1)) (hr : Reach c T k b) (hk : k + d ≤ m) (h2 : c.useTerm = true → k = 0 ∨ 2 ≤ d)
    (hD : D = sel b T) (hm : c.mls ≤ D.length) (hp : n + 1 ≤ 2 ^ d)
    (hb : BudOK c d n) (hs : StOK c τ T m s) : Post c τ T m b D UB d n s (subTree c τ rec D b UB d n s) := by
  have tn : s.tick ≤ s.next.tick := Nat.le_succ _
  unfold subTree
  split
  · rename_i hok
    have hno := not_AllOK_next hok
    exact ⟨tn, fun _ => hs.next, fun h => by simp [Node.empty, Node.isEmpty] at h, fun _ => rfl,
      fun h => absurd h hno, fun h => absurd h hno⟩
  dsimp only
  split
  · rename_i h0
    refine leaf_post G hD hm UB d n s s.next tn hs.next fun t ht => leaf_of_depth_zero ?_
    have h1 := ht.1
    have h2 := ht.2.1
    omega
  · rename_i h0
    have hd : 1 ≤ d := by omega
    have hn : 1 ≤ n := by omega
    have hit : ∀ s' : St, StOK c τ T m s' → s.tick ≤ s'.tick → (s'.cache.retrieveOpt c.cc D b d n).isEmpty = false →
        Post c τ T m b D UB d n s (s'.cache.retrieveOpt c.cc D b d n, s') := by
      intro s' hs' ht he
      obtain ⟨h1, h2⟩ := retrieveOpt_spec hs'.cache G.ds hD he
      exact ⟨ht, fun _ => hs', fun _ => h1, fun h => by dsimp only at h; rw [he] at h; simp at h,
        fun hH _ t ht => (h2 hH).lower hb t ht, fun _ h => by dsimp only at h; rw [he] at h; simp at h⟩
    have go : ∀ s' : St, StOK c τ T m s' → s.tick ≤ s'.tick → Post c τ T m b D UB d n s
        (if c.useTerm = true ∧ d ≤ 2 then solveTerminal c τ D b UB d n s' else generalCase c τ rec D b UB d n s') := by
      intro s' hs' ht
      split
      · rename_i hc
        exact (solveTerminal_spec G hr hk (h2 hc.1) hD hm hd hc.2 hb hc.1 hs').shift ht
      · rename_i hc
        refine (generalCase_spec G (hrec hd) hr hk hD hm hd hn hp hb (fun h => ?_) hs').shift ht
        by_contra hlt
        exact hc ⟨h, by omega⟩
    split
    · rename_i he
      exact hit s.next hs.next tn he
    · split
      · rename_i hulb
        rw [useSimilarity_off G.sim]
        dsimp only
        split
        · rename_i hc
          exact hit s.next hs.next tn hc.2
        · have hlb := fun hH => (computeLB_spec G hs.next hD d n hH).lower hb
          split
          · rename_i hc
            exact ⟨tn, fun _ => hs.next, fun h => by simp [Node.empty, Node.isEmpty] at h, fun _ => rfl,
              fun _ h => by simp [Node.empty, Node.isEmpty] at h,
              fun hH _ t ht => ⟨hc.1, by have := hlb hH t ht; omega⟩⟩
          · split
            · rename_i heq
              obtain ⟨l1, l2⟩ := solveLeaf_spec (b := b) G hD hm (Node.empty c.worst)
              have hne : (solveLeaf c D (Node.empty c.worst)).1.isEmpty = false := by
                cases he : (solveLeaf c D (Node.empty c.worst)).1.isEmpty with
                | false => rfl
                | true =>
                  have h3 := ((l1 he).2.2 0 G.labels).2
                  have h4 := G.small b (.leaf 0) (Nat.zero_le _) ⟨G.labels, by rw [← hD]; exact hm⟩
                  rw [← hD] at h4
                  have h5 : cost c.P τ b (.leaf 0) D = leafCost c.P D 0 := rfl
                  simp only [Node.empty] at h3; omega
              have hre := (l2 hne).1
              refine ⟨tn, fun _ => hs.next, fun _ => ⟨hre.mono (Nat.zero_le _), ?_⟩, fun h => ?_, fun hH _ t ht => ?_, fun _ h => ?_⟩
              · rw [hre.numNodes_zero]; exact Nat.zero_le _
              · dsimp only at h; rw [hne] at h; simp at h
              · have := hlb hH t ht
                dsimp only; omega
              · dsimp only at h; rw [hne] at h; simp at h
            · exact go s.next hs.next tn
      · exact go s.next hs.next tn

/-- The recursive search meets its specification. -/
theorem solveSub_spec (fuel : Nat) : RecOK c τ T m (solveSub c τ fuel) fuel := by
  induction fuel with
  | zero =>
    intro k D b UB d n s hd hr hk h2 hD hm hb hp hs
    exact subTree_spec G (fun h => by omega) hr hk h2 hD hm hp hb hs
  | succ fuel ih =>
    intro k D b UB d n s hd hr hk h2 hD hm hb hp hs
    refine subTree_spec G (fun h => ?_) hr hk h2 hD hm hp hb hs
    intro k' D' b' UB' d' n' s' hd'
    exact ih k' D' b' UB' d' n' s' (by omega)

end

/-! ### The loops around the search -/

/-- `result` and `global_UB` are consistent. -/
structure RunOK (c : Cfg) (τ : Prices) (t : Top) (T : Data) (r : Run) : Prop where
  real : r.result.isEmpty = false → Real c.P τ c.mls t.maxDepth [] T r.result ∧ r.result.numNodes ≤ t.maxNodes
  emp : r.result.isEmpty = true → r.result = Node.empty c.worst
  ubE : c.useUB = true → r.result.isEmpty = true → r.gUB.sol = min c.worst t.ub
  ubN : c.useUB = true → r.result.isEmpty = false → min (r.result.sol - c.md) (min c.worst t.ub) ≤ r.gUB.sol

/-- The result of a run accounts for all trees of a budget that respect the given upper bound. -/
def Settled (c : Cfg) (τ : Prices) (t : Top) (T : Data) (d n : Nat) (v : Node) : Prop :=
  ∀ x, Allowed c.P c.mls d n T x → cost c.P τ [] x T ≤ t.ub → v.isEmpty = false ∧ v.sol ≤ cost c.P τ [] x T

section
variable {c : Cfg} {τ : Prices} {T : Data} {t : Top} (G : Good c τ T t.maxDepth)
include G

theorem start_ok (hm : c.mls ≤ T.length) (k : Nat) (s : St) :
    RunOK c τ t T ⟨(solveLeaf c T (startUB c t)).1, (solveLeaf c T (startUB c t)).2, k, s⟩ := by
  obtain ⟨h1, h2⟩ := solveLeaf_spec G (sel_nil T).symm hm (startUB c t)
  have hmd := G.md
  refine ⟨fun he => ?_, fun he => (h1 he).1, fun _ he => ?_, fun hu he => ?_⟩ <;> dsimp only at *
  · have := (h2 he).1
    exact ⟨this.mono (Nat.zero_le _), by rw [this.numNodes_zero]; exact Nat.zero_le _⟩
  · rw [(h1 he).2.1]; exact (startUB_sol t).1
  · have := ((h2 he).2.1 hu).1; omega

/-- The effect of a call from the top that meets its specification. -/
theorem run_post {r : Run} (hr : RunOK c τ t T r) {d n : Nat}
    (hd : d ≤ t.maxDepth) (hn : n ≤ t.maxNodes) (b : Bool) (k : Nat) (mdf : Int) {x : Node × St}
    (hpost : Post c τ T t.maxDepth [] T r.gUB d n r.st x) :
    let result := Node.addMin r.result x.1
    let r' : Run := ⟨result, tighten c b result (Node.addMin r.gUB x.1), k, { x.2 with mdf := mdf }⟩
    RunOK c τ t T r' ∧ r.st.tick ≤ r'.st.tick ∧
    ((c.useLB = true → d ≤ 2 ∧ (n = 1 → r.gUB.isEmpty = true)) → StOK c τ T t.maxDepth r'.st) ∧
    (AllOK c r'.st.tick → Settled c τ t T d n r'.result) ∧
    (r.result.isEmpty = false → r'.result.isEmpty = false ∧ r'.result.sol ≤ r.result.sol) := by
  have hmd := G.md
  dsimp only
  have hne : ∀ y : Node, y.isEmpty = false → Real c.P τ c.mls t.maxDepth [] T y → y.sol < c.worst :=
    fun y _ h => Real.small G (sel_nil T).symm (Nat.le_refl _) h
  -- the four cases of result and x
  have hres : (r.result.isEmpty = false → (Node.addMin r.result x.1).isEmpty = false) ∧
      (x.1.isEmpty = false → (Node.addMin r.result x.1).isEmpty = false) ∧
      (r.result.isEmpty = true → x.1.isEmpty = true → Node.addMin r.result x.1 = Node.empty c.worst) ∧
      (r.result.isEmpty = true → x.1.isEmpty = false → Node.addMin r.result x.1 = x.1) := by
    refine ⟨fun h1 => ?_, fun h2 => ?_, fun h1 h2 => ?_, fun h1 h2 => ?_⟩
    · rcases addMin_cases r.result x.1 with h | h <;> rw [h]
      · exact h1
      · cases h2 : x.1.isEmpty with
        | false => rfl
        | true =>
          have h3 := hpost.emp h2
          have h4 := hne _ h1 (hr.real h1).1
          unfold Node.addMin at h
          rw [h3] at h
          rw [if_neg (by simp only [Node.empty]; omega)] at h
          rw [h] at h1; simp [Node.empty, Node.isEmpty] at h1
    · rcases addMin_cases r.result x.1 with h | h <;> rw [h]
      · cases h1 : r.result.isEmpty with
        | false => rfl
        | true =>
          have h3 := hr.emp h1
          have h4 := hne _ h2 ((hpost.real h2).1.mono hd)
          unfold Node.addMin at h
          rw [h3] at h
          rw [if_pos (by simp only [Node.empty]; omega)] at h
          rw [h] at h2; simp [Node.empty, Node.isEmpty] at h2
      · exact h2
    · rw [hr.emp h1, hpost.emp h2]; unfold Node.addMin; split <;> rfl
    · have h4 := hne _ h2 ((hpost.real h2).1.mono hd)
      rw [hr.emp h1]; exact if_pos (by simp only [Node.empty]; omega)
  have hreal : (Node.addMin r.result x.1).isEmpty = false →
      Real c.P τ c.mls t.maxDepth [] T (Node.addMin r.result x.1) ∧ (Node.addMin r.result x.1).numNodes ≤ t.maxNodes := by
    intro he
    rcases addMin_cases r.result x.1 with h | h <;> rw [h] at he ⊢
    · exact hr.real he
    · have := hpost.real he
      exact ⟨this.1.mono hd, by omega⟩
  have hboth : (Node.addMin r.result x.1).isEmpty = true → r.result.isEmpty = true ∧ x.1.isEmpty = true := by
    intro h
    constructor
    · cases h1 : r.result.isEmpty with
      | true => rfl
      | false => rw [hres.1 h1] at h; simp at h
    · cases h1 : x.1.isEmpty with
      | true => rfl
      | false => rw [hres.2.1 h1] at h; simp at h
  refine ⟨⟨hreal, fun he => ?_, fun hu he => ?_, fun hu he => ?_⟩, hpost.tick, fun h => ⟨(hpost.st h).cache, (hpost.st h).mem⟩,
    fun hH y hy hub => ?_, fun he => ⟨hres.1 he, addMin_le_left _ _⟩⟩
  · dsimp only at he ⊢
    obtain ⟨e1, e2⟩ := hboth he
    exact hres.2.2.1 e1 e2
  · dsimp only at he ⊢
    obtain ⟨e1, e2⟩ := hboth he
    have h3 := hr.ubE hu e1
    rw [(tighten_sol b _ _).1 (by rw [hres.2.2.1 e1 e2]; rfl), hpost.emp e2]
    unfold Node.addMin Node.empty
    simp only
    split
    · simp only; omega
    · exact h3
  · dsimp only at he ⊢
    have h1 := hne _ he (hreal he).1
    have h2 := (tighten_sol (c := c) b (Node.addMin r.result x.1) (Node.addMin r.gUB x.1)).2 (by omega)
    have h3 : (Node.addMin r.gUB x.1).sol = min r.gUB.sol x.1.sol := by
      unfold Node.addMin; split <;> omega
    have h4 : (Node.addMin r.result x.1).sol ≤ x.1.sol := addMin_le_right _ _
    have h5 : (Node.addMin r.result x.1).sol ≤ r.result.sol := addMin_le_left _ _
    cases e1 : r.result.isEmpty with
    | false => have := hr.ubN hu e1; omega
    | true => have := hr.ubE hu e1; omega
  · have h4 : (Node.addMin r.result x.1).sol ≤ x.1.sol := addMin_le_right _ _
    have h5 : (Node.addMin r.result x.1).sol ≤ r.result.sol := addMin_le_left _ _
    have hsm : cost c.P τ [] y T < c.worst := by
      have := G.small [] y (by have := hy.1; omega) (by rw [sel_nil]; exact hy.2.2)
      rw [sel_nil] at this; exact this
    cases e2 : x.1.isEmpty with
    | false =>
      have h6 := hpost.low hH e2 y hy
      exact ⟨hres.2.1 e2, by omega⟩
    | true =>
      obtain ⟨hu, h6⟩ := hpost.inf hH e2 y hy
      cases e1 : r.result.isEmpty with
      | false =>
        have := hr.ubN hu e1
        exact ⟨hres.1 e1, by omega⟩
      | true => have := hr.ubE hu e1; omega

/-- One call of the search from the top. -/
theorem run_step {r : Run} (hr : RunOK c τ t T r) (hs : StOK c τ T t.maxDepth r.st) (hm : c.mls ≤ T.length) {d n : Nat}
    (hd : d ≤ t.maxDepth) (hn : n ≤ t.maxNodes) (hb : BudOK c d n) (hp : n + 1 ≤ 2 ^ d) (b : Bool) (k : Nat) (mdf : Int) :
    let x := solveSub c τ t.maxDepth T [] r.gUB d n r.st
    let result := Node.addMin r.result x.1
    let r' : Run := ⟨result, tighten c b result (Node.addMin r.gUB x.1), k, { x.2 with mdf := mdf }⟩
    RunOK c τ t T r' ∧ r.st.tick ≤ r'.st.tick ∧
    ((c.useLB = true → d ≤ 2 ∧ (n = 1 → r.gUB.isEmpty = true)) → StOK c τ T t.maxDepth r'.st) ∧
    (AllOK c r'.st.tick → Settled c τ t T d n r'.result) ∧
    (r.result.isEmpty = false → r'.result.isEmpty = false ∧ r'.result.sol ≤ r.result.sol) := by
  exact run_post G hr hd hn b k mdf (solveSub_spec G t.maxDepth 0 T [] r.gUB d n r.st hd .nil (by omega) (fun _ => .inl rfl)
    (sel_nil T).symm hm hb hp hs)

theorem depthRuns_spec (hm : c.mls ≤ T.length) (a m : Nat) (hmd : a + m ≤ t.maxDepth + 1)
    (hbud : ∀ d, d ≤ t.maxDepth → BudOK c d (min t.maxNodes (2 ^ d - 1)))
    (h1 : c.useTerm = true → 2 ≤ m → ∀ d, a ≤ d → min t.maxNodes (2 ^ d - 1) ≠ 1) (r : Run) (hr : RunOK c τ t T r)
    (hs : StOK c τ T t.maxDepth r.st) :
    let r' := depthRuns c τ t T (List.range' a m) r
    RunOK c τ t T r' ∧ r.st.tick ≤ r'.st.tick ∧
    (AllOK c r'.st.tick → 1 ≤ m → Settled c τ t T (a + m - 1) (min t.maxNodes (2 ^ (a + m - 1) - 1)) r'.result) := by
  induction m generalizing a r with
  | zero => exact ⟨hr, Nat.le_refl _, fun _ h => by omega⟩
  | succ m ih =>
    simp only [List.range'_succ, depthRuns]
    have hpos : 1 ≤ 2 ^ a := Nat.one_le_two_pow
    have hstep := run_step G hr hs hm (d := a) (n := min t.maxNodes (2 ^ a - 1)) (by omega) (by omega)
      (hbud a (by omega)) (by omega) false a a
    dsimp only at hstep
    obtain ⟨g1, g2, g3, g4, g5⟩ := hstep
    change RunOK c τ t T (depthRun c τ t T r a) at g1
    change r.st.tick ≤ (depthRun c τ t T r a).st.tick at g2
    change _ → StOK c τ T _ (depthRun c τ t T r a).st at g3
    change AllOK c (depthRun c τ t T r a).st.tick → Settled c τ t T _ _ (depthRun c τ t T r a).result at g4
    generalize depthRun c τ t T r a = r1 at g1 g2 g3 g4
    have gn : RunOK c τ t T { r1 with st := r1.st.next } := ⟨g1.real, g1.emp, g1.ubE, g1.ubN⟩
    split
    · rename_i hok
      refine ⟨gn, ?_, fun h => absurd h (not_AllOK_next hok)⟩
      simp only [St.next]; omega
    · cases m with
      | zero =>
        simp only [List.range'_zero, depthRuns]
        refine ⟨gn, by simp only [St.next]; omega, fun hH _ => ?_⟩
        have := g4 (hH.mono (Nat.le_succ _))
        simpa using this
      | succ m =>
        have hst : StOK c τ T t.maxDepth r1.st := g3 fun hl =>
          ⟨by have := (G.lb hl).2; omega, fun hn => absurd hn (h1 (G.lb hl).1 (by omega) a (Nat.le_refl _))⟩
        obtain ⟨i1, i2, i3⟩ := ih (a + 1) (by omega) (fun hu _ d hd => h1 hu (by omega) d (by omega))
          { r1 with st := r1.st.next } gn hst.next
        have i2' : r1.st.tick + 1 ≤ _ := i2
        refine ⟨i1, by omega, fun hH _ => ?_⟩
        · have := i3 hH (by omega)
          have e : a + 1 + (m + 1) - 1 = a + (m + 1 + 1) - 1 := by omega
          rw [e] at this; exact this

theorem sizeRuns_spec (hm : c.mls ≤ T.length) (a m : Nat) (hmn : a + m ≤ t.maxNodes + 1)
    (hfit : t.maxNodes + 1 ≤ 2 ^ t.maxDepth) (hbud : ∀ n, a ≤ n → n < a + m → BudOK c (min t.maxDepth n) n)
    (h1 : c.useTerm = true → m ≤ 1) (r : Run) (hr : RunOK c τ t T r) (hs : StOK c τ T t.maxDepth r.st) :
    let r' := sizeRuns c τ t T (List.range' a m) r
    RunOK c τ t T r' ∧ r.st.tick ≤ r'.st.tick ∧
    (AllOK c r'.st.tick → (∀ n, a ≤ n → n < a + m → Settled c τ t T (min t.maxDepth n) n r'.result) ∧
      (r.result.isEmpty = false → r'.result.isEmpty = false ∧ r'.result.sol ≤ r.result.sol)) := by
  induction m generalizing a r with
  | zero => exact ⟨hr, Nat.le_refl _, fun _ => ⟨fun n h1 h2 => by omega, fun h => ⟨h, Int.le_refl _⟩⟩⟩
  | succ m ih =>
    simp only [List.range'_succ, sizeRuns]
    have rn : RunOK c τ t T { r with st := r.st.next } := ⟨hr.real, hr.emp, hr.ubE, hr.ubN⟩
    split
    · rename_i hok
      exact ⟨rn, Nat.le_succ _, fun h => absurd h (not_AllOK_next hok)⟩
    · have hp : a + 1 ≤ 2 ^ (min t.maxDepth a) := by
        rcases Nat.le_total t.maxDepth a with h | h
        · rw [Nat.min_eq_left h]; omega
        · rw [Nat.min_eq_right h]; exact Nat.lt_two_pow_self
      have hstep := run_step G rn hs.next hm (d := min t.maxDepth a) (n := a) (by omega) (by omega)
        (hbud a (Nat.le_refl _) (by omega)) hp true (min t.maxDepth a) (Nat.log2 (a + 1))
      dsimp only at hstep
      obtain ⟨g1, g2, g3, g4, g5⟩ := hstep
      change RunOK c τ t T (sizeRun c τ t T { r with st := r.st.next } a) at g1
      change r.st.next.tick ≤ (sizeRun c τ t T { r with st := r.st.next } a).st.tick at g2
      change _ → StOK c τ T _ (sizeRun c τ t T { r with st := r.st.next } a).st at g3
      change AllOK c (sizeRun c τ t T { r with st := r.st.next } a).st.tick →
        Settled c τ t T _ _ (sizeRun c τ t T { r with st := r.st.next } a).result at g4
      change _ → (sizeRun c τ t T { r with st := r.st.next } a).result.isEmpty = false ∧
        (sizeRun c τ t T { r with st := r.st.next } a).result.sol ≤ r.result.sol at g5
      generalize sizeRun c τ t T { r with st := r.st.next } a = r1 at g1 g2 g3 g4 g5
      have gn : RunOK c τ t T { r1 with st := r1.st.next } := ⟨g1.real, g1.emp, g1.ubE, g1.ubN⟩
      have tk : r.st.tick ≤ r1.st.tick := by simp only [St.next] at g2; omega
      split
      · rename_i hok
        refine ⟨gn, ?_, fun h => absurd h (not_AllOK_next hok)⟩
        simp only [St.next]; omega
      · cases m with
        | zero =>
          simp only [List.range'_zero, sizeRuns]
          refine ⟨gn, by simp only [St.next]; omega, fun hH => ⟨fun n h2 h3 => ?_, g5⟩⟩
          obtain rfl : n = a := by omega
          exact g4 (hH.mono (Nat.le_succ _))
        | succ m =>
          have hst : StOK c τ T t.maxDepth r1.st := g3 fun hl => by have := h1 (G.lb hl).1; omega
          obtain ⟨i1, i2, i3⟩ := ih (a + 1) (by omega) (fun n h2 h3 => hbud n (by omega) (by omega))
            (fun hu => by have := h1 hu; omega) { r1 with st := r1.st.next } gn hst.next
          have i2' : r1.st.tick + 1 ≤ _ := i2
          refine ⟨i1, by omega, fun hH => ?_⟩
          obtain ⟨j1, j2⟩ := i3 hH
          refine ⟨fun n h2 h3 => ?_, fun he => ?_⟩
          · by_cases hn : n = a
            · subst hn
              intro y hy hub
              have h4 := g4 (hH.mono (by omega)) y hy hub
              have h5 := j2 h4.1
              exact ⟨h5.1, Int.le_trans h5.2 h4.2⟩
            · exact j1 n (by omega) (by omega)
          · have h4 := g5 he
            have h5 := j2 h4.1
            exact ⟨h5.1, Int.le_trans h5.2 h4.2⟩

omit G in
theorem settled_full {v : Node} {d n : Nat} (hd : min t.maxDepth t.maxNodes ≤ d)
    (hn : min t.maxNodes (2 ^ d - 1) ≤ n) (h : Settled c τ t T d n v) : Settled c τ t T t.maxDepth t.maxNodes v := by
  intro x hx hub
  refine h x ⟨?_, ?_, hx.2.2⟩ hub
  · have := x.depth_le_nodes
    have := hx.1
    have := hx.2.1
    omega
  · have h1 := x.nodes_lt_pow
    have h2 : x.depth ≤ d := by
      have := x.depth_le_nodes
      have := hx.1
      have := hx.2.1
      omega
    have h3 : 2 ^ x.depth ≤ 2 ^ d := Nat.pow_le_pow_right (by decide) h2
    have := hx.2.1
    omega

/-- **Correctness of `Solve`** with test costs that depend on the path. -/
theorem solve_spec (hm : c.mls ≤ T.length) (hclk : Monotone c.clock)
    (hfit : t.maxNodes + 1 ≤ 2 ^ t.maxDepth)
    (hterm : c.useTerm = true → t.maxNodes + 1 = 2 ^ t.maxDepth ∧ (t.allTrees = true → t.maxNodes ≤ 1)) :
    RunOK c τ t T (solve c τ t T).1 ∧
    ((solve c τ t T).2 = true → AllOK c (solve c τ t T).1.st.tick ∧
      Settled c τ t T t.maxDepth t.maxNodes (solve c τ t T).1.result) := by
  have hstart : solveLeaf c T (Node.addMin (Node.empty c.worst) (Node.value t.ub)) = solveLeaf c T (startUB c t) := rfl
  unfold solve
  dsimp only
  rw [hstart]
  have h0 := start_ok G hm t.maxDepth St.init
  have hs0 : StOK c τ T t.maxDepth St.init := ⟨CInv.init c τ T _, trivial, trivial⟩
  have fin : ∀ r : Run, RunOK c τ t T r → (AllOK c r.st.tick → Settled c τ t T t.maxDepth t.maxNodes r.result) →
      RunOK c τ t T { r with st := r.st.next } ∧
      (c.ok r.st = true → AllOK c r.st.next.tick ∧ Settled c τ t T t.maxDepth t.maxNodes r.result) := by
    intro r hr hset
    refine ⟨⟨hr.real, hr.emp, hr.ubE, hr.ubN⟩, fun hok => ?_⟩
    have := hclk.allOK hok
    exact ⟨this, hset (this.mono (Nat.le_succ _))⟩
  split
  · rename_i hc
    rcases Nat.eq_zero_or_pos t.maxNodes with hz | hn
    · rw [show List.range' 1 t.maxNodes = [] by rw [hz]; rfl]
      simp only [sizeRuns]
      refine fin _ h0 fun _ => ?_
      have hleaf := solveLeaf_spec (b := []) G (sel_nil T).symm hm (startUB c t)
      intro x hx hub
      obtain ⟨k, rfl⟩ := leaf_of_depth_zero (t := x) (.inr (by have := hx.2.1; omega))
      have hsm : leafCost c.P T k < c.worst := by
        have := G.small [] (.leaf k) (Nat.zero_le _) (by rw [sel_nil]; exact hx.2.2)
        rw [sel_nil] at this; exact this
      have hub : leafCost c.P T k ≤ t.ub := hub
      cases he : (solveLeaf c T (startUB c t)).1.isEmpty with
      | true =>
        have := ((hleaf.1 he).2.2 k hx.2.2.1).2
        rw [(startUB_sol t).1] at this
        omega
      | false => exact ⟨rfl, (hleaf.2 he).2.2 k hx.2.2.1⟩
    have hd : 1 ≤ t.maxDepth := by
      rcases Nat.eq_zero_or_pos t.maxDepth with h | h
      · rw [h] at hfit; omega
      · exact h
    have hb : ∀ n, 1 ≤ n → n < 1 + t.maxNodes → BudOK c (min t.maxDepth n) n := by
      intro n h2 h3
      cases hu : c.useTerm with
      | false => exact .inl hu
      | true =>
        have h4 := hterm hu
        have h5 : t.maxNodes = 1 := by
          rcases hc with h | h
          · have := h4.2 h; omega
          · exact h
        obtain rfl : n = 1 := by omega
        right; rw [Nat.min_eq_right hd]; rfl
    have hm1 : c.useTerm = true → t.maxNodes ≤ 1 := by
      intro hu
      rcases hc with h | h
      · have := (hterm hu).2 h; omega
      · omega
    obtain ⟨g1, _, g3⟩ := sizeRuns_spec G hm 1 t.maxNodes (by omega) hfit hb hm1 _ h0 hs0
    refine fin _ g1 fun hH => ?_
    refine settled_full (Nat.le_refl _) ?_ ((g3 hH).1 t.maxNodes hn (by omega))
    omega
  · rename_i hc
    have hc' : t.maxNodes ≠ 1 := fun h => hc (.inr h)
    have hbud : ∀ d, d ≤ t.maxDepth → BudOK c d (min t.maxNodes (2 ^ d - 1)) := by
      intro d h2
      cases hu : c.useTerm with
      | false => exact .inl hu
      | true =>
        right
        have h3 := (hterm hu).1
        have h4 : 2 ^ d ≤ 2 ^ t.maxDepth := Nat.pow_le_pow_right (by decide) h2
        have : 1 ≤ 2 ^ d := Nat.one_le_two_pow
        omega
    have h2 : c.useTerm = true → 2 ≤ min t.maxDepth t.maxNodes + 1 - min 2 (min t.maxDepth t.maxNodes) →
        ∀ d, min 2 (min t.maxDepth t.maxNodes) ≤ d → min t.maxNodes (2 ^ d - 1) ≠ 1 := by
      intro _ h3 d h4
      have h5 : 2 ^ 2 ≤ 2 ^ d := Nat.pow_le_pow_right (by decide) (by omega)
      omega
    obtain ⟨g1, _, g3⟩ := depthRuns_spec G hm (min 2 (min t.maxDepth t.maxNodes))
      (min t.maxDepth t.maxNodes + 1 - min 2 (min t.maxDepth t.maxNodes)) (by omega) hbud h2 _ h0 hs0
    refine fin _ g1 fun hH => ?_
    have h3 := g3 hH (by omega)
    have e : min 2 (min t.maxDepth t.maxNodes) + (min t.maxDepth t.maxNodes + 1 - min 2 (min t.maxDepth t.maxNodes)) - 1 =
        min t.maxDepth t.maxNodes := by omega
    rw [e] at h3
    exact settled_full (Nat.le_refl _) (Nat.le_refl _) h3

end
end Streed.Ctx
