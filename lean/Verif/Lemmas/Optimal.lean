import Verif.Lemmas.Search
import Verif.Props.Bounds

/-! The recursive search meets its specification. -/

namespace Streed

section
variable {c : Cfg} {T : Data} (G : Good c T)
include G

omit G in
theorem leaf_of_depth_zero {t : Tree} (h : t.depth = 0 ∨ t.nodes = 0) : ∃ k, t = .leaf k := by
  cases t with
  | leaf k => exact ⟨k, rfl⟩
  | node f l r => simp [Tree.depth, Tree.nodes] at h

omit G in
theorem lowerCached_spec {H : Prop} {s : St} (hs : CInv c T H s.cache) {D : Data} {b : Branch} (hD : D = sel b T) (n : Nat) (m : Nat)
    {l : Nat} {w : Node} (h : lowerCached c s D b n m = some (l, w)) :
    l ≤ m ∧ Real c.P c.mls l D w ∧ w.numNodes ≤ n := by
  induction m with
  | zero => simp [lowerCached] at h
  | succ m ih =>
    unfold lowerCached at h
    dsimp only at h
    split at h
    · rename_i hc
      have h1 := retrieveOpt_spec hs hD (isOptCached_retrieve hc)
      simp only [Option.some.injEq, Prod.mk.injEq] at h
      obtain ⟨rfl, rfl⟩ := h
      refine ⟨Nat.le_refl _, h1.1.1, ?_⟩
      have := h1.1.2; omega
    · have := ih h
      exact ⟨by omega, this.2⟩

/-- The leaf result as the result of a call with any budget that allows only leaves. -/
theorem leaf_post {D : Data} (hD : ViewOf T D) (hm : c.mls ≤ D.length) (UB : Node) (d n : Nat) (s s' : St)
    (ht : s.tick ≤ s'.tick) (hs : StOK c T s') (hl : ∀ t, Allowed c.P c.mls d n D t → ∃ k, t = .leaf k) :
    Post c T D UB d n s ((solveLeaf c D UB).1, s') := by
  obtain ⟨h1, h2⟩ := solveLeaf_spec G hD hm UB
  refine ⟨ht, fun _ => hs, fun he => ?_, fun he => (h1 he).1, fun _ he t ht => ?_, fun _ he t ht => ?_⟩
  · have := (h2 he).1
    exact ⟨this.mono (Nat.zero_le _), by rw [this.numNodes_zero]; exact Nat.zero_le _⟩
  · obtain ⟨k, rfl⟩ := hl t ht
    exact .inl ((h2 he).2.2 k ht.2.2.1)
  · obtain ⟨k, rfl⟩ := hl t ht
    exact (h1 he).2.2 k ht.2.2.1

/-- The local variables before the feature loop. -/
theorem start_spec {D : Data} {b : Branch} {d n : Nat} {s : St} (hs : StOK c T s) (hD : D = sel b T)
    (hm : c.mls ≤ D.length) (UB : Node) :
    LocOK c D d n UB (startLoc c D b UB d n s) ∧ (startLoc c D b UB d n s).inf = Node.empty c.worst ∧
    ∀ k, k < c.P.nL → ((startLoc c D b UB d n s).sols.isEmpty = false → (startLoc c D b UB d n s).sols.sol ≤ leafCost c.P D k) ∧
      ((startLoc c D b UB d n s).sols.isEmpty = true → c.useUB = true ∧ UB.sol < leafCost c.P D k) := by
  have hv1 : ViewOf T D := by rw [hD]; exact sel_view b T
  obtain ⟨h1, h2⟩ := solveLeaf_spec G hv1 hm UB
  unfold startLoc
  generalize solveLeaf c D UB = lf at h1 h2
  have base : LocOK c D d n UB ⟨lf.1, lf.2, Node.empty c.worst⟩ ∧ (⟨lf.1, lf.2, Node.empty c.worst⟩ : Loc).inf = Node.empty c.worst ∧
      ∀ k, k < c.P.nL → (lf.1.isEmpty = false → lf.1.sol ≤ leafCost c.P D k) ∧
      (lf.1.isEmpty = true → c.useUB = true ∧ UB.sol < leafCost c.P D k) := by
    refine ⟨⟨fun he => ?_, fun he hu => (h2 he).2.1 hu, fun he => ⟨(h1 he).1, (h1 he).2.1⟩⟩, rfl,
      fun k hk => ⟨fun he => (h2 he).2.2 k hk, fun he => (h1 he).2.2 k hk⟩⟩
    have := (h2 he).1
    exact ⟨this.mono (Nat.zero_le _), by dsimp only; rw [this.numNodes_zero]; exact Nat.zero_le _⟩
  dsimp only
  cases hlow : lowerCached c s D b n (d - 1) with
  | none => exact base
  | some p =>
    obtain ⟨l, w⟩ := p
    obtain ⟨a1, a2, a3⟩ := lowerCached_spec hs.cache hD n (d - 1) hlow
    have a2' : Real c.P c.mls d D w := a2.mono (by omega)
    have hsm := Real.small G hv1 a2
    have hne := a2.nonempty
    dsimp only
    split
    · exact base
    · rename_i hc
      have hle : c.useUB = true → w.sol ≤ lf.2.sol := fun hu => by
        by_contra hcon; exact hc ⟨hu, by omega⟩
      have hUB : c.useUB = true → (Node.addMin lf.2 w).sol = w.sol := by
        intro hu
        have := hle hu
        unfold Node.addMin; split <;> omega
      cases he : lf.1.isEmpty with
      | true =>
        obtain ⟨e1, e2, e3⟩ := h1 he
        have ew : Node.addMin lf.1 w = w := by rw [e1]; exact if_pos hsm
        rw [ew]
        refine ⟨⟨fun _ => ⟨a2', a3⟩, fun _ hu => ⟨hUB hu, ?_⟩, fun h => ?_⟩, rfl, fun k hk => ⟨fun _ => ?_, fun h => ?_⟩⟩
        · have := hle hu; rw [e2] at this; exact this
        · dsimp only at h; rw [hne] at h; simp at h
        · have h4 := e3 k hk
          have := hle h4.1; rw [e2] at this
          dsimp only; omega
        · dsimp only at h; rw [hne] at h; simp at h
      | false =>
        obtain ⟨e1, e2, e3⟩ := h2 he
        have hne2 : (Node.addMin lf.1 w).isEmpty = false := by
          rcases addMin_cases lf.1 w with h | h <;> rw [h] <;> assumption
        refine ⟨⟨fun _ => ?_, fun _ hu => ⟨?_, ?_⟩, fun h => ?_⟩, rfl, fun k hk => ⟨fun _ => ?_, fun h => ?_⟩⟩
        · rcases addMin_cases lf.1 w with h | h <;> dsimp only <;> rw [h]
          · exact base.1.real he
          · exact ⟨a2', a3⟩
        · have h4 := hle hu
          have h5 := (e2 hu).1
          dsimp only
          rw [hUB hu]
          unfold Node.addMin; split <;> omega
        · exact Int.le_trans (addMin_le_left _ _) (e2 hu).2
        · dsimp only at h; rw [hne2] at h; simp at h
        · exact Int.le_trans (addMin_le_left _ _) (e3 k hk)
        · dsimp only at h; rw [hne2] at h; simp at h

theorem generalCase_spec {rec : Rec} {D : Data} {b : Branch} {d n : Nat} {UB : Node} {s : St}
    (hrec : RecOK c T rec (d - 1)) (hD : D = sel b T) (hm : c.mls ≤ D.length) (hd : 1 ≤ d) (hn : 1 ≤ n)
    (hp : n + 1 ≤ 2 ^ d) (hb : BudOK c d n) (hs : StOK c T s) :
    Post c T D UB d n s (generalCase c rec D b UB d n s) := by
  have hv1 : ViewOf T D := by rw [hD]; exact sel_view b T
  unfold generalCase
  dsimp only
  split
  · rename_i hlen
    refine leaf_post G hv1 hm UB d n s s (Nat.le_refl _) hs fun t ht => ?_
    cases t with
    | leaf k => exact ⟨k, rfl⟩
    | node f l r => have := ht.2.2.length_node; omega
  · have hst := start_spec G (d := d) (n := n) hs hD hm UB
    generalize startLoc c D b UB d n s = v0 at hst
    obtain ⟨l0, i0, k0⟩ := hst
    have hblb : AllOK c s.tick → LowerBound c.P c.mls d n D (computeLB c s D b d n).sol := fun hH =>
      (computeLB_spec G hs hD d n hH).lower hb
    have hf := featLoop_spec G hrec hD hd hn hp hb (c.order D) (fun f hf => (G.order D f).1 hf) v0 s (fun _ => False)
      hs l0 hblb (fun _ _ h => h.elim) (fun _ h => h.elim) (fun _ => .inl (by rw [i0]; rfl))
    generalize featLoop c rec D b d n (computeLB c s D b d n) (c.order D) v0 s = r at hf
    obtain ⟨t1, s1, l1, st1, c1⟩ := hf
    -- every allowed tree is accounted for
    have fin : AllOK c r.2.tick → ∀ t, Allowed c.P c.mls d n D t → Final c UB r.1 (t.cost c.P D) := by
      intro hH t ht
      cases t with
      | node f l rr => exact c1 hH _ (.inr ⟨f, (G.order D f).2 ht.2.2.1, l, rr, ht, rfl⟩)
      | leaf k =>
        have hk := ht.2.2.1
        obtain ⟨k1, k2⟩ := k0 k hk
        have hval : (Tree.leaf k).cost c.P D = leafCost c.P D k := rfl
        rw [hval]
        refine ⟨fun he => ?_, fun he => ?_⟩
        · cases he0 : v0.sols.isEmpty with
          | false => exact Int.le_trans (st1.ne he0).2 (k1 he0)
          | true =>
            have h3 := k2 he0
            have := (l1.ub he h3.1).2
            omega
        · have he0 : v0.sols.isEmpty = true := by
            cases he0 : v0.sols.isEmpty with
            | true => rfl
            | false => rw [(st1.ne he0).1] at he; simp at he
          refine ⟨(k2 he0).1, (k2 he0).2, fun hu => ?_⟩
          rcases st1.leaf hH hu with h | h
          · left; rw [h, i0]; rfl
          · right; exact h k hk
    have low : AllOK c r.2.tick → r.1.sols.isEmpty = false → LowerBound c.P c.mls d n D r.1.sols.sol :=
      fun hH he t ht => (fin hH t ht).1 he
    have hC : CInv c T (AllOK c r.2.tick) (if r.1.sols.isEmpty = false then r.2.cache.storeOpt c.cc D b r.1.sols d n
        else r.2.cache.updateLB c.cc D b (if r.1.inf.sol = c.worst then UB else Node.addMax r.1.inf UB) d n) := by
      split
      · rename_i he
        obtain ⟨g1, g2⟩ := l1.real he
        exact storeOpt_inv s1.cache G.sorted hD g1 g2 fun hH => (low hH he).lbok
      · rename_i he
        have he : r.1.sols.isEmpty = true := by simpa using he
        by_cases hulb : c.useLB = true
        case neg =>
          have hulb : c.useLB = false := by simpa using hulb
          have : c.cc.useLB = false := hulb
          unfold Cache.updateLB
          rw [if_neg (by rw [this]; simp)]; exact s1.cache
        refine updateLB_inv s1.cache G.sorted hD fun hH _ => LowerBound.lbok fun t ht => ?_
        obtain ⟨_, f2, f3⟩ := (fin hH t ht).2 he
        split
        · omega
        · rename_i hw
          rcases addMax_cases r.1.inf UB with h | h <;> rw [h]
          · rcases f3 hulb with f3 | f3
            · exact absurd f3 hw
            · exact f3
          · omega
    have hA := updateArchive_ok (s1.setCache hC) hD hm d
    refine ⟨?_, fun _ => hA.1, l1.real, fun he => (l1.emp he).1, fun hH he => ?_, fun hH he t ht => ?_⟩
    · rw [hA.2]; exact t1
    · rw [hA.2] at hH; exact fun t ht => .inl (low hH he t ht)
    · rw [hA.2] at hH
      have := (fin hH t ht).2 he
      exact ⟨this.1, this.2.1⟩

theorem storeTerminal_inv {H : Prop} {C : Cache} (hC : CInv c T H C) {D : Data} {b : Branch} (hD : D = sel b T)
    {UB v : Node} {d n : Nat}
    (hv : v.isEmpty = false → Real c.P c.mls d D v ∧ v.numNodes ≤ n ∧ (H → LBOK c d n D v.sol))
    (he : c.useLB = true → v.isEmpty = true → UB.isEmpty = true) : CInv c T H (storeTerminal c D b UB v d n C) := by
  unfold storeTerminal
  split
  · exact hC
  · split
    · rename_i h
      obtain ⟨h1, h2, h3⟩ := hv h
      exact storeOpt_inv hC G.sorted hD h1 h2 h3
    · rename_i h
      by_cases hulb : c.useLB = true
      case neg =>
        have hulb : c.useLB = false := by simpa using hulb
        have : c.cc.useLB = false := hulb
        unfold Cache.updateLB
        rw [if_neg (by rw [this]; simp)]; exact hC
      have h := he hulb (by simpa using h)
      exact updateLB_inv hC G.sorted hD fun _ h' => by rw [h] at h'; simp at h'

theorem solveTerminal_spec {D : Data} {b : Branch} {d n : Nat} {UB : Node} {s : St} (hD : D = sel b T)
    (hm : c.mls ≤ D.length) (hd : 1 ≤ d) (hd2 : d ≤ 2) (hb : BudOK c d n) (ht : c.useTerm = true) (hs : StOK c T s) :
    Post c T D UB d n s (solveTerminal c D b UB d n s) := by
  have hv1 : ViewOf T D := by rw [hD]; exact sel_view b T
  obtain ⟨hmls, hu⟩ := G.term ht
  have hbc : 0 ≤ c.P.bc := G.bc
  have hpow : n + 1 = 2 ^ d := by
    rcases hb with h | h
    · rw [ht] at h; simp at h
    · exact h
  have hdn : (d = 1 ∧ n = 1) ∨ (d = 2 ∧ n = 3) := by
    have : d = 1 ∨ d = 2 := by omega
    rcases this with rfl | rfl <;> omega
  have hsnd := terminal_sound c.P c.mls c.worst D b n
  have hone : ∀ t : Tree, t.depth ≤ 1 → t.Legal c.P c.mls D →
      (terminal c.tc (statsOf c.P D) b n).one.sol ≤ t.cost c.P D := by
    intro t h1 h2
    have h3 := oneNode_le c.P c.mls c.worst D hbc t h1 h2
    unfold terminal
    rw [if_neg (by simp only [statsOf, Cfg.tc]; omega)]
    dsimp only
    split
    · exact h3
    · split <;> exact h3
  have hleaf : (terminal c.tc (statsOf c.P D) b n).one.sol < c.worst :=
    Int.lt_of_le_of_lt (hone (.leaf 0) (Nat.zero_le _) ⟨G.labels, hm⟩) (G.small D hv1 (.leaf 0) ⟨G.labels, hm⟩)
  have htwo : n ≠ 1 → (terminal c.tc (statsOf c.P D) b n).two.sol ≤ (terminal c.tc (statsOf c.P D) b n).one.sol := by
    intro hn
    unfold terminal
    rw [if_neg (by simp only [statsOf, Cfg.tc]; omega)]
    dsimp only
    rw [if_neg hn]
    split <;> exact addMin_le_right _ _
  have hthree : n ≠ 1 → ∀ t : Tree, t.depth ≤ 2 → t.Legal c.P c.mls D →
      (terminal c.tc (statsOf c.P D) b n).three.sol ≤ t.cost c.P D := by
    intro hn t h1 h2
    have h3 := terminal_three_le c.P c.worst D b n hn (by rw [hD]; exact sel_pathOK b T) hbc
      (fun i hi => G.nonneg i (hv1.subset hi)) t h1 (by rw [← hmls]; exact h2) (G.small D hv1 t h2)
    have e : c.tc = tcOf c.P 1 c.worst := by unfold Cfg.tc tcOf; rw [hmls]
    rw [e]; exact h3
  have etc : c.tc = tcOf c.P c.mls c.worst := rfl
  rw [← etc] at hsnd
  obtain ⟨q1, q2, q3⟩ := hsnd
  generalize hterm : terminal c.tc (statsOf c.P D) b n = r at q1 q2 q3 hone hleaf htwo hthree
  have hne1 : r.one.isEmpty = false := (q1.real_lt hleaf).1.nonempty
  have lb1 : LBOK c 1 1 D r.one.sol := LowerBound.lbok fun t ht => hone t ht.1 ht.2.2
  have lb2 : n ≠ 1 → LBOK c 2 2 D r.two.sol := by
    intro hn d' n' hb' hd' hn' t ht'
    have : d' ≤ 1 := by
      rcases hb' with h | h
      · rw [ht] at h; simp at h
      · have : d' = 0 ∨ d' = 1 ∨ d' = 2 := by omega
        rcases this with rfl | rfl | rfl
        · omega
        · omega
        · omega
    exact Int.le_trans (htwo hn) (hone t (by have := ht'.1; omega) ht'.2.2)
  have lb3 : n ≠ 1 → LBOK c 2 3 D r.three.sol := fun hn => LowerBound.lbok fun t ht => hthree hn t ht.1 ht.2.2
  have hne2 : n ≠ 1 → r.two.isEmpty = false := fun hn => (q2.real_lt (by have := htwo hn; omega)).1.nonempty
  have hne3 : n ≠ 1 → r.three.isEmpty = false := fun hn => by
    refine (q3.real_lt ?_).1.nonempty
    exact Int.lt_of_le_of_lt (hthree hn (.leaf 0) (Nat.zero_le _) ⟨G.labels, hm⟩) (G.small D hv1 (.leaf 0) ⟨G.labels, hm⟩)
  have hC : (c.useLB = true → c.useTerm = true → n = 1 → UB.isEmpty = true) → CInv c T (AllOK c s.tick)
      (storeTerminal c D b UB r.three 2 3 (storeTerminal c D b UB r.two 2 2 (storeTerminal c D b UB r.one 1 1 s.cache))) := by
    intro hUB
    have e23 : ∀ v : Node, (n ≠ 1 → v.isEmpty = false) → c.useLB = true → v.isEmpty = true → UB.isEmpty = true := by
      intro v hv hl he
      apply hUB hl ht
      by_contra hn
      rw [hv hn] at he; simp at he
    refine storeTerminal_inv G (storeTerminal_inv G (storeTerminal_inv G hs.cache hD ?_ ?_) hD ?_ (e23 _ hne2)) hD ?_ (e23 _ hne3)
    · intro he
      exact ⟨(q1.real he).1, (q1.real he).2, fun _ => lb1⟩
    · intro _ he; rw [hne1] at he; simp at he
    · intro he
      refine ⟨(q2.real he).1, (q2.real he).2, fun _ => lb2 ?_⟩
      rintro rfl
      have : r.two = Node.empty c.worst := by
        rw [← hterm]; unfold terminal; split
        · rfl
        · rfl
      rw [this] at he; simp [Node.empty, Node.isEmpty] at he
    · intro he
      refine ⟨(q3.real he).1, (q3.real he).2, fun _ => lb3 ?_⟩
      rintro rfl
      have : r.three = Node.empty c.worst := by
        rw [← hterm]; unfold terminal; split
        · rfl
        · rfl
      rw [this] at he; simp [Node.empty, Node.isEmpty] at he
  unfold solveTerminal
  rw [hterm]
  dsimp only
  have htick : (updateArchive c { s with cache := storeTerminal c D b UB r.three 2 3 (storeTerminal c D b UB r.two 2 2 (storeTerminal c D b UB r.one 1 1 s.cache)) } D b d).tick = s.tick := by
    unfold updateArchive; split <;> rfl
  have main : ∀ v : Node, v.isEmpty = false → Real c.P c.mls d D v → v.numNodes ≤ n → LowerBound c.P c.mls d n D v.sol →
      Post c T D UB d n s (if UB.sol < v.sol then Node.empty c.worst else v,
        updateArchive c { s with cache := storeTerminal c D b UB r.three 2 3 (storeTerminal c D b UB r.two 2 2 (storeTerminal c D b UB r.one 1 1 s.cache)) } D b d) := by
    intro v hv1 hv2 hv3 hv4
    refine ⟨by rw [htick], fun h => (updateArchive_ok (hs.setCache (hC h)) hD hm d).1, ?_, ?_, ?_, ?_⟩ <;> dsimp only
    · split
      · intro h; simp [Node.empty, Node.isEmpty] at h
      · exact fun _ => ⟨hv2, hv3⟩
    · split
      · exact fun _ => rfl
      · intro h; rw [hv1] at h; simp at h
    · split
      · intro _ h; simp [Node.empty, Node.isEmpty] at h
      · exact fun _ _ t ht => .inl (hv4 t ht)
    · split
      · rename_i hlt
        intro _ _ t ht
        have := hv4 t ht
        exact ⟨hu, by omega⟩
      · intro _ h; rw [hv1] at h; simp at h
  rcases hdn with ⟨rfl, rfl⟩ | ⟨rfl, rfl⟩
  · rw [if_pos rfl]
    exact main _ hne1 (q1.real hne1).1 (q1.real hne1).2 (lb1.lower hb)
  · have h3 := hne3 (by decide)
    exact main _ h3 (q3.real h3).1 (q3.real h3).2 ((lb3 (by decide)).lower hb)

omit G in
/-- Shift the start of a call. -/
theorem Post.shift {D : Data} {UB : Node} {d n : Nat} {s s' : St} {r : Node × St} (h : Post c T D UB d n s' r)
    (ht : s.tick ≤ s'.tick) : Post c T D UB d n s r := ⟨Nat.le_trans ht h.tick, h.st, h.real, h.emp, h.low, h.inf⟩

omit G in
/-- The result for a smaller budget, if the trees outside it cost more than the upper bound. -/
theorem Post.widen {D : Data} {UB : Node} {d n d' n' : Nat} {s : St} {r : Node × St} (h : Post c T D UB d' n' s r)
    (hd : d' ≤ d) (hn : n' ≤ n) (h1 : (c.useLB = true → c.useTerm = true → n = 1 → UB.isEmpty = true) → StOK c T r.2)
    (hu : (∃ t, Allowed c.P c.mls d n D t ∧ ¬ Allowed c.P c.mls d' n' D t) → c.sparse = true ∧ c.useUB = true)
    (hout : ∀ t, Allowed c.P c.mls d n D t → ¬ Allowed c.P c.mls d' n' D t → UB.sol < t.cost c.P D) :
    Post c T D UB d n s r := by
  refine ⟨h.tick, h1, fun he => ?_, h.emp, fun hH he t ht => ?_, fun hH he t ht => ?_⟩
  · have := h.real he
    exact ⟨this.1.mono hd, by omega⟩
  · by_cases ha : Allowed c.P c.mls d' n' D t
    · exact h.low hH he t ha
    · exact .inr ⟨(hu ⟨t, ht, ha⟩).1, hout t ht ha⟩
  · by_cases ha : Allowed c.P c.mls d' n' D t
    · exact h.inf hH he t ha
    · exact ⟨(hu ⟨t, ht, ha⟩).2, hout t ht ha⟩

/-- `SolveSubTree` after the budget has been reduced. -/
def searchBudget (c : Cfg) (rec : Rec) (D : Data) (b : Branch) (UB : Node) (d n : Nat) (s : St) : Node × St :=
  if d = 0 ∨ n = 0 then ((solveLeaf c D UB).1, s)
  else
    let hit := s.cache.retrieveOpt c.cc D b d n
    if hit.isEmpty = false then (hit, s)
    else
      let go := fun s : St =>
        if c.useTerm = true ∧ d ≤ 2 then solveTerminal c D b UB d n s
        else generalCase c rec D b UB d n s
      if c.useLB then
        let sim := useSimilarity c s D b d n
        let s := sim.2
        let hit := s.cache.retrieveOpt c.cc D b d n
        if sim.1 = true ∧ hit.isEmpty = false then (hit, s)
        else
          let lb := computeLB c s D b d n
          if c.useUB = true ∧ UB.sol < lb.sol then (Node.empty c.worst, s)
          else
            let lf := (solveLeaf c D (Node.empty c.worst)).1
            if lb.sol = lf.sol then (lf, s) else go s
      else go s

theorem searchBudget_spec {rec : Rec} {D : Data} {b : Branch} {d n : Nat} {UB : Node} {s : St}
    (hrec : 1 ≤ d → RecOK c T rec (d - 1)) (hD : D = sel b T) (hm : c.mls ≤ D.length) (hp : n + 1 ≤ 2 ^ d)
    (hb : BudOK c d n) (hs : StOK c T s) : Post c T D UB d n s (searchBudget c rec D b UB d n s.next) := by
  have hv1 : ViewOf T D := by rw [hD]; exact sel_view b T
  have tn : s.tick ≤ s.next.tick := Nat.le_succ _
  unfold searchBudget
  dsimp only
  split
  · rename_i h0
    refine leaf_post G hv1 hm UB d n s s.next tn hs.next fun t ht => leaf_of_depth_zero ?_
    have h1 := ht.1
    have h2 := ht.2.1
    omega
  · rename_i h0
    have hd : 1 ≤ d := by omega
    have hn : 1 ≤ n := by omega
    have hit : ∀ s' : St, StOK c T s' → s.tick ≤ s'.tick → (s'.cache.retrieveOpt c.cc D b d n).isEmpty = false →
        Post c T D UB d n s (s'.cache.retrieveOpt c.cc D b d n, s') := by
      intro s' hs' ht he
      obtain ⟨h1, h2⟩ := retrieveOpt_spec hs'.cache hD he
      exact ⟨ht, fun _ => hs', fun _ => h1, fun h => by dsimp only at h; rw [he] at h; simp at h,
        fun hH _ t ht => .inl ((h2 hH).lower hb t ht), fun _ h => by dsimp only at h; rw [he] at h; simp at h⟩
    have go : ∀ s' : St, StOK c T s' → s.tick ≤ s'.tick → Post c T D UB d n s
        (if c.useTerm = true ∧ d ≤ 2 then solveTerminal c D b UB d n s' else generalCase c rec D b UB d n s') := by
      intro s' hs' ht
      split
      · rename_i hc
        exact (solveTerminal_spec G hD hm hd hc.2 hb hc.1 hs').shift ht
      · exact (generalCase_spec G (hrec hd) hD hm hd hn hp hb hs').shift ht
    split
    · rename_i he
      exact hit s.next hs.next tn he
    · split
      · rename_i hulb
        obtain ⟨h1, h2⟩ := useSimilarity_spec G hs.next hD d n hb hulb
        generalize useSimilarity c s.next D b d n = sim at h1 h2
        have ht : s.tick ≤ sim.2.tick := by rw [h2]; exact tn
        split
        · rename_i hc
          exact hit sim.2 h1 ht hc.2
        · have hlb := fun hH => (computeLB_spec G h1 hD d n hH).lower hb
          split
          · rename_i hc
            exact ⟨ht, fun _ => h1, fun h => by simp [Node.empty, Node.isEmpty] at h, fun _ => rfl,
              fun _ h => by simp [Node.empty, Node.isEmpty] at h,
              fun hH _ t ht => ⟨hc.1, by have := hlb hH t ht; omega⟩⟩
          · split
            · rename_i heq
              obtain ⟨l1, l2⟩ := solveLeaf_spec G hv1 hm (Node.empty c.worst)
              have hne : (solveLeaf c D (Node.empty c.worst)).1.isEmpty = false := by
                cases he : (solveLeaf c D (Node.empty c.worst)).1.isEmpty with
                | false => rfl
                | true =>
                  have h3 := ((l1 he).2.2 0 G.labels).2
                  have h4 : leafCost c.P D 0 < c.worst := G.small D hv1 (.leaf 0) ⟨G.labels, hm⟩
                  simp only [Node.empty] at h3; omega
              have hre := (l2 hne).1
              refine ⟨ht, fun _ => h1, fun _ => ⟨hre.mono (Nat.zero_le _), ?_⟩, fun h => ?_, fun hH _ t ht => ?_, fun _ h => ?_⟩
              · rw [hre.numNodes_zero]; exact Nat.zero_le _
              · dsimp only at h; rw [hne] at h; simp at h
              · have := hlb hH t ht
                left; dsimp only; omega
              · dsimp only at h; rw [hne] at h; simp at h
            · exact go sim.2 h1 ht
      · exact go s.next hs.next tn

omit G in
theorem reduceBudget_bud {UB : Node} {d n : Nat} (hp : n + 1 ≤ 2 ^ d) (hb : BudOK c d n) :
    (reduceBudget c UB d n).1 ≤ d ∧ (reduceBudget c UB d n).2 ≤ n ∧
    (reduceBudget c UB d n).2 + 1 ≤ 2 ^ (reduceBudget c UB d n).1 ∧
    BudOK c (reduceBudget c UB d n).1 (reduceBudget c UB d n).2 ∧
    (c.sparse = false → reduceBudget c UB d n = (d, n)) := by
  unfold reduceBudget
  split
  · exact ⟨Nat.le_refl _, Nat.le_refl _, hp, hb, fun _ => rfl⟩
  · rename_i hsp
    have hsp : c.sparse ≠ false := fun h => hsp (.inl h)
    dsimp only
    split
    · split
      · rename_i h1 h2
        generalize (max 0 UB.sol / c.P.bc).toNat = m at *
        have hpos : 1 ≤ 2 ^ min d m := Nat.one_le_two_pow
        dsimp only
        refine ⟨by omega, by omega, by omega, ?_, fun h => absurd h hsp⟩
        rcases hb with hb | hb
        · exact .inl hb
        · right
          have : 2 ^ min d m ≤ 2 ^ d := Nat.pow_le_pow_right (by decide) (by omega)
          omega
      · exact ⟨Nat.le_refl _, Nat.le_refl _, hp, hb, fun h => absurd h hsp⟩
    · exact ⟨Nat.le_refl _, Nat.le_refl _, hp, hb, fun h => absurd h hsp⟩

theorem subTree_spec {rec : Rec} {D : Data} {b : Branch} {d n : Nat} {UB : Node} {s : St}
    (hrec : 1 ≤ d → RecOK c T rec (d - 1)) (hD : D = sel b T) (hm : c.mls ≤ D.length) (hp : n + 1 ≤ 2 ^ d)
    (hb : BudOK c d n) (hs : StOK c T s) : Post c T D UB d n s (subTree c rec D b UB d n s) := by
  have hv1 : ViewOf T D := by rw [hD]; exact sel_view b T
  have tn : s.tick ≤ s.next.tick := Nat.le_succ _
  unfold subTree
  split
  · rename_i hok
    have hno := not_AllOK_next hok
    exact ⟨tn, fun _ => hs.next, fun h => by simp [Node.empty, Node.isEmpty] at h, fun _ => rfl,
      fun h => absurd h hno, fun h => absurd h hno⟩
  · obtain ⟨r1, r2, r3, r4, r5⟩ := reduceBudget_bud (UB := UB) hp hb
    have hpost := searchBudget_spec G (UB := UB) (d := (reduceBudget c UB d n).1) (n := (reduceBudget c UB d n).2)
      (rec := rec) (fun h => ?_) hD hm r3 r4 hs
    · change Post c T D UB d n s (searchBudget c rec D b UB (reduceBudget c UB d n).1 (reduceBudget c UB d n).2 s.next)
      cases hsp : c.sparse with
      | false =>
        have e := r5 hsp
        rw [e] at hpost ⊢; exact hpost
      | true =>
        obtain ⟨g1, g2⟩ := G.sparse hsp
        refine hpost.widen r1 r2 (fun _ => hpost.st fun h => by rw [g1] at h; simp at h) (fun _ => ⟨hsp, g2⟩) ?_
        intro t ht hno
        by_contra hle
        have := reduceBudget_keeps c UB d n D (fun i hi => G.nonneg i (hv1.subset hi)) t ht.1 ht.2.1 (by omega)
        exact hno ⟨this.1, this.2, ht.2.2⟩
    · intro D' b' UB' d' n' s' hd'
      exact hrec (by omega) D' b' UB' d' n' s' (by omega)

/-- The recursive search meets its specification. -/
theorem solveSub_spec (fuel : Nat) : RecOK c T (solveSub c fuel) fuel := by
  induction fuel with
  | zero =>
    intro D b UB d n s hd hD hm hb hp hs
    exact subTree_spec G (fun h => by omega) hD hm hp hb hs
  | succ fuel ih =>
    intro D b UB d n s hd hD hm hb hp hs
    refine subTree_spec G (fun h => ?_) hD hm hp hb hs
    intro D' b' UB' d' n' s' hd' 
    exact ih D' b' UB' d' n' s' (by omega)

end
end Streed
