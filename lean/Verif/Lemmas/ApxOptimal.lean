import Verif.Lemmas.ApxSearch

/-! The recursive search with tolerant comparisons meets its specification. -/

namespace Streed.Apx

section
variable {c : Cfg} {T : Data} {K : Rank c T} (S : Setting c T K)
include S

omit S in
theorem lowerCached_spec {H : Prop} {s : St} (hs : CInv c T K H s.cache) {b : Branch} (n : Nat) (m : Nat)
    {l : Nat} {w : Node} (h : lowerCached c s (sel b T) b n m = some (l, w)) :
    l ≤ m ∧ Real c.P c.mls l (sel b T) w ∧ w.numNodes ≤ n := by
  induction m with
  | zero => simp [lowerCached] at h
  | succ m ih =>
    unfold lowerCached at h
    dsimp only at h
    split at h
    · rename_i hc
      have h1 := retrieveOpt_spec hs (isOptCached_retrieve hc)
      simp only [Option.some.injEq, Prod.mk.injEq] at h
      obtain ⟨rfl, rfl⟩ := h
      refine ⟨Nat.le_refl _, h1.1.1, ?_⟩
      have := h1.1.2; omega
    · have := ih h
      exact ⟨by omega, this.2⟩

omit S in
theorem updateArchive_off {s : St} (h : c.simLB = false) (D : Data) (b : Branch) (d : Nat) : updateArchive c s D b d = s := by
  unfold updateArchive; rw [if_pos h]

/-- The leaf result as the result of a call with any budget that allows only leaves. -/
theorem leaf_post {b : Branch} (hm : c.mls ≤ (sel b T).length) (UB : Node) (d n : Nat) (s s' : St) (hok : K.ok b d n)
    (ht : s.tick ≤ s'.tick) (hs : StOK c T K s') (hl : ∀ t, Allowed c.P c.mls d n (sel b T) t → ∃ k, t = .leaf k) :
    Post c T K b UB d n s ((Tol.solveLeaf c (sel b T) UB).1, s') := by
  have hv : ViewOf T (sel b T) := sel_view b T
  have hk := K.nonneg b d n hok
  have pD := S.posSel b
  obtain ⟨h1, h2⟩ := solveLeaf_spec S hv hm UB
  refine ⟨ht, fun _ => hs, fun he => ?_, fun he => (h1 he).1, fun _ he t ht => ?_, fun _ he t ht => ?_⟩
  · have := (h2 he).1
    exact ⟨this.mono (Nat.zero_le _), by rw [this.numNodes_zero]; exact Nat.zero_le _⟩
  · obtain ⟨k, rfl⟩ := hl t ht
    have h3 : (Tol.solveLeaf c (sel b T) UB).1.sol ≤ (Tree.leaf k).cost c.P (sel b T) := (h2 he).2.2 k ht.2.2.1
    exact .inl (le_trans (by exact_mod_cast h3) (scale_one pD (by omega) _))
  · obtain ⟨k, rfl⟩ := hl t ht
    have h3 := (h1 he).2.2 k ht.2.2.1
    exact ⟨h3.1, sdom_lt h3.2 (scale_one pD hk (.leaf k)) (scale_nonneg pD _ _)⟩

/-- The local variables before the feature loop. -/
theorem start_spec {b : Branch} {d n : Nat} {s : St} (hs : StOK c T K s)
    (hm : c.mls ≤ (sel b T).length) (UB : Node) :
    LocOK c (sel b T) d n UB (Tol.startLoc c (sel b T) b UB d n s) ∧
    (Tol.startLoc c (sel b T) b UB d n s).inf = Node.empty c.worst ∧
    ∀ k, k < c.P.nL →
      ((Tol.startLoc c (sel b T) b UB d n s).sols.isEmpty = false →
        (Tol.startLoc c (sel b T) b UB d n s).sols.sol ≤ leafCost c.P (sel b T) k) ∧
      ((Tol.startLoc c (sel b T) b UB d n s).sols.isEmpty = true → c.useUB = true ∧ Tol.sdom UB.sol (leafCost c.P (sel b T) k)) := by
  have G := S.good
  have hv1 : ViewOf T (sel b T) := sel_view b T
  obtain ⟨h1, h2⟩ := solveLeaf_spec S hv1 hm UB
  unfold Tol.startLoc
  generalize Tol.solveLeaf c (sel b T) UB = lf at h1 h2 ⊢
  have base : LocOK c (sel b T) d n UB ⟨lf.1, lf.2, Node.empty c.worst⟩ ∧ (⟨lf.1, lf.2, Node.empty c.worst⟩ : Loc).inf = Node.empty c.worst ∧
      ∀ k, k < c.P.nL → (lf.1.isEmpty = false → lf.1.sol ≤ leafCost c.P (sel b T) k) ∧
      (lf.1.isEmpty = true → c.useUB = true ∧ Tol.sdom UB.sol (leafCost c.P (sel b T) k)) := by
    refine ⟨⟨fun he => ?_, fun he hu => ?_, fun he => ⟨(h1 he).1, (h1 he).2.1⟩⟩, rfl,
      fun k hk => ⟨fun he => (h2 he).2.2 k hk, fun he => (h1 he).2.2 k hk⟩⟩
    · have := (h2 he).1
      exact ⟨this.mono (Nat.zero_le _), by dsimp only; rw [this.numNodes_zero]; exact Nat.zero_le _⟩
    · have := (h2 he).2.1 hu
      dsimp only; omega
  dsimp only
  cases hlow : lowerCached c s (sel b T) b n (d - 1) with
  | none => exact base
  | some p =>
    obtain ⟨l, w⟩ := p
    obtain ⟨a1, a2, a3⟩ := lowerCached_spec hs n (d - 1) hlow
    have a2' : Real c.P c.mls d (sel b T) w := a2.mono (by omega)
    have hsm := Real.small G hv1 a2
    have hpos := real_nonneg S hv1 a2
    have hne := a2.nonempty
    dsimp only
    split
    · exact base
    · rename_i hc
      have hle : c.useUB = true → 10000 * w.sol ≤ 10001 * lf.2.sol := fun hu => by
        by_contra hcon; exact hc ⟨hu, by unfold Tol.sdom; omega⟩
      have hUB : (Node.addMin lf.2 w).sol = min lf.2.sol w.sol := by
        unfold Node.addMin; split <;> omega
      cases he : lf.1.isEmpty with
      | true =>
        obtain ⟨e1, e2, e3⟩ := h1 he
        have ew : Node.addMin lf.1 w = w := by rw [e1]; exact if_pos hsm
        rw [ew]
        refine ⟨⟨fun _ => ⟨a2', a3⟩, fun _ hu => ?_, fun h => ?_⟩, rfl, fun k hk => ⟨fun _ => ?_, fun h => ?_⟩⟩
        · have := hle hu
          dsimp only
          rw [hUB]
          rw [e2] at this ⊢
          omega
        · dsimp only at h; rw [hne] at h; simp at h
        · have h4 := e3 k hk
          have := hle h4.1; rw [e2] at this
          have h5 := h4.2
          unfold Tol.sdom at h5
          dsimp only; omega
        · dsimp only at h; rw [hne] at h; simp at h
      | false =>
        obtain ⟨e1, e2, e3⟩ := h2 he
        have hmin : (Node.addMin lf.1 w).sol = min lf.1.sol w.sol := by unfold Node.addMin; split <;> omega
        have hne2 : (Node.addMin lf.1 w).isEmpty = false := by
          rcases addMin_cases lf.1 w with h | h <;> rw [h] <;> assumption
        refine ⟨⟨fun _ => ?_, fun _ hu => ?_, fun h => ?_⟩, rfl, fun k hk => ⟨fun _ => ?_, fun h => ?_⟩⟩
        · rcases addMin_cases lf.1 w with h | h <;> dsimp only <;> rw [h]
          · exact base.1.real he
          · exact ⟨a2', a3⟩
        · have h4 := hle hu
          have h5 := e2 hu
          dsimp only
          rw [hUB, hmin]
          omega
        · dsimp only at h; rw [hne2] at h; simp at h
        · exact Int.le_trans (addMin_le_left _ _) (e3 k hk)
        · dsimp only at h; rw [hne2] at h; simp at h

theorem generalCase_spec {rec : Rec} {b : Branch} {d n : Nat} {UB : Node} {s : St}
    (hrec : RecOK c T K rec (d - 1)) (hm : c.mls ≤ (sel b T).length) (hd : 1 ≤ d) (hn : 1 ≤ n)
    (hp : n + 1 ≤ 2 ^ d) (hok : K.ok b d n) (hb : BudOK c d n) (hs : StOK c T K s)
    (ho : c.useLB = true → (s.cache.retrieveOpt c.cc (sel b T) b d n).isEmpty = true) :
    Post c T K b UB d n s (Tol.generalCase c rec (sel b T) b UB d n s) := by
  have G := S.good
  have hv1 : ViewOf T (sel b T) := sel_view b T
  have hk := K.nonneg b d n hok
  have pD := S.posSel b
  unfold Tol.generalCase
  dsimp only
  split
  · rename_i hlen
    refine leaf_post S hm UB d n s s hok (Nat.le_refl _) hs fun t ht => ?_
    cases t with
    | leaf k => exact ⟨k, rfl⟩
    | node f l r => have := ht.2.2.length_node; omega
  · have hst := start_spec S (d := d) (n := n) hs hm UB
    generalize Tol.startLoc c (sel b T) b UB d n s = v0 at hst ⊢
    obtain ⟨l0, i0, k0⟩ := hst
    have hblb : AllOK c s.tick → ∀ t, Allowed c.P c.mls d n (sel b T) t →
        ((Tol.computeLB c s (sel b T) b d n).sol : ℚ) ≤ tol ^ K.w b d n * (t.cost c.P (sel b T) : ℚ) := fun hH =>
      (computeLB_open S hs hok hH ho).lower hb
    have hf := featLoop_spec S hrec hd hn hp hok hb (c.order (sel b T)) (fun f hf => (G.order _ f).1 hf) v0 s (fun _ => False)
      hs l0 hblb (fun _ _ h => h.elim) (fun _ h => h.elim) (fun _ => .inl (by rw [i0]; rfl))
    generalize Tol.featLoop c rec (sel b T) b d n (Tol.computeLB c s (sel b T) b d n) (c.order (sel b T)) v0 s = r at hf ⊢
    obtain ⟨t1, s1, l1, st1, c1⟩ := hf
    -- every allowed tree is accounted for
    have fin : AllOK c r.2.tick → ∀ t, Allowed c.P c.mls d n (sel b T) t →
        Final c UB r.1 (tol ^ K.w b d n * (t.cost c.P (sel b T) : ℚ)) := by
      intro hH t ht
      cases t with
      | node f l rr => exact c1 hH _ (.inr ⟨f, (G.order _ f).2 ht.2.2.1, l, rr, ht, rfl⟩)
      | leaf k =>
        have hlk := ht.2.2.1
        obtain ⟨k1, k2⟩ := k0 k hlk
        have hval : (Tree.leaf k).cost c.P (sel b T) = leafCost c.P (sel b T) k := rfl
        have z0 := scale_nonneg pD (K.w b d n) (.leaf k)
        have z1 := scale_one pD hk (.leaf k)
        rw [hval] at z0 z1 ⊢
        have ztol : tol ^ K.w b d n * (leafCost c.P (sel b T) k : ℚ) ≤ tol * (tol ^ K.w b d n * (leafCost c.P (sel b T) k : ℚ)) := by
          have := tol_one; nlinarith
        refine ⟨fun he => ?_, fun he => ?_⟩
        · cases he0 : v0.sols.isEmpty with
          | false =>
            have h3 := Int.le_trans (st1.ne he0).2 (k1 he0)
            exact le_trans (le_trans (by exact_mod_cast h3) z1) ztol
          | true =>
            have h3 := k2 he0
            have h4 := l1.ub he h3.1
            have h5 := h3.2
            unfold Tol.sdom at h5
            have h6 : r.1.sols.sol ≤ leafCost c.P (sel b T) k := by omega
            exact le_trans (le_trans (by exact_mod_cast h6) z1) ztol
        · have he0 : v0.sols.isEmpty = true := by
            cases he0 : v0.sols.isEmpty with
            | true => rfl
            | false => rw [(st1.ne he0).1] at he; simp at he
          refine ⟨(k2 he0).1, sdom_lt (k2 he0).2 z1 z0, fun hu => ?_⟩
          rcases st1.leaf hH hu with h | h
          · left; rw [h, i0]; rfl
          · right; exact h k hlk
    have low : AllOK c r.2.tick → r.1.sols.isEmpty = false → ∀ t, Allowed c.P c.mls d n (sel b T) t →
        (r.1.sols.sol : ℚ) ≤ tol ^ (K.w b d n + 1) * (t.cost c.P (sel b T) : ℚ) := by
      intro hH he t ht
      have := (fin hH t ht).1 he
      rw [zpow_add₀ (ne_of_gt tol_pos), zpow_one]
      calc _ ≤ _ := this
        _ = _ := by ring
    have hC : CInv c T K (AllOK c r.2.tick) (if r.1.sols.isEmpty = false then r.2.cache.storeOpt c.cc (sel b T) b r.1.sols d n
        else r.2.cache.updateLB c.cc (sel b T) b (if Tol.same r.1.inf.sol c.worst then UB else Node.addMax r.1.inf UB) d n) := by
      split
      · rename_i he
        obtain ⟨g1, g2⟩ := l1.real he
        exact storeOpt_inv s1 G.sorted pD g1 g2 fun hH => LBk.intro (low hH he)
      · rename_i he
        have he : r.1.sols.isEmpty = true := by simpa using he
        by_cases hulb : c.useLB = true
        case neg =>
          have hulb : c.useLB = false := by simpa using hulb
          have : c.cc.useLB = false := hulb
          unfold Cache.updateLB
          rw [if_neg (by rw [this]; simp)]; exact s1
        refine updateLB_inv s1 G.sorted pD fun hH _ => LBk.intro fun t ht => ?_
        obtain ⟨_, f2, f3⟩ := (fin hH t ht).2 he
        split
        · exact le_of_lt f2
        · rename_i hw
          rcases addMax_cases r.1.inf UB with h | h <;> rw [h]
          · rcases f3 hulb with f3 | f3
            · exfalso
              apply hw
              have h0 : 0 ≤ c.worst := by
                have := G.small _ hv1 (.leaf 0) ⟨G.labels, hm⟩
                have := G.cost_nonneg hv1 (.leaf 0); omega
              rw [f3]; unfold Tol.same; omega
            · exact f3
          · exact le_of_lt f2
    have hA : ∀ C, (updateArchive c { r.2 with cache := C } (sel b T) b d) = { r.2 with cache := C } :=
      fun C => updateArchive_off S.sim _ _ _
    rw [hA]
    exact ⟨t1, fun _ => hC, l1.real, fun he => (l1.emp he).1, fun hH he t ht => .inl (low hH he t ht),
      fun hH he t ht => ⟨((fin hH t ht).2 he).1, ((fin hH t ht).2 he).2.1⟩⟩

theorem storeTerminal_inv {H : Prop} {C : Cache} (hC : CInv c T K H C) {b : Branch}
    {UB v : Node} {d n : Nat} (hw : v.isEmpty = false → 0 ≤ K.w b d n + 1)
    (hv : v.isEmpty = false → Real c.P c.mls d (sel b T) v ∧ v.numNodes ≤ n ∧ (H → LBOK c d n (sel b T) v.sol))
    (he : c.useLB = true → v.isEmpty = true → UB.isEmpty = true) : CInv c T K H (storeTerminal c (sel b T) b UB v d n C) := by
  unfold storeTerminal
  split
  · exact hC
  · split
    · rename_i h
      obtain ⟨h1, h2, h3⟩ := hv h
      exact storeOpt_inv hC S.good.sorted (S.posSel b) h1 h2 fun hH => LBk.exact (S.posSel b) (hw h) (h3 hH)
    · rename_i h
      by_cases hulb : c.useLB = true
      case neg =>
        have hulb : c.useLB = false := by simpa using hulb
        have : c.cc.useLB = false := hulb
        unfold Cache.updateLB
        rw [if_neg (by rw [this]; simp)]; exact hC
      have h := he hulb (by simpa using h)
      exact updateLB_inv hC S.good.sorted (S.posSel b) fun _ h' => by rw [h] at h'; simp at h'

theorem solveTerminal_spec {b : Branch} {d n : Nat} {UB : Node} {s : St}
    (hm : c.mls ≤ (sel b T).length) (hok : K.ok b d n) (hd : 1 ≤ d) (hd2 : d ≤ 2) (hb : BudOK c d n) (ht : c.useTerm = true) (hs : StOK c T K s) :
    Post c T K b UB d n s (Tol.solveTerminal c (sel b T) b UB d n s) := by
  have G := S.good
  have pD := S.posSel b
  have hk := K.nonneg b d n hok
  have hv1 : ViewOf T (sel b T) := sel_view b T
  obtain ⟨hmls, hu⟩ := G.term ht
  have hbc : 0 ≤ c.P.bc := G.bc
  have hpow : n + 1 = 2 ^ d := by
    rcases hb with h | h
    · rw [ht] at h; simp at h
    · exact h
  have hdn : (d = 1 ∧ n = 1) ∨ (d = 2 ∧ n = 3) := by
    have : d = 1 ∨ d = 2 := by omega
    rcases this with rfl | rfl <;> omega
  have hsnd := terminal_sound c.P c.mls c.worst (sel b T) b n
  have hone : ∀ t : Tree, t.depth ≤ 1 → t.Legal c.P c.mls (sel b T) →
      (terminal c.tc (statsOf c.P (sel b T)) b n).one.sol ≤ t.cost c.P (sel b T) := by
    intro t h1 h2
    have h3 := oneNode_le c.P c.mls c.worst (sel b T) hbc t h1 h2
    unfold terminal
    rw [if_neg (by simp only [statsOf, Cfg.tc]; omega)]
    dsimp only
    split
    · exact h3
    · split <;> exact h3
  have hleaf : (terminal c.tc (statsOf c.P (sel b T)) b n).one.sol < c.worst :=
    Int.lt_of_le_of_lt (hone (.leaf 0) (Nat.zero_le _) ⟨G.labels, hm⟩) (G.small _ hv1 (.leaf 0) ⟨G.labels, hm⟩)
  have htwo : n ≠ 1 → (terminal c.tc (statsOf c.P (sel b T)) b n).two.sol ≤ (terminal c.tc (statsOf c.P (sel b T)) b n).one.sol := by
    intro hn
    unfold terminal
    rw [if_neg (by simp only [statsOf, Cfg.tc]; omega)]
    dsimp only
    rw [if_neg hn]
    split <;> exact addMin_le_right _ _
  have hthree : n ≠ 1 → ∀ t : Tree, t.depth ≤ 2 → t.Legal c.P c.mls (sel b T) →
      (terminal c.tc (statsOf c.P (sel b T)) b n).three.sol ≤ t.cost c.P (sel b T) := by
    intro hn t h1 h2
    have h3 := terminal_three_le c.P c.worst (sel b T) b n hn (sel_pathOK b T) hbc
      (fun i hi => G.nonneg i (hv1.subset hi)) t h1 (by rw [← hmls]; exact h2) (G.small _ hv1 t h2)
    have e : c.tc = tcOf c.P 1 c.worst := by unfold Cfg.tc tcOf; rw [hmls]
    rw [e]; exact h3
  have etc : c.tc = tcOf c.P c.mls c.worst := rfl
  rw [← etc] at hsnd
  obtain ⟨q1, q2, q3⟩ := hsnd
  generalize hterm : terminal c.tc (statsOf c.P (sel b T)) b n = r at q1 q2 q3 hone hleaf htwo hthree
  have hne1 : r.one.isEmpty = false := (q1.real_lt hleaf).1.nonempty
  have lb1 : LBOK c 1 1 (sel b T) r.one.sol := LowerBound.lbok fun t ht => hone t ht.1 ht.2.2
  have lb2 : n ≠ 1 → LBOK c 2 2 (sel b T) r.two.sol := by
    intro hn d' n' hb' hd' hn' t ht'
    have : d' ≤ 1 := by
      rcases hb' with h | h
      · rw [ht] at h; simp at h
      · have : d' = 0 ∨ d' = 1 ∨ d' = 2 := by omega
        rcases this with rfl | rfl | rfl
        · omega
        · omega
        · omega
    exact Int.le_trans (htwo hn) (hone t (by have := ht'.1; omega) ht'.2.2)
  have lb3 : n ≠ 1 → LBOK c 2 3 (sel b T) r.three.sol := fun hn => LowerBound.lbok fun t ht => hthree hn t ht.1 ht.2.2
  have hne2 : n ≠ 1 → r.two.isEmpty = false := fun hn => (q2.real_lt (by have := htwo hn; omega)).1.nonempty
  have hne3 : n ≠ 1 → r.three.isEmpty = false := fun hn => by
    refine (q3.real_lt ?_).1.nonempty
    exact Int.lt_of_le_of_lt (hthree hn (.leaf 0) (Nat.zero_le _) ⟨G.labels, hm⟩) (G.small _ hv1 (.leaf 0) ⟨G.labels, hm⟩)
  have hC : (c.useLB = true → c.useTerm = true → n = 1 → UB.isEmpty = true) → CInv c T K (AllOK c s.tick)
      (storeTerminal c (sel b T) b UB r.three 2 3 (storeTerminal c (sel b T) b UB r.two 2 2 (storeTerminal c (sel b T) b UB r.one 1 1 s.cache))) := by
    intro hUB
    have e23 : ∀ v : Node, (n ≠ 1 → v.isEmpty = false) → c.useLB = true → v.isEmpty = true → UB.isEmpty = true := by
      intro v hv hl he
      apply hUB hl ht
      by_contra hn
      rw [hv hn] at he; simp at he
    have one23 : n = 1 → r.two = Node.empty c.worst ∧ r.three = Node.empty c.worst := by
      rintro rfl
      rw [← hterm]; unfold terminal
      split <;> exact ⟨rfl, rfl⟩
    have w11 : 0 ≤ K.w b 1 1 + 1 := by
      have := K.anti b 1 1 d n (by omega) (by omega); omega
    have w23 : n ≠ 1 → 0 ≤ K.w b 2 3 + 1 := by
      rintro hn
      rcases hdn with ⟨rfl, rfl⟩ | ⟨rfl, rfl⟩
      · exact absurd rfl hn
      · omega
    have w22 : n ≠ 1 → 0 ≤ K.w b 2 2 + 1 := fun hn => by
      have := K.anti b 2 2 2 3 (by omega) (by omega)
      have := w23 hn; omega
    have em : (Node.empty c.worst).isEmpty ≠ false := by simp [Node.empty, Node.isEmpty]
    refine storeTerminal_inv S (storeTerminal_inv S (storeTerminal_inv S hs (fun _ => w11) ?_ ?_)
      (fun h => w22 fun hn => em (by rw [← (one23 hn).1]; exact h)) ?_ (e23 _ hne2))
      (fun h => w23 fun hn => em (by rw [← (one23 hn).2]; exact h)) ?_ (e23 _ hne3)
    · intro he
      exact ⟨(q1.real he).1, (q1.real he).2, fun _ => lb1⟩
    · intro _ he; rw [hne1] at he; simp at he
    · intro he
      refine ⟨(q2.real he).1, (q2.real he).2, fun _ => lb2 ?_⟩
      exact fun hn => em (by rw [← (one23 hn).1]; exact he)
    · intro he
      refine ⟨(q3.real he).1, (q3.real he).2, fun _ => lb3 ?_⟩
      exact fun hn => em (by rw [← (one23 hn).2]; exact he)
  unfold Tol.solveTerminal
  rw [hterm]
  dsimp only
  rw [updateArchive_off S.sim]
  have main : ∀ v : Node, v.isEmpty = false → Real c.P c.mls d (sel b T) v → v.numNodes ≤ n → LowerBound c.P c.mls d n (sel b T) v.sol →
      Post c T K b UB d n s (if Tol.sdom UB.sol v.sol then Node.empty c.worst else v,
        { s with cache := storeTerminal c (sel b T) b UB r.three 2 3 (storeTerminal c (sel b T) b UB r.two 2 2 (storeTerminal c (sel b T) b UB r.one 1 1 s.cache)) }) := by
    intro v hv1 hv2 hv3 hv4
    refine ⟨Nat.le_refl _, fun h => hC h, ?_, ?_, ?_, ?_⟩ <;> dsimp only
    · split
      · intro h; simp [Node.empty, Node.isEmpty] at h
      · exact fun _ => ⟨hv2, hv3⟩
    · split
      · exact fun _ => rfl
      · intro h; rw [hv1] at h; simp at h
    · split
      · intro _ h; simp [Node.empty, Node.isEmpty] at h
      · exact fun _ _ t ht => .inl (le_trans (by exact_mod_cast hv4 t ht) (scale_one pD (by omega) t))
    · split
      · rename_i hlt
        intro _ _ t ht
        have h5 : (v.sol : ℚ) ≤ t.cost c.P (sel b T) := by exact_mod_cast hv4 t ht
        exact ⟨hu, sdom_lt hlt (le_trans h5 (scale_one pD hk t)) (scale_nonneg pD _ t)⟩
      · intro _ h; rw [hv1] at h; simp at h
  rcases hdn with ⟨rfl, rfl⟩ | ⟨rfl, rfl⟩
  · rw [if_pos rfl]
    exact main _ hne1 (q1.real hne1).1 (q1.real hne1).2 (lb1.lower hb)
  · have h3 := hne3 (by decide)
    exact main _ h3 (q3.real h3).1 (q3.real h3).2 ((lb3 (by decide)).lower hb)

omit S in
/-- Shift the start of a call. -/
theorem Post.shift {b : Branch} {UB : Node} {d n : Nat} {s s' : St} {r : Node × St} (h : Post c T K b UB d n s' r)
    (ht : s.tick ≤ s'.tick) : Post c T K b UB d n s r := ⟨Nat.le_trans ht h.tick, h.st, h.real, h.emp, h.low, h.inf⟩

/-- The result for a smaller budget, if the trees outside it cost more than the upper bound. -/
theorem Post.widen {b : Branch} {UB : Node} {d n d' n' : Nat} {s : St} {r : Node × St} (h : Post c T K b UB d' n' s r)
    (hok : K.ok b d n)
    (hd : d' ≤ d) (hn : n' ≤ n) (h1 : (c.useLB = true → c.useTerm = true → n = 1 → UB.isEmpty = true) → StOK c T K r.2)
    (hsp : c.sparse = true)
    (hout : ∀ t, Allowed c.P c.mls d n (sel b T) t → ¬ Allowed c.P c.mls d' n' (sel b T) t → UB.sol < t.cost c.P (sel b T)) :
    Post c T K b UB d n s r := by
  have hu := (S.good.sparse hsp).2
  have hw := S.flat hsp b d n d' n'
  have hk := K.nonneg b d n hok
  refine ⟨h.tick, h1, fun he => ?_, h.emp, fun hH he t ht => ?_, fun hH he t ht => ?_⟩
  · have := h.real he
    exact ⟨this.1.mono hd, by omega⟩
  · by_cases ha : Allowed c.P c.mls d' n' (sel b T) t
    · rw [hw]; exact h.low hH he t ha
    · exact .inr ⟨hsp, hout t ht ha⟩
  · by_cases ha : Allowed c.P c.mls d' n' (sel b T) t
    · rw [hw]; exact h.inf hH he t ha
    · exact ⟨hu, lt_of_lt_of_le (by exact_mod_cast hout t ht ha) (scale_one (S.posSel b) hk t)⟩

/-- `SolveSubTree` after the budget has been reduced. -/
def searchBudget (c : Cfg) (rec : Rec) (D : Data) (b : Branch) (UB : Node) (d n : Nat) (s : St) : Node × St :=
  if d = 0 ∨ n = 0 then ((Tol.solveLeaf c D UB).1, s)
  else
    let hit := s.cache.retrieveOpt c.cc D b d n
    if hit.isEmpty = false then (hit, s)
    else
      let go := fun s : St =>
        if c.useTerm = true ∧ d ≤ 2 then Tol.solveTerminal c D b UB d n s
        else Tol.generalCase c rec D b UB d n s
      if c.useLB then
        let sim := Tol.useSimilarity c s D b d n
        let s := sim.2
        let hit := s.cache.retrieveOpt c.cc D b d n
        if sim.1 = true ∧ hit.isEmpty = false then (hit, s)
        else
          let lb := Tol.computeLB c s D b d n
          if c.useUB = true ∧ Tol.sdom UB.sol lb.sol then (Node.empty c.worst, s)
          else
            let lf := (Tol.solveLeaf c D (Node.empty c.worst)).1
            if Tol.same lb.sol lf.sol then (lf, s) else go s
      else go s

theorem searchBudget_spec {rec : Rec} {b : Branch} {d n : Nat} {UB : Node} {s : St}
    (hrec : 1 ≤ d → RecOK c T K rec (d - 1)) (hm : c.mls ≤ (sel b T).length) (hp : n + 1 ≤ 2 ^ d) (hok : K.ok b d n)
    (hb : BudOK c d n) (hs : StOK c T K s) : Post c T K b UB d n s (searchBudget c rec (sel b T) b UB d n s.next) := by
  have G := S.good
  have hv1 : ViewOf T (sel b T) := sel_view b T
  have pD := S.posSel b
  have hk := K.nonneg b d n hok
  have tn : s.tick ≤ s.next.tick := Nat.le_succ _
  unfold searchBudget
  dsimp only
  split
  · rename_i h0
    refine leaf_post S hm UB d n s s.next hok tn hs.next fun t ht => leaf_of_depth_zero ?_
    have h1 := ht.1
    have h2 := ht.2.1
    omega
  · rename_i h0
    have hd : 1 ≤ d := by omega
    have hn : 1 ≤ n := by omega
    have hit : (s.next.cache.retrieveOpt c.cc (sel b T) b d n).isEmpty = false →
        Post c T K b UB d n s (s.next.cache.retrieveOpt c.cc (sel b T) b d n, s.next) := by
      intro he
      obtain ⟨h1, h2⟩ := retrieveOpt_spec hs.next he
      exact ⟨tn, fun _ => hs.next, fun _ => h1, fun h => by dsimp only at h; rw [he] at h; simp at h,
        fun hH _ t ht => .inl ((h2 hH).lower hb t ht), fun _ h => by dsimp only at h; rw [he] at h; simp at h⟩
    split
    · rename_i he
      exact hit he
    · rename_i he
      have he : (s.next.cache.retrieveOpt c.cc (sel b T) b d n).isEmpty = true := by simpa using he
      have go : Post c T K b UB d n s
          (if c.useTerm = true ∧ d ≤ 2 then Tol.solveTerminal c (sel b T) b UB d n s.next
            else Tol.generalCase c rec (sel b T) b UB d n s.next) := by
        split
        · rename_i hc
          exact (solveTerminal_spec S hm hok hd hc.2 hb hc.1 hs.next).shift tn
        · exact (generalCase_spec S (hrec hd) hm hd hn hp hok hb hs.next fun _ => he).shift tn
      have hsim : Tol.useSimilarity c s.next (sel b T) b d n = (false, s.next) := if_pos S.sim
      rw [hsim]
      dsimp only
      split
      · rw [if_neg (by simp)]
        have hlb := fun hH => (computeLB_open S hs.next hok hH fun _ => he).lower hb
        split
        · rename_i hc
          exact ⟨tn, fun _ => hs.next, fun h => by simp [Node.empty, Node.isEmpty] at h, fun _ => rfl,
            fun _ h => by simp [Node.empty, Node.isEmpty] at h,
            fun hH _ t ht => ⟨hc.1, sdom_lt hc.2 (hlb hH t ht) (scale_nonneg pD _ t)⟩⟩
        · split
          · rename_i heq
            obtain ⟨l1, l2⟩ := solveLeaf_spec S hv1 hm (Node.empty c.worst)
            have hne : (Tol.solveLeaf c (sel b T) (Node.empty c.worst)).1.isEmpty = false := by
              cases he : (Tol.solveLeaf c (sel b T) (Node.empty c.worst)).1.isEmpty with
              | false => rfl
              | true =>
                have h3 := ((l1 he).2.2 0 G.labels).2
                have h4 : leafCost c.P (sel b T) 0 < c.worst := G.small _ hv1 (.leaf 0) ⟨G.labels, hm⟩
                have h5 : 0 ≤ leafCost c.P (sel b T) 0 := G.cost_nonneg hv1 (.leaf 0)
                simp only [Node.empty, Tol.sdom] at h3; omega
            have hre := (l2 hne).1
            refine ⟨tn, fun _ => hs.next, fun _ => ⟨hre.mono (Nat.zero_le _), ?_⟩, fun h => ?_, fun hH _ t ht => ?_, fun _ h => ?_⟩
            · rw [hre.numNodes_zero]; exact Nat.zero_le _
            · dsimp only at h; rw [hne] at h; simp at h
            · left
              have h3 := mul_le_mul_of_nonneg_left (hlb hH t ht) (le_of_lt tol_pos)
              have h4 := le_trans (same_le heq) h3
              rw [zpow_add₀ (ne_of_gt tol_pos), zpow_one]
              calc _ ≤ _ := h4
                _ = _ := by ring
            · dsimp only at h; rw [hne] at h; simp at h
          · exact go
      · exact go

theorem subTree_spec {rec : Rec} {b : Branch} {d n : Nat} {UB : Node} {s : St}
    (hrec : 1 ≤ d → RecOK c T K rec (d - 1)) (hm : c.mls ≤ (sel b T).length) (hp : n + 1 ≤ 2 ^ d) (hok : K.ok b d n)
    (hb : BudOK c d n) (hs : StOK c T K s) : Post c T K b UB d n s (Tol.subTree c rec (sel b T) b UB d n s) := by
  have G := S.good
  have hv1 : ViewOf T (sel b T) := sel_view b T
  have tn : s.tick ≤ s.next.tick := Nat.le_succ _
  unfold Tol.subTree
  split
  · rename_i hok
    have hno := not_AllOK_next hok
    exact ⟨tn, fun _ => hs.next, fun h => by simp [Node.empty, Node.isEmpty] at h, fun _ => rfl,
      fun h => absurd h hno, fun h => absurd h hno⟩
  · obtain ⟨r1, r2, r3, r4, r5⟩ := reduceBudget_bud (UB := UB) hp hb
    have hpost := searchBudget_spec S (UB := UB) (d := (reduceBudget c UB d n).1) (n := (reduceBudget c UB d n).2)
      (rec := rec) (b := b) (fun h => ?_) hm r3 (K.small _ _ _ _ _ hok r1 r2) r4 hs
    · change Post c T K b UB d n s (searchBudget c rec (sel b T) b UB (reduceBudget c UB d n).1 (reduceBudget c UB d n).2 s.next)
      cases hsp : c.sparse with
      | false =>
        have e := r5 hsp
        rw [e] at hpost ⊢; exact hpost
      | true =>
        obtain ⟨g1, g2⟩ := G.sparse hsp
        refine hpost.widen S hok r1 r2 (fun _ => hpost.st fun h => by rw [g1] at h; simp at h) hsp ?_
        intro t ht hno
        by_contra hle
        have := reduceBudget_keeps c UB d n (sel b T) (fun i hi => G.nonneg i (hv1.subset hi)) t ht.1 ht.2.1 (by omega)
        exact hno ⟨this.1, this.2, ht.2.2⟩
    · intro b' UB' d' n' s' hd'
      exact hrec (by omega) b' UB' d' n' s' (by omega)

/-- The recursive search meets its specification. -/
theorem solveSub_spec (fuel : Nat) : RecOK c T K (Tol.solveSub c fuel) fuel := by
  induction fuel with
  | zero =>
    intro b UB d n s hd hm hb hp hok hs
    exact subTree_spec S (fun h => by omega) hm hp hok hb hs
  | succ fuel ih =>
    intro b UB d n s hd hm hb hp hok hs
    refine subTree_spec S (fun h => ?_) hm hp hok hb hs
    intro b' UB' d' n' s' hd'
    exact ih b' UB' d' n' s' (by omega)

end
end Streed.Apx
