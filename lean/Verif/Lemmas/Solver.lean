import Verif.Lemmas.Similarity

/-! Invariants of the search. -/

namespace Streed

/-- The circumstances under which the search is shown to be optimal: a non-negative additive objective,
values below `worst`, a leaf size of at least one (exactly one if the depth-two solver or the similarity
bound is used), integer differences of at least `md`. Branching costs (and the bound on the number of nodes
that comes with them) are allowed if lower bounds are off and upper bounds are on. -/
structure Good (c : Cfg) (T : Data) : Prop where
  labels : 0 < c.P.nL
  bc : 0 ≤ c.P.bc
  bcLB : c.useLB = true → c.P.bc = 0
  nonneg : ∀ i ∈ T, ∀ k, 0 ≤ c.P.cost i k
  small : ∀ D, ViewOf T D → ∀ t : Tree, t.Legal c.P c.mls D → t.cost c.P D < c.worst
  mls : 1 ≤ c.mls
  term : c.useTerm = true → c.mls = 1 ∧ c.useUB = true
  sim : c.simLB = true → c.mls = 1
  sparse : c.sparse = true → c.useLB = false ∧ c.useUB = true
  custom : ∀ D, ViewOf T D → ∀ t : Tree, t.Legal c.P c.mls D → c.customLB D ≤ t.cost c.P D
  md : 0 ≤ c.md ∧ c.md ≤ 1
  sorted : IdSorted T
  inRange : ∀ i ∈ T, i.label < c.P.nL
  order : ∀ D f, f ∈ c.order D ↔ f < c.P.nF
  redundant : ∀ f, c.redundant f = true → without f T = [] ∨ having f T = []
  worstPer : c.simLB = true → c.simInst = none → ∀ i ∈ T, ∀ k, k < c.P.nL → c.P.cost i k ≤ c.worstPer i.label
  simInst : c.simLB = true → ∀ w, c.simInst = some w → ∀ i ∈ T, ∀ k, k < c.P.nL → c.P.cost i k ≤ w i

/-- No time check so far has failed. -/
def AllOK (c : Cfg) (k : Nat) : Prop := ∀ i, i < k → c.clock i = true

theorem AllOK.mono {c : Cfg} {k k' : Nat} (h : AllOK c k') (hk : k ≤ k') : AllOK c k :=
  fun i hi => h i (by omega)

/-- State invariant. -/
structure StOK (c : Cfg) (T : Data) (s : St) : Prop where
  cache : CInv c T (AllOK c s.tick) s.cache
  arch : ∀ d, ∀ p ∈ Tbl.get s.arch d [], p.1 = sel p.2 T ∧ c.mls ≤ p.1.length

theorem StOK.next {c : Cfg} {T : Data} {s : St} (h : StOK c T s) : StOK c T s.next :=
  ⟨h.cache.weaken fun a => a.mono (Nat.le_succ _), h.arch⟩

theorem StOK.setCache {c : Cfg} {T : Data} {s : St} (h : StOK c T s) {C : Cache}
    (hC : CInv c T (AllOK c s.tick) C) : StOK c T { s with cache := C } := ⟨hC, h.arch⟩

theorem not_AllOK_next {c : Cfg} {s : St} (h : c.ok s = false) : ¬ AllOK c s.next.tick := by
  intro ha
  have := ha s.tick (Nat.lt_succ_self _)
  unfold Cfg.ok at h
  rw [h] at this; simp at this

section
variable {c : Cfg} {T : Data} (G : Good c T)
include G

theorem Good.cost_nonneg {D : Data} (hD : ViewOf T D) (t : Tree) : 0 ≤ t.cost c.P D :=
  Tree.cost_nonneg c.P t D (fun i hi => G.nonneg i (hD.subset hi)) G.bc

theorem Good.zero_lb {D : Data} (hD : ViewOf T D) (d n : Nat) : LowerBound c.P c.mls d n D 0 :=
  fun t _ => G.cost_nonneg hD t

/-! ### Leaves -/

theorem leafLoop_spec {D : Data} (hD : ViewOf T D) (hm : c.mls ≤ D.length) (UB0 : Node) (ks : List Nat)
    (done : List Nat) (hks : ∀ k ∈ ks, k < c.P.nL) (r UB : Node)
    (h1 : r.isEmpty = true → r = Node.empty c.worst ∧ UB = UB0 ∧
      ∀ k ∈ done, c.useUB = true ∧ UB0.sol < leafCost c.P D k)
    (h2 : r.isEmpty = false → Real c.P c.mls 0 D r ∧ (c.useUB = true → UB.sol = r.sol ∧ r.sol ≤ UB0.sol) ∧
      ∀ k ∈ done, r.sol ≤ leafCost c.P D k) :
    let x := leafLoop c D ks r UB
    (x.1.isEmpty = true → x.1 = Node.empty c.worst ∧ x.2 = UB0 ∧
      ∀ k, k ∈ done ∨ k ∈ ks → c.useUB = true ∧ UB0.sol < leafCost c.P D k) ∧
    (x.1.isEmpty = false → Real c.P c.mls 0 D x.1 ∧ (c.useUB = true → x.2.sol = x.1.sol ∧ x.1.sol ≤ UB0.sol) ∧
      ∀ k, k ∈ done ∨ k ∈ ks → x.1.sol ≤ leafCost c.P D k) := by
  induction ks generalizing r UB done with
  | nil =>
    simp only [leafLoop]
    refine ⟨fun h => ⟨(h1 h).1, (h1 h).2.1, fun k hk => (h1 h).2.2 k (by simpa using hk)⟩,
      fun h => ⟨(h2 h).1, (h2 h).2.1, fun k hk => (h2 h).2.2 k (by simpa using hk)⟩⟩
  | cons k ks ih =>
    have hk := hks k (List.mem_cons_self ..)
    have hreal : Real c.P c.mls 0 D (Node.leaf k (leafCost c.P D k)) := Real.leaf hk hm
    have hsm : leafCost c.P D k < c.worst := G.small D hD (.leaf k) ⟨hk, hm⟩
    have hsol : (Node.leaf k (leafCost c.P D k)).sol = leafCost c.P D k := rfl
    have conv : ∀ j, j ∈ done ∨ j ∈ k :: ks ↔ j ∈ k :: done ∨ j ∈ ks := by
      intro j; simp only [List.mem_cons]; constructor
      · rintro (h | h | h) <;> simp [h]
      · rintro ((h | h) | h) <;> simp [h]
    simp only [leafLoop, conv]
    split
    · rename_i hc
      rw [hsol] at hc
      refine ih (k :: done) (fun j hj => hks j (List.mem_cons_of_mem _ hj)) r UB ?_ ?_
      · intro he
        obtain ⟨e1, e2, e3⟩ := h1 he
        refine ⟨e1, e2, fun j hj => ?_⟩
        rcases List.mem_cons.1 hj with rfl | hj
        · rw [← e2]; exact hc
        · exact e3 j hj
      · intro he
        obtain ⟨e1, e2, e3⟩ := h2 he
        refine ⟨e1, e2, fun j hj => ?_⟩
        rcases List.mem_cons.1 hj with rfl | hj
        · have := (e2 hc.1).1; omega
        · exact e3 j hj
    · rename_i hc
      rw [hsol] at hc
      refine ih (k :: done) (fun j hj => hks j (List.mem_cons_of_mem _ hj)) _ _ ?_ ?_
      · intro he
        exfalso
        cases hr : r.isEmpty with
        | true =>
          rw [(h1 hr).1] at he
          have : Node.addMin (Node.empty c.worst) (Node.leaf k (leafCost c.P D k)) = Node.leaf k (leafCost c.P D k) := by
            exact if_pos hsm
          rw [this, hreal.nonempty] at he; simp at he
        | false =>
          rcases addMin_cases r (Node.leaf k (leafCost c.P D k)) with h | h <;> rw [h] at he
          · rw [hr] at he; simp at he
          · rw [hreal.nonempty] at he; simp at he
      · intro _
        cases hr : r.isEmpty with
        | true =>
          obtain ⟨e1, e2, e3⟩ := h1 hr
          have : Node.addMin r (Node.leaf k (leafCost c.P D k)) = Node.leaf k (leafCost c.P D k) := by
            rw [e1]; exact if_pos hsm
          rw [this]
          refine ⟨hreal, fun hu => ?_, fun j hj => ?_⟩
          · have hle : ¬ UB.sol < leafCost c.P D k := fun h => hc ⟨hu, h⟩
            unfold updateUB; rw [if_pos hu, hsol]
            unfold Node.addMin; rw [hsol]
            rw [← e2]
            split
            · rw [hsol]; omega
            · omega
          · rw [hsol]
            rcases List.mem_cons.1 hj with rfl | hj
            · exact Int.le_refl _
            · have := e3 j hj
              have hle : ¬ UB.sol < leafCost c.P D k := fun h => hc ⟨this.1, h⟩
              rw [e2] at hle
              have := this.2; omega
        | false =>
          obtain ⟨e1, e2, e3⟩ := h2 hr
          refine ⟨?_, fun hu => ?_, fun j hj => ?_⟩
          · rcases addMin_cases r (Node.leaf k (leafCost c.P D k)) with h | h <;> rw [h] <;> assumption
          · have := e2 hu
            unfold updateUB; rw [if_pos hu]
            unfold Node.addMin; rw [hsol]
            split <;> split <;> omega
          · rcases List.mem_cons.1 hj with rfl | hj
            · exact addMin_le_right _ _
            · exact Int.le_trans (addMin_le_left _ _) (e3 j hj)

/-- What `SolveLeafNode` returns. -/
theorem solveLeaf_spec {D : Data} (hD : ViewOf T D) (hm : c.mls ≤ D.length) (UB : Node) :
    ((solveLeaf c D UB).1.isEmpty = true → (solveLeaf c D UB).1 = Node.empty c.worst ∧ (solveLeaf c D UB).2 = UB ∧
      ∀ k, k < c.P.nL → c.useUB = true ∧ UB.sol < leafCost c.P D k) ∧
    ((solveLeaf c D UB).1.isEmpty = false → Real c.P c.mls 0 D (solveLeaf c D UB).1 ∧
      (c.useUB = true → (solveLeaf c D UB).2.sol = (solveLeaf c D UB).1.sol ∧ (solveLeaf c D UB).1.sol ≤ UB.sol) ∧
      ∀ k, k < c.P.nL → (solveLeaf c D UB).1.sol ≤ leafCost c.P D k) := by
  unfold solveLeaf
  rw [if_neg (by omega)]
  have h := leafLoop_spec G hD hm UB (List.range c.P.nL) [] (fun k hk => List.mem_range.1 hk) (Node.empty c.worst) UB
    (fun _ => ⟨rfl, rfl, by simp⟩) (fun h => by simp [Node.empty, Node.isEmpty] at h)
  simp only at h
  refine ⟨fun he => ⟨(h.1 he).1, (h.1 he).2.1, fun k hk => (h.1 he).2.2 k (.inr (List.mem_range.2 hk))⟩,
    fun he => ⟨(h.2 he).1, (h.2 he).2.1, fun k hk => (h.2 he).2.2 k (.inr (List.mem_range.2 hk))⟩⟩

omit G in
theorem Real.numNodes_zero {P : Problem} {mls : Nat} {D : Data} {v : Node} (h : Real P mls 0 D v) : v.numNodes = 0 := by
  obtain ⟨t, h1, h2, _⟩ := h
  rw [← h1.nodes]
  cases t with
  | leaf k => rfl
  | node f l r => simp [Tree.depth] at h2

theorem Real.small {D : Data} (hD : ViewOf T D) {d : Nat} {v : Node} (h : Real c.P c.mls d D v) : v.sol < c.worst := by
  obtain ⟨t, _, _, h3, h4⟩ := h
  rw [← h4]; exact G.small D hD t h3

/-! ### Lower bounds -/

theorem computeLB_spec {s : St} (hs : StOK c T s) {D : Data} {b : Branch} (hD : D = sel b T) (d n : Nat)
    (hH : AllOK c s.tick) : LBOK c d n D (computeLB c s D b d n).sol := by
  have hv : ViewOf T D := by rw [hD]; exact sel_view b T
  have h0 : LBOK c d n D 0 := (G.zero_lb hv d n).lbok
  have hcust : LBOK c d n D (c.customLB D) := LowerBound.lbok fun t ht => G.custom D hv t ht.2.2
  have hr := retrieveLB_spec hs.cache hD hH h0
  unfold computeLB
  split
  · rename_i hlb
    have hsp : c.sparse = false := by
      cases h : c.sparse with
      | false => rfl
      | true => rw [(G.sparse h).1] at hlb; simp at hlb
    simp only [hsp]
    rcases addMax_cases (Node.addMax (Node.value 0) (s.cache.retrieveLB c.cc D b d n)) (Node.value (c.customLB D))
      with h | h <;> rw [if_neg (by simp), h]
    · rcases addMax_cases (Node.value 0) (s.cache.retrieveLB c.cc D b d n) with h' | h' <;> rw [h']
      · exact h0
      · exact hr
    · exact hcust
  · exact h0

theorem computeLRLB_spec {s : St} (hs : StOK c T s) {f : Nat} {L R : Side} (hL : L.D = sel L.b T) (hR : R.D = sel R.b T)
    (ld ls rd rs : Nat) (hb1 : BudOK c ld ls) (hb2 : BudOK c rd rs) (hH : AllOK c s.tick) :
    let x := computeLRLB c s f L.D L.b ld ls R.D R.b rd rs
    (∀ tL tR, Allowed c.P c.mls ld ls L.D tL → Allowed c.P c.mls rd rs R.D tR →
      x.1.sol ≤ c.P.bc + (tL.cost c.P L.D + tR.cost c.P R.D)) ∧ LowerBound c.P c.mls rd rs R.D x.2.2.sol := by
  have hvL : ViewOf T L.D := by rw [hL]; exact sel_view _ T
  have hvR : ViewOf T R.D := by rw [hR]; exact sel_view _ T
  have h1 := (computeLB_spec G hs hL ld ls hH).lower hb1
  have h2 := (computeLB_spec G hs hR rd rs hH).lower hb2
  unfold computeLRLB
  split
  · refine ⟨fun tL tR a b => ?_, h2⟩
    have := h1 tL a
    have := h2 tR b
    simp only [Node.combine, Node.branch]; omega
  · refine ⟨fun tL tR _ _ => ?_, fun t _ => G.cost_nonneg hvR t⟩
    have h1 := G.cost_nonneg hvL tL
    have h2 := G.cost_nonneg hvR tR
    have := G.bc
    simp only [Node.value]; omega

/-! ### Similarity -/

theorem diff_zero {D E : Data} (hD : ViewOf T D) (hE : ViewOf T E) (h : totalDifference c.P.nL D E = 0) : D = E := by
  have hl : ∀ i ∈ D ++ E, i.label < c.P.nL := by
    intro i hi
    rcases List.mem_append.1 hi with h | h
    · exact G.inRange i (hD.subset h)
    · exact G.inRange i (hE.subset h)
  have hc := (difference_counts c.P.nL D E).1
  have e1 : (computeDifference c.P.nL D E).1 = [] := List.length_eq_zero_iff.1 (by omega)
  have e2 : (computeDifference c.P.nL D E).2 = [] := List.length_eq_zero_iff.1 (by omega)
  have hp := difference_apply c.P.nL D E (hD.sorted G.sorted) (hE.sorted G.sorted) hl (hD.consistent hE G.sorted)
  rw [e1, e2, List.append_nil, List.append_nil] at hp
  exact sorted_ext (hD.sorted G.sorted) (hE.sorted G.sorted) fun i => hp.symm.mem_iff

theorem simLoop_spec (H : Prop) {D : Data} {b : Branch} (hD : D = sel b T) (d n : Nat) (hb : BudOK c d n)
    (hsim : c.simLB = true) (hulb : c.useLB = true) (es : List (Data × Branch)) (hes : ∀ p ∈ es, p.1 = sel p.2 T ∧ c.mls ≤ p.1.length)
    (lb : Node) (C : Cache) (hC : CInv c T H C) (hlb : H → LowerBound c.P c.mls d n D lb.sol) :
    CInv c T H (simLoop c D b d n es lb C).2.2 ∧ (H → LowerBound c.P c.mls d n D (simLoop c D b d n es lb C).1.sol) := by
  have hv : ViewOf T D := by rw [hD]; exact sel_view b T
  induction es generalizing lb C with
  | nil => exact ⟨hC, hlb⟩
  | cons p es ih =>
    obtain ⟨D', b'⟩ := p
    obtain ⟨hD', hlen⟩ := hes (D', b') (List.mem_cons_self ..)
    simp only at hD' hlen
    have hv' : ViewOf T D' := by rw [hD']; exact sel_view b' T
    have hes' := fun p hp => hes p (List.mem_cons_of_mem _ hp)
    have hl : ∀ i ∈ D' ++ D, i.label < c.P.nL := by
      intro i hi
      rcases List.mem_append.1 hi with h | h
      · exact G.inRange i (hv'.subset h)
      · exact G.inRange i (hv.subset h)
    have hm := G.sim hsim
    have he : H → LowerBound c.P c.mls d n D (subtract (C.retrieveLB c.cc D' b' d n).sol (removalCost c D' D)) := by
      intro hH
      have h1 := (retrieveLB_spec hC hD' (d := d) (n := n) hH (G.zero_lb hv' d n).lbok).lower hb
      rw [hm] at h1 ⊢
      have hne : D' ≠ [] := by intro h; rw [h] at hlen; simp at hlen; omega
      unfold removalCost
      split
      · rename_i hs
        exact similarity_lower (G.bcLB hulb) c.worstPer D' D (hv'.sorted G.sorted) (hv.sorted G.sorted) hl
          (hv'.consistent hv G.sorted) (fun i hi => G.nonneg i (hv.subset hi))
          (fun i hi => G.worstPer hsim hs i (hv'.subset hi)) hne d n _ h1
      · rename_i w hs
        exact similarity_lower_inst (G.bcLB hulb) w D' D (hv'.sorted G.sorted) (hv.sorted G.sorted) hl
          (hv'.consistent hv G.sorted) (fun i hi => G.nonneg i (hv.subset hi))
          (fun i hi => G.simInst hsim w hs i (hv'.subset hi)) hne d n _ h1
    have hlb' : H → LowerBound c.P c.mls d n D (Node.addMax lb
        { C.retrieveLB c.cc D' b' d n with sol := subtract (C.retrieveLB c.cc D' b' d n).sol (removalCost c D' D) }).sol := by
      intro hH
      rcases addMax_cases lb { C.retrieveLB c.cc D' b' d n with
        sol := subtract (C.retrieveLB c.cc D' b' d n).sol (removalCost c D' D) } with h | h <;> rw [h]
      · exact hlb hH
      · exact he hH
    unfold simLoop
    split
    · exact ih hes' lb C hC hlb
    · split
      · exact ih hes' lb C hC hlb
      · simp only
        split
        · rename_i h0
          have heq : sel b' T = sel b T := by rw [← hD', ← hD]; exact diff_zero G hv' hv h0
          have hC' := transfer_inv hC heq
          split
          · exact ⟨hC', he⟩
          · exact ih hes' _ _ hC' hlb'
        · exact ih hes' _ _ hC hlb'

theorem useSimilarity_spec {s : St} (hs : StOK c T s) {D : Data} {b : Branch} (hD : D = sel b T) (d n : Nat)
    (hb : BudOK c d n) (hulb : c.useLB = true) : StOK c T (useSimilarity c s D b d n).2 ∧ (useSimilarity c s D b d n).2.tick = s.tick := by
  have hv : ViewOf T D := by rw [hD]; exact sel_view b T
  unfold useSimilarity
  split
  · exact ⟨hs, rfl⟩
  · rename_i hsim
    obtain ⟨h1, h2⟩ := simLoop_spec G (AllOK c s.tick) hD d n hb (by simpa using hsim) hulb (Tbl.get s.arch d [])
      (hs.arch d) (Node.value 0) s.cache hs.cache (fun _ => G.zero_lb hv d n)
    simp only
    split
    · exact ⟨hs.setCache h1, rfl⟩
    · split
      · exact ⟨hs.setCache h1, rfl⟩
      · split
        · refine ⟨⟨updateLB_inv h1 G.sorted hD fun hH _ => (h2 hH).lbok, hs.arch⟩, rfl⟩
        · exact ⟨hs.setCache h1, rfl⟩

omit G in
theorem mem_replaceSimilar {nL : Nat} {D : Data} {b : Branch} {es : List (Data × Branch)} {p : Data × Branch}
    (h : p ∈ replaceSimilar nL D b es) : p ∈ es ∨ p = (D, b) := by
  unfold replaceSimilar at h
  exact List.mem_or_eq_of_mem_set h

omit G in
theorem updateArchive_ok {s : St} (hs : StOK c T s) {D : Data} {b : Branch} (hD : D = sel b T) (hm : c.mls ≤ D.length)
    (d : Nat) : StOK c T (updateArchive c s D b d) ∧ (updateArchive c s D b d).tick = s.tick := by
  unfold updateArchive
  split
  · exact ⟨hs, rfl⟩
  · refine ⟨⟨hs.cache, ?_⟩, rfl⟩
    intro d' p hp
    simp only at hp
    rw [Tbl.get_set] at hp
    split at hp
    · split at hp
      · rcases List.mem_append.1 hp with hp | hp
        · exact hs.arch d p hp
        · rw [List.mem_singleton.1 hp]; exact ⟨hD, hm⟩
      · rcases mem_replaceSimilar hp with hp | hp
        · exact hs.arch d p hp
        · rw [hp]; exact ⟨hD, hm⟩
    · exact hs.arch d' p hp

end
end Streed
