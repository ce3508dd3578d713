import Verif.Lemmas.CacheAll
import Verif.Lemmas.Top

/-! Whatever the options, whatever the clock: every solution the search handles describes a legal tree
within its budget. Unlike the optimality invariants this needs no assumption on node limits, leaf sizes or
bounds. -/

namespace Streed

/-- The circumstances under which all solutions are real. -/
structure Base (c : Cfg) (T : Data) : Prop where
  labels : 0 < c.P.nL
  bc : 0 ≤ c.P.bc
  nonneg : ∀ i ∈ T, ∀ k, 0 ≤ c.P.cost i k
  worst : 0 ≤ c.worst
  small : ∀ D, ViewOf T D → ∀ t : Tree, t.Legal c.P c.mls D → t.cost c.P D < c.worst
  custom : ∀ D, ViewOf T D → c.customLB D ≤ c.worst
  md : 0 ≤ c.md
  sorted : IdSorted T
  inRange : ∀ i ∈ T, i.label < c.P.nL
  order : ∀ D f, f ∈ c.order D → f < c.P.nF
  worstPer : ∀ k, 0 ≤ c.worstPer k ∨ ∀ i ∈ T, i.label ≠ k
  simInst : ∀ w, c.simInst = some w → ∀ i ∈ T, 0 ≤ w i

/-- A cache entry for `D` holds a real solution, if any, and a bound that is not above `worst`. -/
def QS (c : Cfg) (D : Data) (e : Entry) : Prop :=
  (e.opt.isEmpty = false → Real c.P c.mls e.depth D e.opt ∧ e.opt.numNodes ≤ e.nodes) ∧ e.lb.sol ≤ c.worst

/-- State invariant. -/
structure SOK (c : Cfg) (T : Data) (s : St) : Prop where
  cache : CAll T (QS c) s.cache
  arch : ∀ d, ∀ p ∈ Tbl.get s.arch d [], p.1 = sel p.2 T

theorem SOK.next {c : Cfg} {T : Data} {s : St} (h : SOK c T s) : SOK c T s.next := ⟨h.cache, h.arch⟩
theorem SOK.setCache {c : Cfg} {T : Data} {s : St} (h : SOK c T s) {C : Cache} (hC : CAll T (QS c) C) :
    SOK c T { s with cache := C } := ⟨hC, h.arch⟩
theorem SOK.init {c : Cfg} {T : Data} : SOK c T St.init :=
  ⟨CAll.init, fun d p hp => by simp [St.init, Tbl.get] at hp⟩

/-- What every call guarantees. -/
structure SPost (c : Cfg) (T : Data) (D : Data) (UB : Node) (d n : Nat) (r : Node × St) : Prop where
  st : SOK c T r.2
  sound : Sound c.P c.mls c.worst d n D r.1
  ne : (∀ i, c.clock i = true) → c.mls ≤ D.length → c.worst ≤ UB.sol → r.1.sol < c.worst

/-- The recursive call is sound up to depth `m`. -/
def RecS (c : Cfg) (T : Data) (rec : Rec) (m : Nat) : Prop :=
  ∀ D b UB d n s, d ≤ m → D = sel b T → n + 1 ≤ 2 ^ d → UB.sol ≤ c.worst → SOK c T s →
    SPost c T D UB d n (rec D b UB d n s)

/-- Local variables are sound. -/
structure LocS (c : Cfg) (D : Data) (d n : Nat) (v : Loc) : Prop where
  sols : Sound c.P c.mls c.worst d n D v.sols
  ub : v.UB.sol ≤ c.worst
  inf : v.inf.sol ≤ c.worst

theorem addMax_le {a b : Node} {w : Int} (h1 : a.sol ≤ w) (h2 : b.sol ≤ w) : (Node.addMax a b).sol ≤ w := by
  rcases addMax_cases a b with h | h <;> rw [h] <;> assumption

theorem le_addMax_left (a b : Node) : a.sol ≤ (Node.addMax a b).sol := by
  unfold Node.addMax; split <;> omega

section
variable {c : Cfg} {T : Data} (G : Base c T)
include G

theorem Base.real_small {D : Data} (hD : ViewOf T D) {d : Nat} {v : Node} (h : Real c.P c.mls d D v) :
    v.sol < c.worst := by
  obtain ⟨t, _, _, h3, h4⟩ := h
  rw [← h4]; exact G.small D hD t h3

theorem Base.cost_nonneg {D : Data} (hD : ViewOf T D) (t : Tree) : 0 ≤ t.cost c.P D :=
  Tree.cost_nonneg c.P t D (fun i hi => G.nonneg i (hD.subset hi)) G.bc

theorem Base.sound_nonneg {D : Data} (hD : ViewOf T D) {d n : Nat} {v : Node}
    (h : Sound c.P c.mls c.worst d n D v) : 0 ≤ v.sol := by
  rcases h with rfl | ⟨⟨t, _, _, _, h4⟩, _⟩
  · exact G.worst
  · rw [← h4]; exact G.cost_nonneg hD t

theorem Base.sound_le {D : Data} (hD : ViewOf T D) {d n : Nat} {v : Node}
    (h : Sound c.P c.mls c.worst d n D v) : v.sol ≤ c.worst := by
  rcases h with rfl | h
  · exact Int.le_refl _
  · have := G.real_small hD h.1; omega

theorem Base.ne_iff {D : Data} (hD : ViewOf T D) {d n : Nat} {v : Node}
    (h : Sound c.P c.mls c.worst d n D v) : v.isEmpty = false ↔ v.sol < c.worst := by
  rcases h with rfl | h
  · simp [Node.empty, Node.isEmpty]
  · exact ⟨fun _ => G.real_small hD h.1, fun _ => h.1.nonempty⟩

theorem Base.qs_fresh (D : Data) (d n : Nat) : QS c D (Entry.fresh c.worst d n) :=
  ⟨fun h => by simp [Entry.fresh, Node.empty, Node.isEmpty] at h, G.worst⟩

omit G in
theorem QS.updLB {D : Data} {e : Entry} (h : QS c D e) {v : Node} (hv : v.sol ≤ c.worst) : QS c D (e.updLB v) :=
  ⟨h.1, addMax_le h.2 hv⟩

theorem Base.qs_solved {D : Data} (hD : ViewOf T D) {d n : Nat} {v : Node} (h : Real c.P c.mls d D v) :
    ∀ d' n', min d v.numNodes ≤ d' → d' ≤ d → v.numNodes ≤ n' → n' ≤ n →
      QS c D (Entry.solved d' n' v) := by
  intro d' n' h1 h2 h3 h4
  refine ⟨fun _ => ⟨(h.depth_min (Nat.le_refl _)).mono h1, h3⟩, ?_⟩
  have := G.real_small hD h
  exact Int.le_of_lt this

/-- Storing a sound solution. -/
theorem Base.store {C : Cache} (h : CAll T (QS c) C) {D : Data} {b : Branch} (hD : D = sel b T) {v : Node} {d n : Nat}
    (hr : Real c.P c.mls d D v) (hn : v.numNodes ≤ n) : CAll T (QS c) (C.storeOpt c.cc D b v d n) := by
  have hv : ViewOf T D := by rw [hD]; exact sel_view b T
  exact h.storeOpt G.sorted hD hr.nonempty hn (G.qs_solved hv hr)

theorem Base.upd {C : Cache} (h : CAll T (QS c) C) {D : Data} {b : Branch} (hD : D = sel b T) {v : Node} {d n : Nat}
    (hv : v.sol ≤ c.worst) : CAll T (QS c) (C.updateLB c.cc D b v d n) :=
  h.updateLB G.sorted hD (G.qs_fresh D d n) fun _ _ _ hq => hq.updLB hv

omit G in
theorem SOK.hit {s : St} (hs : SOK c T s) {D : Data} {b : Branch} (hD : D = sel b T) (d n : Nat) :
    Sound c.P c.mls c.worst d n D (s.cache.retrieveOpt c.cc D b d n) := by
  cases h : (s.cache.retrieveOpt c.cc D b d n).isEmpty with
  | true => exact .inl (retrieveOpt_empty h)
  | false =>
    obtain ⟨e, h1, h2, h3, h4⟩ := hs.cache.retrieveOpt hD h
    have := h1.1 (by rw [h4]; exact h)
    rw [h2, h3, h4] at this
    exact .inr this

/-! ### Leaves -/

theorem leafLoop_sound {D : Data} (hD : ViewOf T D) (hm : c.mls ≤ D.length) (ks : List Nat) (hks : ∀ k ∈ ks, k < c.P.nL)
    (r UB : Node) (hr : Sound c.P c.mls c.worst 0 0 D r) (hub : UB.sol ≤ c.worst) :
    Sound c.P c.mls c.worst 0 0 D (leafLoop c D ks r UB).1 ∧ (leafLoop c D ks r UB).2.sol ≤ c.worst ∧
    (leafLoop c D ks r UB).1.sol ≤ r.sol ∧
    (ks ≠ [] → c.worst ≤ UB.sol → (leafLoop c D ks r UB).1.sol < c.worst) := by
  induction ks generalizing r UB with
  | nil => exact ⟨hr, hub, Int.le_refl _, fun h => absurd rfl h⟩
  | cons k ks ih =>
    have hk := hks k (List.mem_cons_self ..)
    have hreal : Real c.P c.mls 0 D (Node.leaf k (leafCost c.P D k)) := Real.leaf hk hm
    have hsm := G.real_small hD hreal
    have hks' := fun j hj => hks j (List.mem_cons_of_mem _ hj)
    unfold leafLoop
    dsimp only
    split
    · rename_i hc
      obtain ⟨a1, a2, a3, _⟩ := ih hks' r UB hr hub
      exact ⟨a1, a2, a3, fun _ h => by omega⟩
    · obtain ⟨a1, a2, a3, _⟩ := ih hks' (Node.addMin r (Node.leaf k (leafCost c.P D k)))
        (updateUB c UB (Node.leaf k (leafCost c.P D k))) (hr.addMin (.inr ⟨hreal, Nat.le_refl _⟩)) (by
          unfold updateUB; split
          · exact Int.le_trans (addMin_le_left _ _) hub
          · exact hub)
      have h1 := addMin_le_left r (Node.leaf k (leafCost c.P D k))
      have h2 := addMin_le_right r (Node.leaf k (leafCost c.P D k))
      exact ⟨a1, a2, by omega, fun _ _ => by omega⟩

theorem solveLeaf_sound {D : Data} (hD : ViewOf T D) (UB : Node) (hub : UB.sol ≤ c.worst) (d n : Nat) :
    Sound c.P c.mls c.worst d n D (solveLeaf c D UB).1 ∧ (solveLeaf c D UB).2.sol ≤ c.worst ∧
    (c.mls ≤ D.length → c.worst ≤ UB.sol → (solveLeaf c D UB).1.sol < c.worst) := by
  unfold solveLeaf
  split
  · exact ⟨.inl rfl, hub, fun h => by omega⟩
  · obtain ⟨a1, a2, _, a4⟩ := leafLoop_sound G hD (by omega) (List.range c.P.nL) (fun k hk => List.mem_range.1 hk)
      (Node.empty c.worst) UB (.inl rfl) hub
    refine ⟨a1.mono (Nat.zero_le _) (Nat.zero_le _), a2, fun _ h => a4 ?_ h⟩
    have := G.labels
    intro h0
    have := List.length_range (n := c.P.nL)
    rw [h0] at this; simp at this; omega

/-! ### Lower bounds stay below `worst` -/

omit G in
theorem lowerCached_sound {s : St} (hs : SOK c T s) {D : Data} {b : Branch} (hD : D = sel b T) (n m : Nat)
    {l : Nat} {w : Node} (h : lowerCached c s D b n m = some (l, w)) :
    Sound c.P c.mls c.worst m n D w := by
  induction m with
  | zero => simp [lowerCached] at h
  | succ m ih =>
    unfold lowerCached at h
    dsimp only at h
    split at h
    · simp only [Option.some.injEq, Prod.mk.injEq] at h
      obtain ⟨rfl, rfl⟩ := h
      exact (hs.hit hD _ _).mono (Nat.le_refl _) (Nat.min_le_left _ _)
    · exact (ih h).mono (Nat.le_succ _) (Nat.le_refl _)

theorem computeLB_sound {s : St} (hs : SOK c T s) {D : Data} {b : Branch} (hD : D = sel b T) (d n : Nat) :
    0 ≤ (computeLB c s D b d n).sol ∧ (computeLB c s D b d n).sol ≤ c.worst := by
  have hv : ViewOf T D := by rw [hD]; exact sel_view b T
  have hr : (s.cache.retrieveLB c.cc D b d n).sol ≤ c.worst :=
    hs.cache.retrieveLB (R := fun x => x ≤ c.worst) hD G.worst fun e he _ _ => he.2
  have h0 : (Node.value 0).sol ≤ c.worst := G.worst
  have hlb : 0 ≤ (Node.addMax (Node.addMax (Node.value 0) (s.cache.retrieveLB c.cc D b d n)) (Node.value (c.customLB D))).sol := by
    refine Int.le_trans ?_ (le_addMax_left _ _)
    exact le_addMax_left (Node.value 0) _
  have hcu : (Node.value (c.customLB D)).sol ≤ c.worst := G.custom D hv
  have hub := addMax_le (addMax_le h0 hr) hcu
  unfold computeLB
  split
  · dsimp only
    generalize Node.addMax (Node.addMax (Node.value 0) (s.cache.retrieveLB c.cc D b d n)) (Node.value (c.customLB D)) = lb at hlb hub
    split
    · unfold sparseLB
      dsimp only
      have hl := (solveLeaf_sound G hv (Node.empty c.worst) (Int.le_refl _) 0 0).1
      have hle := G.sound_le hv hl
      have aux : ∀ (sols : Node) (x : Int), sols.sol ≤ c.worst →
          0 ≤ (if sols.sol ≤ x then Node.addMax lb sols else Node.addMax lb ⟨some 0, none, x, sols.nl, sols.nr⟩).sol ∧
          (if sols.sol ≤ x then Node.addMax lb sols else Node.addMax lb ⟨some 0, none, x, sols.nl, sols.nr⟩).sol ≤ c.worst := by
        intro sols x hls
        split
        · exact ⟨Int.le_trans hlb (le_addMax_left _ _), addMax_le hub hls⟩
        · refine ⟨Int.le_trans hlb (le_addMax_left _ _), addMax_le hub ?_⟩
          dsimp only
          omega
      cases lowerCached c s D b n (d - 1) with
      | none => exact aux _ _ hle
      | some p => exact aux _ _ (Int.le_trans (addMin_le_left _ _) hle)
    · exact ⟨hlb, hub⟩
  · exact ⟨Int.le_refl _, h0⟩

theorem computeLRLB_sound {s : St} (hs : SOK c T s) {f : Nat} {L R : Side} (hR : R.D = sel R.b T) (ld ls rd rs : Nat) :
    0 ≤ (computeLRLB c s f L.D L.b ld ls R.D R.b rd rs).2.2.sol := by
  unfold computeLRLB
  split
  · exact (computeLB_sound G hs hR rd rs).1
  · exact Int.le_refl _

theorem subtractUB_le {UB o v : Node} (hub : UB.sol ≤ c.worst) (ho : 0 ≤ o.sol) :
    (subtractUB c UB o v).sol ≤ c.worst := by
  have h1 := G.worst
  have h2 := G.bc
  have h3 := G.md
  unfold subtractUB
  split
  · dsimp only [Node.value, subtract]
    split <;> omega
  · exact hub

/-! ### Similarity -/

theorem diff_zero' {D E : Data} (hD : ViewOf T D) (hE : ViewOf T E) (h : totalDifference c.P.nL D E = 0) : D = E := by
  have hl : ∀ i ∈ D ++ E, i.label < c.P.nL := by
    intro i hi
    rcases List.mem_append.1 hi with h | h
    · exact G.inRange i (hD.subset h)
    · exact G.inRange i (hE.subset h)
  have hc := (difference_counts c.P.nL D E).1
  have e1 : (computeDifference c.P.nL D E).1 = [] := List.length_eq_zero_iff.1 (by omega)
  have e2 : (computeDifference c.P.nL D E).2 = [] := List.length_eq_zero_iff.1 (by omega)
  have hp := difference_apply c.P.nL D E (hD.sorted G.sorted) (hE.sorted G.sorted) hl (hD.consistent hE G.sorted)
  rw [e1, e2, List.append_nil, List.append_nil] at hp
  exact sorted_ext (hD.sorted G.sorted) (hE.sorted G.sorted) fun i => hp.symm.mem_iff

omit G in
theorem Base.removal_nonneg (G : Base c T) {D' : Data} (hD' : ViewOf T D') (D : Data) (k : Nat) :
    0 ≤ c.worstPer k * (numRemovals D' D k : Int) := by
  rcases G.worstPer k with h | h
  · exact Int.mul_nonneg h (Int.natCast_nonneg _)
  · have e : byLabel D' k = [] := List.filter_eq_nil_iff.2 fun i hi hk => h i (hD'.subset hi) (by simpa using hk)
    simp [numRemovals, e, mergeCount]

theorem simLoop_sound {D : Data} {b : Branch} (hD : D = sel b T) (d n : Nat) (es : List (Data × Branch))
    (hes : ∀ p ∈ es, p.1 = sel p.2 T) (lb : Node) (C : Cache) (hC : CAll T (QS c) C) (hlb : lb.sol ≤ c.worst) :
    CAll T (QS c) (simLoop c D b d n es lb C).2.2 ∧ (simLoop c D b d n es lb C).1.sol ≤ c.worst := by
  have hv : ViewOf T D := by rw [hD]; exact sel_view b T
  induction es generalizing lb C with
  | nil => exact ⟨hC, hlb⟩
  | cons p es ih =>
    obtain ⟨D', b'⟩ := p
    have hD' : D' = sel b' T := hes (D', b') (List.mem_cons_self ..)
    have hv' : ViewOf T D' := by rw [hD']; exact sel_view b' T
    have hes' := fun p hp => hes p (List.mem_cons_of_mem _ hp)
    have hrm : 0 ≤ removalCost c D' D := by
      unfold removalCost
      split
      · exact sum_map_nonneg _ _ fun k _ => G.removal_nonneg hv' D k
      · rename_i w hw
        have hl : ∀ i ∈ D' ++ D, i.label < c.P.nL := by
          intro i hi
          rcases List.mem_append.1 hi with h | h
          · exact G.inRange i (hv'.subset h)
          · exact G.inRange i (hv.subset h)
        exact sum_map_nonneg _ _ fun i hi => G.simInst w hw i
          (hv'.subset ((difference_mem c.P.nL D' D (hv'.sorted G.sorted) (hv.sorted G.sorted) hl i).2.1 hi).1)
    have he : ({ C.retrieveLB c.cc D' b' d n with sol := subtract (C.retrieveLB c.cc D' b' d n).sol (removalCost c D' D) } : Node).sol
        ≤ c.worst := by
      have := hC.retrieveLB (cc := c.cc) (d := d) (n := n) (R := fun x => x ≤ c.worst) hD' G.worst fun e he _ _ => he.2
      have := G.worst
      dsimp only [subtract]; omega
    unfold simLoop
    split
    · exact ih hes' lb C hC hlb
    · split
      · exact ih hes' lb C hC hlb
      · dsimp only
        split
        · rename_i h0
          have heq : sel b' T = sel b T := by rw [← hD', ← hD]; exact diff_zero' G hv' hv h0
          have hC' := hC.transfer (cc := c.cc) heq
          split
          · exact ⟨hC', he⟩
          · exact ih hes' _ _ hC' (addMax_le hlb he)
        · exact ih hes' _ _ hC (addMax_le hlb he)

theorem useSimilarity_sound {s : St} (hs : SOK c T s) {D : Data} {b : Branch} (hD : D = sel b T) (d n : Nat) :
    SOK c T (useSimilarity c s D b d n).2 := by
  unfold useSimilarity
  split
  · exact hs
  · obtain ⟨h1, h2⟩ := simLoop_sound G hD d n (Tbl.get s.arch d []) (hs.arch d) (Node.value 0) s.cache hs.cache G.worst
    dsimp only
    split
    · exact ⟨h1, hs.arch⟩
    · split
      · exact ⟨h1, hs.arch⟩
      · split
        · exact ⟨G.upd h1 hD h2, hs.arch⟩
        · exact ⟨h1, hs.arch⟩

omit G in
theorem updateArchive_sound {s : St} (hs : SOK c T s) {D : Data} {b : Branch} (hD : D = sel b T) (d : Nat) :
    SOK c T (updateArchive c s D b d) := by
  unfold updateArchive
  split
  · exact hs
  · refine ⟨hs.cache, ?_⟩
    intro d' p hp
    simp only at hp
    rw [Tbl.get_set] at hp
    split at hp
    · split at hp
      · rcases List.mem_append.1 hp with hp | hp
        · exact hs.arch d p hp
        · rw [List.mem_singleton.1 hp]; exact hD
      · rcases mem_replaceSimilar hp with hp | hp
        · exact hs.arch d p hp
        · rw [hp]; exact hD
    · exact hs.arch d' p hp

/-! ### Depth-two nodes -/

theorem storeTerminal_sound {C : Cache} (h : CAll T (QS c) C) {D : Data} {b : Branch} (hD : D = sel b T) {UB v : Node}
    {d n : Nat} (hub : UB.sol ≤ c.worst) (hs : Sound c.P c.mls c.worst d n D v) :
    CAll T (QS c) (storeTerminal c D b UB v d n C) := by
  unfold storeTerminal
  split
  · exact h
  · split
    · rename_i hne
      have := hs.real hne
      exact G.store h hD this.1 this.2
    · exact G.upd h hD hub

theorem solveTerminal_sound {D : Data} {b : Branch} (hD : D = sel b T) {UB : Node} {d n : Nat} {s : St} (hn : 1 ≤ n)
    (hp : n + 1 ≤ 2 ^ d) (hub : UB.sol ≤ c.worst) (hs : SOK c T s) :
    SPost c T D UB d n (solveTerminal c D b UB d n s) := by
  have hv : ViewOf T D := by rw [hD]; exact sel_view b T
  have ht := terminal_sound c.P c.mls c.worst D b n
  have htc : tcOf c.P c.mls c.worst = c.tc := rfl
  rw [htc] at ht
  have hd1 : 1 ≤ d := by
    rcases Nat.eq_zero_or_pos d with h | h
    · rw [h] at hp; omega
    · exact h
  have hd2 : n ≠ 1 → 2 ≤ d := by
    intro h
    by_contra hc
    have : d = 1 := by omega
    rw [this] at hp; omega
  have hle : c.mls ≤ D.length → (terminal c.tc (statsOf c.P D) b n).one.sol < c.worst ∧
      (n ≠ 1 → (terminal c.tc (statsOf c.P D) b n).two.sol ≤ (terminal c.tc (statsOf c.P D) b n).one.sol ∧
        (terminal c.tc (statsOf c.P D) b n).three.sol ≤ (terminal c.tc (statsOf c.P D) b n).two.sol) := by
    intro hm
    have h1 := oneNode_le_leaf c.P c.mls c.worst D 0 G.labels
    have h2 : leafCost c.P D 0 < c.worst := G.small D hv (.leaf 0) ⟨G.labels, hm⟩
    rw [htc] at h1
    have hnot : ¬ (statsOf c.P D).tot < (c.tc.mls : Int) := by simp only [statsOf, Cfg.tc]; omega
    unfold terminal
    rw [if_neg hnot]
    dsimp only
    split
    · exact ⟨by dsimp only; omega, fun h => absurd ‹_› h⟩
    · split
      · exact ⟨by dsimp only; omega, fun _ => ⟨addMin_le_right _ _, addMin_le_right _ _⟩⟩
      · exact ⟨by dsimp only; omega, fun _ => ⟨addMin_le_right _ _, addMin_le_right _ _⟩⟩
  unfold solveTerminal
  dsimp only
  generalize terminal c.tc (statsOf c.P D) b n = r at ht hle
  obtain ⟨t1, t2, t3⟩ := ht
  have hC := storeTerminal_sound G (storeTerminal_sound G (storeTerminal_sound G hs.cache hD hub t1) hD hub t2) hD hub t3
  have hsv : Sound c.P c.mls c.worst d n D (if n = 1 then r.one else if n = 2 then r.two else r.three) := by
    split
    · rename_i h; rw [h]; exact t1.mono hd1 (Nat.le_refl _)
    · rename_i h
      have h2 := hd2 h
      split
      · rename_i h3; rw [h3]; exact t2.mono h2 (Nat.le_refl _)
      · exact t3.mono h2 (by omega)
  refine ⟨updateArchive_sound (hs.setCache hC) hD d, ?_, fun _ hm hw => ?_⟩
  · generalize (if n = 1 then r.one else if n = 2 then r.two else r.three) = v at hsv ⊢
    dsimp only
    split
    · exact .inl rfl
    · exact hsv
  · obtain ⟨h1, h2⟩ := hle hm
    have h3 : (if n = 1 then r.one else if n = 2 then r.two else r.three).sol < c.worst := by
      split
      · exact h1
      · rename_i h
        have := h2 h
        split <;> omega
    dsimp only
    rw [if_neg (by omega)]; exact h3

/-! ### The general case -/

theorem sizeStep_sound {rec : Rec} {D : Data} {d n f ls : Nat} {L R : Side} {sw : Bool} {v : Loc} {s : St}
    (hrec : RecS c T rec (d - 1)) (hL : L.D = sel L.b T) (hR : R.D = sel R.b T)
    (comb : ∀ a b, Real c.P c.mls (d - 1) L.D a → Real c.P c.mls (d - 1) R.D b →
      Real c.P c.mls d D (if sw then Node.combine f b a c.P.bc else Node.combine f a b c.P.bc))
    (hls : ls + 1 ≤ n) (hp1 : ls + 1 ≤ 2 ^ (min (d - 1) ls)) (hp2 : n - ls - 1 + 1 ≤ 2 ^ (min (d - 1) (n - ls - 1)))
    (hs : SOK c T s) (hv : LocS c D d n v) :
    SOK c T (sizeStep c rec f L R sw d n ls v s).2.2 ∧ LocS c D d n (sizeStep c rec f L R sw d n ls v s).2.1 ∧
    (sizeStep c rec f L R sw d n ls v s).2.1.sols.sol ≤ v.sols.sol := by
  have hvL : ViewOf T L.D := by rw [hL]; exact sel_view _ T
  have infOK : ∀ x : Node, LocS c D d n { v with inf := Node.addMin v.inf x } := fun x =>
    ⟨hv.sols, hv.ub, Int.le_trans (addMin_le_left _ _) hv.inf⟩
  unfold sizeStep
  dsimp only
  have hlb := computeLRLB_sound G hs (f := f) (L := L) hR (min (d - 1) ls) ls (min (d - 1) (n - ls - 1)) (n - ls - 1)
  generalize computeLRLB c s f L.D L.b (min (d - 1) ls) ls R.D R.b (min (d - 1) (n - ls - 1)) (n - ls - 1) = lbs at hlb
  split
  · exact ⟨hs, infOK _, Int.le_refl _⟩
  · split
    · exact ⟨hs, hv, Int.le_refl _⟩
    · have pL := hrec L.D L.b (subtractUB c v.UB lbs.2.2 v.sols) (min (d - 1) ls) ls s (Nat.min_le_left _ _) hL hp1
        (subtractUB_le G hv.ub hlb) hs
      generalize rec L.D L.b (subtractUB c v.UB lbs.2.2 v.sols) (min (d - 1) ls) ls s = lr at pL
      split
      · exact ⟨pL.st.next, hv, Int.le_refl _⟩
      · split
        · exact ⟨pL.st.next, infOK _, Int.le_refl _⟩
        · rename_i hne
          have hne : lr.1.isEmpty = false := by simpa using hne
          have pR := hrec R.D R.b (subtractUB c v.UB lr.1 v.sols) (min (d - 1) (n - ls - 1)) (n - ls - 1) lr.2.next
            (Nat.min_le_left _ _) hR hp2 (subtractUB_le G hv.ub (G.sound_nonneg hvL pL.sound)) pL.st.next
          generalize rec R.D R.b (subtractUB c v.UB lr.1 v.sols) (min (d - 1) (n - ls - 1)) (n - ls - 1) lr.2.next = rr at pR
          split
          · exact ⟨pR.st.next, hv, Int.le_refl _⟩
          · split
            · exact ⟨pR.st.next, infOK _, Int.le_refl _⟩
            · rename_i hne'
              have hne' : rr.1.isEmpty = false := by simpa using hne'
              obtain ⟨rl, nl⟩ := pL.sound.real hne
              obtain ⟨rr', nr⟩ := pR.sound.real hne'
              have hnn := comb lr.1 rr.1 (rl.mono (Nat.min_le_left _ _)) (rr'.mono (Nat.min_le_left _ _))
              have hnum : (if sw = true then Node.combine f rr.1 lr.1 c.P.bc else Node.combine f lr.1 rr.1 c.P.bc).numNodes ≤ n := by
                cases sw <;> simp [combine_numNodes] <;> omega
              generalize (if sw = true then Node.combine f rr.1 lr.1 c.P.bc else Node.combine f lr.1 rr.1 c.P.bc) = nn
                at hnn hnum
              split
              · exact ⟨pR.st.next, infOK _, Int.le_refl _⟩
              · refine ⟨pR.st.next, ⟨?_, ?_, hv.inf⟩, ?_⟩
                · exact hv.sols.addMin (.inr ⟨hnn, hnum⟩)
                · dsimp only; unfold updateUB; split
                  · exact Int.le_trans (addMin_le_left _ _) hv.ub
                  · exact hv.ub
                · exact addMin_le_left v.sols nn

theorem sizeLoop_sound {rec : Rec} {D : Data} {d n f : Nat} {L R : Side} {sw : Bool}
    (hrec : RecS c T rec (d - 1)) (hL : L.D = sel L.b T) (hR : R.D = sel R.b T)
    (comb : ∀ a b, Real c.P c.mls (d - 1) L.D a → Real c.P c.mls (d - 1) R.D b →
      Real c.P c.mls d D (if sw then Node.combine f b a c.P.bc else Node.combine f a b c.P.bc)) (l : List Nat)
    (hl : ∀ ls ∈ l, ls + 1 ≤ n ∧ ls + 1 ≤ 2 ^ (min (d - 1) ls) ∧ n - ls - 1 + 1 ≤ 2 ^ (min (d - 1) (n - ls - 1)))
    (v : Loc) (s : St) (hs : SOK c T s) (hv : LocS c D d n v) :
    SOK c T (sizeLoop c rec f L R sw d n l v s).2 ∧ LocS c D d n (sizeLoop c rec f L R sw d n l v s).1 ∧
    (sizeLoop c rec f L R sw d n l v s).1.sols.sol ≤ v.sols.sol := by
  induction l generalizing v s with
  | nil => exact ⟨hs, hv, Int.le_refl _⟩
  | cons ls l ih =>
    obtain ⟨a1, a4, a5⟩ := hl ls (List.mem_cons_self ..)
    have h1 := sizeStep_sound G hrec hL hR comb a1 a4 a5 hs hv
    unfold sizeLoop
    generalize sizeStep c rec f L R sw d n ls v s = r at h1
    obtain ⟨s1, l1, e1⟩ := h1
    dsimp only
    split
    · exact ⟨s1, l1, e1⟩
    · obtain ⟨s2, l2, e2⟩ := ih (fun x hx => hl x (List.mem_cons_of_mem _ hx)) r.2.1 r.2.2 s1 l1
      exact ⟨s2, l2, by omega⟩

theorem featLoop_sound {rec : Rec} {D : Data} {b : Branch} {d n : Nat} {blb : Node}
    (hrec : RecS c T rec (d - 1)) (hD : D = sel b T) (hd : 1 ≤ d) (hn : 1 ≤ n) (hp : n + 1 ≤ 2 ^ d)
    (fs : List Nat) (hfs : ∀ f ∈ fs, f < c.P.nF) (v : Loc) (s : St) (hs : SOK c T s) (hv : LocS c D d n v) :
    SOK c T (featLoop c rec D b d n blb fs v s).2 ∧ LocS c D d n (featLoop c rec D b d n blb fs v s).1 ∧
    (featLoop c rec D b d n blb fs v s).1.sols.sol ≤ v.sols.sol := by
  have hv1 : ViewOf T D := by rw [hD]; exact sel_view b T
  induction fs generalizing v s with
  | nil => exact ⟨hs, hv, Int.le_refl _⟩
  | cons f fs ih =>
    have hfs' : ∀ g ∈ fs, g < c.P.nF := fun g hg => hfs g (List.mem_cons_of_mem _ hg)
    have hf := hfs f (List.mem_cons_self ..)
    unfold featLoop
    split
    · exact ⟨hs.next, hv, Int.le_refl _⟩
    · dsimp only
      split
      · exact ⟨hs.next, hv, Int.le_refl _⟩
      · split
        · exact ⟨hs.next, hv, Int.le_refl _⟩
        · split
          · exact ih hfs' v s.next hs.next hv
          · rename_i hskip
            simp only [Bool.or_eq_true, Bool.not_eq_true', not_or, Bool.not_eq_true, Bool.not_eq_false] at hskip
            have hmay := hskip.1.2
            split
            · exact ⟨hs.next, hv, Int.le_refl _⟩
            · split
              · exact ih hfs' v s.next hs.next hv
              · have e0 : without f D = sel (b.child f false) T := by rw [sel_child, ← hD, side_false]
                have e1 : having f D = sel (b.child f true) T := by rw [sel_child, ← hD, side_true]
                obtain ⟨e, rfl⟩ : ∃ e, d = e + 1 := ⟨d - 1, by omega⟩
                have hsz : ∀ ls ∈ sizes (e + 1) n, ls + 1 ≤ n ∧ ls + 1 ≤ 2 ^ (min (e + 1 - 1) ls) ∧
                    n - ls - 1 + 1 ≤ 2 ^ (min (e + 1 - 1) (n - ls - 1)) := by
                  intro ls hls
                  have := sizes_ok (c := { c with useTerm := false }) hd hn hp (.inl rfl) ls hls
                  exact ⟨this.1, this.2.2.2⟩
                have h1 : ∀ r, r = (if (without f D).length < (having f D).length then
                    sizeLoop c rec f ⟨having f D, b.child f true⟩ ⟨without f D, b.child f false⟩ true (e + 1) n (sizes (e + 1) n) v s.next
                  else sizeLoop c rec f ⟨without f D, b.child f false⟩ ⟨having f D, b.child f true⟩ false (e + 1) n (sizes (e + 1) n) v s.next) →
                    SOK c T r.2 ∧ LocS c D (e + 1) n r.1 ∧ r.1.sols.sol ≤ v.sols.sol := by
                  intro r hr
                  rw [hr]
                  split
                  · exact sizeLoop_sound G hrec e1 e0 (fun x y hx hy => Real.combine hf hmay hy hx) _ hsz v s.next hs.next hv
                  · exact sizeLoop_sound G hrec e0 e1 (fun x y hx hy => Real.combine hf hmay hx hy) _ hsz v s.next hs.next hv
                have h1 := h1 _ rfl
                generalize (if (without f D).length < (having f D).length then
                    sizeLoop c rec f ⟨having f D, b.child f true⟩ ⟨without f D, b.child f false⟩ true (e + 1) n (sizes (e + 1) n) v s.next
                  else sizeLoop c rec f ⟨without f D, b.child f false⟩ ⟨having f D, b.child f true⟩ false (e + 1) n (sizes (e + 1) n) v s.next)
                  = r at h1
                obtain ⟨s1, l1, x1⟩ := h1
                obtain ⟨s2, l2, x2⟩ := ih hfs' r.1 r.2 s1 l1
                exact ⟨s2, l2, by omega⟩

theorem start_sound {D : Data} {b : Branch} {d n : Nat} {s : St} (hs : SOK c T s) (hD : D = sel b T)
    (UB : Node) (hub : UB.sol ≤ c.worst) :
    LocS c D d n (startLoc c D b UB d n s) ∧
    (c.mls ≤ D.length → c.worst ≤ UB.sol → (startLoc c D b UB d n s).sols.sol < c.worst) := by
  have hv1 : ViewOf T D := by rw [hD]; exact sel_view b T
  obtain ⟨h1, h2, h3⟩ := solveLeaf_sound G hv1 UB hub d n
  unfold startLoc
  generalize solveLeaf c D UB = lf at h1 h2 h3
  have base : LocS c D d n ⟨lf.1, lf.2, Node.empty c.worst⟩ := ⟨h1, h2, Int.le_refl _⟩
  dsimp only
  cases hlow : lowerCached c s D b n (d - 1) with
  | none => exact ⟨base, h3⟩
  | some p =>
    obtain ⟨l, w⟩ := p
    have hw := (lowerCached_sound hs hD n (d - 1) hlow).mono (Nat.sub_le _ _) (Nat.le_refl _)
    dsimp only
    split
    · exact ⟨base, h3⟩
    · refine ⟨⟨h1.addMin hw, Int.le_trans (addMin_le_left _ _) h2, Int.le_refl _⟩, fun hm h => ?_⟩
      have := h3 hm h
      have := addMin_le_left lf.1 w
      dsimp only; omega

theorem generalCase_sound {rec : Rec} {D : Data} {b : Branch} {d n : Nat} {UB : Node} {s : St}
    (hrec : RecS c T rec (d - 1)) (hD : D = sel b T) (hd : 1 ≤ d) (hn : 1 ≤ n) (hp : n + 1 ≤ 2 ^ d)
    (hub : UB.sol ≤ c.worst) (hs : SOK c T s) : SPost c T D UB d n (generalCase c rec D b UB d n s) := by
  have hv1 : ViewOf T D := by rw [hD]; exact sel_view b T
  unfold generalCase
  dsimp only
  split
  · obtain ⟨h1, h2, h3⟩ := solveLeaf_sound G hv1 UB hub d n
    exact ⟨hs, h1, fun _ => h3⟩
  · obtain ⟨h1, h2⟩ := start_sound G (d := d) (n := n) hs hD UB hub
    generalize startLoc c D b UB d n s = v0 at h1 h2
    have hf := featLoop_sound G (blb := computeLB c s D b d n) hrec hD hd hn hp (c.order D) (G.order D) v0 s hs h1
    generalize featLoop c rec D b d n (computeLB c s D b d n) (c.order D) v0 s = r at hf
    obtain ⟨s1, l1, x1⟩ := hf
    refine ⟨updateArchive_sound (s1.setCache ?_) hD d, l1.sols, fun _ hm hw => ?_⟩
    · split
      · rename_i hne
        have := l1.sols.real hne
        exact G.store s1.cache hD this.1 this.2
      · refine G.upd s1.cache hD ?_
        split
        · exact hub
        · exact addMax_le l1.inf hub
    · have := h2 hm hw
      dsimp only; omega

omit G in
theorem reduceBudget_fits (UB : Node) (d n : Nat) (hp : n + 1 ≤ 2 ^ d) :
    (reduceBudget c UB d n).1 ≤ d ∧ (reduceBudget c UB d n).2 ≤ n ∧
    (reduceBudget c UB d n).2 + 1 ≤ 2 ^ (reduceBudget c UB d n).1 := by
  unfold reduceBudget
  split
  · exact ⟨Nat.le_refl _, Nat.le_refl _, hp⟩
  · dsimp only
    split
    · split
      · refine ⟨Nat.min_le_left _ _, Nat.min_le_left _ _, ?_⟩
        have := Nat.one_le_two_pow (n := min d (max 0 UB.sol / c.P.bc).toNat)
        dsimp only; omega
      · exact ⟨Nat.le_refl _, Nat.le_refl _, hp⟩
    · exact ⟨Nat.le_refl _, Nat.le_refl _, hp⟩

theorem subTree_sound {rec : Rec} {D : Data} {b : Branch} {UB : Node} {d n : Nat} {s : St}
    (hrec : 1 ≤ d → RecS c T rec (d - 1)) (hD : D = sel b T) (hp : n + 1 ≤ 2 ^ d)
    (hub : UB.sol ≤ c.worst) (hs : SOK c T s) : SPost c T D UB d n (subTree c rec D b UB d n s) := by
  have hv1 : ViewOf T D := by rw [hD]; exact sel_view b T
  unfold subTree
  split
  · rename_i hok
    refine ⟨hs.next, .inl rfl, fun hc => ?_⟩
    unfold Cfg.ok at hok; rw [hc] at hok; simp at hok
  · obtain ⟨b1, b2, b3⟩ := reduceBudget_fits (c := c) UB d n hp
    dsimp only
    generalize (reduceBudget c UB d n).1 = d' at *
    generalize (reduceBudget c UB d n).2 = n' at *
    have lift : ∀ {r : Node × St}, SPost c T D UB d' n' r → SPost c T D UB d n r :=
      fun h => ⟨h.st, h.sound.mono b1 b2, h.ne⟩
    apply lift
    have sn := hs.next
    generalize s.next = s1 at sn
    split
    · obtain ⟨h1, h2, h3⟩ := solveLeaf_sound G hv1 UB hub d' n'
      exact ⟨sn, h1, fun _ => h3⟩
    · rename_i hz
      have hhit := sn.hit (c := c) hD d' n'
      split
      · rename_i hne
        exact ⟨sn, hhit, fun _ _ _ => (G.ne_iff hv1 hhit).1 hne⟩
      · have hgo : ∀ s', SOK c T s' → SPost c T D UB d' n' (if c.useTerm = true ∧ d' ≤ 2 then solveTerminal c D b UB d' n' s'
            else generalCase c rec D b UB d' n' s') := by
          intro s' hs'
          split
          · exact solveTerminal_sound G hD (by omega) b3 hub hs'
          · exact generalCase_sound G (fun D b UB e m s he => hrec (by omega) D b UB e m s (by omega)) hD (by omega) (by omega) b3 hub hs'
        split
        · have hsim := useSimilarity_sound G sn hD d' n'
          have hhit2 := hsim.hit (c := c) hD d' n'
          split
          · rename_i hh
            exact ⟨hsim, hhit2, fun _ _ _ => (G.ne_iff hv1 hhit2).1 hh.2⟩
          · split
            · rename_i hlb
              refine ⟨hsim, .inl rfl, fun _ _ hw => ?_⟩
              have := (computeLB_sound G hsim hD d' n').2
              omega
            · split
              · obtain ⟨h1, h2, h3⟩ := solveLeaf_sound G hv1 (Node.empty c.worst) (Int.le_refl _) d' n'
                exact ⟨hsim, h1, fun _ hm _ => h3 hm (Int.le_refl _)⟩
              · exact hgo _ hsim
        · exact hgo _ sn

/-- Every call of the search is sound. -/
theorem solveSub_sound (fuel : Nat) : RecS c T (solveSub c fuel) fuel := by
  induction fuel with
  | zero =>
    intro D b UB d n s hd hD hp hub hs
    obtain rfl : d = 0 := by omega
    exact subTree_sound G (fun h => by omega) hD hp hub hs
  | succ m ih =>
    intro D b UB d n s hd hD hp hub hs
    exact subTree_sound G (fun _ D' b' UB' d' n' s' h1 => ih D' b' UB' d' n' s' (by omega)) hD hp hub hs

end
end Streed
