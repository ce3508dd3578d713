import Verif.Lemmas.CostCache
import Verif.Lemmas.Top

/-! The search with test costs that depend on the path keeps its invariants. -/

namespace Streed.Ctx

/-- The paths the search visits. -/
inductive Reach (c : Cfg) (T : Data) : Nat → Branch → Prop
  | nil : Reach c T 0 []
  | child {k : Nat} {b : Branch} (h : Reach c T k b) {f : Nat} (hf : f < c.P.nF) (hm : c.P.may f = true)
      (hr : c.redundant f = false) (hb : b.has f = false) (h0 : c.mls ≤ (without f (sel b T)).length)
      (h1 : c.mls ≤ (having f (sel b T)).length) (x : Bool) : Reach c T (k + 1) (b.child f x)

/-- Trees of depth two cost the same below both paths. -/
def Same (c : Cfg) (τ : Prices) (D : Data) (b b' : Branch) : Prop :=
  ∀ t : Tree, t.depth ≤ 2 → t.Legal c.P c.mls D → cost c.P τ b t D = cost c.P τ b' t D

/-- Paths to the same data at which the depth-two solver is called agree on the costs. -/
def Stable (c : Cfg) (τ : Prices) (T : Data) (m : Nat) : Prop :=
  ∀ k k' b b', Reach c T k b → Reach c T k' b' → (k = 0 ∨ k + 2 ≤ m) → (k' = 0 ∨ k' + 2 ≤ m) → sel b T = sel b' T →
    c.mls ≤ (sel b T).length → Same c τ (sel b T) b b'

/-- The circumstances under which the search up to depth `m` is shown to be optimal. -/
structure Good (c : Cfg) (τ : Prices) (T : Data) (m : Nat) : Prop where
  labels : 0 < c.P.nL
  nonneg : ∀ i ∈ T, ∀ k, 0 ≤ c.P.cost i k
  prices : ∀ b f, 0 ≤ τ b f
  side : SideFree τ
  small : ∀ b, ∀ t : Tree, t.depth ≤ m → t.Legal c.P c.mls (sel b T) → cost c.P τ b t (sel b T) < c.worst
  mls : 1 ≤ c.mls
  term : c.useTerm = true → c.mls = 1 ∧ c.useUB = true
  lb : c.useLB = true → c.useTerm = true ∧ m ≤ 3
  sparse : c.sparse = false
  sim : c.simLB = false
  ds : c.useDs = false
  custom : ∀ D, c.customLB D ≤ 0
  md : 0 ≤ c.md ∧ c.md ≤ 1
  sorted : IdSorted T
  inRange : ∀ i ∈ T, i.label < c.P.nL
  order : ∀ D f, f ∈ c.order D ↔ f < c.P.nF
  redundant : ∀ f, c.redundant f = true → without f T = [] ∨ having f T = []
  stable : c.useTerm = true → Stable c τ T m

/-- The results a terminal solver remembers belong to a path at which it was called. -/
def MemOK (c : Cfg) (τ : Prices) (T : Data) (m : Nat) : TMem → Prop
  | none => True
  | some (E, n, r) => ∃ k b, Reach c T k b ∧ (k = 0 ∨ k + 2 ≤ m) ∧ (n ≠ 1 → k + 2 ≤ m) ∧ E = sel b T ∧ c.mls ≤ E.length ∧
      r = results c τ E b n

/-- State invariant. -/
structure StOK (c : Cfg) (τ : Prices) (T : Data) (m : Nat) (s : St) : Prop where
  cache : CInv c τ T (AllOK c s.tick) s.cache
  mem : MemOK c τ T m s.mem1 ∧ MemOK c τ T m s.mem2

theorem StOK.next {c : Cfg} {τ : Prices} {T : Data} {m : Nat} {s : St} (h : StOK c τ T m s) : StOK c τ T m s.next :=
  ⟨h.cache.weaken fun a => a.mono (Nat.le_succ _), h.mem⟩

theorem updateArchive_off {c : Cfg} (h : c.simLB = false) (s : St) (D : Data) (b : Branch) (d : Nat) :
    updateArchive c s D b d = s := by unfold updateArchive; rw [if_pos h]

theorem useSimilarity_off {c : Cfg} (h : c.simLB = false) (s : St) (D : Data) (b : Branch) (d n : Nat) :
    useSimilarity c s D b d n = (false, s) := by unfold useSimilarity; rw [if_pos h]

section
variable {c : Cfg} {τ : Prices} {T : Data} {m : Nat} (G : Good c τ T m)
include G

theorem Good.cost_nonneg (b : Branch) {D : Data} (hD : ViewOf T D) (t : Tree) : 0 ≤ cost c.P τ b t D :=
  Ctx.cost_nonneg c.P τ G.prices t b D fun i hi => G.nonneg i (hD.subset hi)

theorem Good.zero_lb (b : Branch) {D : Data} (hD : ViewOf T D) (d n : Nat) : LowB c τ d n b D 0 :=
  fun t _ => G.cost_nonneg b hD t

/-! ### Leaves -/

theorem leafLoop_spec {b : Branch} {D : Data} (hD : D = sel b T) (hm : c.mls ≤ D.length) (UB0 : Node) (ks : List Nat)
    (done : List Nat) (hks : ∀ k ∈ ks, k < c.P.nL) (r UB : Node)
    (h1 : r.isEmpty = true → r = Node.empty c.worst ∧ UB = UB0 ∧
      ∀ k ∈ done, c.useUB = true ∧ UB0.sol < leafCost c.P D k)
    (h2 : r.isEmpty = false → Real c.P τ c.mls 0 b D r ∧ (c.useUB = true → UB.sol = r.sol ∧ r.sol ≤ UB0.sol) ∧
      ∀ k ∈ done, r.sol ≤ leafCost c.P D k) :
    let x := leafLoop c D ks r UB
    (x.1.isEmpty = true → x.1 = Node.empty c.worst ∧ x.2 = UB0 ∧
      ∀ k, k ∈ done ∨ k ∈ ks → c.useUB = true ∧ UB0.sol < leafCost c.P D k) ∧
    (x.1.isEmpty = false → Real c.P τ c.mls 0 b D x.1 ∧ (c.useUB = true → x.2.sol = x.1.sol ∧ x.1.sol ≤ UB0.sol) ∧
      ∀ k, k ∈ done ∨ k ∈ ks → x.1.sol ≤ leafCost c.P D k) := by
  induction ks generalizing r UB done with
  | nil =>
    simp only [leafLoop]
    refine ⟨fun h => ⟨(h1 h).1, (h1 h).2.1, fun k hk => (h1 h).2.2 k (by simpa using hk)⟩,
      fun h => ⟨(h2 h).1, (h2 h).2.1, fun k hk => (h2 h).2.2 k (by simpa using hk)⟩⟩
  | cons k ks ih =>
    have hk := hks k (List.mem_cons_self ..)
    have hreal : Real c.P τ c.mls 0 b D (Node.leaf k (leafCost c.P D k)) := Real.leaf hk hm
    have hsm : leafCost c.P D k < c.worst := by
      have := G.small b (.leaf k) (Nat.zero_le _) ⟨hk, by rw [← hD]; exact hm⟩
      rw [← hD] at this; exact this
    have hsol : (Node.leaf k (leafCost c.P D k)).sol = leafCost c.P D k := rfl
    have conv : ∀ j, j ∈ done ∨ j ∈ k :: ks ↔ j ∈ k :: done ∨ j ∈ ks := by
      intro j; simp only [List.mem_cons]; constructor
      · rintro (h | h | h) <;> simp [h]
      · rintro ((h | h) | h) <;> simp [h]
    simp only [leafLoop, conv]
    split
    · rename_i hc
      rw [hsol] at hc
      refine ih (k :: done) (fun j hj => hks j (List.mem_cons_of_mem _ hj)) r UB ?_ ?_
      · intro he
        obtain ⟨e1, e2, e3⟩ := h1 he
        refine ⟨e1, e2, fun j hj => ?_⟩
        rcases List.mem_cons.1 hj with rfl | hj
        · rw [← e2]; exact hc
        · exact e3 j hj
      · intro he
        obtain ⟨e1, e2, e3⟩ := h2 he
        refine ⟨e1, e2, fun j hj => ?_⟩
        rcases List.mem_cons.1 hj with rfl | hj
        · have := (e2 hc.1).1; omega
        · exact e3 j hj
    · rename_i hc
      rw [hsol] at hc
      refine ih (k :: done) (fun j hj => hks j (List.mem_cons_of_mem _ hj)) _ _ ?_ ?_
      · intro he
        exfalso
        cases hr : r.isEmpty with
        | true =>
          rw [(h1 hr).1] at he
          have : Node.addMin (Node.empty c.worst) (Node.leaf k (leafCost c.P D k)) = Node.leaf k (leafCost c.P D k) := by
            exact if_pos hsm
          rw [this, hreal.nonempty] at he; simp at he
        | false =>
          rcases addMin_cases r (Node.leaf k (leafCost c.P D k)) with h | h <;> rw [h] at he
          · rw [hr] at he; simp at he
          · rw [hreal.nonempty] at he; simp at he
      · intro _
        cases hr : r.isEmpty with
        | true =>
          obtain ⟨e1, e2, e3⟩ := h1 hr
          have : Node.addMin r (Node.leaf k (leafCost c.P D k)) = Node.leaf k (leafCost c.P D k) := by
            rw [e1]; exact if_pos hsm
          rw [this]
          refine ⟨hreal, fun hu => ?_, fun j hj => ?_⟩
          · have hle : ¬ UB.sol < leafCost c.P D k := fun h => hc ⟨hu, h⟩
            unfold updateUB; rw [if_pos hu, hsol]
            unfold Node.addMin; rw [hsol]
            rw [← e2]
            split
            · rw [hsol]; omega
            · omega
          · rw [hsol]
            rcases List.mem_cons.1 hj with rfl | hj
            · exact Int.le_refl _
            · have := e3 j hj
              have hle : ¬ UB.sol < leafCost c.P D k := fun h => hc ⟨this.1, h⟩
              rw [e2] at hle
              have := this.2; omega
        | false =>
          obtain ⟨e1, e2, e3⟩ := h2 hr
          refine ⟨?_, fun hu => ?_, fun j hj => ?_⟩
          · rcases addMin_cases r (Node.leaf k (leafCost c.P D k)) with h | h <;> rw [h] <;> assumption
          · have := e2 hu
            unfold updateUB; rw [if_pos hu]
            unfold Node.addMin; rw [hsol]
            split <;> split <;> omega
          · rcases List.mem_cons.1 hj with rfl | hj
            · exact addMin_le_right _ _
            · exact Int.le_trans (addMin_le_left _ _) (e3 j hj)

/-- What `SolveLeafNode` returns. -/
theorem solveLeaf_spec {b : Branch} {D : Data} (hD : D = sel b T) (hm : c.mls ≤ D.length) (UB : Node) :
    ((solveLeaf c D UB).1.isEmpty = true → (solveLeaf c D UB).1 = Node.empty c.worst ∧ (solveLeaf c D UB).2 = UB ∧
      ∀ k, k < c.P.nL → c.useUB = true ∧ UB.sol < leafCost c.P D k) ∧
    ((solveLeaf c D UB).1.isEmpty = false → Real c.P τ c.mls 0 b D (solveLeaf c D UB).1 ∧
      (c.useUB = true → (solveLeaf c D UB).2.sol = (solveLeaf c D UB).1.sol ∧ (solveLeaf c D UB).1.sol ≤ UB.sol) ∧
      ∀ k, k < c.P.nL → (solveLeaf c D UB).1.sol ≤ leafCost c.P D k) := by
  unfold solveLeaf
  rw [if_neg (by omega)]
  have h := leafLoop_spec G hD hm UB (List.range c.P.nL) [] (fun k hk => List.mem_range.1 hk) (Node.empty c.worst) UB
    (fun _ => ⟨rfl, rfl, by simp⟩) (fun h => by simp [Node.empty, Node.isEmpty] at h)
  simp only at h
  refine ⟨fun he => ⟨(h.1 he).1, (h.1 he).2.1, fun k hk => (h.1 he).2.2 k (.inr (List.mem_range.2 hk))⟩,
    fun he => ⟨(h.2 he).1, (h.2 he).2.1, fun k hk => (h.2 he).2.2 k (.inr (List.mem_range.2 hk))⟩⟩

omit G in
theorem Real.numNodes_zero {P : Problem} {mls : Nat} {b : Branch} {D : Data} {v : Node} (h : Real P τ mls 0 b D v) :
    v.numNodes = 0 := by
  obtain ⟨t, h1, h2, _⟩ := h
  rw [← h1.nodes]
  cases t with
  | leaf k => rfl
  | node f l r => simp [Tree.depth] at h2

theorem Real.small {b : Branch} {D : Data} (hD : D = sel b T) {d : Nat} (hd : d ≤ m) {v : Node}
    (h : Real c.P τ c.mls d b D v) : v.sol < c.worst := by
  obtain ⟨t, _, h2, h3, h4⟩ := h
  subst hD
  rw [← h4]; exact G.small b t (by omega) h3

/-! ### Lower bounds -/

theorem computeLB_spec {s : St} (hs : StOK c τ T m s) {D : Data} {b : Branch} (hD : D = sel b T) (d n : Nat)
    (hH : AllOK c s.tick) : LBOK c τ d n b D (computeLB c s D b d n).sol := by
  have hv : ViewOf T D := by rw [hD]; exact sel_view b T
  have h0 : LBOK c τ d n b D 0 := (G.zero_lb b hv d n).lbok
  have hcust : LBOK c τ d n b D (c.customLB D) := LowB.lbok fun t _ => Int.le_trans (G.custom D) (G.cost_nonneg b hv t)
  have hr := retrieveLB_spec hs.cache G.ds hD hH h0
  unfold computeLB
  split
  · simp only [G.sparse]
    rcases addMax_cases (Node.addMax (Node.value 0) (s.cache.retrieveLB c.cc D b d n)) (Node.value (c.customLB D))
      with h | h <;> rw [if_neg (by simp), h]
    · rcases addMax_cases (Node.value 0) (s.cache.retrieveLB c.cc D b d n) with h' | h' <;> rw [h']
      · exact h0
      · exact hr
    · exact hcust
  · exact h0

theorem computeLRLB_spec {s : St} (hs : StOK c τ T m s) {f : Nat} {L R : Side} (hL : L.D = sel L.b T) (hR : R.D = sel R.b T)
    (ld ls rd rs : Nat) (hb1 : BudOK c ld ls) (hb2 : BudOK c rd rs) (hH : AllOK c s.tick) (D : Data) (b : Branch) :
    let x := computeLRLB (costOf c τ D b f) s f L.D L.b ld ls R.D R.b rd rs
    (∀ tL tR, Allowed c.P c.mls ld ls L.D tL → Allowed c.P c.mls rd rs R.D tR →
      x.1.sol ≤ D.length * τ b f + (cost c.P τ L.b tL L.D + cost c.P τ R.b tR R.D)) ∧ LowB c τ rd rs R.b R.D x.2.2.sol := by
  have hvL : ViewOf T L.D := by rw [hL]; exact sel_view _ T
  have hvR : ViewOf T R.D := by rw [hR]; exact sel_view _ T
  have h1 := (computeLB_spec G hs hL ld ls hH).lower hb1
  have h2 := (computeLB_spec G hs hR rd rs hH).lower hb2
  have eL : computeLB (costOf c τ D b f) s L.D L.b ld ls = computeLB c s L.D L.b ld ls := by
    unfold computeLB
    have e1 : (costOf c τ D b f).sparse = false := G.sparse
    simp only [G.sparse, e1]; rfl
  have eR : computeLB (costOf c τ D b f) s R.D R.b rd rs = computeLB c s R.D R.b rd rs := by
    unfold computeLB
    have e1 : (costOf c τ D b f).sparse = false := G.sparse
    simp only [G.sparse, e1]; rfl
  have ebc : (costOf c τ D b f).P.bc = D.length * τ b f := rfl
  unfold computeLRLB
  rw [eL, eR]
  split
  · refine ⟨fun tL tR a k => ?_, h2⟩
    have := h1 tL a
    have := h2 tR k
    simp only [Node.combine, Node.branch, ebc]; omega
  · refine ⟨fun tL tR _ _ => ?_, fun t _ => G.cost_nonneg _ hvR t⟩
    have h1 := G.cost_nonneg L.b hvL tL
    have h2 := G.cost_nonneg R.b hvR tR
    have h3 : 0 ≤ (D.length : Int) * τ b f := Int.mul_nonneg (Int.natCast_nonneg _) (G.prices _ _)
    simp only [Node.value]; omega

theorem diff_zero {D E : Data} (hD : ViewOf T D) (hE : ViewOf T E) (h : totalDifference c.P.nL D E = 0) : D = E := by
  have hl : ∀ i ∈ D ++ E, i.label < c.P.nL := by
    intro i hi
    rcases List.mem_append.1 hi with h | h
    · exact G.inRange i (hD.subset h)
    · exact G.inRange i (hE.subset h)
  have hc := (difference_counts c.P.nL D E).1
  have e1 : (computeDifference c.P.nL D E).1 = [] := List.length_eq_zero_iff.1 (by omega)
  have e2 : (computeDifference c.P.nL D E).2 = [] := List.length_eq_zero_iff.1 (by omega)
  have hp := difference_apply c.P.nL D E (hD.sorted G.sorted) (hE.sorted G.sorted) hl (hD.consistent hE G.sorted)
  rw [e1, e2, List.append_nil, List.append_nil] at hp
  exact sorted_ext (hD.sorted G.sorted) (hE.sorted G.sorted) fun i => hp.symm.mem_iff

end

/-! ### The feature loop -/

/-- Local variables are consistent; `UB0` is the upper bound of the call. -/
structure LocOK (c : Cfg) (τ : Prices) (b : Branch) (D : Data) (d n : Nat) (UB0 : Node) (v : Loc) : Prop where
  real : v.sols.isEmpty = false → Real c.P τ c.mls d b D v.sols ∧ v.sols.numNodes ≤ n
  ub : v.sols.isEmpty = false → c.useUB = true → v.UB.sol = v.sols.sol ∧ v.sols.sol ≤ UB0.sol
  emp : v.sols.isEmpty = true → v.sols = Node.empty c.worst ∧ v.UB = UB0

/-- A tree of cost `x` needs no further attention. -/
def Covers (c : Cfg) (UB0 : Node) (v : Loc) (x : Int) : Prop :=
  (v.sols.isEmpty = false → v.sols.sol ≤ x) ∧ (v.sols.isEmpty = true → c.useUB = true ∧ UB0.sol < x)

/-- How the local variables may change. -/
def LStep (v v' : Loc) : Prop := v.sols.isEmpty = false → v'.sols.isEmpty = false ∧ v'.sols.sol ≤ v.sols.sol

theorem LStep.refl (v : Loc) : LStep v v := fun h => ⟨h, Int.le_refl _⟩

theorem LStep.trans {u v w : Loc} (h1 : LStep u v) (h2 : LStep v w) : LStep u w :=
  fun h => ⟨(h2 (h1 h).1).1, Int.le_trans (h2 (h1 h).1).2 (h1 h).2⟩

theorem Covers.step {c : Cfg} {τ : Prices} {b : Branch} {D : Data} {d n : Nat} {UB0 : Node} {v v' : Loc} {x : Int}
    (h : Covers c UB0 v x) (h1 : LStep v v') (h2 : LocOK c τ b D d n UB0 v') : Covers c UB0 v' x := by
  cases he : v.sols.isEmpty with
  | false =>
    have := h1 he
    refine ⟨fun _ => Int.le_trans this.2 (h.1 he), fun h' => ?_⟩
    rw [this.1] at h'; simp at h'
  | true =>
    obtain ⟨a, e⟩ := h.2 he
    refine ⟨fun h' => ?_, fun _ => ⟨a, e⟩⟩
    have := (h2.ub h' a).2
    omega

/-- What is known of the result `r` of a call with path `b`, data `D`, bound `UB`, budget `(d, n)` and state `s`. -/
structure Post (c : Cfg) (τ : Prices) (T : Data) (m : Nat) (b : Branch) (D : Data) (UB : Node) (d n : Nat) (s : St)
    (r : Node × St) : Prop where
  tick : s.tick ≤ r.2.tick
  st : (c.useLB = true → d ≤ 2 ∧ (n = 1 → UB.isEmpty = true)) → StOK c τ T m r.2
  real : r.1.isEmpty = false → Real c.P τ c.mls d b D r.1 ∧ r.1.numNodes ≤ n
  emp : r.1.isEmpty = true → r.1 = Node.empty c.worst
  low : AllOK c r.2.tick → r.1.isEmpty = false → ∀ t, Allowed c.P c.mls d n D t → r.1.sol ≤ cost c.P τ b t D
  inf : AllOK c r.2.tick → r.1.isEmpty = true → ∀ t, Allowed c.P c.mls d n D t → c.useUB = true ∧ UB.sol < cost c.P τ b t D

/-- The recursive call meets its specification up to depth `q`. -/
def RecOK (c : Cfg) (τ : Prices) (T : Data) (m : Nat) (rec : Rec) (q : Nat) : Prop :=
  ∀ k D b UB d n s, d ≤ q → Reach c T k b → k + d ≤ m → (c.useTerm = true → k = 0 ∨ 2 ≤ d) → D = sel b T →
    c.mls ≤ D.length → BudOK c d n → n + 1 ≤ 2 ^ d → StOK c τ T m s → Post c τ T m b D UB d n s (rec D b UB d n s)

/-- A split of `D` on `f` whose sides are `L` and `R`. -/
structure Split (c : Cfg) (τ : Prices) (T : Data) (m k : Nat) (b : Branch) (D : Data) (d : Nat) (f : Nat) (L R : Side)
    (sw : Bool) : Prop where
  hL : L.D = sel L.b T
  hR : R.D = sel R.b T
  rL : Reach c T (k + 1) L.b
  rR : Reach c T (k + 1) R.b
  mL : c.mls ≤ L.D.length
  mR : c.mls ≤ R.D.length
  comb : ∀ x y, Real c.P τ c.mls (d - 1) L.b L.D x → Real c.P τ c.mls (d - 1) R.b R.D y →
    Real c.P τ c.mls d b D (if sw then Node.combine f y x (D.length * τ b f) else Node.combine f x y (D.length * τ b f))
  view : D = sel b T
  small : ∀ tL tR : Tree, tL.depth ≤ d - 1 → tR.depth ≤ d - 1 → tL.Legal c.P c.mls L.D → tR.Legal c.P c.mls R.D →
    D.length * τ b f + (cost c.P τ L.b tL L.D + cost c.P τ R.b tR R.D) < c.worst

/-- What is known after one distribution of the nodes over the two sides. -/
def StepPost (c : Cfg) (τ : Prices) (T : Data) (m : Nat) (b : Branch) (D : Data) (d n f ls : Nat) (L R : Side) (UB0 : Node)
    (v : Loc) (s : St) (r : Bool × Loc × St) : Prop :=
  s.tick ≤ r.2.2.tick ∧ StOK c τ T m r.2.2 ∧ LocOK c τ b D d n UB0 r.2.1 ∧
    LStep v r.2.1 ∧ (r.1 = true → ¬ AllOK c r.2.2.tick) ∧
    (AllOK c r.2.2.tick → ∀ tL tR, Allowed c.P c.mls (min (d - 1) ls) ls L.D tL →
      Allowed c.P c.mls (min (d - 1) (n - ls - 1)) (n - ls - 1) R.D tR →
      Covers c UB0 r.2.1 (D.length * τ b f + (cost c.P τ L.b tL L.D + cost c.P τ R.b tR R.D)))

section
variable {c : Cfg} {τ : Prices} {T : Data} {m : Nat} (G : Good c τ T m)
include G

/-- Subtracting what the other side costs at least from the upper bound loses nothing. -/
theorem subtract_lemma {D : Data} {b : Branch} {f d n : Nat} {UB0 : Node} {v : Loc} (hv : LocOK c τ b D d n UB0 v) {other : Node}
    {x y : Int} (hu : c.useUB = true) (hy : 0 ≤ y) (ho : other.sol ≤ y) (hx : D.length * τ b f + (x + y) < c.worst)
    (hc : (subtractUB (costOf c τ D b f) v.UB other v.sols).sol < x) :
    (v.sols.isEmpty = false → v.sols.sol ≤ D.length * τ b f + (x + y)) ∧
    (v.sols.isEmpty = true → UB0.sol < D.length * τ b f + (x + y)) := by
  have hmd := G.md
  have hbc : 0 ≤ (D.length : Int) * τ b f := Int.mul_nonneg (Int.natCast_nonneg _) (G.prices _ _)
  have e1 : (costOf c τ D b f).useUB = c.useUB := rfl
  have e2 : (costOf c τ D b f).subUB = c.subUB := rfl
  have e3 : (costOf c τ D b f).md = c.md := rfl
  have e4 : (costOf c τ D b f).P.bc = D.length * τ b f := rfl
  unfold subtractUB subtract at hc
  rw [e1, e2, e3, e4] at hc
  generalize (D.length : Int) * τ b f = z at *
  rw [hu] at hc
  cases he : v.sols.isEmpty with
  | false =>
    refine ⟨fun _ => ?_, fun h => by simp at h⟩
    have := (hv.ub he hu).1
    cases hs : c.subUB <;> rw [hs] at hc
    · simp [Node.value] at hc; omega
    · simp only [Bool.and_self, if_true, Node.value] at hc
      rw [if_pos (by omega)] at hc
      omega
  | true =>
    refine ⟨fun h => by simp at h, fun _ => ?_⟩
    obtain ⟨e1, e2⟩ := hv.emp he
    rw [← e2]
    cases hs : c.subUB <;> rw [hs] at hc
    · simp [Node.value] at hc; omega
    · simp only [Bool.and_self, if_true, Node.value] at hc
      have e3 : v.sols.sol = c.worst := by rw [e1]; rfl
      split at hc <;> omega

set_option maxHeartbeats 1000000 in
/-- One distribution of the nodes over the two sides. -/
theorem sizeStep_spec {rec : Rec} {k : Nat} {b : Branch} {D : Data} {d n f ls : Nat} {L R : Side} {sw : Bool} {UB0 : Node}
    {v : Loc} {s : St} (hrec : RecOK c τ T m rec (d - 1)) (hsp : Split c τ T m k b D d f L R sw) (hls : ls + 1 ≤ n)
    (hd : 1 ≤ d) (hk : k + d ≤ m)
    (hb1 : BudOK c (min (d - 1) ls) ls) (hb2 : BudOK c (min (d - 1) (n - ls - 1)) (n - ls - 1))
    (hp1 : ls + 1 ≤ 2 ^ (min (d - 1) ls)) (hp2 : n - ls - 1 + 1 ≤ 2 ^ (min (d - 1) (n - ls - 1)))
    (ht : c.useTerm = true → 2 ≤ min (d - 1) ls ∧ 2 ≤ min (d - 1) (n - ls - 1))
    (hs : StOK c τ T m s) (hv : LocOK c τ b D d n UB0 v) :
    StepPost c τ T m b D d n f ls L R UB0 v s (sizeStep (costOf c τ D b f) rec f L R sw d n ls v s) := by
  have hvL : ViewOf T L.D := by rw [hsp.hL]; exact sel_view _ T
  have hvR : ViewOf T R.D := by rw [hsp.hR]; exact sel_view _ T
  have locInf : ∀ x : Node, LocOK c τ b D d n UB0 { v with inf := x } := fun x => ⟨hv.real, hv.ub, hv.emp⟩
  have stepInf : ∀ x : Node, LStep v { v with inf := x } := fun x h => ⟨h, Int.le_refl _⟩
  have hsm : ∀ tL tR, Allowed c.P c.mls (min (d - 1) ls) ls L.D tL →
      Allowed c.P c.mls (min (d - 1) (n - ls - 1)) (n - ls - 1) R.D tR →
      D.length * τ b f + (cost c.P τ L.b tL L.D + cost c.P τ R.b tR R.D) < c.worst := fun tL tR aL aR =>
    hsp.small tL tR (by have := aL.1; omega) (by have := aR.1; omega) aL.2.2 aR.2.2
  have hlb := fun hH => computeLRLB_spec G hs hsp.hL hsp.hR (f := f) (min (d - 1) ls) ls (min (d - 1) (n - ls - 1))
    (n - ls - 1) hb1 hb2 hH D b
  have eU : (costOf c τ D b f).useUB = c.useUB := rfl
  have eO : ∀ s, (costOf c τ D b f).ok s = c.ok s := fun _ => rfl
  have eB : (costOf c τ D b f).P.bc = D.length * τ b f := rfl
  have hd2 : c.useLB = true → d ≤ 3 := fun h => by have := (G.lb h).2; omega
  have hsub := fun other x y hu hy ho hx hc => subtract_lemma G (f := f) hv (other := other) (x := x) (y := y) hu hy ho hx hc
  simp only at hlb
  generalize costOf c τ D b f = c' at eU eO eB hlb hsub ⊢
  have hub : ∀ o, (subtractUB c' v.UB o v.sols).isEmpty = true := by
    intro o; unfold subtractUB; split <;> rfl
  unfold sizeStep
  dsimp only
  generalize computeLRLB c' s f L.D L.b (min (d - 1) ls) ls R.D R.b (min (d - 1) (n - ls - 1)) (n - ls - 1) = lbs at hlb ⊢
  have pL := hrec (k + 1) L.D L.b (subtractUB c' v.UB lbs.2.2 v.sols) (min (d - 1) ls) ls s
    (Nat.min_le_left _ _) hsp.rL (by omega) (fun h => .inr (ht h).1) hsp.hL hsp.mL hb1 hp1 hs
  generalize rec L.D L.b (subtractUB c' v.UB lbs.2.2 v.sols) (min (d - 1) ls) ls s = lr at pL ⊢
  have sL := (pL.st fun h => ⟨by have := hd2 h; omega, fun _ => hub _⟩)
  have pR := hrec (k + 1) R.D R.b (subtractUB c' v.UB lr.1 v.sols) (min (d - 1) (n - ls - 1)) (n - ls - 1)
    lr.2.next (Nat.min_le_left _ _) hsp.rR (by omega) (fun h => .inr (ht h).2) hsp.hR hsp.mR hb2 hp2 sL.next
  generalize rec R.D R.b (subtractUB c' v.UB lr.1 v.sols) (min (d - 1) (n - ls - 1)) (n - ls - 1) lr.2.next = rr at pR ⊢
  have sR := (pR.st fun h => ⟨by have := hd2 h; omega, fun _ => hub _⟩)
  rw [eU, eB]
  split
  · rename_i hc
    refine ⟨Nat.le_refl _, hs, locInf _, stepInf _, by simp, ?_⟩
    intro hH tL tR aL aR
    have h1 := (hlb hH).1 tL tR aL aR
    refine ⟨fun he => ?_, fun he => ⟨hc.1, ?_⟩⟩
    · have := (hv.ub he hc.1).1
      simp only at he ⊢; omega
    · have := (hv.emp he).2
      rw [← this]; omega
  · split
    · rename_i heq
      refine ⟨Nat.le_refl _, hs, hv, LStep.refl _, by simp, ?_⟩
      intro hH tL tR aL aR
      have h1 := (hlb hH).1 tL tR aL aR
      refine ⟨fun he => by dsimp only [St.next] at *; omega, fun he => ?_⟩
      have h2 := hsm tL tR aL aR
      have h3 : v.sols.sol = c.worst := by rw [(hv.emp he).1]; rfl
      omega
    · split
      · rename_i hok
        have hno := not_AllOK_next (by rw [← eO]; exact hok)
        refine ⟨?_, sL.next, hv, LStep.refl _, fun _ => hno, fun h => absurd h hno⟩
        have := pL.tick; simp only [St.next]; omega
      · have t1 : s.tick ≤ lr.2.next.tick := by have := pL.tick; simp only [St.next]; omega
        have hl1 : AllOK c lr.2.next.tick → AllOK c lr.2.tick := fun h => h.mono (Nat.le_succ _)
        have sL' := sL.next
        split
        · rename_i hemp
          refine ⟨t1, sL', locInf _, stepInf _, by simp, ?_⟩
          intro hH tL tR aL aR
          have h2 := pL.inf (hl1 hH) hemp tL aL
          have h3 := hsub _ _ _ h2.1 (G.cost_nonneg R.b hvR tR) ((hlb (hH.mono t1)).2 tR aR)
            (hsm tL tR aL aR) h2.2
          exact ⟨h3.1, fun he => ⟨h2.1, h3.2 he⟩⟩
        · rename_i hne
          have hne : lr.1.isEmpty = false := by simpa using hne
          have t2 : lr.2.next.tick ≤ rr.2.next.tick := by have := pR.tick; simp only [St.next] at this ⊢; omega
          have hl2 : AllOK c rr.2.next.tick → AllOK c rr.2.tick := fun h => h.mono (Nat.le_succ _)
          split
          · rename_i hok
            have hno := not_AllOK_next (by rw [← eO]; exact hok)
            exact ⟨by dsimp only [St.next] at *; omega, sR.next, hv, LStep.refl _, fun _ => hno, fun h => absurd h hno⟩
          · have sR' := sR.next
            split
            · rename_i hemp
              refine ⟨by dsimp only [St.next] at *; omega, sR', locInf _, stepInf _, by simp, ?_⟩
              intro hH tL tR aL aR
              have h2 := pR.inf (hl2 hH) hemp tR aR
              have h4 := pL.low (hl1 (hH.mono t2)) hne tL aL
              have h3 := hsub _ _ _ h2.1 (G.cost_nonneg L.b hvL tL) h4
                (by have := hsm tL tR aL aR; omega) h2.2
              rw [Int.add_comm (cost c.P τ R.b tR R.D)] at h3
              exact ⟨h3.1, fun he => ⟨h2.1, h3.2 he⟩⟩
            · rename_i hne'
              have hne' : rr.1.isEmpty = false := by simpa using hne'
              obtain ⟨rl, nl⟩ := pL.real hne
              obtain ⟨rrr, nr⟩ := pR.real hne'
              have hnn := hsp.comb lr.1 rr.1 (rl.mono (Nat.min_le_left _ _)) (rrr.mono (Nat.min_le_left _ _))
              have hsol : (if sw = true then Node.combine f rr.1 lr.1 (D.length * τ b f) else Node.combine f lr.1 rr.1 (D.length * τ b f)).sol =
                  D.length * τ b f + (lr.1.sol + rr.1.sol) := by
                cases sw <;> simp only [Node.combine, Node.branch, if_true, Bool.false_eq_true, if_false]
                all_goals omega
              have hnum : (if sw = true then Node.combine f rr.1 lr.1 (D.length * τ b f) else Node.combine f lr.1 rr.1 (D.length * τ b f)).numNodes ≤ n := by
                cases sw <;> simp [combine_numNodes] <;> omega
              generalize hN : (if sw = true then Node.combine f rr.1 lr.1 (D.length * τ b f) else Node.combine f lr.1 rr.1 (D.length * τ b f)) = nn
                at hnn hsol hnum
              have hle : AllOK c rr.2.next.tick → ∀ tL tR, Allowed c.P c.mls (min (d - 1) ls) ls L.D tL →
                  Allowed c.P c.mls (min (d - 1) (n - ls - 1)) (n - ls - 1) R.D tR →
                  nn.sol ≤ D.length * τ b f + (cost c.P τ L.b tL L.D + cost c.P τ R.b tR R.D) := by
                intro hH tL tR aL aR
                have h1 := pL.low (hl1 (hH.mono t2)) hne tL aL
                have h2 := pR.low (hl2 hH) hne' tR aR
                omega
              split
              · rename_i hc
                refine ⟨by dsimp only [St.next] at *; omega, sR', locInf _, stepInf _, by simp, ?_⟩
                intro hH tL tR aL aR
                have h1 := hle hH tL tR aL aR
                refine ⟨fun he => ?_, fun he => ⟨hc.1, ?_⟩⟩
                · have := (hv.ub he hc.1).1
                  simp only at he ⊢; omega
                · have := (hv.emp he).2
                  rw [← this]; omega
              · rename_i hc
                have hsmall := Real.small G hsp.view (by omega) hnn
                have hne2 := hnn.nonempty
                have hfin : (if nn.sol < v.sols.sol then nn else v.sols).isEmpty = false := by
                  split
                  · exact hne2
                  · rename_i hge
                    cases he : v.sols.isEmpty with
                    | false => rfl
                    | true =>
                      have h3 : v.sols.sol = c.worst := by rw [(hv.emp he).1]; rfl
                      omega
                have hmin : (if nn.sol < v.sols.sol then nn else v.sols).sol = min nn.sol v.sols.sol := by
                  split <;> omega
                have hle2 : c.useUB = true → nn.sol ≤ v.UB.sol := by
                  intro hu
                  by_contra hcon
                  exact hc ⟨hu, by omega⟩
                refine ⟨by dsimp only [St.next] at *; omega, sR', ⟨fun _ => ?_, fun _ hu => ?_, fun he => ?_⟩, fun he => ⟨hfin, ?_⟩,
                  by simp, ?_⟩
                · simp only
                  split
                  · exact ⟨hnn, hnum⟩
                  · rename_i hge
                    cases he : v.sols.isEmpty with
                    | false => exact hv.real he
                    | true =>
                      have h3 : v.sols.sol = c.worst := by rw [(hv.emp he).1]; rfl
                      omega
                · have h4 := hle2 hu
                  have hUB : (updateUB c' v.UB nn).sol = nn.sol := by
                    unfold updateUB Node.addMin; rw [eU, if_pos hu]; split <;> omega
                  simp only
                  rw [hUB, hmin]
                  cases he : v.sols.isEmpty with
                  | false => have := hv.ub he hu; omega
                  | true =>
                    have h3 : v.sols.sol = c.worst := by rw [(hv.emp he).1]; rfl
                    have := (hv.emp he).2
                    rw [this] at h4; omega
                · simp only at he; rw [hfin] at he; simp at he
                · simp only; rw [hmin]; omega
                · intro hH tL tR aL aR
                  refine ⟨fun _ => ?_, fun he => ?_⟩
                  · simp only; rw [hmin]
                    have h1 := hle hH tL tR aL aR
                    omega
                  · simp only at he; rw [hfin] at he; simp at he

/-- What is known after a loop: costs in `Q` need no further attention. -/
def LoopPost (c : Cfg) (τ : Prices) (T : Data) (m : Nat) (b : Branch) (D : Data) (d n : Nat) (UB0 : Node) (v : Loc) (s : St)
    (Q : Int → Prop) (r : Loc × St) : Prop :=
  s.tick ≤ r.2.tick ∧ StOK c τ T m r.2 ∧ LocOK c τ b D d n UB0 r.1 ∧ LStep v r.1 ∧
    (AllOK c r.2.tick → ∀ x, Q x → Covers c UB0 r.1 x)

theorem sizeLoop_spec {rec : Rec} {k : Nat} {b : Branch} {D : Data} {d n f : Nat} {L R : Side} {sw : Bool} {UB0 : Node}
    (hrec : RecOK c τ T m rec (d - 1)) (hsp : Split c τ T m k b D d f L R sw) (hd : 1 ≤ d) (hk : k + d ≤ m) (l : List Nat)
    (hl : ∀ ls ∈ l, ls + 1 ≤ n ∧ BudOK c (min (d - 1) ls) ls ∧ BudOK c (min (d - 1) (n - ls - 1)) (n - ls - 1) ∧
      ls + 1 ≤ 2 ^ (min (d - 1) ls) ∧ n - ls - 1 + 1 ≤ 2 ^ (min (d - 1) (n - ls - 1)))
    (ht : ∀ ls ∈ l, c.useTerm = true → 2 ≤ min (d - 1) ls ∧ 2 ≤ min (d - 1) (n - ls - 1))
    (v : Loc) (s : St) (hs : StOK c τ T m s) (hv : LocOK c τ b D d n UB0 v) :
    LoopPost c τ T m b D d n UB0 v s (fun x => ∃ ls ∈ l, ∃ tL tR, Allowed c.P c.mls (min (d - 1) ls) ls L.D tL ∧
      Allowed c.P c.mls (min (d - 1) (n - ls - 1)) (n - ls - 1) R.D tR ∧
      x = D.length * τ b f + (cost c.P τ L.b tL L.D + cost c.P τ R.b tR R.D))
      (sizeLoop (costOf c τ D b f) rec f L R sw d n l v s) := by
  induction l generalizing v s with
  | nil => exact ⟨Nat.le_refl _, hs, hv, LStep.refl _, fun _ x h => by simp at h⟩
  | cons ls l ih =>
    obtain ⟨a1, a2, a3, a4, a5⟩ := hl ls (List.mem_cons_self ..)
    have h1 := sizeStep_spec G hrec hsp a1 hd hk a2 a3 a4 a5 (ht ls (List.mem_cons_self ..)) hs hv
    unfold sizeLoop
    generalize sizeStep (costOf c τ D b f) rec f L R sw d n ls v s = r at h1
    obtain ⟨t1, s1, l1, st1, e1, c1⟩ := h1
    dsimp only
    split
    · rename_i ht
      exact ⟨t1, s1, l1, st1, fun h => absurd h (e1 ht)⟩
    · have h2 := ih (fun x hx => hl x (List.mem_cons_of_mem _ hx)) (fun x hx => ht x (List.mem_cons_of_mem _ hx)) r.2.1 r.2.2 s1 l1
      generalize sizeLoop (costOf c τ D b f) rec f L R sw d n l r.2.1 r.2.2 = r' at h2
      obtain ⟨t2, s2, l2, st2, c2⟩ := h2
      refine ⟨by omega, s2, l2, st1.trans st2, fun hH x hx => ?_⟩
      obtain ⟨ls', hm, tL, tR, h3, h4, rfl⟩ := hx
      rcases List.mem_cons.1 hm with rfl | hm
      · exact (c1 (hH.mono t2) tL tR h3 h4).step st2 l2
      · exact c2 hH _ ⟨ls', hm, tL, tR, h3, h4, rfl⟩

omit G in
/-- With the depth-two solver both sides of a complete budget get complete budgets of at least depth two. -/
theorem sizes_two {d n ls : Nat} (hd : 3 ≤ d) (hn : n + 1 = 2 ^ d) (h : ls ∈ sizes d n) :
    2 ≤ min (d - 1) ls ∧ 2 ≤ min (d - 1) (n - ls - 1) := by
  unfold sizes at h
  have h := List.mem_range'_1.1 h
  obtain ⟨e, rfl⟩ : ∃ e, d = e + 1 := ⟨d - 1, by omega⟩
  simp only [Nat.add_sub_cancel] at *
  have hpow : 2 ^ (e + 1) = 2 * 2 ^ e := by rw [Nat.pow_succ]; omega
  have h4 : 2 ^ 2 ≤ 2 ^ e := Nat.pow_le_pow_right (by decide) (by omega)
  omega

/-- The trees with root feature `f` and budget `(d, n)`. -/
def RootCost (c : Cfg) (τ : Prices) (b : Branch) (D : Data) (d n f : Nat) (x : Int) : Prop :=
  ∃ l r, Allowed c.P c.mls d n D (.node f l r) ∧ x = cost c.P τ b (.node f l r) D

/-- Both orders of the sides of a split. -/
theorem feature_spec {rec : Rec} {k : Nat} {D : Data} {b : Branch} {d n f : Nat} {UB0 : Node}
    (hrec : RecOK c τ T m rec (d - 1)) (hr : Reach c T k b) (hk : k + d ≤ m) (hD : D = sel b T) (hd : 1 ≤ d) (hn : 1 ≤ n)
    (hp : n + 1 ≤ 2 ^ d) (hb : BudOK c d n) (ht : c.useTerm = true → 3 ≤ d) (hf : f < c.P.nF) (hmay : c.P.may f = true)
    (hred : c.redundant f = false) (hhas : b.has f = false)
    (hm0 : c.mls ≤ (without f D).length) (hm1 : c.mls ≤ (having f D).length) (v : Loc) (s : St)
    (hs : StOK c τ T m s) (hv : LocOK c τ b D d n UB0 v) :
    LoopPost c τ T m b D d n UB0 v s (RootCost c τ b D d n f)
      (if (without f D).length < (having f D).length then
        sizeLoop (costOf c τ D b f) rec f ⟨having f D, b.child f true⟩ ⟨without f D, b.child f false⟩ true d n (sizes d n) v s
      else sizeLoop (costOf c τ D b f) rec f ⟨without f D, b.child f false⟩ ⟨having f D, b.child f true⟩ false d n (sizes d n) v s) := by
  have hv1 : ViewOf T D := by rw [hD]; exact sel_view b T
  have e0 : without f D = sel (b.child f false) T := by rw [sel_child, ← hD, side_false]
  have e1 : having f D = sel (b.child f true) T := by rw [sel_child, ← hD, side_true]
  have rch : ∀ x, Reach c T (k + 1) (b.child f x) := hr.child hf hmay hred hhas (by rw [← hD]; exact hm0) (by rw [← hD]; exact hm1)
  have hsm : ∀ tL tR : Tree, tL.depth ≤ d - 1 → tR.depth ≤ d - 1 → tL.Legal c.P c.mls (without f D) →
      tR.Legal c.P c.mls (having f D) →
      D.length * τ b f + (cost c.P τ (b.child f false) tL (without f D) + cost c.P τ (b.child f true) tR (having f D)) < c.worst := by
    intro tL tR d0 d1 h0 h1
    have := G.small b (.node f tL tR) (by simp only [Tree.depth]; omega) (by rw [← hD]; exact ⟨hf, hmay, h0, h1⟩)
    rw [← hD] at this
    simp only [cost] at this; omega
  obtain ⟨e, rfl⟩ : ∃ e, d = e + 1 := ⟨d - 1, by omega⟩
  have spR : Split c τ T m k b D (e + 1) f ⟨having f D, b.child f true⟩ ⟨without f D, b.child f false⟩ true :=
    ⟨e1, e0, rch true, rch false, hm1, hm0, fun x y hx hy => Real.combine hf hmay hy hx, hD,
      fun tL tR d0 d1 h0 h1 => by have := hsm tR tL d1 d0 h1 h0; simp only; omega⟩
  have spL : Split c τ T m k b D (e + 1) f ⟨without f D, b.child f false⟩ ⟨having f D, b.child f true⟩ false :=
    ⟨e0, e1, rch false, rch true, hm0, hm1, fun x y hx hy => Real.combine hf hmay hx hy, hD, hsm⟩
  have mono : ∀ {Q Q' : Int → Prop} {r}, (∀ x, Q' x → Q x) → LoopPost c τ T m b D (e + 1) n UB0 v s Q r →
      LoopPost c τ T m b D (e + 1) n UB0 v s Q' r := fun h ⟨a, b, c, d, e⟩ => ⟨a, b, c, d, fun hH x hx => e hH x (h x hx)⟩
  have allow : ∀ {q x} {t : Tree} {E : Data}, t.depth ≤ e → t.nodes ≤ q → t.Legal c.P c.mls E → x = q →
      Allowed c.P c.mls (min e x) x E t := by
    intro q x t E h1 h2 h3 hx
    have := t.depth_le_nodes
    exact ⟨by omega, by omega, h3⟩
  have dec : ∀ {l r : Tree}, Allowed c.P c.mls (e + 1) n D (.node f l r) →
      (l.depth ≤ e ∧ r.depth ≤ e) ∧ l.nodes + r.nodes + 1 ≤ n ∧ l.Legal c.P c.mls (without f D) ∧
      r.Legal c.P c.mls (having f D) ∧ (l.nodes + 1 ≤ 2 ^ e ∧ r.nodes + 1 ≤ 2 ^ e) := by
    intro l r ha
    have h1 := ha.1
    have h2 := ha.2.1
    simp only [Tree.depth, Tree.nodes] at h1 h2
    have pw : ∀ t : Tree, t.depth ≤ e → t.nodes + 1 ≤ 2 ^ e := fun t ht =>
      Nat.le_trans t.nodes_lt_pow (Nat.pow_le_pow_right (by decide) ht)
    exact ⟨⟨by omega, by omega⟩, by omega, ha.2.2.2.2.1, ha.2.2.2.2.2, pw _ (by omega), pw _ (by omega)⟩
  have htwo : ∀ ls ∈ sizes (e + 1) n, c.useTerm = true → 2 ≤ min (e + 1 - 1) ls ∧ 2 ≤ min (e + 1 - 1) (n - ls - 1) := by
    intro ls hls hu
    rcases hb with h | h
    · rw [hu] at h; simp at h
    · exact sizes_two (ht hu) h hls
  split
  · refine mono ?_ (sizeLoop_spec G hrec spR hd hk (sizes (e + 1) n) (sizes_ok hd hn hp hb) htwo v s hs hv)
    rintro x ⟨l, r, ha, rfl⟩
    obtain ⟨⟨h1, h2⟩, h3, h4, h5, h6, h7⟩ := dec ha
    obtain ⟨ls, hm, g1, g2⟩ := sizes_cover (a := r.nodes) (b := l.nodes) hn hp hd h7 h6 (by omega)
    refine ⟨ls, hm, r, l, allow h2 g1 h5 rfl, allow h1 g2 h4 rfl, ?_⟩
    simp only [cost]; omega
  · refine mono ?_ (sizeLoop_spec G hrec spL hd hk (sizes (e + 1) n) (sizes_ok hd hn hp hb) htwo v s hs hv)
    rintro x ⟨l, r, ha, rfl⟩
    obtain ⟨⟨h1, h2⟩, h3, h4, h5, h6, h7⟩ := dec ha
    obtain ⟨ls, hm, g1, g2⟩ := sizes_cover (a := l.nodes) (b := r.nodes) hn hp hd h6 h7 (by omega)
    refine ⟨ls, hm, l, r, allow h1 g1 h4 rfl, allow h2 g2 h5 rfl, ?_⟩
    simp only [cost]

theorem featLoop_spec {rec : Rec} {k : Nat} {D : Data} {b : Branch} {d n : Nat} {UB0 blb : Node}
    (hrec : RecOK c τ T m rec (d - 1)) (hr : Reach c T k b) (hk : k + d ≤ m) (hD : D = sel b T) (hd : 1 ≤ d) (hn : 1 ≤ n)
    (hp : n + 1 ≤ 2 ^ d) (hb : BudOK c d n) (ht : c.useTerm = true → 3 ≤ d)
    (fs : List Nat) (hfs : ∀ f ∈ fs, f < c.P.nF) (v : Loc) (s : St) (done : Int → Prop)
    (hs : StOK c τ T m s) (hv : LocOK c τ b D d n UB0 v) (hblb : AllOK c s.tick → LowB c τ d n b D blb.sol)
    (hdone : AllOK c s.tick → ∀ x, done x → Covers c UB0 v x) (hdone' : ∀ x, done x → ∃ f, RootCost c τ b D d n f x) :
    LoopPost c τ T m b D d n UB0 v s (fun x => done x ∨ ∃ f ∈ fs, RootCost c τ b D d n f x)
      (featLoop c τ rec D b d n blb fs v s) := by
  have hv1 : ViewOf T D := by rw [hD]; exact sel_view b T
  induction fs generalizing v s done with
  | nil =>
    refine ⟨Nat.le_refl _, hs, hv, LStep.refl _, fun hH x hx => ?_⟩
    rcases hx with hx | ⟨f, hf, _⟩
    · exact hdone hH x hx
    · simp at hf
  | cons f fs ih =>
    have tn : s.tick ≤ s.next.tick := Nat.le_succ _
    have hfs' : ∀ g ∈ fs, g < c.P.nF := fun g hg => hfs g (List.mem_cons_of_mem _ hg)
    have isTree : ∀ x, (done x ∨ ∃ g ∈ f :: fs, RootCost c τ b D d n g x) →
        ∃ t, Allowed c.P c.mls d n D t ∧ x = cost c.P τ b t D := by
      intro x hx
      rcases hx with hx | ⟨g, _, l, r, ha, e⟩
      · obtain ⟨g, l, r, ha, e⟩ := hdone' x hx
        exact ⟨_, ha, e⟩
      · exact ⟨_, ha, e⟩
    have skip : (∀ x, ¬ RootCost c τ b D d n f x) →
        LoopPost c τ T m b D d n UB0 v s (fun x => done x ∨ ∃ g ∈ f :: fs, RootCost c τ b D d n g x)
          (featLoop c τ rec D b d n blb fs v s.next) := by
      intro hno
      obtain ⟨a1, a2, a3, a4, a5⟩ := ih hfs' v s.next done hs.next hv (fun h => hblb (h.mono tn)) (fun h => hdone (h.mono tn)) hdone'
      refine ⟨by omega, a2, a3, a4, fun hH x hx => a5 hH x ?_⟩
      rcases hx with hx | ⟨g, hg, hx⟩
      · exact .inl hx
      · rcases List.mem_cons.1 hg with rfl | hg
        · exact absurd hx (hno x)
        · exact .inr ⟨g, hg, hx⟩
    unfold featLoop
    split
    · rename_i hok
      exact ⟨tn, hs.next, hv, LStep.refl _, fun h => absurd h (not_AllOK_next hok)⟩
    · dsimp only
      split
      · rename_i hc
        refine ⟨tn, hs.next, hv, LStep.refl _, fun hH x hx => ?_⟩
        obtain ⟨t, ht, rfl⟩ := isTree x hx
        have h1 := hblb (hH.mono tn) t ht
        refine ⟨fun he => by dsimp only; omega, fun he => ?_⟩
        have h2 := G.small b t (by have := ht.1; omega) (by rw [← hD]; exact ht.2.2)
        rw [← hD] at h2
        have h3 : v.sols.sol = c.worst := by rw [(hv.emp he).1]; rfl
        omega
      · split
        · rename_i hc
          refine ⟨tn, hs.next, hv, LStep.refl _, fun hH x hx => ?_⟩
          obtain ⟨t, ht, rfl⟩ := isTree x hx
          have h1 := hblb (hH.mono tn) t ht
          refine ⟨fun he => ?_, fun he => ?_⟩
          · have := (hv.ub he hc.2.1).1
            dsimp only; omega
          · have h2 := (hv.emp he).2
            have h3 := hc.2.2
            rw [h2] at h3
            exact ⟨hc.2.1, by omega⟩
        · rename_i hc
          split
          · rename_i hskip
            refine skip fun x ⟨l, r, ha, _⟩ => ?_
            have hl := ha.2.2
            have l0 := hl.2.2.1.length
            have l1 := hl.2.2.2.length
            have hm := G.mls
            have bad : ¬ (without f D = [] ∨ having f D = []) := by
              rintro (h | h)
              · rw [h] at l0; simp at l0; omega
              · rw [h] at l1; simp at l1; omega
            simp only [Bool.or_eq_true, Bool.not_eq_true'] at hskip
            rcases hskip with (h | h) | h
            · apply bad
              have := sel_pathOK b T f h
              rwa [← hD] at this
            · rw [hl.2.1] at h; simp at h
            · exact bad (constant_side hv1 (G.redundant f h))
          · rename_i hnskip
            simp only [Bool.or_eq_true, Bool.not_eq_true', not_or, Bool.not_eq_true, Bool.not_eq_false] at hnskip
            split
            · rename_i hlen
              refine skip fun x ⟨l, r, ha, _⟩ => ?_
              have l0 := ha.2.2.2.2.1.length
              have l1 := ha.2.2.2.2.2.length
              omega
            · rename_i hlen
              have h1 := feature_spec G hrec hr hk hD hd hn hp hb ht (hfs f (List.mem_cons_self ..)) hnskip.1.2 hnskip.2 hnskip.1.1
                (by omega) (by omega) v s.next hs.next hv
              generalize (if (without f D).length < (having f D).length then
                  sizeLoop (costOf c τ D b f) rec f ⟨having f D, b.child f true⟩ ⟨without f D, b.child f false⟩ true d n (sizes d n) v s.next
                else sizeLoop (costOf c τ D b f) rec f ⟨without f D, b.child f false⟩ ⟨having f D, b.child f true⟩ false d n (sizes d n) v s.next)
                = r at h1
              obtain ⟨t1, s1, l1, st1, c1⟩ := h1
              have h2 := ih hfs' r.1 r.2 (fun x => done x ∨ RootCost c τ b D d n f x) s1 l1
                (fun h => hblb (h.mono (by omega))) ?_ ?_
              · obtain ⟨a1, a2, a3, a4, a5⟩ := h2
                refine ⟨by omega, a2, a3, st1.trans a4, fun hH x hx => a5 hH x ?_⟩
                rcases hx with hx | ⟨g, hg, hx⟩
                · exact .inl (.inl hx)
                · rcases List.mem_cons.1 hg with rfl | hg
                  · exact .inl (.inr hx)
                  · exact .inr ⟨g, hg, hx⟩
              · intro hH x hx
                rcases hx with hx | hx
                · exact (hdone (hH.mono (by omega)) x hx).step st1 l1
                · exact c1 hH x hx
              · intro x hx
                rcases hx with hx | hx
                · exact hdone' x hx
                · exact ⟨f, hx⟩

end
end Streed.Ctx
