import Verif.Model.Solver

/-! Two clocks that agree on the checks made give the same search. -/

namespace Streed

section
variable (c : Cfg) (k : Nat → Bool)

/-- The same configuration with another clock. -/
abbrev Cfg.at (c : Cfg) (k : Nat → Bool) : Cfg := { c with clock := k }

/-- The clocks agree on the checks numbered `i, …, j - 1`. -/
def SameClock (i j : Nat) : Prop := ∀ x, i ≤ x → x < j → k x = c.clock x

variable {c k}

theorem SameClock.sub {i j i' j' : Nat} (h : SameClock c k i j) (hi : i ≤ i') (hj : j' ≤ j) : SameClock c k i' j' :=
  fun x h1 h2 => h x (Nat.le_trans hi h1) (Nat.lt_of_lt_of_le h2 hj)

theorem leafLoop_clock (D : Data) (ks : List Nat) (r UB : Node) : leafLoop (c.at k) D ks r UB = leafLoop c D ks r UB := by
  induction ks generalizing r UB with
  | nil => rfl
  | cons x ks ih =>
    unfold leafLoop
    dsimp only
    rw [ih, ih]
    rfl

theorem solveLeaf_clock (D : Data) (UB : Node) : solveLeaf (c.at k) D UB = solveLeaf c D UB := by
  unfold solveLeaf
  rw [leafLoop_clock]

theorem lowerCached_clock (s : St) (D : Data) (b : Branch) (n l : Nat) :
    lowerCached (c.at k) s D b n l = lowerCached c s D b n l := by
  induction l with
  | zero => rfl
  | succ l ih =>
    unfold lowerCached
    rw [ih]
    rfl

theorem sparseLB_clock (s : St) (D : Data) (b : Branch) (d n : Nat) (lb : Node) :
    sparseLB (c.at k) s D b d n lb = sparseLB c s D b d n lb := by
  unfold sparseLB
  rw [solveLeaf_clock, lowerCached_clock]

theorem computeLB_clock (s : St) (D : Data) (b : Branch) (d n : Nat) : computeLB (c.at k) s D b d n = computeLB c s D b d n := by
  unfold computeLB
  simp only [sparseLB_clock]
  rfl

theorem computeLRLB_clock (s : St) (f : Nat) (DL : Data) (bl : Branch) (dl nl : Nat) (DR : Data) (br : Branch) (dr nr : Nat) :
    computeLRLB (c.at k) s f DL bl dl nl DR br dr nr = computeLRLB c s f DL bl dl nl DR br dr nr := by
  unfold computeLRLB
  simp only [computeLB_clock]

theorem simLoop_clock (D : Data) (b : Branch) (d n : Nat) (es : List (Data × Branch)) (lb : Node) (C : Cache) :
    simLoop (c.at k) D b d n es lb C = simLoop c D b d n es lb C := by
  induction es generalizing lb C with
  | nil => rfl
  | cons e es ih =>
    unfold simLoop
    dsimp only
    simp only [ih]
    rfl

theorem useSimilarity_clock (s : St) (D : Data) (b : Branch) (d n : Nat) :
    useSimilarity (c.at k) s D b d n = useSimilarity c s D b d n := by
  unfold useSimilarity
  simp only [simLoop_clock]
  rfl

theorem useSimilarity_tick (s : St) (D : Data) (b : Branch) (d n : Nat) : (useSimilarity c s D b d n).2.tick = s.tick := by
  unfold useSimilarity
  split
  · rfl
  · dsimp only
    split
    · rfl
    · split
      · rfl
      · split <;> rfl

theorem updateArchive_tick (s : St) (D : Data) (b : Branch) (d : Nat) : (updateArchive c s D b d).tick = s.tick := by
  unfold updateArchive
  split <;> rfl

theorem solveTerminal_clock (D : Data) (b : Branch) (UB : Node) (d n : Nat) (s : St) :
    solveTerminal (c.at k) D b UB d n s = solveTerminal c D b UB d n s := rfl

theorem solveTerminal_tick (D : Data) (b : Branch) (UB : Node) (d n : Nat) (s : St) :
    (solveTerminal c D b UB d n s).2.tick = s.tick := by
  unfold solveTerminal
  dsimp only
  rw [updateArchive_tick]

/-- A recursive call and its twin under the other clock. -/
def RecSame (c : Cfg) (k : Nat → Bool) (rec rec' : Rec) : Prop := ∀ D b UB d n s, s.tick ≤ (rec D b UB d n s).2.tick ∧
  (SameClock c k s.tick (rec D b UB d n s).2.tick → rec' D b UB d n s = rec D b UB d n s)

theorem sizeStep_same {rec rec' : Rec} (hr : RecSame c k rec rec') (f : Nat) (L R : Side) (sw : Bool) (d n ls : Nat) (v : Loc) (s : St) :
    s.tick ≤ (sizeStep c rec f L R sw d n ls v s).2.2.tick ∧
    (SameClock c k s.tick (sizeStep c rec f L R sw d n ls v s).2.2.tick →
      sizeStep (c.at k) rec' f L R sw d n ls v s = sizeStep c rec f L R sw d n ls v s) := by
  unfold sizeStep
  dsimp only
  simp only [computeLRLB_clock]
  have e0 : ∀ a b cc, subtractUB (c.at k) a b cc = subtractUB c a b cc := fun _ _ _ => rfl
  have e1 : ∀ a b, updateUB (c.at k) a b = updateUB c a b := fun _ _ => rfl
  simp only [e0, e1]
  generalize computeLRLB c s f L.D L.b _ _ R.D R.b _ _ = lbs
  by_cases h1 : c.useUB = true ∧ v.UB.sol < lbs.1.sol
  · simp only [if_pos h1]
    exact ⟨Nat.le_refl _, fun _ => trivial⟩
  simp only [if_neg h1]
  by_cases h2 : lbs.1.sol = v.sols.sol
  · simp only [if_pos h2]
    exact ⟨Nat.le_refl _, fun _ => trivial⟩
  simp only [if_neg h2]
  have hl := hr L.D L.b (subtractUB c v.UB lbs.2.2 v.sols) (min (d - 1) ls) ls s
  generalize rec L.D L.b (subtractUB c v.UB lbs.2.2 v.sols) (min (d - 1) ls) ls s = lr at hl ⊢
  obtain ⟨l1, l2⟩ := hl
  have ok1 : ∀ j, lr.2.tick < j → SameClock c k s.tick j → (c.at k).ok lr.2 = c.ok lr.2 := fun j hj h => h _ l1 hj
  by_cases h3 : c.ok lr.2 = false
  · simp only [if_pos h3]
    refine ⟨Nat.le_succ_of_le l1, fun h => ?_⟩
    have hj : lr.2.tick < (lr.2.next).tick := Nat.lt_succ_self _
    rw [l2 (h.sub (Nat.le_refl _) (Nat.le_of_lt hj)), if_pos (by rw [ok1 _ hj h]; exact h3)]
  simp only [if_neg h3]
  by_cases h4 : lr.1.isEmpty = true
  · simp only [if_pos h4]
    refine ⟨Nat.le_succ_of_le l1, fun h => ?_⟩
    have hj : lr.2.tick < (lr.2.next).tick := Nat.lt_succ_self _
    rw [l2 (h.sub (Nat.le_refl _) (Nat.le_of_lt hj)), if_neg (by rw [ok1 _ hj h]; exact h3), if_pos h4]
  simp only [if_neg h4]
  have hq := hr R.D R.b (subtractUB c v.UB lr.1 v.sols) (min (d - 1) (n - ls - 1)) (n - ls - 1) lr.2.next
  generalize rec R.D R.b (subtractUB c v.UB lr.1 v.sols) (min (d - 1) (n - ls - 1)) (n - ls - 1) lr.2.next = rr at hq ⊢
  obtain ⟨r1, r2⟩ := hq
  have r0 : lr.2.tick < rr.2.tick := r1
  have ok2 : ∀ j, rr.2.tick < j → SameClock c k s.tick j → (c.at k).ok rr.2 = c.ok rr.2 :=
    fun j hj h => h _ (Nat.le_of_lt (Nat.lt_of_le_of_lt l1 r0)) hj
  have hsame : ∀ h : SameClock c k s.tick (rr.2.tick + 1),
      rec' L.D L.b (subtractUB c v.UB lbs.2.2 v.sols) (min (d - 1) ls) ls s = lr ∧ (c.at k).ok lr.2 = c.ok lr.2 ∧
      rec' R.D R.b (subtractUB c v.UB lr.1 v.sols) (min (d - 1) (n - ls - 1)) (n - ls - 1) lr.2.next = rr ∧
      (c.at k).ok rr.2 = c.ok rr.2 := fun h =>
    ⟨l2 (h.sub (Nat.le_refl _) (by omega)), ok1 _ (by omega) h, r2 (h.sub (Nat.le_succ_of_le l1) (by omega)), ok2 _ (by omega) h⟩
  by_cases h5 : c.ok rr.2 = false
  · simp only [if_pos h5]
    refine ⟨by show s.tick ≤ rr.2.tick + 1; omega, fun h => ?_⟩
    obtain ⟨a1, a2, a3, a4⟩ := hsame h
    rw [a1, a2, if_neg h3, if_neg h4, a3, a4, if_pos h5]
  simp only [if_neg h5]
  generalize hnn : (if sw then Node.combine f rr.1 lr.1 c.P.bc else Node.combine f lr.1 rr.1 c.P.bc) = nn
  by_cases h6 : rr.1.isEmpty = true
  · simp only [if_pos h6]
    refine ⟨by show s.tick ≤ rr.2.tick + 1; omega, fun h => ?_⟩
    obtain ⟨a1, a2, a3, a4⟩ := hsame h
    rw [a1, a2, if_neg h3, if_neg h4, a3, a4, if_neg h5, if_pos h6]
  simp only [if_neg h6]
  by_cases h7 : c.useUB = true ∧ v.UB.sol < nn.sol
  · simp only [if_pos h7]
    refine ⟨by show s.tick ≤ rr.2.tick + 1; omega, fun h => ?_⟩
    obtain ⟨a1, a2, a3, a4⟩ := hsame h
    rw [a1, a2, if_neg h3, if_neg h4, a3, a4, if_neg h5, if_neg h6, hnn, if_pos h7]
  simp only [if_neg h7]
  refine ⟨by show s.tick ≤ rr.2.tick + 1; omega, fun h => ?_⟩
  obtain ⟨a1, a2, a3, a4⟩ := hsame h
  rw [a1, a2, if_neg h3, if_neg h4, a3, a4, if_neg h5, if_neg h6, hnn, if_neg h7]

theorem sizeLoop_same {rec rec' : Rec} (hr : RecSame c k rec rec') (f : Nat) (L R : Side) (sw : Bool) (d n : Nat) (zs : List Nat)
    (v : Loc) (s : St) :
    s.tick ≤ (sizeLoop c rec f L R sw d n zs v s).2.tick ∧
    (SameClock c k s.tick (sizeLoop c rec f L R sw d n zs v s).2.tick →
      sizeLoop (c.at k) rec' f L R sw d n zs v s = sizeLoop c rec f L R sw d n zs v s) := by
  induction zs generalizing v s with
  | nil => exact ⟨Nat.le_refl _, fun _ => rfl⟩
  | cons z zs ih =>
    unfold sizeLoop
    dsimp only
    obtain ⟨a1, a2⟩ := sizeStep_same hr f L R sw d n z v s
    generalize sizeStep c rec f L R sw d n z v s = r at a1 a2 ⊢
    by_cases h : r.1 = true
    · simp only [if_pos h]
      exact ⟨a1, fun hs => by rw [a2 hs, if_pos h]⟩
    · simp only [if_neg h]
      obtain ⟨b1, b2⟩ := ih r.2.1 r.2.2
      exact ⟨Nat.le_trans a1 b1, fun hs => by
        rw [a2 (hs.sub (Nat.le_refl _) b1), if_neg h, b2 (hs.sub a1 (Nat.le_refl _))]⟩

theorem featLoop_same {rec rec' : Rec} (hr : RecSame c k rec rec') (D : Data) (b : Branch) (d n : Nat) (blb : Node) (fs : List Nat)
    (v : Loc) (s : St) :
    s.tick ≤ (featLoop c rec D b d n blb fs v s).2.tick ∧
    (SameClock c k s.tick (featLoop c rec D b d n blb fs v s).2.tick →
      featLoop (c.at k) rec' D b d n blb fs v s = featLoop c rec D b d n blb fs v s) := by
  induction fs generalizing v s with
  | nil => exact ⟨Nat.le_refl _, fun _ => rfl⟩
  | cons f fs ih =>
    have hsucc : s.tick < s.next.tick := Nat.lt_succ_self _
    have ok : ∀ j, s.tick < j → SameClock c k s.tick j → (c.at k).ok s = c.ok s := fun j hj h => h _ (Nat.le_refl _) hj
    have fin : ∀ (x : Loc × St) (y : Loc × St), s.next.tick ≤ x.2.tick →
        (SameClock c k s.next.tick x.2.tick → y = x) → c.ok s ≠ false →
        s.tick ≤ x.2.tick ∧ (SameClock c k s.tick x.2.tick → (if (c.at k).ok s = false then (v, s.next) else y) = x) := by
      intro x y h1 h2 h3
      refine ⟨by omega, fun h => ?_⟩
      rw [ok _ (by omega) h, if_neg h3, h2 (h.sub (by omega) (Nat.le_refl _))]
    unfold featLoop
    dsimp only
    by_cases h1 : c.ok s = false
    · simp only [if_pos h1]
      exact ⟨Nat.le_of_lt hsucc, fun h => by rw [if_pos (by rw [ok _ hsucc h]; exact h1)]⟩
    simp only [if_neg h1]
    refine fin _ _ ?_ ?_ h1
    · split
      · exact Nat.le_refl _
      split
      · exact Nat.le_refl _
      split
      · exact (ih _ _).1
      split
      · exact Nat.le_refl _
      split
      · exact (ih _ _).1
      refine Nat.le_trans ?_ (ih _ _).1
      split
      · exact (sizeLoop_same hr ..).1
      · exact (sizeLoop_same hr ..).1
    · by_cases h2 : c.useLB = true ∧ blb.sol = v.sols.sol
      · simp only [if_pos h2]; exact fun _ => trivial
      simp only [if_neg h2]
      by_cases h3 : c.useLB = true ∧ c.useUB = true ∧ v.UB.sol < blb.sol
      · simp only [if_pos h3]; exact fun _ => trivial
      simp only [if_neg h3]
      by_cases h4 : (b.has f || !c.P.may f || c.redundant f) = true
      · simp only [if_pos h4]
        exact (ih v s.next).2
      simp only [if_neg h4]
      by_cases h5 : c.sparse = true ∧ c.useUB = true ∧ v.UB.sol < c.P.bc
      · simp only [if_pos h5]; exact fun _ => trivial
      simp only [if_neg h5]
      by_cases h6 : (without f D).length < c.mls ∨ (having f D).length < c.mls
      · simp only [if_pos h6]
        exact (ih v s.next).2
      simp only [if_neg h6]
      intro h
      have key : ∀ (x y : Loc × St), s.next.tick ≤ y.2.tick → (SameClock c k s.next.tick y.2.tick → x = y) →
          SameClock c k s.next.tick (featLoop c rec D b d n blb fs y.1 y.2).2.tick →
          featLoop (c.at k) rec' D b d n blb fs x.1 x.2 = featLoop c rec D b d n blb fs y.1 y.2 := by
        intro x y q1 q2 q3
        have := ih y.1 y.2
        rw [q2 (q3.sub (Nat.le_refl _) this.1)]
        exact this.2 (q3.sub q1 (Nat.le_refl _))
      refine key _ _ ?_ ?_ h
      · split
        · exact (sizeLoop_same hr ..).1
        · exact (sizeLoop_same hr ..).1
      · by_cases h7 : (without f D).length < (having f D).length
        · simp only [if_pos h7]; exact (sizeLoop_same hr ..).2
        · simp only [if_neg h7]; exact (sizeLoop_same hr ..).2

theorem startLoc_clock (D : Data) (b : Branch) (UB : Node) (d n : Nat) (s : St) :
    startLoc (c.at k) D b UB d n s = startLoc c D b UB d n s := by
  unfold startLoc
  rw [solveLeaf_clock, lowerCached_clock]

theorem generalCase_same {rec rec' : Rec} (hr : RecSame c k rec rec') (D : Data) (b : Branch) (UB : Node) (d n : Nat) (s : St) :
    s.tick ≤ (generalCase c rec D b UB d n s).2.tick ∧
    (SameClock c k s.tick (generalCase c rec D b UB d n s).2.tick →
      generalCase (c.at k) rec' D b UB d n s = generalCase c rec D b UB d n s) := by
  unfold generalCase
  dsimp only
  simp only [solveLeaf_clock, startLoc_clock, computeLB_clock]
  split
  · exact ⟨Nat.le_refl _, fun _ => rfl⟩
  · have := featLoop_same hr D b d n (computeLB c s D b d n) (c.order D) (startLoc c D b UB d n s) s
    generalize featLoop c rec D b d n (computeLB c s D b d n) (c.order D) (startLoc c D b UB d n s) s = r at this ⊢
    dsimp only
    rw [updateArchive_tick]
    refine ⟨this.1, fun h => ?_⟩
    rw [this.2 h]
    rfl

theorem subTree_same {rec rec' : Rec} (hr : RecSame c k rec rec') : RecSame c k (subTree c rec) (subTree (c.at k) rec') := by
  intro D b UB d n s
  have hsucc : s.tick < s.next.tick := Nat.lt_succ_self _
  have ok : ∀ j, s.tick < j → SameClock c k s.tick j → (c.at k).ok s = c.ok s := fun j hj h => h _ (Nat.le_refl _) hj
  have fin : ∀ (x : Node × St) (y : Node × St), s.next.tick ≤ x.2.tick →
      (SameClock c k s.next.tick x.2.tick → y = x) → c.ok s ≠ false →
      s.tick ≤ x.2.tick ∧ (SameClock c k s.tick x.2.tick → (if (c.at k).ok s = false then (Node.empty c.worst, s.next) else y) = x) := by
    intro x y h1 h2 h3
    refine ⟨by omega, fun h => ?_⟩
    rw [ok _ (by omega) h, if_neg h3, h2 (h.sub (by omega) (Nat.le_refl _))]
  have go1 : ∀ (s' : St) d n, s'.tick ≤ (if c.useTerm = true ∧ d ≤ 2 then solveTerminal c D b UB d n s' else generalCase c rec D b UB d n s').2.tick := by
    intro s' d n
    split
    · rw [solveTerminal_tick]
      exact Nat.le_refl _
    · exact (generalCase_same hr ..).1
  have go2 : ∀ (s' : St) d n, SameClock c k s'.tick (if c.useTerm = true ∧ d ≤ 2 then solveTerminal c D b UB d n s' else generalCase c rec D b UB d n s').2.tick →
      (if c.useTerm = true ∧ d ≤ 2 then solveTerminal (c.at k) D b UB d n s' else generalCase (c.at k) rec' D b UB d n s') =
      (if c.useTerm = true ∧ d ≤ 2 then solveTerminal c D b UB d n s' else generalCase c rec D b UB d n s') := by
    intro s' d n
    split
    · exact fun _ => rfl
    · exact (generalCase_same hr ..).2
  unfold subTree
  dsimp only
  by_cases h1 : c.ok s = false
  · simp only [if_pos h1]
    exact ⟨Nat.le_of_lt hsucc, fun h => by rw [if_pos (by rw [ok _ hsucc h]; exact h1)]⟩
  simp only [if_neg h1]
  simp only [solveLeaf_clock, computeLB_clock, useSimilarity_clock]
  have e0 : reduceBudget (c.at k) UB d n = reduceBudget c UB d n := rfl
  have e1 : (c.at k).cc = c.cc := rfl
  simp only [e0, e1]
  generalize reduceBudget c UB d n = dn
  have ht := useSimilarity_tick (c := c) s.next D b dn.1 dn.2
  refine fin _ _ ?_ ?_ h1
  · split
    · exact Nat.le_refl _
    split
    · exact Nat.le_refl _
    split
    · split
      · rw [ht]; exact Nat.le_refl _
      split
      · rw [ht]; exact Nat.le_refl _
      split
      · rw [ht]; exact Nat.le_refl _
      · have := go1 (useSimilarity c s.next D b dn.1 dn.2).2 dn.1 dn.2
        rw [ht] at this
        exact this
    · exact go1 ..
  · by_cases h2 : dn.1 = 0 ∨ dn.2 = 0
    · simp only [if_pos h2]; exact fun _ => trivial
    simp only [if_neg h2]
    by_cases h3 : (s.next.cache.retrieveOpt c.cc D b dn.1 dn.2).isEmpty = false
    · simp only [if_pos h3]; exact fun _ => trivial
    simp only [if_neg h3]
    by_cases h4 : c.useLB = true
    · simp only [if_pos h4]
      generalize useSimilarity c s.next D b dn.1 dn.2 = sim at ht ⊢
      by_cases h5 : sim.1 = true ∧ (sim.2.cache.retrieveOpt c.cc D b dn.1 dn.2).isEmpty = false
      · simp only [if_pos h5]; exact fun _ => trivial
      simp only [if_neg h5]
      by_cases h6 : c.useUB = true ∧ UB.sol < (computeLB c sim.2 D b dn.1 dn.2).sol
      · simp only [if_pos h6]; exact fun _ => trivial
      simp only [if_neg h6]
      by_cases h7 : (computeLB c sim.2 D b dn.1 dn.2).sol = (solveLeaf c D (Node.empty c.worst)).1.sol
      · simp only [if_pos h7]; exact fun _ => trivial
      simp only [if_neg h7]
      have := go2 sim.2 dn.1 dn.2
      rw [ht] at this
      exact this
    · simp only [if_neg h4]
      exact go2 _ _ _

theorem solveSub_same (fuel : Nat) : RecSame c k (solveSub c fuel) (solveSub (c.at k) fuel) := by
  induction fuel with
  | zero => exact subTree_same fun D b UB d n s => ⟨Nat.le_refl _, fun _ => rfl⟩
  | succ fuel ih => exact subTree_same ih

theorem sizeRun_same (t : Top) (D : Data) (r : Run) (n : Nat) : r.st.tick ≤ (sizeRun c t D r n).st.tick ∧
    (SameClock c k r.st.tick (sizeRun c t D r n).st.tick → sizeRun (c.at k) t D r n = sizeRun c t D r n) := by
  have h := solveSub_same (c := c) (k := k) t.maxDepth D [] r.gUB (min t.maxDepth n) n r.st
  unfold sizeRun
  dsimp only
  exact ⟨h.1, fun hs => by rw [h.2 hs]; rfl⟩

theorem depthRun_same (t : Top) (D : Data) (r : Run) (d : Nat) : r.st.tick ≤ (depthRun c t D r d).st.tick ∧
    (SameClock c k r.st.tick (depthRun c t D r d).st.tick → depthRun (c.at k) t D r d = depthRun c t D r d) := by
  have h := solveSub_same (c := c) (k := k) t.maxDepth D [] r.gUB d (min t.maxNodes (2 ^ d - 1)) r.st
  unfold depthRun
  dsimp only
  exact ⟨h.1, fun hs => by rw [h.2 hs]; rfl⟩

theorem sizeRuns_same (t : Top) (D : Data) (ns : List Nat) (r : Run) : r.st.tick ≤ (sizeRuns c t D ns r).st.tick ∧
    (SameClock c k r.st.tick (sizeRuns c t D ns r).st.tick → sizeRuns (c.at k) t D ns r = sizeRuns c t D ns r) := by
  induction ns generalizing r with
  | nil => exact ⟨Nat.le_refl _, fun _ => rfl⟩
  | cons n ns ih =>
    unfold sizeRuns
    dsimp only
    by_cases h1 : c.ok r.st = false
    · simp only [if_pos h1]
      refine ⟨Nat.le_succ _, fun h => ?_⟩
      rw [if_pos (by rw [show (c.at k).ok r.st = c.ok r.st from h _ (Nat.le_refl _) (Nat.lt_succ_self _)]; exact h1)]
    simp only [if_neg h1]
    obtain ⟨a1, a2⟩ := sizeRun_same (c := c) (k := k) t D { r with st := r.st.next } n
    generalize sizeRun c t D { r with st := r.st.next } n = r' at a1 a2 ⊢
    change r.st.tick + 1 ≤ _ at a1
    by_cases h2 : c.ok r'.st = false
    · simp only [if_pos h2]
      refine ⟨by show r.st.tick ≤ r'.st.tick + 1; omega, fun h => ?_⟩
      change SameClock c k r.st.tick (r'.st.tick + 1) at h
      rw [if_neg (by rw [show (c.at k).ok r.st = c.ok r.st from h _ (Nat.le_refl _) (by omega)]; exact h1),
        a2 (h.sub (Nat.le_succ _) (by omega)),
        if_pos (by rw [show (c.at k).ok r'.st = c.ok r'.st from h _ (by omega) (by omega)]; exact h2)]
    simp only [if_neg h2]
    obtain ⟨b1, b2⟩ := ih { r' with st := r'.st.next }
    change r'.st.tick + 1 ≤ _ at b1
    refine ⟨by omega, fun h => ?_⟩
    rw [if_neg (by rw [show (c.at k).ok r.st = c.ok r.st from h _ (Nat.le_refl _) (by omega)]; exact h1),
      a2 (h.sub (Nat.le_succ _) (by omega)),
      if_neg (by rw [show (c.at k).ok r'.st = c.ok r'.st from h _ (by omega) (by omega)]; exact h2)]
    exact b2 (h.sub (by show r.st.tick ≤ r'.st.tick + 1; omega) (Nat.le_refl _))

theorem depthRuns_same (t : Top) (D : Data) (ds : List Nat) (r : Run) : r.st.tick ≤ (depthRuns c t D ds r).st.tick ∧
    (SameClock c k r.st.tick (depthRuns c t D ds r).st.tick → depthRuns (c.at k) t D ds r = depthRuns c t D ds r) := by
  induction ds generalizing r with
  | nil => exact ⟨Nat.le_refl _, fun _ => rfl⟩
  | cons d ds ih =>
    unfold depthRuns
    dsimp only
    obtain ⟨a1, a2⟩ := depthRun_same (c := c) (k := k) t D r d
    generalize depthRun c t D r d = r' at a1 a2 ⊢
    by_cases h2 : c.ok r'.st = false
    · simp only [if_pos h2]
      refine ⟨by show r.st.tick ≤ r'.st.tick + 1; omega, fun h => ?_⟩
      change SameClock c k r.st.tick (r'.st.tick + 1) at h
      rw [a2 (h.sub (Nat.le_refl _) (by omega)),
        if_pos (by rw [show (c.at k).ok r'.st = c.ok r'.st from h _ (by omega) (by omega)]; exact h2)]
    simp only [if_neg h2]
    obtain ⟨b1, b2⟩ := ih { r' with st := r'.st.next }
    change r'.st.tick + 1 ≤ _ at b1
    refine ⟨by omega, fun h => ?_⟩
    rw [a2 (h.sub (Nat.le_refl _) (by omega)),
      if_neg (by rw [show (c.at k).ok r'.st = c.ok r'.st from h _ (by omega) (by omega)]; exact h2)]
    exact b2 (h.sub (by show r.st.tick ≤ r'.st.tick + 1; omega) (Nat.le_refl _))

/-- **A run does not depend on checks it did not make.** -/
theorem solve_same (t : Top) (D : Data) (h : ∀ i, i < (solve c t D).1.st.tick → k i = c.clock i) :
    solve (c.at k) t D = solve c t D := by
  unfold solve solveFrom at h ⊢
  dsimp only at h ⊢
  simp only [solveLeaf_clock]
  generalize (if (Node.empty c.worst).isEmpty = true then _ else _ : Node × Node) = start at h ⊢
  have key : ∀ (x y : Run), (∀ i, i < y.st.next.tick → k i = c.clock i) → x = y →
      (({ x with st := x.st.next }, (c.at k).ok x.st) : Run × Bool) = ({ y with st := y.st.next }, c.ok y.st) := by
    intro x y h e
    rw [e, show (c.at k).ok y.st = c.ok y.st from h _ (Nat.lt_succ_self _)]
  by_cases h1 : t.allTrees = true ∨ t.maxNodes = 1
  · simp only [if_pos h1] at h ⊢
    refine key _ _ h ?_
    exact (sizeRuns_same t D _ _).2 fun x _ hx => h x (Nat.lt_succ_of_lt hx)
  · simp only [if_neg h1] at h ⊢
    refine key _ _ h ?_
    exact (depthRuns_same t D _ _).2 fun x _ hx => h x (Nat.lt_succ_of_lt hx)

end
end Streed
