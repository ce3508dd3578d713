import Verif.Lemmas.Top

/-! The search with the depth-two solver and without upper bounding, up to depth three. -/

namespace Streed.NoUpper

/-- The same configuration with upper bounding. -/
def up (c : Cfg) : Cfg := { c with useUB := true }

/-- The same configuration without the depth-two solver. -/
def down (c : Cfg) : Cfg := { c with useTerm := false }

section
variable {c : Cfg} {T : Data} (G : Good (up c) T) (hub : c.useUB = false) (hspa : c.sparse = false) (ht : c.useTerm = true)

theorem leafLoop_down (c : Cfg) (D : Data) (ks : List Nat) (r UB : Node) : leafLoop c D ks r UB = leafLoop (down c) D ks r UB := by
  induction ks generalizing r UB with
  | nil => rfl
  | cons k ks ih =>
    unfold leafLoop
    have e : ∀ a b, updateUB c a b = updateUB (down c) a b := fun _ _ => rfl
    simp only [ih, e]
    rfl

theorem solveLeaf_down (c : Cfg) (D : Data) (UB : Node) : solveLeaf c D UB = solveLeaf (down c) D UB := by
  unfold solveLeaf
  rw [leafLoop_down]
  rfl

include G hspa in
theorem good_down : Good (down c) T where
  labels := G.labels
  bc := G.bc
  bcLB := G.bcLB
  nonneg := G.nonneg
  small := G.small
  mls := G.mls
  term := fun h => by simp [down] at h
  sim := G.sim
  sparse := fun h => by rw [show (down c).sparse = c.sparse from rfl, hspa] at h; simp at h
  custom := G.custom
  md := G.md
  sorted := G.sorted
  inRange := G.inRange
  order := G.order
  redundant := G.redundant
  worstPer := G.worstPer
  simInst := G.simInst

include G hub hspa in
/-- The best leaf, found without looking at the upper bound. -/
theorem leaf_spec {D : Data} (hD : ViewOf T D) (hm : c.mls ≤ D.length) (UB : Node) :
    (solveLeaf c D UB).1.isEmpty = false ∧ Real c.P c.mls 0 D (solveLeaf c D UB).1 ∧
      ∀ k, k < c.P.nL → (solveLeaf c D UB).1.sol ≤ leafCost c.P D k := by
  obtain ⟨h1, h2⟩ := solveLeaf_spec (good_down G hspa) hD hm UB
  rw [← solveLeaf_down] at h1 h2
  have hne : (solveLeaf c D UB).1.isEmpty = false := by
    cases he : (solveLeaf c D UB).1.isEmpty with
    | false => rfl
    | true =>
      have := ((h1 he).2.2 0 G.labels).1
      rw [show (down c).useUB = c.useUB from rfl, hub] at this; simp at this
  exact ⟨hne, (h2 hne).1, (h2 hne).2.2⟩

include hub in
theorem leaf_ub (D : Data) (UB : Node) : (solveLeaf c D UB).2 = UB := by
  have loop : ∀ ks r, (leafLoop c D ks r UB).2 = UB := by
    intro ks
    induction ks with
    | nil => intro r; rfl
    | cons k ks ih =>
      intro r
      unfold leafLoop
      dsimp only
      rw [if_neg (by rw [hub]; simp)]
      have : updateUB c UB (Node.leaf k (leafCost c.P D k)) = UB := by unfold updateUB; rw [hub]; rfl
      rw [this]
      exact ih _
  unfold solveLeaf
  split
  · rfl
  · exact loop _ _

include hspa in
theorem computeLB_up (s : St) (D : Data) (b : Branch) (d n : Nat) : computeLB c s D b d n = computeLB (up c) s D b d n := by
  unfold computeLB
  rw [show (up c).sparse = c.sparse from rfl, hspa]
  rfl

include hspa in
theorem computeLRLB_up (s : St) (f : Nat) (DL : Data) (bl : Branch) (dl nl : Nat) (DR : Data) (br : Branch) (dr nr : Nat) :
    computeLRLB c s f DL bl dl nl DR br dr nr = computeLRLB (up c) s f DL bl dl nl DR br dr nr := by
  unfold computeLRLB
  rw [computeLB_up hspa, computeLB_up hspa]
  rfl

theorem simLoop_up (c : Cfg) (D : Data) (b : Branch) (d n : Nat) (es : List (Data × Branch)) (lb : Node) (C : Cache) :
    simLoop c D b d n es lb C = simLoop (up c) D b d n es lb C := by
  induction es generalizing lb C with
  | nil => rfl
  | cons p es ih =>
    obtain ⟨D', b'⟩ := p
    unfold simLoop
    simp only [ih]
    rfl

theorem useSimilarity_up (c : Cfg) (s : St) (D : Data) (b : Branch) (d n : Nat) :
    useSimilarity c s D b d n = useSimilarity (up c) s D b d n := by
  unfold useSimilarity
  rw [simLoop_up]
  rfl

theorem solveTerminal_up (c : Cfg) (D : Data) (b : Branch) (UB : Node) (d n : Nat) (s : St) :
    solveTerminal c D b UB d n s = solveTerminal (up c) D b UB d n s := rfl

include G hub hspa ht in
/-- Without upper bounding the search below depth three still meets the specification of the search with upper bounding. -/
theorem small_spec {D : Data} {b : Branch} {d n : Nat} {UB : Node} {s : St} {rec : Rec} (hD : D = sel b T)
    (hm : c.mls ≤ D.length) (hd2 : d ≤ 2) (hb : BudOK c d n) (hs : StOK (up c) T s) :
    Post (up c) T D UB d n s (subTree c rec D b UB d n s) := by
  have hv1 : ViewOf T D := by rw [hD]; exact sel_view b T
  have tn : s.tick ≤ s.next.tick := Nat.le_succ _
  have leafPost : ∀ s' : St, StOK (up c) T s' → s.tick ≤ s'.tick → ∀ UB', (AllOK c s'.tick → LowerBound c.P c.mls d n D (solveLeaf c D UB').1.sol) →
      Post (up c) T D UB d n s ((solveLeaf c D UB').1, s') := by
    intro s' hs' ht' UB' hlow
    obtain ⟨l1, l2, l3⟩ := leaf_spec G hub hspa hv1 hm UB'
    refine ⟨ht', fun _ => hs', fun _ => ⟨l2.mono (Nat.zero_le _), ?_⟩, fun h => ?_, fun hH _ t ht => .inl (hlow hH t ht), fun _ h => ?_⟩
    · rw [l2.numNodes_zero]; exact Nat.zero_le _
    · dsimp only at h; rw [l1] at h; simp at h
    · dsimp only at h; rw [l1] at h; simp at h
  unfold subTree
  split
  · rename_i hok
    have hno : ¬ AllOK (up c) s.next.tick := not_AllOK_next (c := up c) hok
    exact ⟨tn, fun _ => hs.next, fun h => by simp [Node.empty, Node.isEmpty] at h, fun _ => rfl,
      fun h => absurd h hno, fun h => absurd h hno⟩
  · have hred : reduceBudget c UB d n = (d, n) := by unfold reduceBudget; rw [if_pos (.inl hspa)]
    dsimp only
    rw [hred]
    dsimp only
    split
    · rename_i h0
      refine leafPost s.next hs.next tn UB fun _ t htr => ?_
      obtain ⟨k, rfl⟩ := leaf_of_depth_zero (t := t) (by have h1 := htr.1; have h2 := htr.2.1; omega)
      exact (leaf_spec G hub hspa hv1 hm UB).2.2 k htr.2.2.1
    · rename_i h0
      have hd : 1 ≤ d := by omega
      have hit : ∀ s' : St, StOK (up c) T s' → s.tick ≤ s'.tick → (s'.cache.retrieveOpt c.cc D b d n).isEmpty = false →
          Post (up c) T D UB d n s (s'.cache.retrieveOpt c.cc D b d n, s') := by
        intro s' hs' ht' he
        obtain ⟨h1, h2⟩ := retrieveOpt_spec hs'.cache hD he
        exact ⟨ht', fun _ => hs', fun _ => h1, fun h => by dsimp only at h; rw [he] at h; simp at h,
          fun hH _ t ht => .inl ((h2 hH).lower hb t ht), fun _ h => by dsimp only at h; rw [he] at h; simp at h⟩
      have go : ∀ s' : St, StOK (up c) T s' → s.tick ≤ s'.tick → Post (up c) T D UB d n s
          (if c.useTerm = true ∧ d ≤ 2 then solveTerminal c D b UB d n s' else generalCase c rec D b UB d n s') := by
        intro s' hs' ht'
        rw [if_pos ⟨ht, hd2⟩, solveTerminal_up]
        exact (solveTerminal_spec G hD hm hd hd2 hb ht hs').shift ht'
      split
      · rename_i he
        exact hit s.next hs.next tn he
      · split
        · rename_i hulb
          rw [useSimilarity_up]
          obtain ⟨h1, h2⟩ := useSimilarity_spec G hs.next hD d n hb hulb
          generalize useSimilarity (up c) s.next D b d n = sim at h1 h2
          have ht' : s.tick ≤ sim.2.tick := by rw [h2]; exact tn
          split
          · rename_i hc
            exact hit sim.2 h1 ht' hc.2
          · rw [if_neg (by rw [hub]; simp)]
            split
            · rename_i heq
              refine leafPost sim.2 h1 ht' (Node.empty c.worst) fun hH t htr => ?_
              rw [← heq, computeLB_up hspa]
              exact (computeLB_spec G h1 hD d n hH).lower hb t htr
            · exact go sim.2 h1 ht'
        · exact go s.next hs.next tn

end

/-! ### The general case -/

/-- Local variables: there always is a solution, and the upper bound is not below both the one given and the solution. -/
structure LocU (c : Cfg) (D : Data) (d n : Nat) (UB0 : Node) (v : Loc) : Prop where
  ne : v.sols.isEmpty = false
  real : Real c.P c.mls d D v.sols ∧ v.sols.numNodes ≤ n
  ub : UB0.sol ≤ v.UB.sol ∨ v.sols.sol ≤ v.UB.sol

/-- A tree of cost `x` needs no further attention. -/
def Cov (UB0 : Node) (v : Loc) (x : Int) : Prop := v.sols.sol ≤ x ∨ UB0.sol < x

/-- The recursive calls on smaller problems meet their specification. -/
def RecU (c : Cfg) (T : Data) (rec : Rec) (m : Nat) : Prop :=
  ∀ D b UB d n s, d ≤ m → D = sel b T → c.mls ≤ D.length → BudOK c d n → StOK (up c) T s →
    Post (up c) T D UB d n s (rec D b UB d n s)

/-- What is known after a loop: costs in `Q` need no further attention. -/
structure LoopU (c : Cfg) (T : Data) (D : Data) (d n : Nat) (UB0 : Node) (v : Loc) (s : St) (Q : Int → Prop)
    (r : Loc × St) : Prop where
  tick : s.tick ≤ r.2.tick
  st : StOK (up c) T r.2
  loc : LocU c D d n UB0 r.1
  le : r.1.sols.sol ≤ v.sols.sol
  cov : AllOK c r.2.tick → ∀ x, Q x → Cov UB0 r.1 x

theorem Cov.step {UB0 : Node} {v v' : Loc} {x : Int} (h : Cov UB0 v x) (hle : v'.sols.sol ≤ v.sols.sol) : Cov UB0 v' x := by
  rcases h with h | h
  · exact .inl (Int.le_trans hle h)
  · exact .inr h

section
variable {c : Cfg} {T : Data} (G : Good (up c) T) (hub : c.useUB = false) (hspa : c.sparse = false)
include G hub hspa

theorem sizeStep_spec {rec : Rec} {D : Data} {d n f ls : Nat} {L R : Side} {sw : Bool} {UB0 : Node} {v : Loc} {s : St}
    (hrec : RecU c T rec (d - 1)) (hsp : Split (up c) T D d f L R sw) (hls : ls + 1 ≤ n)
    (hb1 : BudOK c (min (d - 1) ls) ls) (hb2 : BudOK c (min (d - 1) (n - ls - 1)) (n - ls - 1))
    (hs : StOK (up c) T s) (hv : LocU c D d n UB0 v) :
    LoopU c T D d n UB0 v s (fun x => ∃ tL tR, Allowed c.P c.mls (min (d - 1) ls) ls L.D tL ∧
      Allowed c.P c.mls (min (d - 1) (n - ls - 1)) (n - ls - 1) R.D tR ∧ x = c.P.bc + (tL.cost c.P L.D + tR.cost c.P R.D))
      (sizeStep c rec f L R sw d n ls v s).2 ∧
    ((sizeStep c rec f L R sw d n ls v s).1 = true → ¬ AllOK c (sizeStep c rec f L R sw d n ls v s).2.2.tick) := by
  have hvL : ViewOf T L.D := by rw [hsp.hL]; exact sel_view _ T
  have hvR : ViewOf T R.D := by rw [hsp.hR]; exact sel_view _ T
  have hbc : 0 ≤ c.P.bc := G.bc
  have hlb := fun hH => computeLRLB_spec G hs hsp.hL hsp.hR (f := f) (min (d - 1) ls) ls (min (d - 1) (n - ls - 1))
    (n - ls - 1) hb1 hb2 hH
  have hsub : ∀ o, subtractUB c v.UB o v.sols = Node.value v.UB.sol := by
    intro o; unfold subtractUB; rw [hub]; rfl
  -- a side that costs more than the bound
  have drop : ∀ {x y : Int}, v.UB.sol < x → x ≤ y → ∀ {w : Loc}, w.sols = v.sols → Cov UB0 w y := by
    intro x y h1 h2 w hw
    unfold Cov
    rw [hw]
    rcases hv.ub with h | h
    · right; omega
    · left; omega
  unfold sizeStep
  dsimp only
  rw [if_neg (by rw [hub]; simp), computeLRLB_up hspa]
  split
  · rename_i heq
    refine ⟨⟨Nat.le_refl _, hs, hv, Int.le_refl _, ?_⟩, by simp⟩
    rintro hH x ⟨tL, tR, aL, aR, rfl⟩
    left
    have := (hlb hH).1 tL tR aL aR
    dsimp only at this ⊢
    rw [← heq]; exact this
  · rw [hsub, hsub]
    generalize computeLRLB (up c) s f L.D L.b (min (d - 1) ls) ls R.D R.b (min (d - 1) (n - ls - 1)) (n - ls - 1) = lbs
    have pL := hrec L.D L.b (Node.value v.UB.sol) (min (d - 1) ls) ls s (Nat.min_le_left _ _) hsp.hL hsp.mL hb1 hs
    generalize rec L.D L.b (Node.value v.UB.sol) (min (d - 1) ls) ls s = lr at pL
    have sL := pL.st fun _ _ _ => rfl
    have hUB : (Node.value v.UB.sol).sol = v.UB.sol := rfl
    have tL0 := pL.tick
    split
    · rename_i hok
      have hno : ¬ AllOK (up c) lr.2.next.tick := not_AllOK_next (c := up c) hok
      exact ⟨⟨by simp only [St.next]; omega, sL.next, hv, Int.le_refl _, fun h => absurd h hno⟩, fun _ => hno⟩
    · have t1 : s.tick ≤ lr.2.next.tick := by simp only [St.next]; omega
      have hl1 : AllOK c lr.2.next.tick → AllOK (up c) lr.2.tick := fun h => h.mono (Nat.le_succ _)
      split
      · rename_i hemp
        refine ⟨⟨t1, sL.next, ⟨hv.ne, hv.real, hv.ub⟩, Int.le_refl _, ?_⟩, by simp⟩
        rintro hH x ⟨tL, tR, aL, aR, rfl⟩
        have h2 := (pL.inf (hl1 hH) hemp tL aL).2
        have h3 : 0 ≤ tR.cost c.P R.D := G.cost_nonneg hvR tR
        rw [hUB] at h2
        exact drop h2 (by show tL.cost c.P L.D ≤ _; omega) rfl
      · rename_i hne
        have hne : lr.1.isEmpty = false := by simpa using hne
        have pR := hrec R.D R.b (Node.value v.UB.sol) (min (d - 1) (n - ls - 1)) (n - ls - 1) lr.2.next
          (Nat.min_le_left _ _) hsp.hR hsp.mR hb2 sL.next
        generalize rec R.D R.b (Node.value v.UB.sol) (min (d - 1) (n - ls - 1)) (n - ls - 1) lr.2.next = rr at pR
        have sR := pR.st fun _ _ _ => rfl
        have tR0 := pR.tick
        have t2 : lr.2.next.tick ≤ rr.2.next.tick := by simp only [St.next] at tR0 ⊢; omega
        have hl2 : AllOK c rr.2.next.tick → AllOK (up c) rr.2.tick := fun h => h.mono (Nat.le_succ _)
        split
        · rename_i hok
          have hno : ¬ AllOK (up c) rr.2.next.tick := not_AllOK_next (c := up c) hok
          exact ⟨⟨Nat.le_trans t1 t2, sR.next, hv, Int.le_refl _, fun h => absurd h hno⟩, fun _ => hno⟩
        · split
          · rename_i hemp
            refine ⟨⟨Nat.le_trans t1 t2, sR.next, ⟨hv.ne, hv.real, hv.ub⟩, Int.le_refl _, ?_⟩, by simp⟩
            rintro hH x ⟨tL, tR, aL, aR, rfl⟩
            have h2 := (pR.inf (hl2 hH) hemp tR aR).2
            have h3 : 0 ≤ tL.cost c.P L.D := G.cost_nonneg hvL tL
            rw [hUB] at h2
            exact drop h2 (by show tR.cost c.P R.D ≤ _; omega) rfl
          · rename_i hner
            have hner : rr.1.isEmpty = false := by simpa using hner
            rw [if_neg (by rw [hub]; simp)]
            obtain ⟨rL, nL⟩ := pL.real hne
            obtain ⟨rR, nR⟩ := pR.real hner
            have hcomb : Real c.P c.mls d D (if sw then Node.combine f rr.1 lr.1 c.P.bc else Node.combine f lr.1 rr.1 c.P.bc) :=
              hsp.comb lr.1 rr.1 (rL.mono (Nat.min_le_left _ _)) (rR.mono (Nat.min_le_left _ _))
            have hnodes : (if sw then Node.combine f rr.1 lr.1 c.P.bc else Node.combine f lr.1 rr.1 c.P.bc).numNodes ≤ n := by
              cases sw <;> (simp [combine_numNodes]; omega)
            have hsol : (if sw then Node.combine f rr.1 lr.1 c.P.bc else Node.combine f lr.1 rr.1 c.P.bc).sol =
                c.P.bc + (lr.1.sol + rr.1.sol) := by
              cases sw <;> simp [Node.combine, Node.branch]; all_goals omega
            generalize (if sw then Node.combine f rr.1 lr.1 c.P.bc else Node.combine f lr.1 rr.1 c.P.bc) = nn at hcomb hnodes hsol
            have hupd : updateUB c v.UB nn = v.UB := by unfold updateUB; rw [hub]; rfl
            rw [hupd]
            have hle : (if nn.sol < v.sols.sol then nn else v.sols).sol ≤ v.sols.sol := by split <;> omega
            refine ⟨⟨Nat.le_trans t1 t2, sR.next, ⟨?_, ?_, ?_⟩, hle, ?_⟩, by simp⟩
            · dsimp only; split
              · exact hcomb.nonempty
              · exact hv.ne
            · dsimp only; split
              · exact ⟨hcomb, hnodes⟩
              · exact hv.real
            · rcases hv.ub with h | h
              · exact .inl h
              · exact .inr (Int.le_trans hle h)
            · rintro hH x ⟨tL, tR, aL, aR, rfl⟩
              left
              have h1 : lr.1.sol ≤ tL.cost c.P L.D := by
                rcases pL.low (hl1 (hH.mono t2)) hne tL aL with h | h
                · exact h
                · have h := h.1; rw [show (up c).sparse = c.sparse from rfl, hspa] at h; simp at h
              have h2 : rr.1.sol ≤ tR.cost c.P R.D := by
                rcases pR.low (hl2 hH) hner tR aR with h | h
                · exact h
                · have h := h.1; rw [show (up c).sparse = c.sparse from rfl, hspa] at h; simp at h
              dsimp only
              split <;> omega

theorem sizeLoop_spec {rec : Rec} {D : Data} {d n f : Nat} {L R : Side} {sw : Bool} {UB0 : Node}
    (hrec : RecU c T rec (d - 1)) (hsp : Split (up c) T D d f L R sw) (l : List Nat)
    (hl : ∀ ls ∈ l, ls + 1 ≤ n ∧ BudOK c (min (d - 1) ls) ls ∧ BudOK c (min (d - 1) (n - ls - 1)) (n - ls - 1))
    (v : Loc) (s : St) (hs : StOK (up c) T s) (hv : LocU c D d n UB0 v) :
    LoopU c T D d n UB0 v s (fun x => ∃ ls ∈ l, ∃ tL tR, Allowed c.P c.mls (min (d - 1) ls) ls L.D tL ∧
      Allowed c.P c.mls (min (d - 1) (n - ls - 1)) (n - ls - 1) R.D tR ∧ x = c.P.bc + (tL.cost c.P L.D + tR.cost c.P R.D))
      (sizeLoop c rec f L R sw d n l v s) := by
  induction l generalizing v s with
  | nil => exact ⟨Nat.le_refl _, hs, hv, Int.le_refl _, fun _ x h => by simp at h⟩
  | cons ls l ih =>
    obtain ⟨a1, a2, a3⟩ := hl ls (List.mem_cons_self ..)
    have h1 := sizeStep_spec G hub hspa hrec hsp a1 a2 a3 hs hv
    unfold sizeLoop
    generalize sizeStep c rec f L R sw d n ls v s = r at h1
    obtain ⟨⟨t1, s1, l1, st1, c1⟩, e1⟩ := h1
    dsimp only
    split
    · rename_i hto
      exact ⟨t1, s1, l1, st1, fun h => absurd h (e1 hto)⟩
    · have h2 := ih (fun x hx => hl x (List.mem_cons_of_mem _ hx)) r.2.1 r.2.2 s1 l1
      generalize sizeLoop c rec f L R sw d n l r.2.1 r.2.2 = r' at h2
      obtain ⟨t2, s2, l2, st2, c2⟩ := h2
      refine ⟨by omega, s2, l2, Int.le_trans st2 st1, fun hH x hx => ?_⟩
      obtain ⟨ls', hm, tL, tR, h3, h4, rfl⟩ := hx
      rcases List.mem_cons.1 hm with rfl | hm
      · exact (c1 (hH.mono t2) _ ⟨tL, tR, h3, h4, rfl⟩).step st2
      · exact c2 hH _ ⟨ls', hm, tL, tR, h3, h4, rfl⟩

/-- Both orders of the sides of a split. -/
theorem feature_spec {rec : Rec} {D : Data} {b : Branch} {d n f : Nat} {UB0 : Node}
    (hrec : RecU c T rec (d - 1)) (hD : D = sel b T) (hd : 1 ≤ d) (hn : 1 ≤ n) (hp : n + 1 ≤ 2 ^ d)
    (hb : BudOK c d n) (hf : f < c.P.nF) (hmay : c.P.may f = true) (hm0 : c.mls ≤ (without f D).length)
    (hm1 : c.mls ≤ (having f D).length) (v : Loc) (s : St) (hs : StOK (up c) T s) (hv : LocU c D d n UB0 v) :
    LoopU c T D d n UB0 v s (RootCost c D d n f)
      (if (without f D).length < (having f D).length then
        sizeLoop c rec f ⟨having f D, b.child f true⟩ ⟨without f D, b.child f false⟩ true d n (sizes d n) v s
      else sizeLoop c rec f ⟨without f D, b.child f false⟩ ⟨having f D, b.child f true⟩ false d n (sizes d n) v s) := by
  have hv1 : ViewOf T D := by rw [hD]; exact sel_view b T
  have e0 : without f D = sel (b.child f false) T := by rw [sel_child, ← hD, side_false]
  have e1 : having f D = sel (b.child f true) T := by rw [sel_child, ← hD, side_true]
  have hsm : ∀ tL tR : Tree, tL.Legal c.P c.mls (without f D) → tR.Legal c.P c.mls (having f D) →
      c.P.bc + (tL.cost c.P (without f D) + tR.cost c.P (having f D)) < c.worst := by
    intro tL tR h0 h1
    have : (Tree.node f tL tR).cost c.P D < c.worst := G.small D hv1 (.node f tL tR) ⟨hf, hmay, h0, h1⟩
    simp only [Tree.cost] at this; omega
  obtain ⟨e, rfl⟩ : ∃ e, d = e + 1 := ⟨d - 1, by omega⟩
  have spR : Split (up c) T D (e + 1) f ⟨having f D, b.child f true⟩ ⟨without f D, b.child f false⟩ true :=
    ⟨e1, e0, hm1, hm0, fun k => by have := leafCost_split (up c).P f D k; simp only; omega,
      fun x y hx hy => Real.combine hf hmay hy hx, hv1,
      fun tL tR h0 h1 => by
        have := hsm tR tL h1 h0
        show c.P.bc + (tL.cost c.P (having f D) + tR.cost c.P (without f D)) < c.worst
        omega⟩
  have spL : Split (up c) T D (e + 1) f ⟨without f D, b.child f false⟩ ⟨having f D, b.child f true⟩ false :=
    ⟨e0, e1, hm0, hm1, fun k => (leafCost_split (up c).P f D k).symm,
      fun x y hx hy => Real.combine hf hmay hx hy, hv1, hsm⟩
  have mono : ∀ {Q Q' : Int → Prop} {r}, (∀ x, Q' x → Q x) → LoopU c T D (e + 1) n UB0 v s Q r →
      LoopU c T D (e + 1) n UB0 v s Q' r := fun h ⟨a, b, c, d, e⟩ => ⟨a, b, c, d, fun hH x hx => e hH x (h x hx)⟩
  have allow : ∀ {m x} {t : Tree} {E : Data}, t.depth ≤ e → t.nodes ≤ m → t.Legal c.P c.mls E → x = m →
      Allowed c.P c.mls (min e x) x E t := by
    intro m x t E h1 h2 h3 hx
    have := t.depth_le_nodes
    exact ⟨by omega, by omega, h3⟩
  have dec : ∀ {l r : Tree}, Allowed c.P c.mls (e + 1) n D (.node f l r) →
      (l.depth ≤ e ∧ r.depth ≤ e) ∧ l.nodes + r.nodes + 1 ≤ n ∧ l.Legal c.P c.mls (without f D) ∧
      r.Legal c.P c.mls (having f D) ∧ (l.nodes + 1 ≤ 2 ^ e ∧ r.nodes + 1 ≤ 2 ^ e) := by
    intro l r ha
    have h1 := ha.1
    have h2 := ha.2.1
    simp only [Tree.depth, Tree.nodes] at h1 h2
    have pw : ∀ t : Tree, t.depth ≤ e → t.nodes + 1 ≤ 2 ^ e := fun t ht =>
      Nat.le_trans t.nodes_lt_pow (Nat.pow_le_pow_right (by decide) ht)
    exact ⟨⟨by omega, by omega⟩, by omega, ha.2.2.2.2.1, ha.2.2.2.2.2, pw _ (by omega), pw _ (by omega)⟩
  have hsz : ∀ ls ∈ sizes (e + 1) n, ls + 1 ≤ n ∧ BudOK c (min (e + 1 - 1) ls) ls ∧
      BudOK c (min (e + 1 - 1) (n - ls - 1)) (n - ls - 1) := fun ls hls =>
    have := sizes_ok hd hn hp hb ls hls
    ⟨this.1, this.2.1, this.2.2.1⟩
  split
  · refine mono ?_ (sizeLoop_spec G hub hspa hrec spR (sizes (e + 1) n) hsz v s hs hv)
    rintro x ⟨l, r, ha, rfl⟩
    obtain ⟨⟨h1, h2⟩, h3, h4, h5, h6, h7⟩ := dec ha
    obtain ⟨ls, hm, g1, g2⟩ := sizes_cover (a := r.nodes) (b := l.nodes) hn hp hd h7 h6 (by omega)
    refine ⟨ls, hm, r, l, allow h2 g1 h5 rfl, allow h1 g2 h4 rfl, ?_⟩
    simp only [Tree.cost]; omega
  · refine mono ?_ (sizeLoop_spec G hub hspa hrec spL (sizes (e + 1) n) hsz v s hs hv)
    rintro x ⟨l, r, ha, rfl⟩
    obtain ⟨⟨h1, h2⟩, h3, h4, h5, h6, h7⟩ := dec ha
    obtain ⟨ls, hm, g1, g2⟩ := sizes_cover (a := l.nodes) (b := r.nodes) hn hp hd h6 h7 (by omega)
    refine ⟨ls, hm, l, r, allow h1 g1 h4 rfl, allow h2 g2 h5 rfl, ?_⟩
    simp only [Tree.cost]

theorem featLoop_spec {rec : Rec} {D : Data} {b : Branch} {d n : Nat} {UB0 blb : Node}
    (hrec : RecU c T rec (d - 1)) (hD : D = sel b T) (hd : 1 ≤ d) (hn : 1 ≤ n) (hp : n + 1 ≤ 2 ^ d)
    (hb : BudOK c d n) (fs : List Nat) (hfs : ∀ f ∈ fs, f < c.P.nF) (v : Loc) (s : St) (done : Int → Prop)
    (hs : StOK (up c) T s) (hv : LocU c D d n UB0 v) (hblb : AllOK c s.tick → LowerBound c.P c.mls d n D blb.sol)
    (hdone : AllOK c s.tick → ∀ x, done x → Cov UB0 v x)
    (hdone' : ∀ x, done x → ∃ t, Allowed c.P c.mls d n D t ∧ x = t.cost c.P D) :
    LoopU c T D d n UB0 v s (fun x => done x ∨ ∃ f ∈ fs, RootCost c D d n f x)
      (featLoop c rec D b d n blb fs v s) := by
  have hv1 : ViewOf T D := by rw [hD]; exact sel_view b T
  induction fs generalizing v s done with
  | nil =>
    refine ⟨Nat.le_refl _, hs, hv, Int.le_refl _, fun hH x hx => ?_⟩
    rcases hx with hx | ⟨f, hf, _⟩
    · exact hdone hH x hx
    · simp at hf
  | cons f fs ih =>
    have tn : s.tick ≤ s.next.tick := Nat.le_succ _
    have hfs' : ∀ g ∈ fs, g < c.P.nF := fun g hg => hfs g (List.mem_cons_of_mem _ hg)
    have isTree : ∀ x, (done x ∨ ∃ g ∈ f :: fs, RootCost c D d n g x) →
        ∃ t, Allowed c.P c.mls d n D t ∧ x = t.cost c.P D := by
      intro x hx
      rcases hx with hx | ⟨g, _, l, r, ha, e⟩
      · exact hdone' x hx
      · exact ⟨_, ha, e⟩
    have skip : (∀ x, ¬ RootCost c D d n f x) →
        LoopU c T D d n UB0 v s (fun x => done x ∨ ∃ g ∈ f :: fs, RootCost c D d n g x)
          (featLoop c rec D b d n blb fs v s.next) := by
      intro hno
      obtain ⟨a1, a2, a3, a4, a5⟩ := ih hfs' v s.next done hs.next hv (fun h => hblb (h.mono tn)) (fun h => hdone (h.mono tn)) hdone'
      refine ⟨by omega, a2, a3, a4, fun hH x hx => a5 hH x ?_⟩
      rcases hx with hx | ⟨g, hg, hx⟩
      · exact .inl hx
      · rcases List.mem_cons.1 hg with rfl | hg
        · exact absurd hx (hno x)
        · exact .inr ⟨g, hg, hx⟩
    unfold featLoop
    split
    · rename_i hok
      exact ⟨tn, hs.next, hv, Int.le_refl _, fun h => absurd h (not_AllOK_next hok)⟩
    · dsimp only
      split
      · rename_i hc
        refine ⟨tn, hs.next, hv, Int.le_refl _, fun hH x hx => ?_⟩
        obtain ⟨t, ht, rfl⟩ := isTree x hx
        have h1 := hblb (hH.mono tn) t ht
        left; dsimp only; omega
      · rw [if_neg (by rw [hub]; simp)]
        split
        · rename_i hskip
          refine skip fun x ⟨l, r, ha, _⟩ => ?_
          have hl := ha.2.2
          have l0 := hl.2.2.1.length
          have l1 := hl.2.2.2.length
          have hm : 1 ≤ c.mls := G.mls
          have bad : ¬ (without f D = [] ∨ having f D = []) := by
            rintro (h | h)
            · rw [h] at l0; simp at l0; omega
            · rw [h] at l1; simp at l1; omega
          simp only [Bool.or_eq_true, Bool.not_eq_true'] at hskip
          rcases hskip with (h | h) | h
          · apply bad
            have := sel_pathOK b T f h
            rwa [← hD] at this
          · rw [hl.2.1] at h; simp at h
          · exact bad (constant_side hv1 (G.redundant f h))
        · rename_i hnskip
          simp only [Bool.or_eq_true, Bool.not_eq_true', not_or, Bool.not_eq_true, Bool.not_eq_false] at hnskip
          rw [if_neg (by rw [hspa]; simp)]
          split
          · rename_i hlen
            refine skip fun x ⟨l, r, ha, _⟩ => ?_
            have l0 := ha.2.2.2.2.1.length
            have l1 := ha.2.2.2.2.2.length
            omega
          · rename_i hlen
            have h1 := feature_spec G hub hspa hrec hD hd hn hp hb (hfs f (List.mem_cons_self ..)) hnskip.1.2 (by omega) (by omega)
              v s.next hs.next hv
            generalize (if (without f D).length < (having f D).length then
                sizeLoop c rec f ⟨having f D, b.child f true⟩ ⟨without f D, b.child f false⟩ true d n (sizes d n) v s.next
              else sizeLoop c rec f ⟨without f D, b.child f false⟩ ⟨having f D, b.child f true⟩ false d n (sizes d n) v s.next)
              = r at h1
            obtain ⟨t1, s1, l1, st1, c1⟩ := h1
            have h2 := ih hfs' r.1 r.2 (fun x => done x ∨ RootCost c D d n f x) s1 l1
              (fun h => hblb (h.mono (by omega))) ?_ ?_
            · obtain ⟨a1, a2, a3, a4, a5⟩ := h2
              refine ⟨by omega, a2, a3, Int.le_trans a4 st1, fun hH x hx => a5 hH x ?_⟩
              rcases hx with hx | ⟨g, hg, hx⟩
              · exact .inl (.inl hx)
              · rcases List.mem_cons.1 hg with rfl | hg
                · exact .inl (.inr hx)
                · exact .inr ⟨g, hg, hx⟩
            · intro hH x hx
              rcases hx with hx | hx
              · exact (hdone (hH.mono (by omega)) x hx).step st1
              · exact c1 hH x hx
            · intro x hx
              rcases hx with hx | ⟨l, r, ha, e⟩
              · exact hdone' x hx
              · exact ⟨_, ha, e⟩

/-- The local variables before the feature loop. -/
theorem start_spec {D : Data} {b : Branch} {d n : Nat} {s : St} (hs : StOK (up c) T s) (hD : D = sel b T)
    (hm : c.mls ≤ D.length) (UB : Node) :
    LocU c D d n UB (startLoc c D b UB d n s) ∧
    ∀ k, k < c.P.nL → (startLoc c D b UB d n s).sols.sol ≤ leafCost c.P D k := by
  have hv1 : ViewOf T D := by rw [hD]; exact sel_view b T
  obtain ⟨h1, h2, h3⟩ := leaf_spec G hub hspa hv1 hm UB
  have hu := leaf_ub hub D UB
  have hlow : ∀ m l w, lowerCached c s D b n m = some (l, w) → l ≤ m ∧ Real c.P c.mls l D w ∧ w.numNodes ≤ n := by
    intro m l w h
    have e : ∀ m, lowerCached c s D b n m = lowerCached (up c) s D b n m := by
      intro m
      induction m with
      | zero => rfl
      | succ m ih => unfold lowerCached; rw [ih]; rfl
    rw [e] at h
    exact lowerCached_spec hs.cache hD n m h
  unfold startLoc
  dsimp only
  cases hl : lowerCached c s D b n (d - 1) with
  | none =>
    refine ⟨⟨h1, ⟨h2.mono (Nat.zero_le _), ?_⟩, .inl (by dsimp only; rw [hu])⟩, h3⟩
    dsimp only; rw [h2.numNodes_zero]; try exact Nat.zero_le _
  | some p =>
    obtain ⟨l, w⟩ := p
    obtain ⟨a1, a2, a3⟩ := hlow _ _ _ hl
    dsimp only
    rw [if_neg (by rw [hub]; simp)]
    have hne := a2.nonempty
    refine ⟨⟨?_, ?_, ?_⟩, fun k hk => Int.le_trans (addMin_le_left _ _) (h3 k hk)⟩
    · rcases addMin_cases (solveLeaf c D UB).1 w with h | h <;> dsimp only <;> rw [h] <;> assumption
    · rcases addMin_cases (solveLeaf c D UB).1 w with h | h <;> dsimp only <;> rw [h]
      · exact ⟨h2.mono (Nat.zero_le _), by rw [h2.numNodes_zero]; exact Nat.zero_le _⟩
      · exact ⟨a2.mono (by omega), a3⟩
    · dsimp only
      rw [hu]
      rcases addMin_cases UB w with h | h <;> rw [h]
      · exact .inl (Int.le_refl _)
      · exact .inr (addMin_le_right _ _)

/-- The general case above calls that meet their specification: no tree within the upper bound is better than the result. -/
theorem generalCase_spec {rec : Rec} {D : Data} {b : Branch} {d n : Nat} {UB : Node} {s : St}
    (hrec : RecU c T rec (d - 1)) (hD : D = sel b T) (hm : c.mls ≤ D.length) (hd : 1 ≤ d) (hn : 1 ≤ n)
    (hp : n + 1 ≤ 2 ^ d) (hb : BudOK c d n) (hs : StOK (up c) T s) :
    s.tick ≤ (generalCase c rec D b UB d n s).2.tick ∧
    (generalCase c rec D b UB d n s).1.isEmpty = false ∧
    Real c.P c.mls d D (generalCase c rec D b UB d n s).1 ∧ (generalCase c rec D b UB d n s).1.numNodes ≤ n ∧
    (AllOK c (generalCase c rec D b UB d n s).2.tick → ∀ t, Allowed c.P c.mls d n D t →
      (generalCase c rec D b UB d n s).1.sol ≤ t.cost c.P D ∨ UB.sol < t.cost c.P D) := by
  have hv1 : ViewOf T D := by rw [hD]; exact sel_view b T
  unfold generalCase
  dsimp only
  split
  · rename_i hlen
    obtain ⟨l1, l2, l3⟩ := leaf_spec G hub hspa hv1 hm UB
    refine ⟨Nat.le_refl _, l1, l2.mono (Nat.zero_le _), by rw [l2.numNodes_zero]; exact Nat.zero_le _, fun _ t ht => ?_⟩
    cases t with
    | leaf k => exact .inl (l3 k ht.2.2.1)
    | node f l r => have := ht.2.2.length_node; omega
  · obtain ⟨l0, k0⟩ := start_spec G hub hspa (d := d) (n := n) hs hD hm UB
    generalize startLoc c D b UB d n s = v0 at l0 k0
    have hblb : AllOK c s.tick → LowerBound c.P c.mls d n D (computeLB c s D b d n).sol := fun hH => by
      rw [computeLB_up hspa]
      exact (computeLB_spec G hs hD d n hH).lower hb
    have hf := featLoop_spec G hub hspa hrec hD hd hn hp hb (c.order D) (fun f hf => (G.order D f).1 hf) v0 s (fun _ => False)
      hs l0 hblb (fun _ _ h => h.elim) (fun _ h => h.elim)
    generalize featLoop c rec D b d n (computeLB c s D b d n) (c.order D) v0 s = r at hf
    obtain ⟨t1, s1, l1, st1, c1⟩ := hf
    have htick : ∀ C, (updateArchive c { r.2 with cache := C } D b d).tick = r.2.tick := by
      intro C; unfold updateArchive; split <;> rfl
    refine ⟨by rw [htick]; exact t1, l1.ne, l1.real.1, l1.real.2, fun hH t ht => ?_⟩
    rw [htick] at hH
    cases t with
    | node f l rr => exact c1 hH _ (.inr ⟨f, (G.order D f).2 ht.2.2.1, l, rr, ht, rfl⟩)
    | leaf k => exact .inl (Int.le_trans st1 (k0 k ht.2.2.1))

/-! ### The top level -/

omit G hub hspa in
/-- What the last call from the top has to give. -/
structure Weak (c : Cfg) (D : Data) (UB : Node) (d n : Nat) (s : St) (x : Node × St) : Prop where
  tick : s.tick ≤ x.2.tick
  real : x.1.isEmpty = false → Real c.P c.mls d D x.1 ∧ x.1.numNodes ≤ n
  emp : x.1.isEmpty = true → x.1 = Node.empty c.worst
  cov : AllOK c x.2.tick → ∀ t, Allowed c.P c.mls d n D t → (x.1.isEmpty = false ∧ x.1.sol ≤ t.cost c.P D) ∨ UB.sol < t.cost c.P D

omit G hub in
theorem weak_of_post {D : Data} {UB : Node} {d n : Nat} {s : St} {x : Node × St} (h : Post (up c) T D UB d n s x) :
    Weak c D UB d n s x := by
  refine ⟨h.tick, h.real, h.emp, fun hH t ht => ?_⟩
  cases he : x.1.isEmpty with
  | true => exact .inr (h.inf hH he t ht).2
  | false =>
    rcases h.low hH he t ht with h1 | ⟨h1, _⟩
    · exact .inl ⟨rfl, h1⟩
    · rw [show (up c).sparse = c.sparse from rfl, hspa] at h1; simp at h1

/-- The call at depth three. -/
theorem three_spec {rec : Rec} {D : Data} {b : Branch} {d n : Nat} {UB : Node} {s : St}
    (hrec : RecU c T rec (d - 1)) (hD : D = sel b T) (hm : c.mls ≤ D.length) (hd : 3 ≤ d) (hn : 1 ≤ n)
    (hp : n + 1 ≤ 2 ^ d) (hb : BudOK c d n) (hs : StOK (up c) T s) : Weak c D UB d n s (subTree c rec D b UB d n s) := by
  have hv1 : ViewOf T D := by rw [hD]; exact sel_view b T
  have tn : s.tick ≤ s.next.tick := Nat.le_succ _
  unfold subTree
  split
  · rename_i hok
    exact ⟨tn, fun h => by simp [Node.empty, Node.isEmpty] at h, fun _ => rfl, fun h => absurd h (not_AllOK_next hok)⟩
  · have hred : reduceBudget c UB d n = (d, n) := by unfold reduceBudget; rw [if_pos (.inl hspa)]
    dsimp only
    rw [hred]
    dsimp only
    rw [if_neg (by omega)]
    have hit : ∀ s' : St, StOK (up c) T s' → s.tick ≤ s'.tick → (s'.cache.retrieveOpt c.cc D b d n).isEmpty = false →
        Weak c D UB d n s (s'.cache.retrieveOpt c.cc D b d n, s') := by
      intro s' hs' ht' he
      obtain ⟨h1, h2⟩ := retrieveOpt_spec hs'.cache hD he
      exact ⟨ht', fun _ => h1, fun h => by dsimp only at h; rw [he] at h; simp at h,
        fun hH t ht => .inl ⟨he, (h2 hH).lower hb t ht⟩⟩
    have go : ∀ s' : St, StOK (up c) T s' → s.tick ≤ s'.tick → Weak c D UB d n s
        (if c.useTerm = true ∧ d ≤ 2 then solveTerminal c D b UB d n s' else generalCase c rec D b UB d n s') := by
      intro s' hs' ht'
      rw [if_neg (by omega)]
      obtain ⟨g1, g2, g3, g4, g5⟩ := generalCase_spec G hub hspa (UB := UB) hrec hD hm (by omega) hn hp hb hs'
      refine ⟨Nat.le_trans ht' g1, fun _ => ⟨g3, g4⟩, fun h => by rw [g2] at h; simp at h, fun hH t ht => ?_⟩
      rcases g5 hH t ht with h | h
      · exact .inl ⟨g2, h⟩
      · exact .inr h
    split
    · rename_i he
      exact hit s.next hs.next tn he
    · split
      · rename_i hulb
        rw [useSimilarity_up]
        obtain ⟨h1, h2⟩ := useSimilarity_spec G hs.next hD d n hb hulb
        generalize useSimilarity (up c) s.next D b d n = sim at h1 h2
        have ht' : s.tick ≤ sim.2.tick := by rw [h2]; exact tn
        split
        · rename_i hc
          exact hit sim.2 h1 ht' hc.2
        · rw [if_neg (by rw [hub]; simp)]
          split
          · rename_i heq
            obtain ⟨l1, l2, l3⟩ := leaf_spec G hub hspa hv1 hm (Node.empty c.worst)
            refine ⟨ht', fun _ => ⟨l2.mono (Nat.zero_le _), by rw [l2.numNodes_zero]; exact Nat.zero_le _⟩,
              fun h => by dsimp only at h; rw [l1] at h; simp at h, fun hH t htr => .inl ⟨l1, ?_⟩⟩
            dsimp only
            rw [← heq, computeLB_up hspa]
            exact (computeLB_spec G h1 hD d n hH).lower hb t htr
          · exact go sim.2 h1 ht'
      · exact go s.next hs.next tn

omit G hub hspa in
/-- The result is a tree of the budget. -/
def Res (c : Cfg) (t : Top) (T : Data) (r : Run) : Prop :=
  r.result.isEmpty = false ∧ Real c.P c.mls t.maxDepth T r.result ∧ r.result.numNodes ≤ t.maxNodes

omit hub hspa in
/-- The last call from the top. -/
theorem last_run (t : Top) {r : Run} (hr : RunOK (up c) t T r) (hne : r.result.isEmpty = false) {d n : Nat}
    (hd : d ≤ t.maxDepth) (hn : n ≤ t.maxNodes) {x : Node × St} (w : Weak c T r.gUB d n r.st x) (r' : Run)
    (e1 : r'.result = Node.addMin r.result x.1) (e2 : r'.st.tick = x.2.tick) :
    Res c t T r' ∧ (AllOK c r'.st.tick → Settled c t T d n r'.result) := by
  have hv : ViewOf T T := List.Sublist.refl T
  have hmd : (0 : Int) ≤ c.md ∧ c.md ≤ 1 := G.md
  have hr1 : Real c.P c.mls t.maxDepth T r.result := (hr.real hne).1
  have hsm : r.result.sol < c.worst := Real.small G hv (hr.real hne).1
  have hres : Res c t T r' := by
    unfold Res
    rw [e1]
    unfold Node.addMin
    split
    · rename_i hlt
      have hx : x.1.isEmpty = false := by
        cases h : x.1.isEmpty with
        | false => rfl
        | true => rw [w.emp h] at hlt; simp only [Node.empty] at hlt; omega
      have := w.real hx
      exact ⟨hx, this.1.mono hd, by omega⟩
    · exact ⟨hne, hr.real hne⟩
  refine ⟨hres, fun hH y hy hle => ⟨hres.1, ?_⟩⟩
  rw [e2] at hH
  rw [e1]
  have h1 : (Node.addMin r.result x.1).sol ≤ x.1.sol := addMin_le_right _ _
  have h2 : (Node.addMin r.result x.1).sol ≤ r.result.sol := addMin_le_left _ _
  rcases w.cov hH y hy with h | h
  · omega
  · have h3 : min (r.result.sol - c.md) (min c.worst t.ub) ≤ r.gUB.sol := hr.ubN rfl hne
    have h4 : y.cost c.P T < c.worst := G.small T hv y hy.2.2
    omega

/-- **Correctness of `Solve` up to depth three**, without upper bounding. -/
theorem solve_spec (ht : c.useTerm = true) (t : Top) (hm : c.mls ≤ T.length) (hclk : Monotone c.clock) (hd3 : t.maxDepth ≤ 3)
    (hfull : t.maxNodes + 1 = 2 ^ t.maxDepth) (hall : t.allTrees = true → t.maxNodes ≤ 1) :
    Res c t T (solve c t T).1 ∧
    ((solve c t T).2 = true → AllOK c (solve c t T).1.st.tick ∧ Settled c t T t.maxDepth t.maxNodes (solve c t T).1.result) := by
  have hstart : (if (Node.empty c.worst).isEmpty = true then solveLeaf c T (Node.addMin (Node.empty c.worst) (Node.value t.ub))
      else (Node.empty c.worst, Node.empty c.worst)) = solveLeaf c T (startUB c t) := by
    rw [if_pos (by rfl)]; rfl
  have hbud : ∀ d, BudOK c d (2 ^ d - 1) := fun d => .inr (by have := Nat.one_le_two_pow (n := d); omega)
  have small : ∀ fuel D b UB d n s, d ≤ 2 → D = sel b T → c.mls ≤ D.length → BudOK c d n → StOK (up c) T s →
      Post (up c) T D UB d n s (solveSub c fuel D b UB d n s) := by
    intro fuel D b UB d n s hd hD hm hb hs
    cases fuel with
    | zero => exact small_spec G hub hspa ht hD hm hd hb hs
    | succ fuel => exact small_spec G hub hspa ht hD hm hd hb hs
  unfold solve solveFrom
  dsimp only
  rw [hstart]
  obtain ⟨l1, l2, l3⟩ := leaf_spec G hub hspa (List.Sublist.refl T) hm (startUB c t)
  have lu := leaf_ub hub T (startUB c t)
  have hmd : (0 : Int) ≤ c.md ∧ c.md ≤ 1 := G.md
  generalize hr0 : (⟨(solveLeaf c T (startUB c t)).1, (solveLeaf c T (startUB c t)).2, t.maxDepth,
    { St.init with mdf := 0 }⟩ : Run) = r0
  have h0 : RunOK (up c) t T r0 := by
    rw [← hr0]
    refine ⟨fun _ => ⟨l2.mono (Nat.zero_le _), by dsimp only; rw [l2.numNodes_zero]; exact Nat.zero_le _⟩, fun h => ?_, fun _ h => ?_, fun _ _ => ?_⟩
    · dsimp only at h; rw [l1] at h; simp at h
    · dsimp only at h; rw [l1] at h; simp at h
    · dsimp only
      rw [lu, (startUB_sol t).1]
      show min _ (min c.worst t.ub) ≤ _
      omega
  have hne0 : r0.result.isEmpty = false := by rw [← hr0]; exact l1
  have hl0 : ∀ k, k < c.P.nL → r0.result.sol ≤ leafCost c.P T k := by rw [← hr0]; exact l3
  have hs0 : StOK (up c) T r0.st := by
    rw [← hr0]
    exact ⟨CInv.init _ T _, fun d p hp => by simp [St.init, Tbl.get] at hp⟩
  have hs0n : StOK (up c) T r0.st.next := hs0.next
  have res0 : ∀ s, Res c t T { r0 with st := s } := fun s => ⟨hne0, h0.real hne0⟩
  have fin : ∀ r : Run, Res c t T r → (AllOK c r.st.tick → Settled c t T t.maxDepth t.maxNodes r.result) →
      Res c t T { r with st := r.st.next } ∧ (c.ok r.st = true → AllOK c r.st.next.tick ∧ Settled c t T t.maxDepth t.maxNodes r.result) := by
    intro r hr hset
    refine ⟨hr, fun hok => ?_⟩
    have := hclk.allOK hok
    exact ⟨this, hset (this.mono (Nat.le_succ _))⟩
  have one : ∀ d r, depthRuns c t T [d] r = { depthRun c t T r d with st := (depthRun c t T r d).st.next } := by
    intro d r
    simp only [depthRuns]
    split <;> rfl
  have run : ∀ r d, RunOK (up c) t T r → r.result.isEmpty = false → StOK (up c) T r.st → d ≤ 2 → d ≤ t.maxDepth →
      min t.maxNodes (2 ^ d - 1) = 2 ^ d - 1 →
      Post (up c) T T r.gUB d (min t.maxNodes (2 ^ d - 1)) r.st (solveSub c t.maxDepth T [] r.gUB d (min t.maxNodes (2 ^ d - 1)) r.st) := by
    intro r d hr hne hs hd2 hd hn
    rw [hn]
    exact small t.maxDepth T [] r.gUB d (2 ^ d - 1) r.st hd2 (sel_nil T).symm hm (hbud d) hs
  have done : ∀ r d, RunOK (up c) t T r → r.result.isEmpty = false → t.maxDepth = d →
      Weak c T r.gUB d (min t.maxNodes (2 ^ d - 1)) r.st (solveSub c t.maxDepth T [] r.gUB d (min t.maxNodes (2 ^ d - 1)) r.st) →
      Res c t T (depthRuns c t T [d] r) ∧
      (AllOK c (depthRuns c t T [d] r).st.tick → Settled c t T t.maxDepth t.maxNodes (depthRuns c t T [d] r).result) := by
    intro r d hr hne hd w
    rw [one]
    have hn : min t.maxNodes (2 ^ d - 1) = t.maxNodes := by rw [← hd]; omega
    obtain ⟨a1, a2⟩ := last_run G t hr hne (by omega) (by omega) w (depthRun c t T r d) rfl rfl
    refine ⟨a1, fun hH => ?_⟩
    have := a2 (hH.mono (Nat.le_succ _))
    rw [hn] at this
    rw [hd]
    exact this
  have pw : ∀ m, t.maxDepth = m → t.maxNodes + 1 = 2 ^ m := fun m h => by rw [← h]; exact hfull
  have hcases : t.maxDepth = 0 ∨ t.maxDepth = 1 ∨ t.maxDepth = 2 ∨ t.maxDepth = 3 := by omega
  rcases hcases with hd | hd | hd | hd
  · have hn : t.maxNodes = 0 := by have := pw 0 hd; omega
    split
    · rw [show List.range' 1 t.maxNodes = [] by rw [hn]; rfl]
      simp only [sizeRuns]
      refine fin _ (res0 _) fun _ y hy hle => ⟨hne0, ?_⟩
      obtain ⟨k, rfl⟩ := leaf_of_depth_zero (t := y) (.inr (by have := hy.2.1; omega))
      exact hl0 k hy.2.2.1
    · rw [show List.range' (min 2 (min t.maxDepth t.maxNodes)) (min t.maxDepth t.maxNodes + 1 -
        min 2 (min t.maxDepth t.maxNodes)) = [0] by rw [hd, hn]; rfl]
      obtain ⟨a1, a2⟩ := done r0 0 h0 hne0 hd (weak_of_post hspa (run r0 0 h0 hne0 hs0 (by omega) (by omega) (by omega)))
      exact fin _ a1 a2
  · have hn : t.maxNodes = 1 := by have := pw 1 hd; omega
    rw [if_pos (.inr hn), show List.range' 1 t.maxNodes = [1] by rw [hn]; rfl]
    simp only [sizeRuns]
    split
    · rename_i hok
      exact fin _ (res0 _) fun hH => absurd hH (not_AllOK_next hok)
    · have hm1 : min t.maxDepth 1 = 1 := by omega
      have w : Weak c T r0.gUB (min t.maxDepth 1) 1 r0.st.next (solveSub c t.maxDepth T [] r0.gUB (min t.maxDepth 1) 1 r0.st.next) :=
        weak_of_post hspa (small t.maxDepth T [] r0.gUB (min t.maxDepth 1) 1 r0.st.next (by omega) (sel_nil T).symm hm
          (by rw [hm1]; exact hbud 1) hs0n)
      obtain ⟨a1, a2⟩ := last_run G t (r := { r0 with st := r0.st.next }) ⟨h0.real, h0.emp, h0.ubE, h0.ubN⟩ hne0
        (by omega) (by omega) w (sizeRun c t T { r0 with st := r0.st.next } 1) rfl rfl
      generalize sizeRun c t T { r0 with st := r0.st.next } 1 = r1 at a1 a2
      have fin1 := fin { r1 with st := r1.st.next } a1 fun hH => by
        have := a2 (hH.mono (Nat.le_succ _))
        rw [hm1] at this
        rw [hd, hn]; exact this
      split
      · exact fin1
      · exact fin1
  · have hn : t.maxNodes = 3 := by have := pw 2 hd; omega
    rw [if_neg (by
      rintro (h | h)
      · have := hall h; omega
      · omega)]
    rw [show List.range' (min 2 (min t.maxDepth t.maxNodes)) (min t.maxDepth t.maxNodes + 1 -
        min 2 (min t.maxDepth t.maxNodes)) = [2] by rw [hd, hn]; rfl]
    obtain ⟨a1, a2⟩ := done r0 2 h0 hne0 hd (weak_of_post hspa (run r0 2 h0 hne0 hs0 (by omega) (by omega) (by omega)))
    exact fin _ a1 a2
  · have hn : t.maxNodes = 7 := by have := pw 3 hd; omega
    rw [if_neg (by
      rintro (h | h)
      · have := hall h; omega
      · omega)]
    rw [show List.range' (min 2 (min t.maxDepth t.maxNodes)) (min t.maxDepth t.maxNodes + 1 -
        min 2 (min t.maxDepth t.maxNodes)) = [2, 3] by rw [hd, hn]; rfl]
    obtain ⟨b1, b2, b3, b4, b5⟩ := run_post G t h0 (d := 2) (by omega) (Nat.min_le_left _ _) false 2 2
      (run r0 2 h0 hne0 hs0 (by omega) (by omega) (by omega))
    rw [depthRuns]
    change RunOK (up c) t T (depthRun c t T r0 2) at b1
    change r0.st.tick ≤ (depthRun c t T r0 2).st.tick at b2
    change _ → StOK (up c) T (depthRun c t T r0 2).st at b3
    change _ → (depthRun c t T r0 2).result.isEmpty = false ∧ _ at b5
    generalize depthRun c t T r0 2 = r1 at b1 b2 b3 b5
    have hs1 : StOK (up c) T r1.st := b3 fun _ _ h => by omega
    have hne1 := (b5 hne0).1
    split
    · rename_i hok
      exact fin _ ⟨hne1, b1.real hne1⟩ fun hH => absurd hH (not_AllOK_next hok)
    · have w : Weak c T r1.gUB 3 (min t.maxNodes (2 ^ 3 - 1)) r1.st.next
          (solveSub c t.maxDepth T [] r1.gUB 3 (min t.maxNodes (2 ^ 3 - 1)) r1.st.next) := by
        rw [hd, show min t.maxNodes (2 ^ 3 - 1) = 2 ^ 3 - 1 by omega]
        refine three_spec G hub hspa (fun D b UB d n s h1 h2 h3 h4 h5 => small 2 D b UB d n s h1 h2 h3 h4 h5)
          (sel_nil T).symm hm (Nat.le_refl _) (by omega) (by omega) (hbud 3) hs1.next
      obtain ⟨a1, a2⟩ := done { r1 with st := r1.st.next } 3 ⟨b1.real, b1.emp, b1.ubE, b1.ubN⟩ hne1 hd w
      exact fin _ a1 a2

end
end Streed.NoUpper
