import Verif.Lemmas.Solver

/-! The feature loop of the search keeps its invariants. -/

namespace Streed

/-- Local variables are consistent; `UB0` is the upper bound of the call. -/
structure LocOK (c : Cfg) (D : Data) (d n : Nat) (UB0 : Node) (v : Loc) : Prop where
  real : v.sols.isEmpty = false → Real c.P c.mls d D v.sols ∧ v.sols.numNodes ≤ n
  ub : v.sols.isEmpty = false → c.useUB = true → v.UB.sol = v.sols.sol ∧ v.sols.sol ≤ UB0.sol
  emp : v.sols.isEmpty = true → v.sols = Node.empty c.worst ∧ v.UB = UB0

/-- A tree of cost `x` needs no further attention. -/
def Covers (c : Cfg) (UB0 : Node) (v : Loc) (x : Int) : Prop :=
  (v.sols.isEmpty = false → v.sols.sol ≤ x) ∧
  (v.sols.isEmpty = true → c.useUB = true ∧ UB0.sol < x ∧ (c.useLB = true → v.inf.sol ≤ x))

/-- How the local variables may change. -/
structure LStep (c : Cfg) (D : Data) (H : Prop) (v v' : Loc) : Prop where
  ne : v.sols.isEmpty = false → v'.sols.isEmpty = false ∧ v'.sols.sol ≤ v.sols.sol
  inf : v'.inf.sol ≤ v.inf.sol
  leaf : H → c.useLB = true → v'.inf = v.inf ∨ ∀ k, k < c.P.nL → v'.inf.sol ≤ leafCost c.P D k

theorem LStep.refl (c : Cfg) (D : Data) (H : Prop) (v : Loc) : LStep c D H v v :=
  ⟨fun h => ⟨h, Int.le_refl _⟩, Int.le_refl _, fun _ _ => .inl rfl⟩

theorem LStep.trans {c : Cfg} {D : Data} {H H' : Prop} {u v w : Loc} (h1 : LStep c D H u v) (h2 : LStep c D H' v w)
    (hh : H' → H) : LStep c D H' u w := by
  refine ⟨fun h => ⟨(h2.ne (h1.ne h).1).1, Int.le_trans (h2.ne (h1.ne h).1).2 (h1.ne h).2⟩,
    Int.le_trans h2.inf h1.inf, fun h hu => ?_⟩
  rcases h2.leaf h hu with e | e
  · rw [e]; exact h1.leaf (hh h) hu
  · exact .inr e

theorem Covers.step {c : Cfg} {D : Data} {d n : Nat} {UB0 : Node} {H : Prop} {v v' : Loc} {x : Int}
    (h : Covers c UB0 v x) (h1 : LStep c D H v v') (h2 : LocOK c D d n UB0 v') : Covers c UB0 v' x := by
  cases he : v.sols.isEmpty with
  | false =>
    have := h1.ne he
    refine ⟨fun _ => Int.le_trans this.2 (h.1 he), fun h' => ?_⟩
    rw [this.1] at h'; simp at h'
  | true =>
    obtain ⟨a, b, e⟩ := h.2 he
    refine ⟨fun h' => ?_, fun _ => ⟨a, b, fun hu => Int.le_trans h1.inf (e hu)⟩⟩
    have := (h2.ub h' a).2
    omega

/-- What is known of the result `r` of a call with data `D`, bound `UB`, budget `(d, n)` and state `s`. -/
structure Post (c : Cfg) (T : Data) (D : Data) (UB : Node) (d n : Nat) (s : St) (r : Node × St) : Prop where
  tick : s.tick ≤ r.2.tick
  st : (c.useLB = true → c.useTerm = true → n = 1 → UB.isEmpty = true) → StOK c T r.2
  real : r.1.isEmpty = false → Real c.P c.mls d D r.1 ∧ r.1.numNodes ≤ n
  emp : r.1.isEmpty = true → r.1 = Node.empty c.worst
  low : AllOK c r.2.tick → r.1.isEmpty = false → ∀ t, Allowed c.P c.mls d n D t →
    r.1.sol ≤ t.cost c.P D ∨ (c.sparse = true ∧ UB.sol < t.cost c.P D)
  inf : AllOK c r.2.tick → r.1.isEmpty = true → ∀ t, Allowed c.P c.mls d n D t → c.useUB = true ∧ UB.sol < t.cost c.P D

/-- The recursive call meets its specification up to depth `m`. -/
def RecOK (c : Cfg) (T : Data) (rec : Rec) (m : Nat) : Prop :=
  ∀ D b UB d n s, d ≤ m → D = sel b T → c.mls ≤ D.length → BudOK c d n → n + 1 ≤ 2 ^ d → StOK c T s →
    Post c T D UB d n s (rec D b UB d n s)

/-- A split of `D` on `f` whose sides are `L` and `R`. -/
structure Split (c : Cfg) (T : Data) (D : Data) (d : Nat) (f : Nat) (L R : Side) (sw : Bool) : Prop where
  hL : L.D = sel L.b T
  hR : R.D = sel R.b T
  mL : c.mls ≤ L.D.length
  mR : c.mls ≤ R.D.length
  leaf : ∀ k, leafCost c.P D k = leafCost c.P L.D k + leafCost c.P R.D k
  comb : ∀ a b, Real c.P c.mls (d - 1) L.D a → Real c.P c.mls (d - 1) R.D b →
    Real c.P c.mls d D (if sw then Node.combine f b a c.P.bc else Node.combine f a b c.P.bc)
  view : ViewOf T D
  small : ∀ tL tR : Tree, tL.Legal c.P c.mls L.D → tR.Legal c.P c.mls R.D →
    c.P.bc + (tL.cost c.P L.D + tR.cost c.P R.D) < c.worst

/-- What is known after one distribution of the nodes over the two sides. -/
def StepPost (c : Cfg) (T : Data) (D : Data) (d n ls : Nat) (L R : Side) (UB0 : Node) (v : Loc) (s : St)
    (r : Bool × Loc × St) : Prop :=
  s.tick ≤ r.2.2.tick ∧ StOK c T r.2.2 ∧ LocOK c D d n UB0 r.2.1 ∧
    LStep c D (AllOK c r.2.2.tick) v r.2.1 ∧ (r.1 = true → ¬ AllOK c r.2.2.tick) ∧
    (AllOK c r.2.2.tick → ∀ tL tR, Allowed c.P c.mls (min (d - 1) ls) ls L.D tL →
      Allowed c.P c.mls (min (d - 1) (n - ls - 1)) (n - ls - 1) R.D tR →
      Covers c UB0 r.2.1 (c.P.bc + (tL.cost c.P L.D + tR.cost c.P R.D)))

section
variable {c : Cfg} {T : Data} (G : Good c T)
include G

/-- Subtracting what the other side costs at least from the upper bound loses nothing. -/
theorem subtract_lemma {D : Data} {d n : Nat} {UB0 : Node} {v : Loc} (hv : LocOK c D d n UB0 v) {other : Node}
    {x y : Int} (hu : c.useUB = true) (hy : 0 ≤ y) (ho : other.sol ≤ y) (hx : c.P.bc + (x + y) < c.worst)
    (hc : (subtractUB c v.UB other v.sols).sol < x) :
    (v.sols.isEmpty = false → v.sols.sol ≤ c.P.bc + (x + y)) ∧
    (v.sols.isEmpty = true → UB0.sol < c.P.bc + (x + y)) := by
  have hmd := G.md
  have hbc := G.bc
  unfold subtractUB subtract at hc
  rw [hu] at hc
  cases he : v.sols.isEmpty with
  | false =>
    refine ⟨fun _ => ?_, fun h => by simp at h⟩
    have := (hv.ub he hu).1
    cases hs : c.subUB <;> rw [hs] at hc
    · simp [Node.value] at hc; omega
    · simp only [Bool.and_self, if_true, Node.value] at hc
      rw [if_pos (by omega)] at hc
      omega
  | true =>
    refine ⟨fun h => by simp at h, fun _ => ?_⟩
    obtain ⟨e1, e2⟩ := hv.emp he
    rw [← e2]
    cases hs : c.subUB <;> rw [hs] at hc
    · simp [Node.value] at hc; omega
    · simp only [Bool.and_self, if_true, Node.value] at hc
      have e3 : v.sols.sol = c.worst := by rw [e1]; rfl
      split at hc <;> omega

/-- One distribution of the nodes over the two sides. -/
theorem sizeStep_spec {rec : Rec} {D : Data} {d n f ls : Nat} {L R : Side} {sw : Bool} {UB0 : Node} {v : Loc} {s : St}
    (hrec : RecOK c T rec (d - 1)) (hsp : Split c T D d f L R sw) (hls : ls + 1 ≤ n)
    (hb1 : BudOK c (min (d - 1) ls) ls) (hb2 : BudOK c (min (d - 1) (n - ls - 1)) (n - ls - 1))
    (hp1 : ls + 1 ≤ 2 ^ (min (d - 1) ls)) (hp2 : n - ls - 1 + 1 ≤ 2 ^ (min (d - 1) (n - ls - 1)))
    (hs : StOK c T s) (hv : LocOK c D d n UB0 v) :
    StepPost c T D d n ls L R UB0 v s (sizeStep c rec f L R sw d n ls v s) := by
  have hvL : ViewOf T L.D := by rw [hsp.hL]; exact sel_view _ T
  have hvR : ViewOf T R.D := by rw [hsp.hR]; exact sel_view _ T
  -- bounds on the combined cost carry over to a single leaf
  have leafOf : ∀ {x : Int}, (∀ tL tR, Allowed c.P c.mls (min (d - 1) ls) ls L.D tL →
      Allowed c.P c.mls (min (d - 1) (n - ls - 1)) (n - ls - 1) R.D tR →
      x ≤ c.P.bc + (tL.cost c.P L.D + tR.cost c.P R.D)) → c.useLB = true → ∀ k, k < c.P.nL → x ≤ leafCost c.P D k := by
    intro x h hu k hk
    rw [hsp.leaf k]
    rw [G.bcLB hu] at h
    simp only [Int.zero_add] at h
    exact h (.leaf k) (.leaf k) ⟨Nat.zero_le _, Nat.zero_le _, hk, hsp.mL⟩ ⟨Nat.zero_le _, Nat.zero_le _, hk, hsp.mR⟩
  -- replacing the infeasible bound
  have infStep : ∀ {x : Node} {H : Prop}, (H → c.useLB = true → ∀ tL tR, Allowed c.P c.mls (min (d - 1) ls) ls L.D tL →
      Allowed c.P c.mls (min (d - 1) (n - ls - 1)) (n - ls - 1) R.D tR →
      x.sol ≤ c.P.bc + (tL.cost c.P L.D + tR.cost c.P R.D)) → LStep c D H v { v with inf := Node.addMin v.inf x } := by
    intro x H h
    refine ⟨fun h => ⟨h, Int.le_refl _⟩, addMin_le_left _ _, fun hH hu => ?_⟩
    have h1 := leafOf (h hH hu) hu
    rcases addMin_cases v.inf x with e | e
    · exact .inl e
    · right; intro k hk; simp only; rw [e]; exact h1 k hk
  have locInf : ∀ x : Node, LocOK c D d n UB0 { v with inf := x } := fun x => ⟨hv.real, hv.ub, hv.emp⟩
  have hlb := fun hH => computeLRLB_spec G hs hsp.hL hsp.hR (f := f) (min (d - 1) ls) ls (min (d - 1) (n - ls - 1))
    (n - ls - 1) hb1 hb2 hH
  simp only at hlb
  unfold sizeStep
  simp only
  split
  · rename_i hc
    refine ⟨Nat.le_refl _, hs, locInf _, infStep fun hH _ => (hlb hH).1, by simp, ?_⟩
    intro hH tL tR aL aR
    have h1 := (hlb hH).1 tL tR aL aR
    refine ⟨fun he => ?_, fun he => ⟨hc.1, ?_, ?_⟩⟩
    · have := (hv.ub he hc.1).1
      simp only at he ⊢; omega
    · have := (hv.emp he).2
      rw [← this]; omega
    · exact fun _ => Int.le_trans (addMin_le_right _ _) h1
  · split
    · rename_i heq
      refine ⟨Nat.le_refl _, hs, hv, LStep.refl .., by simp, ?_⟩
      intro hH tL tR aL aR
      have h1 := (hlb hH).1 tL tR aL aR
      refine ⟨fun he => by dsimp only [St.next] at *; omega, fun he => ?_⟩
      have h2 := hsp.small tL tR aL.2.2 aR.2.2
      have h3 : v.sols.sol = c.worst := by rw [(hv.emp he).1]; rfl
      omega
    · clear hlb
      generalize hlbs : computeLRLB c s f L.D L.b (min (d - 1) ls) ls R.D R.b (min (d - 1) (n - ls - 1)) (n - ls - 1) = lbs
      have hlb := fun hH => computeLRLB_spec G hs hsp.hL hsp.hR (f := f) (min (d - 1) ls) ls (min (d - 1) (n - ls - 1))
        (n - ls - 1) hb1 hb2 hH
      rw [hlbs] at hlb
      simp only at hlb
      have hub : ∀ o, (subtractUB c v.UB o v.sols).isEmpty = true := by
        intro o; unfold subtractUB; split <;> rfl
      have pL := hrec L.D L.b (subtractUB c v.UB lbs.2.2 v.sols) (min (d - 1) ls) ls s (Nat.min_le_left _ _) hsp.hL hsp.mL
        hb1 hp1 hs
      generalize rec L.D L.b (subtractUB c v.UB lbs.2.2 v.sols) (min (d - 1) ls) ls s = lr at pL
      have sL := (pL.st fun _ _ _ => hub _)
      split
      · rename_i hok
        have hno := not_AllOK_next hok
        refine ⟨?_, sL.next, hv, LStep.refl .., fun _ => hno, fun h => absurd h hno⟩
        have := pL.tick; simp only [St.next]; omega
      · have t1 : s.tick ≤ lr.2.next.tick := by have := pL.tick; simp only [St.next]; omega
        have hl1 : AllOK c lr.2.next.tick → AllOK c lr.2.tick := fun h => h.mono (Nat.le_succ _)
        have sL' := sL.next
        split
        · rename_i hemp
          have hlb' := fun hH => computeLRLB_spec G sL' hsp.hL hsp.hR (f := f) (min (d - 1) ls) ls
            (min (d - 1) (n - ls - 1)) (n - ls - 1) hb1 hb2 hH
          simp only at hlb'
          refine ⟨t1, sL', locInf _, infStep fun hH _ => (hlb' hH).1, by simp, ?_⟩
          intro hH tL tR aL aR
          have h1 := (hlb' hH).1 tL tR aL aR
          have h2 := pL.inf (hl1 hH) hemp tL aL
          have h3 := subtract_lemma G hv h2.1 (G.cost_nonneg hvR tR) ((hlb (hH.mono t1)).2 tR aR)
            (hsp.small tL tR aL.2.2 aR.2.2) h2.2
          exact ⟨h3.1, fun he => ⟨h2.1, h3.2 he, fun _ => Int.le_trans (addMin_le_right _ _) h1⟩⟩
        · rename_i hne
          have hne : lr.1.isEmpty = false := by simpa using hne
          have pR := hrec R.D R.b (subtractUB c v.UB lr.1 v.sols) (min (d - 1) (n - ls - 1)) (n - ls - 1) lr.2.next
            (Nat.min_le_left _ _) hsp.hR hsp.mR hb2 hp2 sL'
          generalize rec R.D R.b (subtractUB c v.UB lr.1 v.sols) (min (d - 1) (n - ls - 1)) (n - ls - 1) lr.2.next = rr at pR
          have sR := (pR.st fun _ _ _ => hub _)
          have t2 : lr.2.next.tick ≤ rr.2.next.tick := by have := pR.tick; simp only [St.next] at this ⊢; omega
          have hl2 : AllOK c rr.2.next.tick → AllOK c rr.2.tick := fun h => h.mono (Nat.le_succ _)
          -- a left side that costs more than the bound of its call
          have farL : AllOK c rr.2.next.tick → ∀ tL tR, Allowed c.P c.mls (min (d - 1) ls) ls L.D tL →
              Allowed c.P c.mls (min (d - 1) (n - ls - 1)) (n - ls - 1) R.D tR →
              lr.1.sol ≤ tL.cost c.P L.D ∨ (c.sparse = true ∧
                (v.sols.isEmpty = false → v.sols.sol ≤ c.P.bc + (tL.cost c.P L.D + tR.cost c.P R.D)) ∧
                (v.sols.isEmpty = true → UB0.sol < c.P.bc + (tL.cost c.P L.D + tR.cost c.P R.D))) := by
            intro hH tL tR aL aR
            rcases pL.low (hl1 (hH.mono t2)) hne tL aL with h | ⟨h, h'⟩
            · exact .inl h
            · exact .inr ⟨h, subtract_lemma G hv (G.sparse h).2 (G.cost_nonneg hvR tR)
                ((hlb ((hH.mono t2).mono t1)).2 tR aR) (hsp.small tL tR aL.2.2 aR.2.2) h'⟩
          split
          · rename_i hok
            have hno := not_AllOK_next hok
            exact ⟨by dsimp only [St.next] at *; omega, sR.next, hv, LStep.refl .., fun _ => hno, fun h => absurd h hno⟩
          · have sR' := sR.next
            split
            · rename_i hemp
              have hlb' := fun hH => computeLRLB_spec G sR' hsp.hL hsp.hR (f := f) (min (d - 1) ls) ls
                (min (d - 1) (n - ls - 1)) (n - ls - 1) hb1 hb2 hH
              simp only at hlb'
              refine ⟨by dsimp only [St.next] at *; omega, sR', locInf _, infStep fun hH _ => (hlb' hH).1, by simp, ?_⟩
              intro hH tL tR aL aR
              have h1 := (hlb' hH).1 tL tR aL aR
              have h2 := pR.inf (hl2 hH) hemp tR aR
              have h3 : (v.sols.isEmpty = false → v.sols.sol ≤ c.P.bc + (tL.cost c.P L.D + tR.cost c.P R.D)) ∧
                  (v.sols.isEmpty = true → UB0.sol < c.P.bc + (tL.cost c.P L.D + tR.cost c.P R.D)) := by
                rcases farL hH tL tR aL aR with h4 | h4
                · have h3 := subtract_lemma G hv h2.1 (G.cost_nonneg hvL tL) h4
                    (by have := hsp.small tL tR aL.2.2 aR.2.2; omega) h2.2
                  rwa [Int.add_comm (tR.cost c.P R.D)] at h3
                · exact h4.2
              exact ⟨h3.1, fun he => ⟨h2.1, h3.2 he, fun _ => Int.le_trans (addMin_le_right _ _) h1⟩⟩
            · rename_i hne'
              have hne' : rr.1.isEmpty = false := by simpa using hne'
              obtain ⟨rl, nl⟩ := pL.real hne
              obtain ⟨rrr, nr⟩ := pR.real hne'
              have hnn := hsp.comb lr.1 rr.1 (rl.mono (Nat.min_le_left _ _)) (rrr.mono (Nat.min_le_left _ _))
              have hsol : (if sw = true then Node.combine f rr.1 lr.1 c.P.bc else Node.combine f lr.1 rr.1 c.P.bc).sol =
                  c.P.bc + (lr.1.sol + rr.1.sol) := by
                cases sw <;> simp only [Node.combine, Node.branch, if_true, Bool.false_eq_true, if_false]
                all_goals omega
              have hnum : (if sw = true then Node.combine f rr.1 lr.1 c.P.bc else Node.combine f lr.1 rr.1 c.P.bc).numNodes ≤ n := by
                cases sw <;> simp [combine_numNodes] <;> omega
              generalize hN : (if sw = true then Node.combine f rr.1 lr.1 c.P.bc else Node.combine f lr.1 rr.1 c.P.bc) = nn
                at hnn hsol hnum
              have hle : AllOK c rr.2.next.tick → ∀ tL tR, Allowed c.P c.mls (min (d - 1) ls) ls L.D tL →
                  Allowed c.P c.mls (min (d - 1) (n - ls - 1)) (n - ls - 1) R.D tR →
                  nn.sol ≤ c.P.bc + (tL.cost c.P L.D + tR.cost c.P R.D) ∨ (c.sparse = true ∧
                    (v.sols.isEmpty = false → v.sols.sol ≤ c.P.bc + (tL.cost c.P L.D + tR.cost c.P R.D)) ∧
                    (v.sols.isEmpty = true → UB0.sol < c.P.bc + (tL.cost c.P L.D + tR.cost c.P R.D))) := by
                intro hH tL tR aL aR
                rcases farL hH tL tR aL aR with h1 | h1
                · rcases pR.low (hl2 hH) hne' tR aR with h2 | ⟨h2, h2'⟩
                  · left; omega
                  · right
                    have h3 := subtract_lemma G hv (G.sparse h2).2 (G.cost_nonneg hvL tL) h1
                      (by have := hsp.small tL tR aL.2.2 aR.2.2; omega) h2'
                    rw [Int.add_comm (tR.cost c.P R.D)] at h3
                    exact ⟨h2, h3⟩
                · exact .inr h1
              split
              · rename_i hc
                refine ⟨by dsimp only [St.next] at *; omega, sR', locInf _, infStep fun hH hu tL tR aL aR => ?_, by simp, ?_⟩
                · rcases hle hH tL tR aL aR with h1 | h1
                  · exact h1
                  · rw [(G.sparse h1.1).1] at hu; simp at hu
                intro hH tL tR aL aR
                rcases hle hH tL tR aL aR with h1 | h1
                · refine ⟨fun he => ?_, fun he => ⟨hc.1, ?_, fun _ => Int.le_trans (addMin_le_right _ _) h1⟩⟩
                  · have := (hv.ub he hc.1).1
                    simp only at he ⊢; omega
                  · have := (hv.emp he).2
                    rw [← this]; omega
                · exact ⟨h1.2.1, fun he => ⟨hc.1, h1.2.2 he, fun hu => by rw [(G.sparse h1.1).1] at hu; simp at hu⟩⟩
              · rename_i hc
                have hsm := Real.small G hsp.view hnn
                have hne2 := hnn.nonempty
                have hfin : (if nn.sol < v.sols.sol then nn else v.sols).isEmpty = false := by
                  split
                  · exact hne2
                  · rename_i hge
                    cases he : v.sols.isEmpty with
                    | false => rfl
                    | true =>
                      have h3 : v.sols.sol = c.worst := by rw [(hv.emp he).1]; rfl
                      omega
                have hmin : (if nn.sol < v.sols.sol then nn else v.sols).sol = min nn.sol v.sols.sol := by
                  split <;> omega
                have hle2 : c.useUB = true → nn.sol ≤ v.UB.sol := by
                  intro hu
                  by_contra hcon
                  exact hc ⟨hu, by omega⟩
                refine ⟨by dsimp only [St.next] at *; omega, sR', ⟨fun _ => ?_, fun _ hu => ?_, fun he => ?_⟩, ⟨fun he => ⟨hfin, ?_⟩, Int.le_refl _, fun _ _ => .inl rfl⟩,
                  by simp, ?_⟩
                · simp only
                  split
                  · exact ⟨hnn, hnum⟩
                  · rename_i hge
                    cases he : v.sols.isEmpty with
                    | false => exact hv.real he
                    | true =>
                      have h3 : v.sols.sol = c.worst := by rw [(hv.emp he).1]; rfl
                      omega
                · have h4 := hle2 hu
                  have hUB : (updateUB c v.UB nn).sol = nn.sol := by
                    unfold updateUB Node.addMin; rw [if_pos hu]; split <;> omega
                  simp only
                  rw [hUB, hmin]
                  cases he : v.sols.isEmpty with
                  | false => have := hv.ub he hu; omega
                  | true =>
                    have h3 : v.sols.sol = c.worst := by rw [(hv.emp he).1]; rfl
                    have := (hv.emp he).2
                    rw [this] at h4; omega
                · simp only at he; rw [hfin] at he; simp at he
                · simp only; rw [hmin]; omega
                · intro hH tL tR aL aR
                  refine ⟨fun _ => ?_, fun he => ?_⟩
                  · simp only; rw [hmin]
                    rcases hle hH tL tR aL aR with h1 | h1
                    · omega
                    · cases he : v.sols.isEmpty with
                      | false => have := h1.2.1 he; omega
                      | true =>
                        have := h1.2.2 he
                        have h5 := hle2 (G.sparse h1.1).2
                        rw [(hv.emp he).2] at h5; omega
                  · simp only at he; rw [hfin] at he; simp at he


/-- What is known after a loop: costs in `Q` need no further attention. -/
def LoopPost (c : Cfg) (T : Data) (D : Data) (d n : Nat) (UB0 : Node) (v : Loc) (s : St) (Q : Int → Prop)
    (r : Loc × St) : Prop :=
  s.tick ≤ r.2.tick ∧ StOK c T r.2 ∧ LocOK c D d n UB0 r.1 ∧ LStep c D (AllOK c r.2.tick) v r.1 ∧
    (AllOK c r.2.tick → ∀ x, Q x → Covers c UB0 r.1 x)

theorem sizeLoop_spec {rec : Rec} {D : Data} {d n f : Nat} {L R : Side} {sw : Bool} {UB0 : Node}
    (hrec : RecOK c T rec (d - 1)) (hsp : Split c T D d f L R sw) (l : List Nat)
    (hl : ∀ ls ∈ l, ls + 1 ≤ n ∧ BudOK c (min (d - 1) ls) ls ∧ BudOK c (min (d - 1) (n - ls - 1)) (n - ls - 1) ∧
      ls + 1 ≤ 2 ^ (min (d - 1) ls) ∧ n - ls - 1 + 1 ≤ 2 ^ (min (d - 1) (n - ls - 1)))
    (v : Loc) (s : St) (hs : StOK c T s) (hv : LocOK c D d n UB0 v) :
    LoopPost c T D d n UB0 v s (fun x => ∃ ls ∈ l, ∃ tL tR, Allowed c.P c.mls (min (d - 1) ls) ls L.D tL ∧
      Allowed c.P c.mls (min (d - 1) (n - ls - 1)) (n - ls - 1) R.D tR ∧ x = c.P.bc + (tL.cost c.P L.D + tR.cost c.P R.D))
      (sizeLoop c rec f L R sw d n l v s) := by
  induction l generalizing v s with
  | nil => exact ⟨Nat.le_refl _, hs, hv, LStep.refl .., fun _ x h => by simp at h⟩
  | cons ls l ih =>
    obtain ⟨a1, a2, a3, a4, a5⟩ := hl ls (List.mem_cons_self ..)
    have h1 := sizeStep_spec G hrec hsp a1 a2 a3 a4 a5 hs hv
    unfold sizeLoop
    generalize sizeStep c rec f L R sw d n ls v s = r at h1
    obtain ⟨t1, s1, l1, st1, e1, c1⟩ := h1
    dsimp only
    split
    · rename_i ht
      exact ⟨t1, s1, l1, st1, fun h => absurd h (e1 ht)⟩
    · have h2 := ih (fun x hx => hl x (List.mem_cons_of_mem _ hx)) r.2.1 r.2.2 s1 l1
      generalize sizeLoop c rec f L R sw d n l r.2.1 r.2.2 = r' at h2
      obtain ⟨t2, s2, l2, st2, c2⟩ := h2
      refine ⟨by omega, s2, l2, st1.trans st2 fun h => h.mono t2, fun hH x hx => ?_⟩
      obtain ⟨ls', hm, tL, tR, h3, h4, rfl⟩ := hx
      rcases List.mem_cons.1 hm with rfl | hm
      · exact (c1 (hH.mono t2) tL tR h3 h4).step st2 l2
      · exact c2 hH _ ⟨ls', hm, tL, tR, h3, h4, rfl⟩

omit G in
theorem sizes_ok {d n : Nat} (hd : 1 ≤ d) (hn : 1 ≤ n) (hp : n + 1 ≤ 2 ^ d) (hb : BudOK c d n) (ls : Nat)
    (h : ls ∈ sizes d n) :
    ls + 1 ≤ n ∧ BudOK c (min (d - 1) ls) ls ∧ BudOK c (min (d - 1) (n - ls - 1)) (n - ls - 1) ∧
      ls + 1 ≤ 2 ^ (min (d - 1) ls) ∧ n - ls - 1 + 1 ≤ 2 ^ (min (d - 1) (n - ls - 1)) := by
  unfold sizes at h
  have h := List.mem_range'_1.1 h
  obtain ⟨e, rfl⟩ : ∃ e, d = e + 1 := ⟨d - 1, by omega⟩
  simp only [Nat.add_sub_cancel] at *
  have hpow : 2 ^ (e + 1) = 2 * 2 ^ e := by rw [Nat.pow_succ]; omega
  have hpos : 1 ≤ 2 ^ e := Nat.one_le_two_pow
  have key : ∀ m, m + 1 ≤ 2 ^ e → m + 1 ≤ 2 ^ (min e m) := by
    intro m hm
    rcases Nat.le_total e m with h | h
    · rw [Nat.min_eq_left h]; exact hm
    · rw [Nat.min_eq_right h]; exact Nat.lt_two_pow_self
  refine ⟨by omega, ?_, ?_, key _ (by omega), key _ (by omega)⟩
  all_goals
    rcases hb with hb | hb
    · exact .inl hb
    · right
      have : e < 2 ^ e := Nat.lt_two_pow_self
      rw [Nat.min_eq_left (by omega)]
      omega

omit G in
theorem sizes_cover {d n a b : Nat} (hn : 1 ≤ n) (hp : n + 1 ≤ 2 ^ d) (hd : 1 ≤ d) (ha : a + 1 ≤ 2 ^ (d - 1))
    (hb : b + 1 ≤ 2 ^ (d - 1)) (hab : a + b + 1 ≤ n) : ∃ ls ∈ sizes d n, a ≤ ls ∧ b ≤ n - ls - 1 := by
  obtain ⟨e, rfl⟩ : ∃ e, d = e + 1 := ⟨d - 1, by omega⟩
  have hpow : 2 ^ (e + 1) = 2 * 2 ^ e := by rw [Nat.pow_succ]; omega
  simp only [Nat.add_sub_cancel] at *
  refine ⟨max a (n - 1 - min (2 ^ e - 1) (n - 1)), ?_, by omega, by omega⟩
  unfold sizes
  simp only [Nat.add_sub_cancel]
  exact List.mem_range'_1.2 ⟨by omega, by omega⟩

/-- The trees with root feature `f` and budget `(d, n)`. -/
def RootCost (c : Cfg) (D : Data) (d n f : Nat) (x : Int) : Prop :=
  ∃ l r, Allowed c.P c.mls d n D (.node f l r) ∧ x = (Tree.node f l r).cost c.P D

/-- Both orders of the sides of a split. -/
theorem feature_spec {rec : Rec} {D : Data} {b : Branch} {d n f : Nat} {UB0 : Node}
    (hrec : RecOK c T rec (d - 1)) (hD : D = sel b T) (hd : 1 ≤ d) (hn : 1 ≤ n) (hp : n + 1 ≤ 2 ^ d)
    (hb : BudOK c d n) (hf : f < c.P.nF) (hmay : c.P.may f = true) (hm0 : c.mls ≤ (without f D).length)
    (hm1 : c.mls ≤ (having f D).length) (v : Loc) (s : St) (hs : StOK c T s) (hv : LocOK c D d n UB0 v) :
    LoopPost c T D d n UB0 v s (RootCost c D d n f)
      (if (without f D).length < (having f D).length then
        sizeLoop c rec f ⟨having f D, b.child f true⟩ ⟨without f D, b.child f false⟩ true d n (sizes d n) v s
      else sizeLoop c rec f ⟨without f D, b.child f false⟩ ⟨having f D, b.child f true⟩ false d n (sizes d n) v s) := by
  have hv1 : ViewOf T D := by rw [hD]; exact sel_view b T
  have e0 : without f D = sel (b.child f false) T := by rw [sel_child, ← hD, side_false]
  have e1 : having f D = sel (b.child f true) T := by rw [sel_child, ← hD, side_true]
  have hsm : ∀ tL tR : Tree, tL.Legal c.P c.mls (without f D) → tR.Legal c.P c.mls (having f D) →
      c.P.bc + (tL.cost c.P (without f D) + tR.cost c.P (having f D)) < c.worst := by
    intro tL tR h0 h1
    have := G.small D hv1 (.node f tL tR) ⟨hf, hmay, h0, h1⟩
    simp only [Tree.cost] at this; omega
  obtain ⟨e, rfl⟩ : ∃ e, d = e + 1 := ⟨d - 1, by omega⟩
  have spR : Split c T D (e + 1) f ⟨having f D, b.child f true⟩ ⟨without f D, b.child f false⟩ true :=
    ⟨e1, e0, hm1, hm0, fun k => by have := leafCost_split c.P f D k; simp only; omega,
      fun x y hx hy => Real.combine hf hmay hy hx, hv1,
      fun tL tR h0 h1 => by have := hsm tR tL h1 h0; simp only; omega⟩
  have spL : Split c T D (e + 1) f ⟨without f D, b.child f false⟩ ⟨having f D, b.child f true⟩ false :=
    ⟨e0, e1, hm0, hm1, fun k => (leafCost_split c.P f D k).symm,
      fun x y hx hy => Real.combine hf hmay hx hy, hv1, hsm⟩
  have mono : ∀ {Q Q' : Int → Prop} {r}, (∀ x, Q' x → Q x) → LoopPost c T D (e + 1) n UB0 v s Q r →
      LoopPost c T D (e + 1) n UB0 v s Q' r := fun h ⟨a, b, c, d, e⟩ => ⟨a, b, c, d, fun hH x hx => e hH x (h x hx)⟩
  have allow : ∀ {m x} {t : Tree} {E : Data}, t.depth ≤ e → t.nodes ≤ m → t.Legal c.P c.mls E → x = m →
      Allowed c.P c.mls (min e x) x E t := by
    intro m x t E h1 h2 h3 hx
    have := t.depth_le_nodes
    exact ⟨by omega, by omega, h3⟩
  have dec : ∀ {l r : Tree}, Allowed c.P c.mls (e + 1) n D (.node f l r) →
      (l.depth ≤ e ∧ r.depth ≤ e) ∧ l.nodes + r.nodes + 1 ≤ n ∧ l.Legal c.P c.mls (without f D) ∧
      r.Legal c.P c.mls (having f D) ∧ (l.nodes + 1 ≤ 2 ^ e ∧ r.nodes + 1 ≤ 2 ^ e) := by
    intro l r ha
    have h1 := ha.1
    have h2 := ha.2.1
    simp only [Tree.depth, Tree.nodes] at h1 h2
    have pw : ∀ t : Tree, t.depth ≤ e → t.nodes + 1 ≤ 2 ^ e := fun t ht =>
      Nat.le_trans t.nodes_lt_pow (Nat.pow_le_pow_right (by decide) ht)
    exact ⟨⟨by omega, by omega⟩, by omega, ha.2.2.2.2.1, ha.2.2.2.2.2, pw _ (by omega), pw _ (by omega)⟩
  split
  · refine mono ?_ (sizeLoop_spec G hrec spR (sizes (e + 1) n) (sizes_ok hd hn hp hb) v s hs hv)
    rintro x ⟨l, r, ha, rfl⟩
    obtain ⟨⟨h1, h2⟩, h3, h4, h5, h6, h7⟩ := dec ha
    obtain ⟨ls, hm, g1, g2⟩ := sizes_cover (a := r.nodes) (b := l.nodes) hn hp hd h7 h6 (by omega)
    refine ⟨ls, hm, r, l, allow h2 g1 h5 rfl, allow h1 g2 h4 rfl, ?_⟩
    simp only [Tree.cost]; omega
  · refine mono ?_ (sizeLoop_spec G hrec spL (sizes (e + 1) n) (sizes_ok hd hn hp hb) v s hs hv)
    rintro x ⟨l, r, ha, rfl⟩
    obtain ⟨⟨h1, h2⟩, h3, h4, h5, h6, h7⟩ := dec ha
    obtain ⟨ls, hm, g1, g2⟩ := sizes_cover (a := l.nodes) (b := r.nodes) hn hp hd h6 h7 (by omega)
    refine ⟨ls, hm, l, r, allow h1 g1 h4 rfl, allow h2 g2 h5 rfl, ?_⟩
    simp only [Tree.cost]

/-- A tree of cost `x` is accounted for at the end of the call. -/
def Final (c : Cfg) (UB0 : Node) (v : Loc) (x : Int) : Prop :=
  (v.sols.isEmpty = false → v.sols.sol ≤ x) ∧
  (v.sols.isEmpty = true → c.useUB = true ∧ UB0.sol < x ∧
    (c.useLB = true → v.inf.sol = c.worst ∨ v.inf.sol ≤ x))

omit G in
theorem Covers.final {UB0 : Node} {v : Loc} {x : Int} (h : Covers c UB0 v x) : Final c UB0 v x :=
  ⟨h.1, fun he => ⟨(h.2 he).1, (h.2 he).2.1, fun hu => .inr ((h.2 he).2.2 hu)⟩⟩

/-- What is known after the feature loop. -/
def FeatPost (c : Cfg) (T : Data) (D : Data) (d n : Nat) (UB0 : Node) (v : Loc) (s : St) (Q : Int → Prop)
    (r : Loc × St) : Prop :=
  s.tick ≤ r.2.tick ∧ StOK c T r.2 ∧ LocOK c D d n UB0 r.1 ∧ LStep c D (AllOK c r.2.tick) v r.1 ∧
    (AllOK c r.2.tick → ∀ x, Q x → Final c UB0 r.1 x)

theorem featLoop_spec {rec : Rec} {D : Data} {b : Branch} {d n : Nat} {UB0 blb : Node}
    (hrec : RecOK c T rec (d - 1)) (hD : D = sel b T) (hd : 1 ≤ d) (hn : 1 ≤ n) (hp : n + 1 ≤ 2 ^ d)
    (hb : BudOK c d n) (fs : List Nat) (hfs : ∀ f ∈ fs, f < c.P.nF) (v : Loc) (s : St) (done : Int → Prop)
    (hs : StOK c T s) (hv : LocOK c D d n UB0 v) (hblb : AllOK c s.tick → LowerBound c.P c.mls d n D blb.sol)
    (hdone : AllOK c s.tick → ∀ x, done x → Covers c UB0 v x) (hdone' : ∀ x, done x → ∃ f, RootCost c D d n f x)
    (hinf : v.sols.isEmpty = true → v.inf.sol = c.worst ∨ ¬ (c.useLB = true ∧ c.useUB = true ∧ UB0.sol < blb.sol)) :
    FeatPost c T D d n UB0 v s (fun x => done x ∨ ∃ f ∈ fs, RootCost c D d n f x)
      (featLoop c rec D b d n blb fs v s) := by
  have hv1 : ViewOf T D := by rw [hD]; exact sel_view b T
  induction fs generalizing v s done with
  | nil =>
    refine ⟨Nat.le_refl _, hs, hv, LStep.refl .., fun hH x hx => ?_⟩
    rcases hx with hx | ⟨f, hf, _⟩
    · exact (hdone hH x hx).final
    · simp at hf
  | cons f fs ih =>
    have tn : s.tick ≤ s.next.tick := Nat.le_succ _
    have hfs' : ∀ g ∈ fs, g < c.P.nF := fun g hg => hfs g (List.mem_cons_of_mem _ hg)
    have isTree : ∀ x, (done x ∨ ∃ g ∈ f :: fs, RootCost c D d n g x) →
        ∃ t, Allowed c.P c.mls d n D t ∧ x = t.cost c.P D := by
      intro x hx
      rcases hx with hx | ⟨g, _, l, r, ha, e⟩
      · obtain ⟨g, l, r, ha, e⟩ := hdone' x hx
        exact ⟨_, ha, e⟩
      · exact ⟨_, ha, e⟩
    have skip : (∀ x, ¬ RootCost c D d n f x) →
        FeatPost c T D d n UB0 v s (fun x => done x ∨ ∃ g ∈ f :: fs, RootCost c D d n g x)
          (featLoop c rec D b d n blb fs v s.next) := by
      intro hno
      obtain ⟨a1, a2, a3, a4, a5⟩ := ih hfs' v s.next done hs.next hv (fun h => hblb (h.mono tn)) (fun h => hdone (h.mono tn)) hdone' hinf
      refine ⟨by omega, a2, a3, a4, fun hH x hx => a5 hH x ?_⟩
      rcases hx with hx | ⟨g, hg, hx⟩
      · exact .inl hx
      · rcases List.mem_cons.1 hg with rfl | hg
        · exact absurd hx (hno x)
        · exact .inr ⟨g, hg, hx⟩
    unfold featLoop
    split
    · rename_i hok
      exact ⟨tn, hs.next, hv, LStep.refl .., fun h => absurd h (not_AllOK_next hok)⟩
    · dsimp only
      split
      · rename_i hc
        refine ⟨tn, hs.next, hv, LStep.refl .., fun hH x hx => ?_⟩
        obtain ⟨t, ht, rfl⟩ := isTree x hx
        have h1 := hblb (hH.mono tn) t ht
        refine ⟨fun he => by dsimp only; omega, fun he => ?_⟩
        have h2 := G.small D hv1 t ht.2.2
        have h3 : v.sols.sol = c.worst := by rw [(hv.emp he).1]; rfl
        omega
      · split
        · rename_i hc
          refine ⟨tn, hs.next, hv, LStep.refl .., fun hH x hx => ?_⟩
          obtain ⟨t, ht, rfl⟩ := isTree x hx
          have h1 := hblb (hH.mono tn) t ht
          refine ⟨fun he => ?_, fun he => ?_⟩
          · have := (hv.ub he hc.2.1).1
            dsimp only; omega
          · have h2 := (hv.emp he).2
            have h3 := hc.2.2
            rw [h2] at h3
            refine ⟨hc.2.1, by omega, fun _ => ?_⟩
            rcases hinf he with h4 | h4
            · exact .inl h4
            · exact absurd ⟨hc.1, hc.2.1, h3⟩ h4
        · rename_i hc
          split
          · rename_i hskip
            refine skip fun x ⟨l, r, ha, _⟩ => ?_
            have hl := ha.2.2
            have l0 := hl.2.2.1.length
            have l1 := hl.2.2.2.length
            have hm := G.mls
            have bad : ¬ (without f D = [] ∨ having f D = []) := by
              rintro (h | h)
              · rw [h] at l0; simp at l0; omega
              · rw [h] at l1; simp at l1; omega
            simp only [Bool.or_eq_true, Bool.not_eq_true'] at hskip
            rcases hskip with (h | h) | h
            · apply bad
              have := sel_pathOK b T f h
              rwa [← hD] at this
            · rw [hl.2.1] at h; simp at h
            · exact bad (constant_side hv1 (G.redundant f h))
          · rename_i hnskip
            simp only [Bool.or_eq_true, Bool.not_eq_true', not_or, Bool.not_eq_true, Bool.not_eq_false] at hnskip
            split
            · rename_i hsp
              obtain ⟨hs1, hs2⟩ := G.sparse hsp.1
              refine ⟨tn, hs.next, hv, LStep.refl .., fun hH x hx => ?_⟩
              have hx' : c.P.bc ≤ x := by
                have : ∃ g, RootCost c D d n g x := by
                  rcases hx with hx | ⟨g, _, hx⟩
                  · exact hdone' x hx
                  · exact ⟨g, hx⟩
                obtain ⟨g, l, r, ha, rfl⟩ := this
                have h1 := G.cost_nonneg ((without_sublist g D).trans hv1) l
                have h2 := G.cost_nonneg ((having_sublist g D).trans hv1) r
                simp only [Tree.cost]; omega
              have hlt := hsp.2.2
              refine ⟨fun he => ?_, fun he => ⟨hs2, ?_, fun hu => by rw [hs1] at hu; simp at hu⟩⟩
              · have := (hv.ub he hs2).1
                dsimp only; omega
              · rw [(hv.emp he).2] at hlt; omega
            split
            · rename_i hlen
              refine skip fun x ⟨l, r, ha, _⟩ => ?_
              have l0 := ha.2.2.2.2.1.length
              have l1 := ha.2.2.2.2.2.length
              omega
            · rename_i hlen
              have h1 := feature_spec G hrec hD hd hn hp hb (hfs f (List.mem_cons_self ..)) hnskip.1.2 (by omega) (by omega)
                v s.next hs.next hv
              generalize (if (without f D).length < (having f D).length then
                  sizeLoop c rec f ⟨having f D, b.child f true⟩ ⟨without f D, b.child f false⟩ true d n (sizes d n) v s.next
                else sizeLoop c rec f ⟨without f D, b.child f false⟩ ⟨having f D, b.child f true⟩ false d n (sizes d n) v s.next)
                = r at h1
              obtain ⟨t1, s1, l1, st1, c1⟩ := h1
              have h2 := ih hfs' r.1 r.2 (fun x => done x ∨ RootCost c D d n f x) s1 l1
                (fun h => hblb (h.mono (by omega))) ?_ ?_ ?_
              · obtain ⟨a1, a2, a3, a4, a5⟩ := h2
                refine ⟨by omega, a2, a3, st1.trans a4 fun h => h.mono a1, fun hH x hx => a5 hH x ?_⟩
                rcases hx with hx | ⟨g, hg, hx⟩
                · exact .inl (.inl hx)
                · rcases List.mem_cons.1 hg with rfl | hg
                  · exact .inl (.inr hx)
                  · exact .inr ⟨g, hg, hx⟩
              · intro hH x hx
                rcases hx with hx | hx
                · exact (hdone (hH.mono (by omega)) x hx).step st1 l1
                · exact c1 hH x hx
              · intro x hx
                rcases hx with hx | hx
                · exact hdone' x hx
                · exact ⟨f, hx⟩
              · intro he
                right
                have hve : v.sols.isEmpty = true := by
                  cases hve : v.sols.isEmpty with
                  | true => rfl
                  | false => rw [(st1.ne hve).1] at he; simp at he
                rw [← (hv.emp hve).2]; exact hc

end
end Streed
