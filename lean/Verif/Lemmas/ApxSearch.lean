import Verif.Lemmas.ApxSolver

/-! The feature loop of the search with tolerant comparisons keeps its invariants. -/

namespace Streed.Apx

/-- Local variables are consistent; `UB0` is the upper bound of the call. -/
structure LocOK (c : Cfg) (D : Data) (d n : Nat) (UB0 : Node) (v : Loc) : Prop where
  real : v.sols.isEmpty = false → Real c.P c.mls d D v.sols ∧ v.sols.numNodes ≤ n
  ub : v.sols.isEmpty = false → c.useUB = true →
    v.UB.sol ≤ v.sols.sol ∧ 10000 * v.sols.sol ≤ 10001 * v.UB.sol ∧ v.UB.sol ≤ UB0.sol
  emp : v.sols.isEmpty = true → v.sols = Node.empty c.worst ∧ v.UB = UB0

/-- A tree whose cost, times the factor of the call, is `z` needs no further attention. -/
def Covers (c : Cfg) (UB0 : Node) (v : Loc) (z : ℚ) : Prop :=
  (v.sols.isEmpty = false → (v.sols.sol : ℚ) ≤ tol * z) ∧
  (v.sols.isEmpty = true → c.useUB = true ∧ (UB0.sol : ℚ) < z ∧ (c.useLB = true → (v.inf.sol : ℚ) ≤ z))

/-- How the local variables may change; `g` is the factor of the call. -/
structure LStep (c : Cfg) (D : Data) (g : ℚ) (H : Prop) (v v' : Loc) : Prop where
  ne : v.sols.isEmpty = false → v'.sols.isEmpty = false ∧ v'.sols.sol ≤ v.sols.sol
  inf : v'.inf.sol ≤ v.inf.sol
  leaf : H → c.useLB = true → v'.inf = v.inf ∨ ∀ k, k < c.P.nL → (v'.inf.sol : ℚ) ≤ g * (leafCost c.P D k : ℚ)

theorem LStep.refl (c : Cfg) (D : Data) (g : ℚ) (H : Prop) (v : Loc) : LStep c D g H v v :=
  ⟨fun h => ⟨h, Int.le_refl _⟩, Int.le_refl _, fun _ _ => .inl rfl⟩

theorem LStep.trans {c : Cfg} {D : Data} {g : ℚ} {H H' : Prop} {u v w : Loc} (h1 : LStep c D g H u v) (h2 : LStep c D g H' v w)
    (hh : H' → H) : LStep c D g H' u w := by
  refine ⟨fun h => ⟨(h2.ne (h1.ne h).1).1, Int.le_trans (h2.ne (h1.ne h).1).2 (h1.ne h).2⟩,
    Int.le_trans h2.inf h1.inf, fun h hu => ?_⟩
  rcases h2.leaf h hu with e | e
  · rw [e]; exact h1.leaf (hh h) hu
  · exact .inr e

theorem le_tol {a b : Int} (h : 10000 * a ≤ 10001 * b) : (a : ℚ) ≤ tol * b := by
  have : (10000 : ℚ) * a ≤ 10001 * b := by exact_mod_cast h
  unfold tol; linarith

theorem same_le {a b : Int} (h : Tol.same a b) : (b : ℚ) ≤ tol * a := le_tol (by unfold Tol.same at h; omega)

theorem sdom_lt {a b : Int} {z : ℚ} (h : Tol.sdom a b) (hb : (b : ℚ) ≤ z) (hz : 0 ≤ z) : (a : ℚ) < z := by
  have h : (10001 : ℚ) * a < 10000 * b := by exact_mod_cast h
  by_contra hcon
  linarith

/-- A tree above the current upper bound needs no attention. -/
theorem covers_of_ub {c : Cfg} {D : Data} {d n : Nat} {UB0 : Node} {v : Loc} (hv : LocOK c D d n UB0 v) (hu : c.useUB = true)
    {z : ℚ} {i : Node} (h : (v.UB.sol : ℚ) < z) (hi : v.sols.isEmpty = true → c.useLB = true → (i.sol : ℚ) ≤ z) :
    Covers c UB0 { v with inf := i } z := by
  refine ⟨fun he => ?_, fun he => ⟨hu, ?_, hi he⟩⟩
  · have h1 := le_tol (hv.ub he hu).2.1
    have := mul_lt_mul_of_pos_left h tol_pos
    dsimp only; linarith
  · rw [← (hv.emp he).2]; exact h

theorem Covers.step {c : Cfg} {D : Data} {d n : Nat} {UB0 : Node} {g : ℚ} {H : Prop} {v v' : Loc} {z : ℚ}
    (h : Covers c UB0 v z) (h1 : LStep c D g H v v') (h2 : LocOK c D d n UB0 v') : Covers c UB0 v' z := by
  cases he : v.sols.isEmpty with
  | false =>
    have := h1.ne he
    refine ⟨fun _ => le_trans (by exact_mod_cast this.2) (h.1 he), fun h' => ?_⟩
    rw [this.1] at h'; simp at h'
  | true =>
    obtain ⟨a, b, e⟩ := h.2 he
    refine ⟨fun h' => ?_, fun _ => ⟨a, b, fun hu => le_trans (by exact_mod_cast h1.inf) (e hu)⟩⟩
    have h3 := h2.ub h' a
    have h4 := le_tol h3.2.1
    have h5 : (v'.UB.sol : ℚ) ≤ UB0.sol := by exact_mod_cast h3.2.2
    have := mul_lt_mul_of_pos_left (lt_of_le_of_lt h5 b) tol_pos
    linarith

/-- What is known of the result `r` of a call for path `b`, bound `UB`, budget `(d, n)` and state `s`. -/
structure Post (c : Cfg) (T : Data) (K : Rank c T) (b : Branch) (UB : Node) (d n : Nat) (s : St) (r : Node × St) : Prop where
  tick : s.tick ≤ r.2.tick
  st : (c.useLB = true → c.useTerm = true → n = 1 → UB.isEmpty = true) → StOK c T K r.2
  real : r.1.isEmpty = false → Real c.P c.mls d (sel b T) r.1 ∧ r.1.numNodes ≤ n
  emp : r.1.isEmpty = true → r.1 = Node.empty c.worst
  low : AllOK c r.2.tick → r.1.isEmpty = false → ∀ t, Allowed c.P c.mls d n (sel b T) t →
    (r.1.sol : ℚ) ≤ tol ^ (K.w b d n + 1) * (t.cost c.P (sel b T) : ℚ) ∨ (c.sparse = true ∧ UB.sol < t.cost c.P (sel b T))
  inf : AllOK c r.2.tick → r.1.isEmpty = true → ∀ t, Allowed c.P c.mls d n (sel b T) t →
    c.useUB = true ∧ (UB.sol : ℚ) < tol ^ K.w b d n * (t.cost c.P (sel b T) : ℚ)

/-- The recursive call meets its specification up to depth `m`. -/
def RecOK (c : Cfg) (T : Data) (K : Rank c T) (rec : Rec) (m : Nat) : Prop :=
  ∀ b UB d n s, d ≤ m → c.mls ≤ (sel b T).length → BudOK c d n → n + 1 ≤ 2 ^ d → K.ok b d n → StOK c T K s →
    Post c T K b UB d n s (rec (sel b T) b UB d n s)

/-- The side of a split that path `b` leads to. -/
abbrev side (T : Data) (b : Branch) : Side := ⟨sel b T, b⟩

/-- A split whose sides belong to the paths `bl` and `br`, in a call with factor `tol ^ k`. -/
structure Sides (c : Cfg) (T : Data) (K : Rank c T) (D : Data) (d n : Nat) (k : ℤ) (f : Nat) (bl br : Branch) (sw : Bool) :
    Prop where
  split : Split c T D d f (side T bl) (side T br) sw
  left : ∀ d' n', d' + 1 ≤ d → n' + 1 ≤ n → K.w bl d' n' + 1 ≤ k ∧ K.ok bl d' n'
  right : ∀ d' n', d' + 1 ≤ d → n' + 1 ≤ n → K.w br d' n' + 1 ≤ k ∧ K.ok br d' n'
  big : ∀ tL tR : Tree, tL.Legal c.P c.mls (sel bl T) → tR.Legal c.P c.mls (sel br T) →
    tol * (tol ^ k * ((c.P.bc + (tL.cost c.P (sel bl T) + tR.cost c.P (sel br T)) : Int) : ℚ)) < (c.worst : ℚ)
  bigN : ∀ v : Node, Real c.P c.mls d D v → tol * (v.sol : ℚ) < (c.worst : ℚ)
  nonneg : 0 ≤ k

/-- What is known after one distribution of the nodes over the two sides. -/
def StepPost (c : Cfg) (T : Data) (K : Rank c T) (D : Data) (d n ls : Nat) (k : ℤ) (bl br : Branch) (UB0 : Node) (v : Loc) (s : St)
    (r : Bool × Loc × St) : Prop :=
  s.tick ≤ r.2.2.tick ∧ StOK c T K r.2.2 ∧ LocOK c D d n UB0 r.2.1 ∧
    LStep c D (tol ^ k) (AllOK c r.2.2.tick) v r.2.1 ∧ (r.1 = true → ¬ AllOK c r.2.2.tick) ∧
    (AllOK c r.2.2.tick → ∀ tL tR, Allowed c.P c.mls (min (d - 1) ls) ls (sel bl T) tL →
      Allowed c.P c.mls (min (d - 1) (n - ls - 1)) (n - ls - 1) (sel br T) tR →
      Covers c UB0 r.2.1 (tol ^ k * ((c.P.bc + (tL.cost c.P (sel bl T) + tR.cost c.P (sel br T)) : Int) : ℚ)))

section
variable {c : Cfg} {T : Data} {K : Rank c T} (S : Setting c T K)
include S

/-- Subtracting what the other side costs at least from the upper bound loses nothing. -/
theorem subtract_lemma {D : Data} {d n : Nat} {UB0 : Node} {v : Loc} (hv : LocOK c D d n UB0 v) {other : Node}
    {x y : ℚ} (hu : c.useUB = true) (hy : 0 ≤ y) (ho : (other.sol : ℚ) ≤ y) (hx : (c.P.bc : ℚ) + (x + y) < c.worst)
    (hc : ((Tol.subtractUB c v.UB other v.sols).sol : ℚ) < x) : (v.UB.sol : ℚ) < c.P.bc + (x + y) := by
  have hbc : (0 : ℚ) ≤ c.P.bc := by exact_mod_cast S.good.bc
  have hmd := S.md
  have key : (v.UB.sol : ℚ) < x ∨ (min v.UB.sol v.sols.sol : Int) - other.sol - c.P.bc ≤ (Tol.subtractUB c v.UB other v.sols).sol := by
    unfold Tol.subtractUB subtract at hc ⊢
    rw [hu] at hc ⊢
    cases hs : c.subUB <;> rw [hs] at hc
    · left; simpa [Node.value] using hc
    · right
      simp only [Bool.and_self, if_true, Node.value]
      split <;> omega
  rcases key with h | h
  · linarith
  · have h : ((min v.UB.sol v.sols.sol : Int) : ℚ) - other.sol - c.P.bc ≤ ((Tol.subtractUB c v.UB other v.sols).sol : ℚ) := by
      exact_mod_cast h
    have hm : ((min v.UB.sol v.sols.sol : Int) : ℚ) < c.P.bc + (x + y) := by linarith
    rcases Int.le_total v.UB.sol v.sols.sol with hle | hle
    · rw [Int.min_eq_left hle] at hm; exact hm
    · rw [Int.min_eq_right hle] at hm
      cases he : v.sols.isEmpty with
      | false =>
        have := (hv.ub he hu).1
        have e : v.UB.sol = v.sols.sol := by omega
        rw [e]; exact hm
      | true =>
        have e3 : v.sols.sol = c.worst := by rw [(hv.emp he).1]; rfl
        rw [e3] at hm; linarith

set_option maxHeartbeats 2000000 in
/-- One distribution of the nodes over the two sides. -/
theorem sizeStep_spec {rec : Rec} {D : Data} {d n f ls : Nat} {k : ℤ} {bl br : Branch} {sw : Bool} {UB0 : Node} {v : Loc} {s : St}
    (hd : 1 ≤ d) (hrec : RecOK c T K rec (d - 1)) (hsd : Sides c T K D d n k f bl br sw) (hls : ls + 1 ≤ n)
    (hb1 : BudOK c (min (d - 1) ls) ls) (hb2 : BudOK c (min (d - 1) (n - ls - 1)) (n - ls - 1))
    (hp1 : ls + 1 ≤ 2 ^ (min (d - 1) ls)) (hp2 : n - ls - 1 + 1 ≤ 2 ^ (min (d - 1) (n - ls - 1)))
    (hs : StOK c T K s) (hv : LocOK c D d n UB0 v) :
    StepPost c T K D d n ls k bl br UB0 v s (Tol.sizeStep c rec f (side T bl) (side T br) sw d n ls v s) := by
  have hsp := hsd.split
  have G := S.good
  obtain ⟨kL, okL⟩ := hsd.left (min (d - 1) ls) ls (by omega) hls
  obtain ⟨kR, okR⟩ := hsd.right (min (d - 1) (n - ls - 1)) (n - ls - 1) (by omega) (by omega)
  have hk := hsd.nonneg
  have pL0 := S.posSel bl
  have pR0 := S.posSel br
  have gpos := pow_pos k
  have zpos : ∀ tL tR : Tree, 0 ≤ tol ^ k * ((c.P.bc + (tL.cost c.P (sel bl T) + tR.cost c.P (sel br T)) : Int) : ℚ) := by
    intro tL tR
    refine mul_nonneg (le_of_lt gpos) ?_
    have := pL0 tL; have := pR0 tR; have := G.bc
    exact_mod_cast (by omega)
  -- what one side costs with the factor, together with the other
  have zsum : ∀ tL tR : Tree, (c.P.bc : ℚ) + (tol ^ k * (tL.cost c.P (sel bl T) : ℚ) + tol ^ k * (tR.cost c.P (sel br T) : ℚ)) ≤
      tol ^ k * ((c.P.bc + (tL.cost c.P (sel bl T) + tR.cost c.P (sel br T)) : Int) : ℚ) := by
    intro tL tR
    have hbc : (0 : ℚ) ≤ c.P.bc := by exact_mod_cast G.bc
    have := pow_one_le hk
    push_cast
    nlinarith
  have zbig : ∀ tL tR : Tree, tL.Legal c.P c.mls (sel bl T) → tR.Legal c.P c.mls (sel br T) →
      tol ^ k * ((c.P.bc + (tL.cost c.P (sel bl T) + tR.cost c.P (sel br T)) : Int) : ℚ) < (c.worst : ℚ) := by
    intro tL tR h1 h2
    have h3 := hsd.big tL tR h1 h2
    have h4 := zpos tL tR
    have := tol_one
    nlinarith
  -- bounds on the combined cost carry over to a single leaf
  have leafOf : ∀ {x : Int}, (∀ tL tR, Allowed c.P c.mls (min (d - 1) ls) ls (sel bl T) tL →
      Allowed c.P c.mls (min (d - 1) (n - ls - 1)) (n - ls - 1) (sel br T) tR →
      (x : ℚ) ≤ tol ^ k * ((c.P.bc + (tL.cost c.P (sel bl T) + tR.cost c.P (sel br T)) : Int) : ℚ)) → c.useLB = true →
      ∀ j, j < c.P.nL → (x : ℚ) ≤ tol ^ k * (leafCost c.P D j : ℚ) := by
    intro x h hu j hj
    have h1 := h (.leaf j) (.leaf j) ⟨Nat.zero_le _, Nat.zero_le _, hj, hsp.mL⟩ ⟨Nat.zero_le _, Nat.zero_le _, hj, hsp.mR⟩
    rw [G.bcLB hu, Int.zero_add] at h1
    rw [hsp.leaf j]
    exact h1
  -- replacing the infeasible bound
  have infStep : ∀ {x : Node} {H : Prop}, (H → c.useLB = true → ∀ tL tR, Allowed c.P c.mls (min (d - 1) ls) ls (sel bl T) tL →
      Allowed c.P c.mls (min (d - 1) (n - ls - 1)) (n - ls - 1) (sel br T) tR →
      (x.sol : ℚ) ≤ tol ^ k * ((c.P.bc + (tL.cost c.P (sel bl T) + tR.cost c.P (sel br T)) : Int) : ℚ)) →
      LStep c D (tol ^ k) H v { v with inf := Node.addMin v.inf x } := by
    intro x H h
    refine ⟨fun h => ⟨h, Int.le_refl _⟩, addMin_le_left _ _, fun hH hu => ?_⟩
    have h1 := leafOf (h hH hu) hu
    rcases addMin_cases v.inf x with e | e
    · exact .inl e
    · right; intro k hk; simp only; rw [e]; exact h1 k hk
  have locInf : ∀ x : Node, LocOK c D d n UB0 { v with inf := x } := fun x => ⟨hv.real, hv.ub, hv.emp⟩
  have minR : ∀ {x : Node} {z : ℚ}, (x.sol : ℚ) ≤ z → ((Node.addMin v.inf x).sol : ℚ) ≤ z := fun h =>
    le_trans (by exact_mod_cast addMin_le_right _ _) h
  have hlb : AllOK c s.tick → _ := fun hH => computeLRLB_spec S hs (f := f) hk hb1 hb2 okL okR kL kR hH
  simp only at hlb
  unfold Tol.sizeStep
  simp only
  split
  · rename_i hc
    refine ⟨Nat.le_refl _, hs, locInf _, infStep fun hH _ => (hlb hH).1, by simp, ?_⟩
    intro hH tL tR aL aR
    have h1 := (hlb hH).1 tL tR aL aR
    exact covers_of_ub hv hc.1 (sdom_lt hc.2 h1 (zpos tL tR)) fun _ _ => minR h1
  · split
    · rename_i heq
      refine ⟨Nat.le_refl _, hs, hv, LStep.refl .., by simp, ?_⟩
      intro hH tL tR aL aR
      have h1 := (hlb hH).1 tL tR aL aR
      have h2 := same_le heq
      have h4 := mul_le_mul_of_nonneg_left h1 (le_of_lt tol_pos)
      refine ⟨fun _ => le_trans h2 h4, fun he => ?_⟩
      have h3 : v.sols.sol = c.worst := by rw [(hv.emp he).1]; rfl
      have h5 := hsd.big tL tR aL.2.2 aR.2.2
      rw [h3] at h2
      exact absurd (le_trans h2 h4) (not_le.2 h5)
    · generalize hlbs : Tol.computeLRLB c s f (sel bl T) bl (min (d - 1) ls) ls (sel br T) br (min (d - 1) (n - ls - 1)) (n - ls - 1) = lbs
        at hlb ⊢
      have hub : ∀ o, (Tol.subtractUB c v.UB o v.sols).isEmpty = true := by
        intro o; unfold Tol.subtractUB; split <;> rfl
      have pL := hrec bl (Tol.subtractUB c v.UB lbs.2.2 v.sols) (min (d - 1) ls) ls s (Nat.min_le_left _ _) hsp.mL
        hb1 hp1 okL hs
      generalize rec (sel bl T) bl (Tol.subtractUB c v.UB lbs.2.2 v.sols) (min (d - 1) ls) ls s = lr at pL ⊢
      have sL := (pL.st fun _ _ _ => hub _)
      split
      · rename_i hok
        have hno := not_AllOK_next hok
        refine ⟨?_, sL.next, hv, LStep.refl .., fun _ => hno, fun h => absurd h hno⟩
        have := pL.tick; simp only [St.next]; omega
      · have t1 : s.tick ≤ lr.2.next.tick := by have := pL.tick; simp only [St.next]; omega
        have hl1 : AllOK c lr.2.next.tick → AllOK c lr.2.tick := fun h => h.mono (Nat.le_succ _)
        have sL' := sL.next
        -- a left side above the bound of its call
        have subL : AllOK c s.tick → c.useUB = true → ∀ tL tR, Allowed c.P c.mls (min (d - 1) ls) ls (sel bl T) tL →
            Allowed c.P c.mls (min (d - 1) (n - ls - 1)) (n - ls - 1) (sel br T) tR →
            ((Tol.subtractUB c v.UB lbs.2.2 v.sols).sol : ℚ) < tol ^ k * (tL.cost c.P (sel bl T) : ℚ) →
            (v.UB.sol : ℚ) < tol ^ k * ((c.P.bc + (tL.cost c.P (sel bl T) + tR.cost c.P (sel br T)) : Int) : ℚ) := by
          intro hH hu tL tR aL aR h
          have h1 := zsum tL tR
          exact lt_of_lt_of_le (subtract_lemma S hv hu (scale_nonneg pR0 k tR) ((hlb hH).2 tR aR)
            (lt_of_le_of_lt h1 (zbig tL tR aL.2.2 aR.2.2)) h) h1
        split
        · rename_i hemp
          have hlb' := fun hH => computeLRLB_spec S sL' (f := f) hk hb1 hb2 okL okR kL kR hH
          simp only at hlb'
          refine ⟨t1, sL', locInf _, infStep fun hH _ => (hlb' hH).1, by simp, ?_⟩
          intro hH tL tR aL aR
          have h1 := (hlb' hH).1 tL tR aL aR
          have h2 := pL.inf (hl1 hH) hemp tL aL
          have h3 := subL (hH.mono t1) h2.1 tL tR aL aR (lt_of_lt_of_le h2.2 (scale_mono pL0 (by omega) tL))
          exact covers_of_ub hv h2.1 h3 fun _ _ => minR h1
        · rename_i hne
          have hne : lr.1.isEmpty = false := by simpa using hne
          have pR := hrec br (Tol.subtractUB c v.UB lr.1 v.sols) (min (d - 1) (n - ls - 1)) (n - ls - 1) lr.2.next
            (Nat.min_le_left _ _) hsp.mR hb2 hp2 okR sL'
          generalize rec (sel br T) br (Tol.subtractUB c v.UB lr.1 v.sols) (min (d - 1) (n - ls - 1)) (n - ls - 1) lr.2.next = rr at pR ⊢
          have sR := (pR.st fun _ _ _ => hub _)
          have t2 : lr.2.next.tick ≤ rr.2.next.tick := by have := pR.tick; simp only [St.next] at this ⊢; omega
          have hl2 : AllOK c rr.2.next.tick → AllOK c rr.2.tick := fun h => h.mono (Nat.le_succ _)
          -- a left side that costs more than the bound of its call
          have farL : AllOK c rr.2.next.tick → ∀ tL tR, Allowed c.P c.mls (min (d - 1) ls) ls (sel bl T) tL →
              Allowed c.P c.mls (min (d - 1) (n - ls - 1)) (n - ls - 1) (sel br T) tR →
              (lr.1.sol : ℚ) ≤ tol ^ k * (tL.cost c.P (sel bl T) : ℚ) ∨ (c.sparse = true ∧
                (v.UB.sol : ℚ) < tol ^ k * ((c.P.bc + (tL.cost c.P (sel bl T) + tR.cost c.P (sel br T)) : Int) : ℚ)) := by
            intro hH tL tR aL aR
            rcases pL.low (hl1 (hH.mono t2)) hne tL aL with h | ⟨h, h'⟩
            · exact .inl (le_trans h (scale_mono pL0 kL tL))
            · exact .inr ⟨h, subL ((hH.mono t2).mono t1) (G.sparse h).2 tL tR aL aR
                (lt_of_lt_of_le (by exact_mod_cast h') (scale_one pL0 hk tL))⟩
          have subR : c.useUB = true → ∀ tL tR : Tree, tL.Legal c.P c.mls (sel bl T) → tR.Legal c.P c.mls (sel br T) →
              (lr.1.sol : ℚ) ≤ tol ^ k * (tL.cost c.P (sel bl T) : ℚ) →
              ((Tol.subtractUB c v.UB lr.1 v.sols).sol : ℚ) < tol ^ k * (tR.cost c.P (sel br T) : ℚ) →
              (v.UB.sol : ℚ) < tol ^ k * ((c.P.bc + (tL.cost c.P (sel bl T) + tR.cost c.P (sel br T)) : Int) : ℚ) := by
            intro hu tL tR lL lR h4 h
            have h1 := zsum tL tR
            rw [add_comm (tol ^ k * (tL.cost c.P (sel bl T) : ℚ))] at h1
            exact lt_of_lt_of_le (subtract_lemma S hv hu (scale_nonneg pL0 k tL) h4
              (lt_of_le_of_lt h1 (zbig tL tR lL lR)) h) h1
          split
          · rename_i hok
            have hno := not_AllOK_next hok
            exact ⟨by dsimp only [St.next] at *; omega, sR.next, hv, LStep.refl .., fun _ => hno, fun h => absurd h hno⟩
          · have sR' := sR.next
            split
            · rename_i hemp
              have hlb' := fun hH => computeLRLB_spec S sR' (f := f) hk hb1 hb2 okL okR kL kR hH
              simp only at hlb'
              refine ⟨by dsimp only [St.next] at *; omega, sR', locInf _, infStep fun hH _ => (hlb' hH).1, by simp, ?_⟩
              intro hH tL tR aL aR
              have h1 := (hlb' hH).1 tL tR aL aR
              have h2 := pR.inf (hl2 hH) hemp tR aR
              have h3 : (v.UB.sol : ℚ) < tol ^ k * ((c.P.bc + (tL.cost c.P (sel bl T) + tR.cost c.P (sel br T)) : Int) : ℚ) := by
                rcases farL hH tL tR aL aR with h4 | h4
                · exact subR h2.1 tL tR aL.2.2 aR.2.2 h4 (lt_of_lt_of_le h2.2 (scale_mono pR0 (by omega) tR))
                · exact h4.2
              exact covers_of_ub hv h2.1 h3 fun _ _ => minR h1
            · rename_i hne'
              have hne' : rr.1.isEmpty = false := by simpa using hne'
              obtain ⟨rl, nl⟩ := pL.real hne
              obtain ⟨rrr, nr⟩ := pR.real hne'
              have hnn := hsp.comb lr.1 rr.1 (rl.mono (Nat.min_le_left _ _)) (rrr.mono (Nat.min_le_left _ _))
              have hsol : (if sw = true then Node.combine f rr.1 lr.1 c.P.bc else Node.combine f lr.1 rr.1 c.P.bc).sol =
                  c.P.bc + (lr.1.sol + rr.1.sol) := by
                cases sw <;> simp only [Node.combine, Node.branch, if_true, Bool.false_eq_true, if_false]
                all_goals omega
              have hnum : (if sw = true then Node.combine f rr.1 lr.1 c.P.bc else Node.combine f lr.1 rr.1 c.P.bc).numNodes ≤ n := by
                cases sw <;> simp [combine_numNodes] <;> omega
              generalize hN : (if sw = true then Node.combine f rr.1 lr.1 c.P.bc else Node.combine f lr.1 rr.1 c.P.bc) = nn
                at hnn hsol hnum ⊢
              have hle : AllOK c rr.2.next.tick → ∀ tL tR, Allowed c.P c.mls (min (d - 1) ls) ls (sel bl T) tL →
                  Allowed c.P c.mls (min (d - 1) (n - ls - 1)) (n - ls - 1) (sel br T) tR →
                  (nn.sol : ℚ) ≤ tol ^ k * ((c.P.bc + (tL.cost c.P (sel bl T) + tR.cost c.P (sel br T)) : Int) : ℚ) ∨
                  (c.sparse = true ∧
                    (v.UB.sol : ℚ) < tol ^ k * ((c.P.bc + (tL.cost c.P (sel bl T) + tR.cost c.P (sel br T)) : Int) : ℚ)) := by
                intro hH tL tR aL aR
                rcases farL hH tL tR aL aR with h1 | h1
                · rcases pR.low (hl2 hH) hne' tR aR with h2 | ⟨h2, h2'⟩
                  · left
                    have h3 := le_trans h2 (scale_mono pR0 kR tR)
                    refine le_trans ?_ (zsum tL tR)
                    rw [hsol]; push_cast; linarith
                  · right
                    exact ⟨h2, subR (G.sparse h2).2 tL tR aL.2.2 aR.2.2 h1
                      (lt_of_lt_of_le (by exact_mod_cast h2') (scale_one pR0 hk tR))⟩
                · exact .inr h1
              have hnpos := real_nonneg S hsp.view hnn
              split
              · rename_i hc
                refine ⟨by dsimp only [St.next] at *; omega, sR', locInf _, infStep fun hH hu tL tR aL aR => ?_, by simp, ?_⟩
                · rcases hle hH tL tR aL aR with h1 | h1
                  · exact h1
                  · rw [(G.sparse h1.1).1] at hu; simp at hu
                intro hH tL tR aL aR
                rcases hle hH tL tR aL aR with h1 | h1
                · exact covers_of_ub hv hc.1 (sdom_lt hc.2 h1 (zpos tL tR)) fun _ _ => minR h1
                · exact covers_of_ub hv hc.1 h1.2 fun _ hu => by rw [(G.sparse h1.1).1] at hu; simp at hu
              · rename_i hc
                have hbn := hsd.bigN nn hnn
                have hne2 := hnn.nonempty
                have hworst : ¬ Tol.sdom nn.sol v.sols.sol → v.sols.isEmpty = false := by
                  intro hge
                  cases he : v.sols.isEmpty with
                  | false => rfl
                  | true =>
                    have h3 : v.sols.sol = c.worst := by rw [(hv.emp he).1]; rfl
                    have := le_tol (a := v.sols.sol) (b := nn.sol) (by unfold Tol.sdom at hge; omega)
                    rw [h3] at this
                    exact absurd this (not_le.2 hbn)
                have hfin : (if Tol.sdom nn.sol v.sols.sol then nn else v.sols).isEmpty = false := by
                  split
                  · exact hne2
                  · rename_i hge; exact hworst hge
                have hle2 : c.useUB = true → 10000 * nn.sol ≤ 10001 * v.UB.sol := by
                  intro hu
                  by_contra hcon
                  exact hc ⟨hu, by unfold Tol.sdom; omega⟩
                have hUB : c.useUB = true → (updateUB c v.UB nn).sol = min v.UB.sol nn.sol := by
                  intro hu
                  unfold updateUB Node.addMin; rw [if_pos hu]; split <;> omega
                have hloc : LocOK c D d n UB0 ⟨if Tol.sdom nn.sol v.sols.sol then nn else v.sols, updateUB c v.UB nn, v.inf⟩ := by
                  refine ⟨fun _ => ?_, fun _ hu => ?_, fun he => ?_⟩
                  · simp only
                    split
                    · exact ⟨hnn, hnum⟩
                    · rename_i hge; exact hv.real (hworst hge)
                  · have h4 := hle2 hu
                    simp only
                    rw [hUB hu]
                    split
                    · rename_i hlt
                      unfold Tol.sdom at hlt
                      cases he : v.sols.isEmpty with
                      | false => have := hv.ub he hu; omega
                      | true =>
                        have := (hv.emp he).2
                        rw [this] at h4 ⊢; omega
                    · rename_i hge
                      have := hv.ub (hworst hge) hu
                      unfold Tol.sdom at hge; omega
                  · simp only at he; rw [hfin] at he; simp at he
                have hsolle : (v.sols.isEmpty = false →
                    (if Tol.sdom nn.sol v.sols.sol then nn else v.sols).sol ≤ v.sols.sol) ∧
                    10000 * (if Tol.sdom nn.sol v.sols.sol then nn else v.sols).sol ≤ 10001 * nn.sol := by
                  unfold Tol.sdom
                  split
                  · exact ⟨fun _ => by omega, by omega⟩
                  · exact ⟨fun _ => by omega, by omega⟩
                refine ⟨by dsimp only [St.next] at *; omega, sR', hloc,
                  ⟨fun he => ⟨hfin, hsolle.1 he⟩, Int.le_refl _, fun _ _ => .inl rfl⟩, by simp, ?_⟩
                intro hH tL tR aL aR
                refine ⟨fun _ => ?_, fun he => ?_⟩
                · rcases hle hH tL tR aL aR with h1 | h1
                  · exact le_trans (le_tol hsolle.2) (mul_le_mul_of_nonneg_left h1 (le_of_lt tol_pos))
                  · have hu := (G.sparse h1.1).2
                    have h2 := hloc.ub hfin hu
                    have h3 := le_tol h2.2.1
                    have h4 : ((updateUB c v.UB nn).sol : ℚ) ≤ v.UB.sol := by
                      rw [hUB hu]; exact_mod_cast Int.min_le_left _ _
                    exact le_trans h3 (mul_le_mul_of_nonneg_left (le_of_lt (lt_of_le_of_lt h4 h1.2)) (le_of_lt tol_pos))
                · simp only at he; rw [hfin] at he; simp at he

/-- What is known after a loop: trees with costs in `Q` need no further attention. -/
def LoopPost (c : Cfg) (T : Data) (K : Rank c T) (D : Data) (d n : Nat) (k : ℤ) (UB0 : Node) (v : Loc) (s : St) (Q : Int → Prop)
    (r : Loc × St) : Prop :=
  s.tick ≤ r.2.tick ∧ StOK c T K r.2 ∧ LocOK c D d n UB0 r.1 ∧ LStep c D (tol ^ k) (AllOK c r.2.tick) v r.1 ∧
    (AllOK c r.2.tick → ∀ x : Int, Q x → Covers c UB0 r.1 (tol ^ k * (x : ℚ)))

theorem sizeLoop_spec {rec : Rec} {D : Data} {d n f : Nat} {k : ℤ} {bl br : Branch} {sw : Bool} {UB0 : Node} (hd : 1 ≤ d)
    (hrec : RecOK c T K rec (d - 1)) (hsp : Sides c T K D d n k f bl br sw) (l : List Nat)
    (hl : ∀ ls ∈ l, ls + 1 ≤ n ∧ BudOK c (min (d - 1) ls) ls ∧ BudOK c (min (d - 1) (n - ls - 1)) (n - ls - 1) ∧
      ls + 1 ≤ 2 ^ (min (d - 1) ls) ∧ n - ls - 1 + 1 ≤ 2 ^ (min (d - 1) (n - ls - 1)))
    (v : Loc) (s : St) (hs : StOK c T K s) (hv : LocOK c D d n UB0 v) :
    LoopPost c T K D d n k UB0 v s (fun x => ∃ ls ∈ l, ∃ tL tR, Allowed c.P c.mls (min (d - 1) ls) ls (sel bl T) tL ∧
      Allowed c.P c.mls (min (d - 1) (n - ls - 1)) (n - ls - 1) (sel br T) tR ∧
      x = c.P.bc + (tL.cost c.P (sel bl T) + tR.cost c.P (sel br T)))
      (Tol.sizeLoop c rec f (side T bl) (side T br) sw d n l v s) := by
  induction l generalizing v s with
  | nil => exact ⟨Nat.le_refl _, hs, hv, LStep.refl .., fun _ x h => by simp at h⟩
  | cons ls l ih =>
    obtain ⟨a1, a2, a3, a4, a5⟩ := hl ls (List.mem_cons_self ..)
    have h1 := sizeStep_spec S hd hrec hsp a1 a2 a3 a4 a5 hs hv
    unfold Tol.sizeLoop
    generalize Tol.sizeStep c rec f (side T bl) (side T br) sw d n ls v s = r at h1 ⊢
    obtain ⟨t1, s1, l1, st1, e1, c1⟩ := h1
    dsimp only
    split
    · rename_i ht
      exact ⟨t1, s1, l1, st1, fun h => absurd h (e1 ht)⟩
    · have h2 := ih (fun x hx => hl x (List.mem_cons_of_mem _ hx)) r.2.1 r.2.2 s1 l1
      generalize Tol.sizeLoop c rec f (side T bl) (side T br) sw d n l r.2.1 r.2.2 = r' at h2 ⊢
      obtain ⟨t2, s2, l2, st2, c2⟩ := h2
      refine ⟨by omega, s2, l2, st1.trans st2 fun h => h.mono t2, fun hH x hx => ?_⟩
      obtain ⟨ls', hm, tL, tR, h3, h4, rfl⟩ := hx
      rcases List.mem_cons.1 hm with rfl | hm
      · exact (c1 (hH.mono t2) tL tR h3 h4).step st2 l2
      · exact c2 hH _ ⟨ls', hm, tL, tR, h3, h4, rfl⟩

/-- Both orders of the sides of a split. -/
theorem feature_spec {rec : Rec} {b : Branch} {d n f : Nat} {UB0 : Node}
    (hrec : RecOK c T K rec (d - 1)) (hd : 1 ≤ d) (hn : 1 ≤ n) (hp : n + 1 ≤ 2 ^ d) (hok : K.ok b d n)
    (hb : BudOK c d n) (hf : f < c.P.nF) (hmay : c.P.may f = true) (hm0 : c.mls ≤ (without f (sel b T)).length)
    (hm1 : c.mls ≤ (having f (sel b T)).length) (v : Loc) (s : St) (hs : StOK c T K s) (hv : LocOK c (sel b T) d n UB0 v) :
    LoopPost c T K (sel b T) d n (K.w b d n) UB0 v s (RootCost c (sel b T) d n f)
      (if (without f (sel b T)).length < (having f (sel b T)).length then
        Tol.sizeLoop c rec f ⟨having f (sel b T), b.child f true⟩ ⟨without f (sel b T), b.child f false⟩ true d n (sizes d n) v s
      else Tol.sizeLoop c rec f ⟨without f (sel b T), b.child f false⟩ ⟨having f (sel b T), b.child f true⟩ false d n (sizes d n) v s) := by
  have G := S.good
  have hv1 : ViewOf T (sel b T) := sel_view b T
  have e0 : without f (sel b T) = sel (b.child f false) T := by rw [sel_child, side_false]
  have e1 : having f (sel b T) = sel (b.child f true) T := by rw [sel_child, side_true]
  have hmls := G.mls
  have n0 : without f (sel b T) ≠ [] := by intro h; rw [h] at hm0; simp at hm0; omega
  have n1 : having f (sel b T) ≠ [] := by intro h; rw [h] at hm1; simp at hm1; omega
  have hch : ∀ x d' n', d' + 1 ≤ d → n' + 1 ≤ n → K.w (b.child f x) d' n' + 1 ≤ K.w b d n ∧ K.ok (b.child f x) d' n' :=
    fun x d' n' h1 h2 => K.child b f x d n d' n' hok hf n0 n1 h1 h2
  have hsm : ∀ tL tR : Tree, tL.Legal c.P c.mls (sel (b.child f false) T) → tR.Legal c.P c.mls (sel (b.child f true) T) →
      c.P.bc + (tL.cost c.P (sel (b.child f false) T) + tR.cost c.P (sel (b.child f true) T)) < c.worst := by
    intro tL tR h0 h1
    rw [← e0] at h0 ⊢
    rw [← e1] at h1 ⊢
    have := G.small _ hv1 (.node f tL tR) ⟨hf, hmay, h0, h1⟩
    simp only [Tree.cost] at this; omega
  have hbig : ∀ tL tR : Tree, tL.Legal c.P c.mls (sel (b.child f false) T) → tR.Legal c.P c.mls (sel (b.child f true) T) →
      tol * (tol ^ K.w b d n * ((c.P.bc + (tL.cost c.P (sel (b.child f false) T) + tR.cost c.P (sel (b.child f true) T)) : Int) : ℚ))
        < (c.worst : ℚ) := by
    intro tL tR h0 h1
    rw [← e0] at h0 ⊢
    rw [← e1] at h1 ⊢
    have h := S.big b d n hok (.node f tL tR) ⟨hf, hmay, h0, h1⟩
    rw [zpow_add₀ (ne_of_gt tol_pos), zpow_one] at h
    simp only [Tree.cost] at h
    calc _ = tol ^ K.w b d n * tol * _ := by ring
      _ < _ := h
  have hbigN : ∀ x : Node, Real c.P c.mls d (sel b T) x → tol * (x.sol : ℚ) < (c.worst : ℚ) := by
    rintro x ⟨t, _, _, h3, h4⟩
    have h := S.big b d n hok t h3
    have hp := S.posSel b t
    rw [← h4]
    have h5 : tol ^ (1 : ℤ) ≤ tol ^ (K.w b d n + 1) := pow_mono (by have := K.nonneg b d n hok; omega)
    rw [zpow_one] at h5
    refine lt_of_le_of_lt (mul_le_mul_of_nonneg_right h5 ?_) h
    exact_mod_cast hp
  rw [e0, e1]
  rw [e0] at hm0
  rw [e1] at hm1
  obtain ⟨e, rfl⟩ : ∃ e, d = e + 1 := ⟨d - 1, by omega⟩
  have lsum : ∀ k, leafCost c.P (sel b T) k = leafCost c.P (sel (b.child f false) T) k + leafCost c.P (sel (b.child f true) T) k := by
    intro k; rw [← e0, ← e1]; exact (leafCost_split c.P f _ k).symm
  have comb : ∀ x y, Real c.P c.mls e (sel (b.child f false) T) x → Real c.P c.mls e (sel (b.child f true) T) y →
      Real c.P c.mls (e + 1) (sel b T) (Node.combine f x y c.P.bc) := by
    intro x y hx hy
    rw [← e0] at hx
    rw [← e1] at hy
    exact Real.combine hf hmay hx hy
  have spR : Sides c T K (sel b T) (e + 1) n (K.w b (e + 1) n) f (b.child f true) (b.child f false) true :=
    ⟨⟨rfl, rfl, hm1, hm0, fun k => by rw [lsum k, Int.add_comm],
      fun x y hx hy => comb y x hy hx, hv1,
      fun tL tR h0 h1 => by have := hsm tR tL h1 h0; simp only; omega⟩, hch true, hch false,
      fun tL tR h0 h1 => by rw [Int.add_comm (tL.cost c.P _)]; exact hbig tR tL h1 h0, hbigN, K.nonneg _ _ _ hok⟩
  have spL : Sides c T K (sel b T) (e + 1) n (K.w b (e + 1) n) f (b.child f false) (b.child f true) false :=
    ⟨⟨rfl, rfl, hm0, hm1, lsum, fun x y hx hy => comb x y hx hy, hv1, hsm⟩, hch false, hch true, hbig, hbigN, K.nonneg _ _ _ hok⟩
  have mono : ∀ {Q Q' : Int → Prop} {r}, (∀ x, Q' x → Q x) → LoopPost c T K (sel b T) (e + 1) n (K.w b (e + 1) n) UB0 v s Q r →
      LoopPost c T K (sel b T) (e + 1) n (K.w b (e + 1) n) UB0 v s Q' r :=
    fun h ⟨a, b, c, d, e⟩ => ⟨a, b, c, d, fun hH x hx => e hH x (h x hx)⟩
  have allow : ∀ {m x} {t : Tree} {E : Data}, t.depth ≤ e → t.nodes ≤ m → t.Legal c.P c.mls E → x = m →
      Allowed c.P c.mls (min e x) x E t := by
    intro m x t E h1 h2 h3 hx
    have := t.depth_le_nodes
    exact ⟨by omega, by omega, h3⟩
  have dec : ∀ {l r : Tree}, Allowed c.P c.mls (e + 1) n (sel b T) (.node f l r) →
      (l.depth ≤ e ∧ r.depth ≤ e) ∧ l.nodes + r.nodes + 1 ≤ n ∧ l.Legal c.P c.mls (sel (b.child f false) T) ∧
      r.Legal c.P c.mls (sel (b.child f true) T) ∧ (l.nodes + 1 ≤ 2 ^ e ∧ r.nodes + 1 ≤ 2 ^ e) := by
    intro l r ha
    have h1 := ha.1
    have h2 := ha.2.1
    simp only [Tree.depth, Tree.nodes] at h1 h2
    have pw : ∀ t : Tree, t.depth ≤ e → t.nodes + 1 ≤ 2 ^ e := fun t ht =>
      Nat.le_trans t.nodes_lt_pow (Nat.pow_le_pow_right (by decide) ht)
    rw [← e0, ← e1]
    exact ⟨⟨by omega, by omega⟩, by omega, ha.2.2.2.2.1, ha.2.2.2.2.2, pw _ (by omega), pw _ (by omega)⟩
  split
  · refine mono ?_ (sizeLoop_spec S hd hrec spR (sizes (e + 1) n) (sizes_ok hd hn hp hb) v s hs hv)
    rintro x ⟨l, r, ha, rfl⟩
    obtain ⟨⟨h1, h2⟩, h3, h4, h5, h6, h7⟩ := dec ha
    obtain ⟨ls, hm, g1, g2⟩ := sizes_cover (a := r.nodes) (b := l.nodes) hn hp hd h7 h6 (by omega)
    refine ⟨ls, hm, r, l, allow h2 g1 h5 rfl, allow h1 g2 h4 rfl, ?_⟩
    rw [← e0, ← e1]
    simp only [Tree.cost]; omega
  · refine mono ?_ (sizeLoop_spec S hd hrec spL (sizes (e + 1) n) (sizes_ok hd hn hp hb) v s hs hv)
    rintro x ⟨l, r, ha, rfl⟩
    obtain ⟨⟨h1, h2⟩, h3, h4, h5, h6, h7⟩ := dec ha
    obtain ⟨ls, hm, g1, g2⟩ := sizes_cover (a := l.nodes) (b := r.nodes) hn hp hd h6 h7 (by omega)
    refine ⟨ls, hm, l, r, allow h1 g1 h4 rfl, allow h2 g2 h5 rfl, ?_⟩
    rw [← e0, ← e1]
    simp only [Tree.cost]

/-- A tree is accounted for at the end of the call; `z` is its cost times the factor of the call. -/
def Final (c : Cfg) (UB0 : Node) (v : Loc) (z : ℚ) : Prop :=
  (v.sols.isEmpty = false → (v.sols.sol : ℚ) ≤ tol * z) ∧
  (v.sols.isEmpty = true → c.useUB = true ∧ (UB0.sol : ℚ) < z ∧
    (c.useLB = true → v.inf.sol = c.worst ∨ (v.inf.sol : ℚ) ≤ z))

omit S in
theorem Covers.final {UB0 : Node} {v : Loc} {z : ℚ} (h : Covers c UB0 v z) : Final c UB0 v z :=
  ⟨h.1, fun he => ⟨(h.2 he).1, (h.2 he).2.1, fun hu => .inr ((h.2 he).2.2 hu)⟩⟩

/-- What is known after the feature loop. -/
def FeatPost (c : Cfg) (T : Data) (K : Rank c T) (D : Data) (d n : Nat) (k : ℤ) (UB0 : Node) (v : Loc) (s : St) (Q : Int → Prop)
    (r : Loc × St) : Prop :=
  s.tick ≤ r.2.tick ∧ StOK c T K r.2 ∧ LocOK c D d n UB0 r.1 ∧ LStep c D (tol ^ k) (AllOK c r.2.tick) v r.1 ∧
    (AllOK c r.2.tick → ∀ x : Int, Q x → Final c UB0 r.1 (tol ^ k * (x : ℚ)))

theorem featLoop_spec {rec : Rec} {b : Branch} {d n : Nat} {UB0 blb : Node}
    (hrec : RecOK c T K rec (d - 1)) (hd : 1 ≤ d) (hn : 1 ≤ n) (hp : n + 1 ≤ 2 ^ d) (hrk : K.ok b d n)
    (hb : BudOK c d n) (fs : List Nat) (hfs : ∀ f ∈ fs, f < c.P.nF) (v : Loc) (s : St) (done : Int → Prop)
    (hs : StOK c T K s) (hv : LocOK c (sel b T) d n UB0 v)
    (hblb : AllOK c s.tick → ∀ t, Allowed c.P c.mls d n (sel b T) t → (blb.sol : ℚ) ≤ tol ^ K.w b d n * (t.cost c.P (sel b T) : ℚ))
    (hdone : AllOK c s.tick → ∀ x : Int, done x → Covers c UB0 v (tol ^ K.w b d n * (x : ℚ)))
    (hdone' : ∀ x, done x → ∃ f, RootCost c (sel b T) d n f x)
    (hinf : v.sols.isEmpty = true → v.inf.sol = c.worst ∨ ¬ (c.useLB = true ∧ c.useUB = true ∧ Tol.sdom UB0.sol blb.sol)) :
    FeatPost c T K (sel b T) d n (K.w b d n) UB0 v s (fun x => done x ∨ ∃ f ∈ fs, RootCost c (sel b T) d n f x)
      (Tol.featLoop c rec (sel b T) b d n blb fs v s) := by
  have G := S.good
  have hv1 : ViewOf T (sel b T) := sel_view b T
  have hk := K.nonneg b d n hrk
  have pD := S.posSel b
  induction fs generalizing v s done with
  | nil =>
    refine ⟨Nat.le_refl _, hs, hv, LStep.refl .., fun hH x hx => ?_⟩
    rcases hx with hx | ⟨f, hf, _⟩
    · exact (hdone hH x hx).final
    · simp at hf
  | cons f fs ih =>
    have tn : s.tick ≤ s.next.tick := Nat.le_succ _
    have hfs' : ∀ g ∈ fs, g < c.P.nF := fun g hg => hfs g (List.mem_cons_of_mem _ hg)
    have isTree : ∀ x, (done x ∨ ∃ g ∈ f :: fs, RootCost c (sel b T) d n g x) →
        ∃ t, Allowed c.P c.mls d n (sel b T) t ∧ x = t.cost c.P (sel b T) := by
      intro x hx
      rcases hx with hx | ⟨g, _, l, r, ha, e⟩
      · obtain ⟨g, l, r, ha, e⟩ := hdone' x hx
        exact ⟨_, ha, e⟩
      · exact ⟨_, ha, e⟩
    have skip : (∀ x, ¬ RootCost c (sel b T) d n f x) →
        FeatPost c T K (sel b T) d n (K.w b d n) UB0 v s (fun x => done x ∨ ∃ g ∈ f :: fs, RootCost c (sel b T) d n g x)
          (Tol.featLoop c rec (sel b T) b d n blb fs v s.next) := by
      intro hno
      obtain ⟨a1, a2, a3, a4, a5⟩ := ih hfs' v s.next done hs.next hv (fun h => hblb (h.mono tn)) (fun h => hdone (h.mono tn)) hdone' hinf
      refine ⟨by omega, a2, a3, a4, fun hH x hx => a5 hH x ?_⟩
      rcases hx with hx | ⟨g, hg, hx⟩
      · exact .inl hx
      · rcases List.mem_cons.1 hg with rfl | hg
        · exact absurd hx (hno x)
        · exact .inr ⟨g, hg, hx⟩
    unfold Tol.featLoop
    split
    · rename_i hok
      exact ⟨tn, hs.next, hv, LStep.refl .., fun h => absurd h (not_AllOK_next hok)⟩
    · dsimp only
      split
      · rename_i hc
        refine ⟨tn, hs.next, hv, LStep.refl .., fun hH x hx => ?_⟩
        obtain ⟨t, ht, rfl⟩ := isTree x hx
        have h1 := hblb (hH.mono tn) t ht
        have h2 := same_le hc.2
        have h4 := mul_le_mul_of_nonneg_left h1 (le_of_lt tol_pos)
        refine ⟨fun he => le_trans h2 h4, fun he => ?_⟩
        have h5 := S.big b d n hrk t ht.2.2
        have h3 : v.sols.sol = c.worst := by rw [(hv.emp he).1]; rfl
        rw [h3] at h2
        rw [zpow_add₀ (ne_of_gt tol_pos), zpow_one] at h5
        have h6 := le_trans h2 h4
        exact absurd h6 (not_le.2 (by calc _ = tol ^ K.w b d n * tol * _ := by ring
                                        _ < _ := h5))
      · split
        · rename_i hc
          refine ⟨tn, hs.next, hv, LStep.refl .., fun hH x hx => ?_⟩
          obtain ⟨t, ht, rfl⟩ := isTree x hx
          have h1 := hblb (hH.mono tn) t ht
          have h2 := sdom_lt hc.2.2 h1 (scale_nonneg pD _ t)
          refine ⟨fun he => ?_, fun he => ?_⟩
          · have h3 := le_tol (hv.ub he hc.2.1).2.1
            exact le_trans h3 (mul_le_mul_of_nonneg_left (le_of_lt h2) (le_of_lt tol_pos))
          · have h4 := (hv.emp he).2
            have h3 := hc.2.2
            rw [h4] at h2 h3
            refine ⟨hc.2.1, h2, fun _ => ?_⟩
            rcases hinf he with h4 | h4
            · exact .inl h4
            · exact absurd ⟨hc.1, hc.2.1, h3⟩ h4
        · rename_i hc
          split
          · rename_i hskip
            refine skip fun x ⟨l, r, ha, _⟩ => ?_
            have hl := ha.2.2
            have l0 := hl.2.2.1.length
            have l1 := hl.2.2.2.length
            have hm := G.mls
            have bad : ¬ (without f (sel b T) = [] ∨ having f (sel b T) = []) := by
              rintro (h | h)
              · rw [h] at l0; simp at l0; omega
              · rw [h] at l1; simp at l1; omega
            simp only [Bool.or_eq_true, Bool.not_eq_true'] at hskip
            rcases hskip with (h | h) | h
            · exact bad (sel_pathOK b T f h)
            · rw [hl.2.1] at h; simp at h
            · exact bad (constant_side hv1 (G.redundant f h))
          · rename_i hnskip
            simp only [Bool.or_eq_true, Bool.not_eq_true', not_or, Bool.not_eq_true, Bool.not_eq_false] at hnskip
            split
            · rename_i hsp
              obtain ⟨hs1, hs2⟩ := G.sparse hsp.1
              refine ⟨tn, hs.next, hv, LStep.refl .., fun hH x hx => ?_⟩
              have hx' : c.P.bc ≤ x := by
                have : ∃ g, RootCost c (sel b T) d n g x := by
                  rcases hx with hx | ⟨g, _, hx⟩
                  · exact hdone' x hx
                  · exact ⟨g, hx⟩
                obtain ⟨g, l, r, ha, rfl⟩ := this
                have h1 := G.cost_nonneg ((without_sublist g _).trans hv1) l
                have h2 := G.cost_nonneg ((having_sublist g _).trans hv1) r
                simp only [Tree.cost]; omega
              obtain ⟨t, ht, rfl⟩ := isTree x hx
              have hlt : (v.UB.sol : ℚ) < tol ^ K.w b d n * (t.cost c.P (sel b T) : ℚ) := by
                have h1 : v.UB.sol < t.cost c.P (sel b T) := by have := hsp.2.2; omega
                exact lt_of_lt_of_le (by exact_mod_cast h1) (scale_one pD hk t)
              exact (covers_of_ub (i := v.inf) hv hs2 hlt fun _ hu => by rw [hs1] at hu; simp at hu).final
            split
            · rename_i hlen
              refine skip fun x ⟨l, r, ha, _⟩ => ?_
              have l0 := ha.2.2.2.2.1.length
              have l1 := ha.2.2.2.2.2.length
              omega
            · rename_i hlen
              have h1 := feature_spec S hrec hd hn hp hrk hb (hfs f (List.mem_cons_self ..)) hnskip.1.2 (by omega) (by omega)
                v s.next hs.next hv
              generalize (if (without f (sel b T)).length < (having f (sel b T)).length then
                  Tol.sizeLoop c rec f ⟨having f (sel b T), b.child f true⟩ ⟨without f (sel b T), b.child f false⟩ true d n (sizes d n) v s.next
                else Tol.sizeLoop c rec f ⟨without f (sel b T), b.child f false⟩ ⟨having f (sel b T), b.child f true⟩ false d n (sizes d n) v s.next)
                = r at h1 ⊢
              obtain ⟨t1, s1, l1, st1, c1⟩ := h1
              have h2 := ih hfs' r.1 r.2 (fun x => done x ∨ RootCost c (sel b T) d n f x) s1 l1
                (fun h => hblb (h.mono (by omega))) ?_ ?_ ?_
              · obtain ⟨a1, a2, a3, a4, a5⟩ := h2
                refine ⟨by omega, a2, a3, st1.trans a4 fun h => h.mono a1, fun hH x hx => a5 hH x ?_⟩
                rcases hx with hx | ⟨g, hg, hx⟩
                · exact .inl (.inl hx)
                · rcases List.mem_cons.1 hg with rfl | hg
                  · exact .inl (.inr hx)
                  · exact .inr ⟨g, hg, hx⟩
              · intro hH x hx
                rcases hx with hx | hx
                · exact (hdone (hH.mono (by omega)) x hx).step st1 l1
                · exact c1 hH x hx
              · intro x hx
                rcases hx with hx | hx
                · exact hdone' x hx
                · exact ⟨f, hx⟩
              · intro he
                right
                have hve : v.sols.isEmpty = true := by
                  cases hve : v.sols.isEmpty with
                  | true => rfl
                  | false => rw [(st1.ne hve).1] at he; simp at he
                rw [← (hv.emp hve).2]; exact hc

end
end Streed.Apx
