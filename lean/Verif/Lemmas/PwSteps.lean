import Verif.Lemmas.PwReal
import Mathlib.Tactic.Ring

/-! The loops of the search with fitted leaves. -/

namespace Streed.Pw
open Apx (tol tol_pos tol_one le_tol same_le sdom_lt)

/-- Local variables are consistent; `UB0` is the upper bound of the call. -/
structure LocOK (p : Task) (T : Data) (D : Data) (d n : Nat) (UB0 : Node) (v : Loc) : Prop where
  sound : Sound p d n D v.sols
  ub : Open p T → v.sols.isEmpty = false → v.UB.sol ≤ v.sols.sol ∧ 10000 * v.sols.sol ≤ 10001 * v.UB.sol ∧ v.UB.sol ≤ UB0.sol
  emp : Open p T → v.sols.isEmpty = true → v.UB = UB0

/-- A tree whose cost, times the factor of the call, is `z` needs no further attention. -/
def Covers (UB0 : Node) (v : Loc) (z : ℚ) : Prop :=
  (v.sols.isEmpty = false → (v.sols.sol : ℚ) ≤ tol * z) ∧ (v.sols.isEmpty = true → (UB0.sol : ℚ) < z)

/-- Solutions only improve. -/
def Better (v v' : Loc) : Prop := v.sols.isEmpty = false → v'.sols.isEmpty = false ∧ v'.sols.sol ≤ v.sols.sol

theorem Better.refl (v : Loc) : Better v v := fun h => ⟨h, Int.le_refl _⟩

theorem Better.trans {u v w : Loc} (h1 : Better u v) (h2 : Better v w) : Better u w := fun h =>
  ⟨(h2 (h1 h).1).1, Int.le_trans (h2 (h1 h).1).2 (h1 h).2⟩

section
variable {p : Task} {T : Data}

theorem covers_of_ub {D : Data} {d n : Nat} {UB0 : Node} {v : Loc} (O : Open p T) (hv : LocOK p T D d n UB0 v) {z : ℚ} {i : Node}
    (h : (v.UB.sol : ℚ) < z) : Covers UB0 { v with inf := i } z := by
  refine ⟨fun he => ?_, fun he => ?_⟩
  · have h1 := le_tol (hv.ub O he).2.1
    have := mul_lt_mul_of_pos_left h tol_pos
    dsimp only; linarith
  · rw [← hv.emp O he]; exact h

theorem Covers.step {D : Data} {d n : Nat} {UB0 : Node} {v v' : Loc} {z : ℚ} (O : Open p T)
    (h : Covers UB0 v z) (h1 : Better v v') (h2 : LocOK p T D d n UB0 v') : Covers UB0 v' z := by
  cases he : v.sols.isEmpty with
  | false =>
    have := h1 he
    refine ⟨fun _ => le_trans (by exact_mod_cast this.2) (h.1 he), fun h' => ?_⟩
    rw [this.1] at h'; simp at h'
  | true =>
    have b := h.2 he
    refine ⟨fun h' => ?_, fun _ => b⟩
    have h3 := h2.ub O h'
    have h4 := le_tol h3.2.1
    have h5 : (v'.UB.sol : ℚ) ≤ UB0.sol := by exact_mod_cast h3.2.2
    have := mul_lt_mul_of_pos_left (lt_of_le_of_lt h5 b) tol_pos
    linarith

/-- What is known of the result `r` of a call for data `D`, bound `UB`, budget `(d, n)` and state `s`. -/
structure Post (p : Task) (T : Data) (D : Data) (UB : Node) (d n : Nat) (s : St) (r : Node × St) : Prop where
  tick : s.tick ≤ r.2.tick
  st : SOK p T r.2
  sound : Sound p d n D r.1
  low : Open p T → AllOK p.c r.2.tick → r.1.isEmpty = false → ∀ t, p.fitting.Allowed d n D t →
    (r.1.sol : ℚ) ≤ tol * (loss p D * (p.fitting.cost t D : ℚ)) ∨ UB.sol < p.fitting.cost t D
  inf : Open p T → AllOK p.c r.2.tick → r.1.isEmpty = true → ∀ t, p.fitting.Allowed d n D t →
    (UB.sol : ℚ) < loss p D * (p.fitting.cost t D : ℚ)

/-- The recursive call meets its specification up to depth `m`. -/
def RecOK (p : Task) (T : Data) (rec : Rec) (m : Nat) : Prop :=
  ∀ D b UB d n s, d ≤ m → D = sel b T → n + 1 ≤ 2 ^ d → SOK p T s → Post p T D UB d n s (rec D b UB d n s)

/-- A split of `D` in the order in which its sides are searched. -/
structure Sides (p : Task) (T : Data) (D : Data) (d : Nat) (f : Nat) (L R : Side) (sw : Bool) : Prop where
  view : ViewOf T D
  left : L.D = sel L.b T
  right : R.D = sel R.b T
  comb : ∀ a b, Real p (d - 1) L.D a → Real p (d - 1) R.D b →
    Real p d D (if sw then Node.combine f b a p.c.P.bc else Node.combine f a b p.c.P.bc)
  lossL : Open p T → tol * loss p L.D ≤ loss p D
  lossR : Open p T → tol * loss p R.D ≤ loss p D
  big : Open p T → ∀ tL tR, p.fitting.Legal tL L.D → p.fitting.Legal tR R.D →
    tol * (loss p D * ((p.c.P.bc + (p.fitting.cost tL L.D + p.fitting.cost tR R.D) : Int) : ℚ)) < (p.c.worst : ℚ)

/-- Subtracting what the other side costs at least from the upper bound loses nothing. -/
theorem subtract_lemma {D : Data} {d n : Nat} {UB0 : Node} {v : Loc} (O : Open p T) (hv : LocOK p T D d n UB0 v) {other : Node}
    {x y : ℚ} (hy : 0 ≤ y) (ho : (other.sol : ℚ) ≤ y) (hx : (p.c.P.bc : ℚ) + (x + y) < p.c.worst)
    (hc : ((Tol.subtractUB p.c v.UB other v.sols).sol : ℚ) < x) : (v.UB.sol : ℚ) < p.c.P.bc + (x + y) := by
  have hbc : (0 : ℚ) ≤ p.c.P.bc := by exact_mod_cast O.bc
  have hmd := O.md
  have key : (v.UB.sol : ℚ) < x ∨ (min v.UB.sol v.sols.sol : Int) - other.sol - p.c.P.bc ≤ (Tol.subtractUB p.c v.UB other v.sols).sol := by
    unfold Tol.subtractUB subtract at hc ⊢
    rw [O.ub] at hc ⊢
    cases hs : p.c.subUB <;> rw [hs] at hc
    · left; simpa [Node.value] using hc
    · right
      simp only [Bool.and_self, if_true, Node.value]
      split <;> omega
  rcases key with h | h
  · linarith
  · have h : ((min v.UB.sol v.sols.sol : Int) : ℚ) - other.sol - p.c.P.bc ≤ ((Tol.subtractUB p.c v.UB other v.sols).sol : ℚ) := by
      exact_mod_cast h
    have hm : ((min v.UB.sol v.sols.sol : Int) : ℚ) < p.c.P.bc + (x + y) := by linarith
    rcases Int.le_total v.UB.sol v.sols.sol with hle | hle
    · rw [Int.min_eq_left hle] at hm; exact hm
    · rw [Int.min_eq_right hle] at hm
      cases he : v.sols.isEmpty with
      | false =>
        have := (hv.ub O he).1
        have e : v.UB.sol = v.sols.sol := by omega
        rw [e]; exact hm
      | true =>
        have e3 : v.sols.sol = p.c.worst := by rw [hv.sound.emp he]; rfl
        rw [e3] at hm; linarith

/-- What is known after one distribution of the nodes over the two sides. -/
def StepPost (p : Task) (T : Data) (D : Data) (d n ls : Nat) (L R : Side) (UB0 : Node) (v : Loc) (s : St)
    (r : Bool × Loc × St) : Prop :=
  s.tick ≤ r.2.2.tick ∧ SOK p T r.2.2 ∧ LocOK p T D d n UB0 r.2.1 ∧
    (Open p T → Better v r.2.1) ∧ (r.1 = true → ¬ AllOK p.c r.2.2.tick) ∧
    (Open p T → AllOK p.c r.2.2.tick → ∀ tL tR, p.fitting.Allowed (min (d - 1) ls) ls L.D tL →
      p.fitting.Allowed (min (d - 1) (n - ls - 1)) (n - ls - 1) R.D tR →
      Covers UB0 r.2.1 (loss p D * ((p.c.P.bc + (p.fitting.cost tL L.D + p.fitting.cost tR R.D) : Int) : ℚ)))

theorem computeLRLB_off (O : Open p T) (s : St) (f : Nat) (L R : Side) (a b x y : Nat) :
    computeLRLB p s f L.D L.b a b R.D R.b x y = (Node.value 0, Node.value 0, Node.value 0) := by
  unfold computeLRLB
  rw [if_neg (by rw [O.noLB]; simp)]

set_option maxHeartbeats 2000000 in
/-- One distribution of the nodes over the two sides. -/
theorem sizeStep_spec {rec : Rec} {D : Data} {d n f ls : Nat} {L R : Side} {sw : Bool} {UB0 : Node} {v : Loc} {s : St}
    (hrec : RecOK p T rec (d - 1)) (hsd : Sides p T D d f L R sw) (hls : ls + 1 ≤ n)
    (hp1 : ls + 1 ≤ 2 ^ (min (d - 1) ls)) (hp2 : n - ls - 1 + 1 ≤ 2 ^ (min (d - 1) (n - ls - 1)))
    (hs : SOK p T s) (hv : LocOK p T D d n UB0 v) :
    StepPost p T D d n ls L R UB0 v s (sizeStep p rec f L R sw d n ls v s) := by
  have hvL : ViewOf T L.D := by rw [hsd.left]; exact sel_view _ T
  have hvR : ViewOf T R.D := by rw [hsd.right]; exact sel_view _ T
  have g1 := loss_one p D
  have zpos : Open p T → ∀ {tL tR : Tree}, p.fitting.Legal tL L.D → p.fitting.Legal tR R.D →
      0 ≤ (p.fitting.cost tL L.D : ℚ) ∧ 0 ≤ (p.fitting.cost tR R.D : ℚ) ∧ 0 ≤ (p.c.P.bc : ℚ) := by
    intro O tL tR h1 h2
    exact ⟨by exact_mod_cast O.cost_nonneg hvL h1, by exact_mod_cast O.cost_nonneg hvR h2, by exact_mod_cast O.bc⟩
  have zsum : Open p T → ∀ {tL tR : Tree}, p.fitting.Legal tL L.D → p.fitting.Legal tR R.D →
      (p.c.P.bc : ℚ) + (loss p D * (p.fitting.cost tL L.D : ℚ) + loss p D * (p.fitting.cost tR R.D : ℚ)) ≤
      loss p D * ((p.c.P.bc + (p.fitting.cost tL L.D + p.fitting.cost tR R.D) : Int) : ℚ) := by
    intro O tL tR h1 h2
    have := (zpos O h1 h2).2.2
    push_cast
    nlinarith
  have znn : Open p T → ∀ {tL tR : Tree}, p.fitting.Legal tL L.D → p.fitting.Legal tR R.D →
      0 ≤ loss p D * ((p.c.P.bc + (p.fitting.cost tL L.D + p.fitting.cost tR R.D) : Int) : ℚ) := by
    intro O tL tR h1 h2
    obtain ⟨a, b, c⟩ := zpos O h1 h2
    push_cast
    exact mul_nonneg (by linarith) (by linarith)
  have zbig : Open p T → ∀ {tL tR : Tree}, p.fitting.Legal tL L.D → p.fitting.Legal tR R.D →
      loss p D * ((p.c.P.bc + (p.fitting.cost tL L.D + p.fitting.cost tR R.D) : Int) : ℚ) < (p.c.worst : ℚ) := by
    intro O tL tR h1 h2
    have h3 := hsd.big O tL tR h1 h2
    have h4 := znn O h1 h2
    have := tol_one
    nlinarith
  -- costs of one side with the factor of that side
  have upL : Open p T → ∀ {tL : Tree}, p.fitting.Legal tL L.D →
      tol * (loss p L.D * (p.fitting.cost tL L.D : ℚ)) ≤ loss p D * (p.fitting.cost tL L.D : ℚ) ∧
      loss p L.D * (p.fitting.cost tL L.D : ℚ) ≤ loss p D * (p.fitting.cost tL L.D : ℚ) ∧
      (p.fitting.cost tL L.D : ℚ) ≤ loss p D * (p.fitting.cost tL L.D : ℚ) := by
    intro O tL h1
    have h0 : (0 : ℚ) ≤ p.fitting.cost tL L.D := by exact_mod_cast O.cost_nonneg hvL h1
    have h2 := hsd.lossL O
    have h3 := loss_one p L.D
    have h4 := tol_one
    have h5 : loss p L.D ≤ loss p D := by nlinarith
    refine ⟨?_, mul_le_mul_of_nonneg_right h5 h0, by nlinarith⟩
    rw [← mul_assoc]; exact mul_le_mul_of_nonneg_right h2 h0
  have upR : Open p T → ∀ {tR : Tree}, p.fitting.Legal tR R.D →
      tol * (loss p R.D * (p.fitting.cost tR R.D : ℚ)) ≤ loss p D * (p.fitting.cost tR R.D : ℚ) ∧
      loss p R.D * (p.fitting.cost tR R.D : ℚ) ≤ loss p D * (p.fitting.cost tR R.D : ℚ) ∧
      (p.fitting.cost tR R.D : ℚ) ≤ loss p D * (p.fitting.cost tR R.D : ℚ) := by
    intro O tR h1
    have h0 : (0 : ℚ) ≤ p.fitting.cost tR R.D := by exact_mod_cast O.cost_nonneg hvR h1
    have h2 := hsd.lossR O
    have h3 := loss_one p R.D
    have h4 := tol_one
    have h5 : loss p R.D ≤ loss p D := by nlinarith
    refine ⟨?_, mul_le_mul_of_nonneg_right h5 h0, by nlinarith⟩
    rw [← mul_assoc]; exact mul_le_mul_of_nonneg_right h2 h0
  have locInf : ∀ x : Node, LocOK p T D d n UB0 { v with inf := x } := fun x => ⟨hv.sound, hv.ub, hv.emp⟩
  have same' : ∀ x : Node, Better v { v with inf := x } := fun _ h => ⟨h, Int.le_refl _⟩
  have hlb := fun O : Open p T => computeLRLB_off O s f L R (min (d - 1) ls) ls (min (d - 1) (n - ls - 1)) (n - ls - 1)
  unfold sizeStep
  simp only
  generalize computeLRLB p s f L.D L.b (min (d - 1) ls) ls R.D R.b (min (d - 1) (n - ls - 1)) (n - ls - 1) = lbs at hlb ⊢
  split
  · rename_i hc
    refine ⟨Nat.le_refl _, hs, locInf _, fun _ => same' _, by simp, ?_⟩
    intro O hH tL tR aL aR
    rw [hlb O] at hc ⊢
    exact covers_of_ub O hv (sdom_lt hc.2 (by simpa [Node.value] using znn O aL.2.2 aR.2.2) (znn O aL.2.2 aR.2.2))
  · split
    · rename_i heq
      refine ⟨Nat.le_refl _, hs, hv, fun _ => Better.refl _, by simp, ?_⟩
      intro O hH tL tR aL aR
      rw [hlb O] at heq
      have h2 := same_le heq
      have h4 : (v.sols.sol : ℚ) ≤ tol * (loss p D * ((p.c.P.bc + (p.fitting.cost tL L.D + p.fitting.cost tR R.D) : Int) : ℚ)) := by
        refine le_trans h2 (mul_le_mul_of_nonneg_left ?_ (le_of_lt tol_pos))
        simpa [Node.value] using znn O aL.2.2 aR.2.2
      refine ⟨fun _ => h4, fun he => ?_⟩
      have h3 : v.sols.sol = p.c.worst := by rw [hv.sound.emp he]; rfl
      rw [h3] at h4
      exact absurd h4 (not_le.2 (hsd.big O tL tR aL.2.2 aR.2.2))
    · have pL := hrec L.D L.b (Tol.subtractUB p.c v.UB lbs.2.2 v.sols) (min (d - 1) ls) ls s (Nat.min_le_left _ _) hsd.left hp1 hs
      generalize rec L.D L.b (Tol.subtractUB p.c v.UB lbs.2.2 v.sols) (min (d - 1) ls) ls s = lr at pL ⊢
      have sL := pL.st
      split
      · rename_i hok
        have hno := not_AllOK_next hok
        refine ⟨?_, sL.next, hv, fun _ => Better.refl _, fun _ => hno, fun _ h => absurd h hno⟩
        have := pL.tick; simp only [St.next]; omega
      · have t1 : s.tick ≤ lr.2.next.tick := by have := pL.tick; simp only [St.next]; omega
        have hl1 : AllOK p.c lr.2.next.tick → AllOK p.c lr.2.tick := fun h => h.mono (Nat.le_succ _)
        have sL' := sL.next
        have subL : Open p T → ∀ {tL tR : Tree}, p.fitting.Legal tL L.D → p.fitting.Legal tR R.D →
            ((Tol.subtractUB p.c v.UB lbs.2.2 v.sols).sol : ℚ) < loss p D * (p.fitting.cost tL L.D : ℚ) →
            (v.UB.sol : ℚ) < loss p D * ((p.c.P.bc + (p.fitting.cost tL L.D + p.fitting.cost tR R.D) : Int) : ℚ) := by
          intro O tL tR aL aR h
          have h1 := zsum O aL aR
          have h0 : (0 : ℚ) ≤ loss p D * (p.fitting.cost tR R.D : ℚ) := mul_nonneg (by linarith) (zpos O aL aR).2.1
          refine lt_of_lt_of_le (subtract_lemma O hv h0 ?_ (lt_of_le_of_lt h1 (zbig O aL aR)) h) h1
          rw [hlb O]; simpa [Node.value] using h0
        split
        · rename_i hemp
          refine ⟨t1, sL', locInf _, fun _ => same' _, by simp, ?_⟩
          intro O hH tL tR aL aR
          have h2 := pL.inf O (hl1 hH) hemp tL aL
          exact covers_of_ub O hv (subL O aL.2.2 aR.2.2 (lt_of_lt_of_le h2 (upL O aL.2.2).2.1))
        · rename_i hne
          have hne : lr.1.isEmpty = false := by simpa using hne
          have pR := hrec R.D R.b (Tol.subtractUB p.c v.UB lr.1 v.sols) (min (d - 1) (n - ls - 1)) (n - ls - 1) lr.2.next
            (Nat.min_le_left _ _) hsd.right hp2 sL'
          generalize rec R.D R.b (Tol.subtractUB p.c v.UB lr.1 v.sols) (min (d - 1) (n - ls - 1)) (n - ls - 1) lr.2.next = rr at pR ⊢
          have sR := pR.st
          have t2 : lr.2.next.tick ≤ rr.2.next.tick := by have := pR.tick; simp only [St.next] at this ⊢; omega
          have hl2 : AllOK p.c rr.2.next.tick → AllOK p.c rr.2.tick := fun h => h.mono (Nat.le_succ _)
          have farL : Open p T → AllOK p.c rr.2.next.tick → ∀ {tL tR : Tree}, p.fitting.Allowed (min (d - 1) ls) ls L.D tL →
              p.fitting.Legal tR R.D →
              (lr.1.sol : ℚ) ≤ loss p D * (p.fitting.cost tL L.D : ℚ) ∨
                (v.UB.sol : ℚ) < loss p D * ((p.c.P.bc + (p.fitting.cost tL L.D + p.fitting.cost tR R.D) : Int) : ℚ) := by
            intro O hH tL tR aL aR
            rcases pL.low O (hl1 (hH.mono t2)) hne tL aL with h | h
            · exact .inl (le_trans h (upL O aL.2.2).1)
            · exact .inr (subL O aL.2.2 aR (lt_of_lt_of_le (by exact_mod_cast h) (upL O aL.2.2).2.2))
          have subR : Open p T → ∀ {tL tR : Tree}, p.fitting.Legal tL L.D → p.fitting.Legal tR R.D →
              (lr.1.sol : ℚ) ≤ loss p D * (p.fitting.cost tL L.D : ℚ) →
              ((Tol.subtractUB p.c v.UB lr.1 v.sols).sol : ℚ) < loss p D * (p.fitting.cost tR R.D : ℚ) →
              (v.UB.sol : ℚ) < loss p D * ((p.c.P.bc + (p.fitting.cost tL L.D + p.fitting.cost tR R.D) : Int) : ℚ) := by
            intro O tL tR lL lR h4 h
            have h1 := zsum O lL lR
            rw [add_comm (loss p D * (p.fitting.cost tL L.D : ℚ))] at h1
            exact lt_of_lt_of_le (subtract_lemma O hv (mul_nonneg (by linarith) (zpos O lL lR).1) h4
              (lt_of_le_of_lt h1 (zbig O lL lR)) h) h1
          split
          · rename_i hok
            have hno := not_AllOK_next hok
            exact ⟨by dsimp only [St.next] at *; omega, sR.next, hv, fun _ => Better.refl _, fun _ => hno, fun _ h => absurd h hno⟩
          · have sR' := sR.next
            split
            · rename_i hemp
              refine ⟨by dsimp only [St.next] at *; omega, sR', locInf _, fun _ => same' _, by simp, ?_⟩
              intro O hH tL tR aL aR
              have h2 := pR.inf O (hl2 hH) hemp tR aR
              refine covers_of_ub O hv ?_
              rcases farL O hH aL aR.2.2 with h4 | h4
              · exact subR O aL.2.2 aR.2.2 h4 (lt_of_lt_of_le h2 (upR O aR.2.2).2.1)
              · exact h4
            · rename_i hne'
              have hne' : rr.1.isEmpty = false := by simpa using hne'
              obtain ⟨rl, nl⟩ := pL.sound.real hne
              obtain ⟨rrr, nr⟩ := pR.sound.real hne'
              have hnn := hsd.comb lr.1 rr.1 (rl.mono (Nat.min_le_left _ _)) (rrr.mono (Nat.min_le_left _ _))
              have hsol : (if sw = true then Node.combine f rr.1 lr.1 p.c.P.bc else Node.combine f lr.1 rr.1 p.c.P.bc).sol =
                  p.c.P.bc + (lr.1.sol + rr.1.sol) := by
                cases sw <;> simp only [Node.combine, Node.branch, if_true, Bool.false_eq_true, if_false]
                all_goals omega
              have hnum : (if sw = true then Node.combine f rr.1 lr.1 p.c.P.bc else Node.combine f lr.1 rr.1 p.c.P.bc).numNodes ≤ n := by
                cases sw <;> simp [combine_numNodes] <;> omega
              generalize hN : (if sw = true then Node.combine f rr.1 lr.1 p.c.P.bc else Node.combine f lr.1 rr.1 p.c.P.bc) = nn
                at hnn hsol hnum ⊢
              have hle : Open p T → AllOK p.c rr.2.next.tick → ∀ {tL tR : Tree}, p.fitting.Allowed (min (d - 1) ls) ls L.D tL →
                  p.fitting.Allowed (min (d - 1) (n - ls - 1)) (n - ls - 1) R.D tR →
                  (nn.sol : ℚ) ≤ loss p D * ((p.c.P.bc + (p.fitting.cost tL L.D + p.fitting.cost tR R.D) : Int) : ℚ) ∨
                  (v.UB.sol : ℚ) < loss p D * ((p.c.P.bc + (p.fitting.cost tL L.D + p.fitting.cost tR R.D) : Int) : ℚ) := by
                intro O hH tL tR aL aR
                rcases farL O hH aL aR.2.2 with h1 | h1
                · rcases pR.low O (hl2 hH) hne' tR aR with h2 | h2
                  · left
                    have h3 := le_trans h2 (upR O aR.2.2).1
                    refine le_trans ?_ (zsum O aL.2.2 aR.2.2)
                    rw [hsol]; push_cast; linarith
                  · right
                    exact subR O aL.2.2 aR.2.2 h1 (lt_of_lt_of_le (by exact_mod_cast h2) (upR O aR.2.2).2.2)
                · exact .inr h1
              split
              · rename_i hc
                refine ⟨by dsimp only [St.next] at *; omega, sR', locInf _, fun _ => same' _, by simp, ?_⟩
                intro O hH tL tR aL aR
                rcases hle O hH aL aR with h1 | h1
                · exact covers_of_ub O hv (sdom_lt hc.2 h1 (znn O aL.2.2 aR.2.2))
                · exact covers_of_ub O hv h1
              · rename_i hc
                have hne2 := hnn.nonempty
                have hworst : Open p T → ¬ Tol.sdom nn.sol v.sols.sol → v.sols.isEmpty = false := by
                  intro O hge
                  cases he : v.sols.isEmpty with
                  | false => rfl
                  | true =>
                    have h3 : v.sols.sol = p.c.worst := by rw [hv.sound.emp he]; rfl
                    have := le_tol (a := v.sols.sol) (b := nn.sol) (by unfold Tol.sdom at hge; omega)
                    rw [h3] at this
                    exact absurd this (not_le.2 (O.real_big hsd.view hnn))
                have hfin : Open p T → (if Tol.sdom nn.sol v.sols.sol then nn else v.sols).isEmpty = false := by
                  intro O
                  split
                  · exact hne2
                  · rename_i hge; exact hworst O hge
                have hle2 : Open p T → 10000 * nn.sol ≤ 10001 * v.UB.sol := by
                  intro O
                  by_contra hcon
                  exact hc ⟨O.ub, by unfold Tol.sdom; omega⟩
                have hUB : Open p T → (updateUB p.c v.UB nn).sol = min v.UB.sol nn.sol := by
                  intro O
                  unfold updateUB Node.addMin; rw [if_pos O.ub]; split <;> omega
                have hnpos : Open p T → 0 ≤ nn.sol := fun O => O.real_nonneg hsd.view hnn
                have hloc : LocOK p T D d n UB0 ⟨if Tol.sdom nn.sol v.sols.sol then nn else v.sols, updateUB p.c v.UB nn, v.inf⟩ := by
                  refine ⟨?_, fun O _ => ?_, fun O he => ?_⟩
                  · dsimp only
                    split
                    · exact .inr ⟨hnn, hnum⟩
                    · exact hv.sound
                  · have h4 := hle2 O
                    have hnpos := hnpos O
                    simp only
                    rw [hUB O]
                    split
                    · rename_i hlt
                      unfold Tol.sdom at hlt
                      cases he : v.sols.isEmpty with
                      | false => have := hv.ub O he; omega
                      | true =>
                        have := hv.emp O he
                        rw [this] at h4 ⊢; omega
                    · rename_i hge
                      have := hv.ub O (hworst O hge)
                      unfold Tol.sdom at hge; omega
                  · simp only at he; rw [hfin O] at he; simp at he
                have hsolle : Open p T → (v.sols.isEmpty = false →
                    (if Tol.sdom nn.sol v.sols.sol then nn else v.sols).sol ≤ v.sols.sol) ∧
                    10000 * (if Tol.sdom nn.sol v.sols.sol then nn else v.sols).sol ≤ 10001 * nn.sol := by
                  intro O
                  have hnpos := hnpos O
                  unfold Tol.sdom
                  split
                  · exact ⟨fun _ => by omega, by omega⟩
                  · exact ⟨fun _ => by omega, by omega⟩
                refine ⟨by dsimp only [St.next] at *; omega, sR', hloc, fun O he => ⟨hfin O, (hsolle O).1 he⟩, by simp, ?_⟩
                intro O hH tL tR aL aR
                refine ⟨fun _ => ?_, fun he => ?_⟩
                · rcases hle O hH aL aR with h1 | h1
                  · exact le_trans (le_tol (hsolle O).2) (mul_le_mul_of_nonneg_left h1 (le_of_lt tol_pos))
                  · have h2 := hloc.ub O (hfin O)
                    have h3 := le_tol h2.2.1
                    have h4 : ((updateUB p.c v.UB nn).sol : ℚ) ≤ v.UB.sol := by
                      rw [hUB O]; exact_mod_cast Int.min_le_left _ _
                    exact le_trans h3 (mul_le_mul_of_nonneg_left (le_of_lt (lt_of_le_of_lt h4 h1)) (le_of_lt tol_pos))
                · simp only at he; rw [hfin O] at he; simp at he

/-- What is known after a loop: trees with costs in `Q` need no further attention. -/
def LoopPost (p : Task) (T : Data) (D : Data) (d n : Nat) (UB0 : Node) (v : Loc) (s : St) (Q : Int → Prop) (r : Loc × St) : Prop :=
  s.tick ≤ r.2.tick ∧ SOK p T r.2 ∧ LocOK p T D d n UB0 r.1 ∧ (Open p T → Better v r.1) ∧
    (Open p T → AllOK p.c r.2.tick → ∀ x : Int, Q x → Covers UB0 r.1 (loss p D * (x : ℚ)))

theorem sizeLoop_spec {rec : Rec} {D : Data} {d n f : Nat} {L R : Side} {sw : Bool} {UB0 : Node}
    (hrec : RecOK p T rec (d - 1)) (hsp : Sides p T D d f L R sw) (l : List Nat)
    (hl : ∀ ls ∈ l, ls + 1 ≤ n ∧ ls + 1 ≤ 2 ^ (min (d - 1) ls) ∧ n - ls - 1 + 1 ≤ 2 ^ (min (d - 1) (n - ls - 1)))
    (v : Loc) (s : St) (hs : SOK p T s) (hv : LocOK p T D d n UB0 v) :
    LoopPost p T D d n UB0 v s (fun x => ∃ ls ∈ l, ∃ tL tR, p.fitting.Allowed (min (d - 1) ls) ls L.D tL ∧
      p.fitting.Allowed (min (d - 1) (n - ls - 1)) (n - ls - 1) R.D tR ∧
      x = p.c.P.bc + (p.fitting.cost tL L.D + p.fitting.cost tR R.D))
      (sizeLoop p rec f L R sw d n l v s) := by
  induction l generalizing v s with
  | nil => exact ⟨Nat.le_refl _, hs, hv, fun _ => Better.refl _, fun _ _ x h => by simp at h⟩
  | cons ls l ih =>
    obtain ⟨a1, a4, a5⟩ := hl ls (List.mem_cons_self ..)
    have h1 := sizeStep_spec hrec hsp a1 a4 a5 hs hv
    unfold sizeLoop
    generalize sizeStep p rec f L R sw d n ls v s = r at h1 ⊢
    obtain ⟨t1, s1, l1, st1, e1, c1⟩ := h1
    dsimp only
    split
    · rename_i ht
      exact ⟨t1, s1, l1, st1, fun _ h => absurd h (e1 ht)⟩
    · have h2 := ih (fun x hx => hl x (List.mem_cons_of_mem _ hx)) r.2.1 r.2.2 s1 l1
      generalize sizeLoop p rec f L R sw d n l r.2.1 r.2.2 = r' at h2 ⊢
      obtain ⟨t2, s2, l2, st2, c2⟩ := h2
      refine ⟨by omega, s2, l2, fun O => (st1 O).trans (st2 O), fun O hH x hx => ?_⟩
      obtain ⟨ls', hm, tL, tR, h3, h4, rfl⟩ := hx
      rcases List.mem_cons.1 hm with rfl | hm
      · exact (c1 O (hH.mono t2) tL tR h3 h4).step O (st2 O) l2
      · exact c2 O hH _ ⟨ls', hm, tL, tR, h3, h4, rfl⟩

/-- `x` is the cost of an allowed tree with `f` in its root. -/
def RootCost (p : Task) (D : Data) (d n f : Nat) (x : Int) : Prop :=
  ∃ l r, p.fitting.Allowed d n D (.node f l r) ∧ x = p.fitting.cost (.node f l r) D

/-- Both orders of the sides of a split. -/
theorem feature_spec {rec : Rec} {D : Data} {b : Branch} {d n f : Nat} {UB0 : Node}
    (hrec : RecOK p T rec (d - 1)) (hD : D = sel b T) (hd : 1 ≤ d) (hn : 1 ≤ n) (hp : n + 1 ≤ 2 ^ d) (hf : f < p.c.P.nF)
    (hm0 : p.c.mls ≤ p.weight (without f D)) (hm1 : p.c.mls ≤ p.weight (having f D))
    (v : Loc) (s : St) (hs : SOK p T s) (hv : LocOK p T D d n UB0 v) :
    LoopPost p T D d n UB0 v s (RootCost p D d n f)
      (if (without f D).length < (having f D).length then
        sizeLoop p rec f ⟨having f D, b.child f true⟩ ⟨without f D, b.child f false⟩ true d n (sizes d n) v s
      else sizeLoop p rec f ⟨without f D, b.child f false⟩ ⟨having f D, b.child f true⟩ false d n (sizes d n) v s) := by
  have hv1 : ViewOf T D := by rw [hD]; exact sel_view b T
  have e0 : without f D = sel (b.child f false) T := by rw [sel_child, ← hD, side_false]
  have e1 : having f D = sel (b.child f true) T := by rw [sel_child, ← hD, side_true]
  have ne : Open p T → without f D ≠ [] ∧ having f D ≠ [] := by
    intro O
    have := O.mls
    have := O.nil
    constructor
    · intro h; rw [h] at hm0; omega
    · intro h; rw [h] at hm1; omega
  have lo : Open p T → ∀ x, tol * loss p (side f x D) ≤ loss p D := fun O x => loss_side hf (ne O).1 (ne O).2 x
  have l0 : Open p T → tol * loss p (without f D) ≤ loss p D := fun O => by have := lo O false; rwa [side_false] at this
  have l1 : Open p T → tol * loss p (having f D) ≤ loss p D := fun O => by have := lo O true; rwa [side_true] at this
  have hbig : Open p T → ∀ tL tR : Tree, p.fitting.Legal tL (without f D) → p.fitting.Legal tR (having f D) →
      tol * (loss p D * ((p.c.P.bc + (p.fitting.cost tL (without f D) + p.fitting.cost tR (having f D)) : Int) : ℚ)) < (p.c.worst : ℚ) :=
    fun O tL tR h0 h1 => O.big' hv1 (t := .node f tL tR) ⟨hf, h0, h1⟩
  obtain ⟨e, rfl⟩ : ∃ e, d = e + 1 := ⟨d - 1, by omega⟩
  have spR : Sides p T D (e + 1) f ⟨having f D, b.child f true⟩ ⟨without f D, b.child f false⟩ true :=
    ⟨hv1, e1, e0, fun x y hx hy => Real.combine hf hy hx, l1, l0,
      fun O tL tR h0 h1 => by rw [Int.add_comm (p.fitting.cost tL _)]; exact hbig O tR tL h1 h0⟩
  have spL : Sides p T D (e + 1) f ⟨without f D, b.child f false⟩ ⟨having f D, b.child f true⟩ false :=
    ⟨hv1, e0, e1, fun x y hx hy => Real.combine hf hx hy, l0, l1, hbig⟩
  have hsz : ∀ ls ∈ sizes (e + 1) n, ls + 1 ≤ n ∧ ls + 1 ≤ 2 ^ (min (e + 1 - 1) ls) ∧
      n - ls - 1 + 1 ≤ 2 ^ (min (e + 1 - 1) (n - ls - 1)) := by
    intro ls hls
    have := sizes_ok (c := { p.c with useTerm := false }) hd hn hp (.inl rfl) ls hls
    exact ⟨this.1, this.2.2.2⟩
  have mono : ∀ {Q Q' : Int → Prop} {r}, (∀ x, Q' x → Q x) → LoopPost p T D (e + 1) n UB0 v s Q r →
      LoopPost p T D (e + 1) n UB0 v s Q' r :=
    fun h ⟨a, b, c, d, e⟩ => ⟨a, b, c, d, fun O hH x hx => e O hH x (h x hx)⟩
  have allow : ∀ {m x} {t : Tree} {E : Data}, t.depth ≤ e → t.nodes ≤ m → p.fitting.Legal t E → x = m →
      p.fitting.Allowed (min e x) x E t := by
    intro m x t E h1 h2 h3 hx
    have := t.depth_le_nodes
    exact ⟨by omega, by omega, h3⟩
  have dec : ∀ {l r : Tree}, p.fitting.Allowed (e + 1) n D (.node f l r) →
      (l.depth ≤ e ∧ r.depth ≤ e) ∧ l.nodes + r.nodes + 1 ≤ n ∧ p.fitting.Legal l (without f D) ∧
      p.fitting.Legal r (having f D) ∧ (l.nodes + 1 ≤ 2 ^ e ∧ r.nodes + 1 ≤ 2 ^ e) := by
    intro l r ha
    have h1 := ha.1
    have h2 := ha.2.1
    simp only [Tree.depth, Tree.nodes] at h1 h2
    have pw : ∀ t : Tree, t.depth ≤ e → t.nodes + 1 ≤ 2 ^ e := fun t ht =>
      Nat.le_trans t.nodes_lt_pow (Nat.pow_le_pow_right (by decide) ht)
    exact ⟨⟨by omega, by omega⟩, by omega, ha.2.2.2.1, ha.2.2.2.2, pw _ (by omega), pw _ (by omega)⟩
  have ebc : p.fitting.bc = p.c.P.bc := rfl
  split
  · refine mono ?_ (sizeLoop_spec hrec spR (sizes (e + 1) n) hsz v s hs hv)
    rintro x ⟨l, r, ha, rfl⟩
    obtain ⟨⟨h1, h2⟩, h3, h4, h5, h6, h7⟩ := dec ha
    obtain ⟨ls, hm, g1, g2⟩ := sizes_cover (a := r.nodes) (b := l.nodes) hn hp hd h7 h6 (by omega)
    refine ⟨ls, hm, r, l, allow h2 g1 h5 rfl, allow h1 g2 h4 rfl, ?_⟩
    simp only [Fitting.cost]; omega
  · refine mono ?_ (sizeLoop_spec hrec spL (sizes (e + 1) n) hsz v s hs hv)
    rintro x ⟨l, r, ha, rfl⟩
    obtain ⟨⟨h1, h2⟩, h3, h4, h5, h6, h7⟩ := dec ha
    obtain ⟨ls, hm, g1, g2⟩ := sizes_cover (a := l.nodes) (b := r.nodes) hn hp hd h6 h7 (by omega)
    refine ⟨ls, hm, l, r, allow h1 g1 h4 rfl, allow h2 g2 h5 rfl, ?_⟩
    simp only [Fitting.cost]; omega

theorem featLoop_spec {rec : Rec} {D : Data} {b : Branch} {d n : Nat} {UB0 blb : Node}
    (hrec : RecOK p T rec (d - 1)) (hD : D = sel b T) (hd : 1 ≤ d) (hn : 1 ≤ n) (hp : n + 1 ≤ 2 ^ d)
    (fs : List Nat) (hfs : ∀ f ∈ fs, f < p.c.P.nF) (v : Loc) (s : St) (done : Int → Prop)
    (hs : SOK p T s) (hv : LocOK p T D d n UB0 v)
    (hdone : Open p T → AllOK p.c s.tick → ∀ x : Int, done x → Covers UB0 v (loss p D * (x : ℚ)))
    (hdone' : ∀ x, done x → ∃ f, RootCost p D d n f x) :
    LoopPost p T D d n UB0 v s (fun x => done x ∨ ∃ f ∈ fs, RootCost p D d n f x)
      (featLoop p rec D b d n blb fs v s) := by
  have hv1 : ViewOf T D := by rw [hD]; exact sel_view b T
  have g1 := loss_one p D
  induction fs generalizing v s done with
  | nil =>
    refine ⟨Nat.le_refl _, hs, hv, fun _ => Better.refl _, fun O hH x hx => ?_⟩
    rcases hx with hx | ⟨f, hf, _⟩
    · exact hdone O hH x hx
    · simp at hf
  | cons f fs ih =>
    have tn : s.tick ≤ s.next.tick := Nat.le_succ _
    have hfs' : ∀ g ∈ fs, g < p.c.P.nF := fun g hg => hfs g (List.mem_cons_of_mem _ hg)
    have skip : (Open p T → ∀ x, ¬ RootCost p D d n f x) →
        LoopPost p T D d n UB0 v s (fun x => done x ∨ ∃ g ∈ f :: fs, RootCost p D d n g x)
          (featLoop p rec D b d n blb fs v s.next) := by
      intro hno
      obtain ⟨a1, a2, a3, a4, a5⟩ := ih hfs' v s.next done hs.next hv (fun O h => hdone O (h.mono tn)) hdone'
      refine ⟨by omega, a2, a3, a4, fun O hH x hx => a5 O hH x ?_⟩
      rcases hx with hx | ⟨g, hg, hx⟩
      · exact .inl hx
      · rcases List.mem_cons.1 hg with rfl | hg
        · exact absurd hx (hno O x)
        · exact .inr ⟨g, hg, hx⟩
    have short : Open p T → ∀ x, RootCost p D d n f x → p.c.mls ≤ p.weight (without f D) ∧ p.c.mls ≤ p.weight (having f D) :=
      fun O x ⟨l, r, ha, _⟩ => ⟨O.legal_weight ((without_sublist f D).trans hv1) ha.2.2.2.1,
        O.legal_weight ((having_sublist f D).trans hv1) ha.2.2.2.2⟩
    unfold featLoop
    split
    · rename_i hok
      exact ⟨tn, hs.next, hv, fun _ => Better.refl _, fun _ h => absurd h (not_AllOK_next hok)⟩
    · dsimp only
      split
      · rename_i hc
        exact ⟨tn, hs.next, hv, fun _ => Better.refl _, fun O => by rw [O.noLB] at hc; simp at hc⟩
      · split
        · rename_i hc
          exact ⟨tn, hs.next, hv, fun _ => Better.refl _, fun O => by rw [O.noLB] at hc; simp at hc⟩
        · split
          · rename_i hskip
            refine skip fun O x hx => ?_
            obtain ⟨l0, l1⟩ := short O x hx
            have hm := O.mls
            have hnil := O.nil
            have bad : ¬ (without f D = [] ∨ having f D = []) := by
              rintro (h | h)
              · rw [h] at l0; omega
              · rw [h] at l1; omega
            simp only [Bool.or_eq_true] at hskip
            rcases hskip with h | h
            · rw [hD] at bad; exact bad (sel_pathOK b T f h)
            · exact bad (constant_side hv1 (O.redundant f h))
          · split
            · rename_i hsp
              refine ⟨tn, hs.next, hv, fun _ => Better.refl _, fun O hH x hx => ?_⟩
              have hx' : p.c.P.bc ≤ x := by
                have : ∃ g, RootCost p D d n g x := by
                  rcases hx with hx | ⟨g, _, hx⟩
                  · exact hdone' x hx
                  · exact ⟨g, hx⟩
                obtain ⟨g, l, r, ha, rfl⟩ := this
                have h1 := O.cost_nonneg ((without_sublist g _).trans hv1) ha.2.2.2.1
                have h2 := O.cost_nonneg ((having_sublist g _).trans hv1) ha.2.2.2.2
                have ebc : p.fitting.bc = p.c.P.bc := rfl
                simp only [Fitting.cost]; omega
              have hlt : (v.UB.sol : ℚ) < loss p D * (x : ℚ) := by
                have h1 : (v.UB.sol : ℚ) < x := by exact_mod_cast (by have := hsp.2; omega)
                have h2 : (0 : ℚ) ≤ x := by exact_mod_cast (by have := O.bc; omega)
                nlinarith
              exact covers_of_ub (i := v.inf) O hv hlt
            · split
              · rename_i hlen
                refine skip fun O x hx => ?_
                have := short O x hx
                omega
              · rename_i hlen
                have h1 := feature_spec hrec hD hd hn hp (hfs f (List.mem_cons_self ..)) (by omega) (by omega)
                  v s.next hs.next hv
                generalize (if (without f D).length < (having f D).length then
                    sizeLoop p rec f ⟨having f D, b.child f true⟩ ⟨without f D, b.child f false⟩ true d n (sizes d n) v s.next
                  else sizeLoop p rec f ⟨without f D, b.child f false⟩ ⟨having f D, b.child f true⟩ false d n (sizes d n) v s.next)
                  = r at h1 ⊢
                obtain ⟨t1, s1, l1, st1, c1⟩ := h1
                have h2 := ih hfs' r.1 r.2 (fun x => done x ∨ RootCost p D d n f x) s1 l1 ?_ ?_
                · obtain ⟨a1, a2, a3, a4, a5⟩ := h2
                  refine ⟨by omega, a2, a3, fun O => (st1 O).trans (a4 O), fun O hH x hx => a5 O hH x ?_⟩
                  rcases hx with hx | ⟨g, hg, hx⟩
                  · exact .inl (.inl hx)
                  · rcases List.mem_cons.1 hg with rfl | hg
                    · exact .inl (.inr hx)
                    · exact .inr ⟨g, hg, hx⟩
                · intro O hH x hx
                  rcases hx with hx | hx
                  · exact (hdone O (hH.mono (by omega)) x hx).step O (st1 O) l1
                  · exact c1 O hH x hx
                · intro x hx
                  rcases hx with hx | hx
                  · exact hdone' x hx
                  · exact ⟨f, hx⟩

end
end Streed.Pw
