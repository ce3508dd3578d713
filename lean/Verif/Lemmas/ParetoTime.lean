import Verif.Model.ParetoTime
import Verif.Lemmas.ParetoTree

/-! The search for partially ordered tasks under a time limit: it is sound for every clock, and if no check fails it does what
the search without limit does. -/

namespace Streed

variable {S : Type}

/-- All checks from `t` up to `u` succeed. -/
def InTime (clk : Nat → Bool) (t u : Nat) : Prop := ∀ i, t ≤ i → i < u → clk i = true

theorem InTime.left {clk : Nat → Bool} {t u w : Nat} (h : InTime clk t w) (hu : u ≤ w) : InTime clk t u :=
  fun i h1 h2 => h i h1 (by omega)

theorem InTime.right {clk : Nat → Bool} {t u w : Nat} (h : InTime clk t w) (hu : t ≤ u) : InTime clk u w :=
  fun i h1 h2 => h i (by omega) h2

/-- The timed call makes its checks from `t` on, and does what the other does if they all succeed. -/
def TSim {α : Type} (clk : Nat → Bool) (t : Nat) (x : α) (u : Nat) (y : α) : Prop := t ≤ u ∧ (InTime clk t u → x = y)

/-- A recursive call. -/
def TRecSim (clk : Nat → Bool) (tr : TRec S) (pr : PRec S) : Prop :=
  ∀ D b UB d n s t, TSim clk t ((tr D b UB d n s t).1, (tr D b UB d n s t).2.1, (tr D b UB d n s t).2.2.1)
    (tr D b UB d n s t).2.2.2 (pr D b UB d n s)

section
variable {c : PCfg S} {clk : Nat → Bool} {tr : TRec S} {pr : PRec S}

theorem TRecSim.mono (h : TRecSim clk tr pr) (D b UB d n s t) : t ≤ (tr D b UB d n s t).2.2.2 := (h D b UB d n s t).1

theorem TRecSim.eqs (h : TRecSim clk tr pr) {D b UB d n s t} (hf : InTime clk t (tr D b UB d n s t).2.2.2) :
    (tr D b UB d n s t).1 = (pr D b UB d n s).1 ∧ (tr D b UB d n s t).2.1 = (pr D b UB d n s).2.1 ∧
      (tr D b UB d n s t).2.2.1 = (pr D b UB d n s).2.2 := by
  have e := (h D b UB d n s t).2 hf
  rw [← e]
  exact ⟨rfl, rfl, rfl⟩

theorem sizeStep_sim (hrec : TRecSim clk tr pr) (k f : Nat) (L R : PSide) (sw : Bool) (d n ls : Nat) (v : PLoc S) (s : PSt S)
    (t : Nat) :
    t ≤ (tSizeStep c clk tr k f L R sw d n ls v s t).2.2.2 ∧
    (InTime clk t (tSizeStep c clk tr k f L R sw d n ls v s t).2.2.2 →
      tSizeStep c clk tr k f L R sw d n ls v s t =
        (false, (pSizeStep c pr k f L R sw d n ls v s).1, (pSizeStep c pr k f L R sw d n ls v s).2,
          (tSizeStep c clk tr k f L R sw d n ls v s t).2.2.2)) := by
  unfold tSizeStep pSizeStep
  simp only
  generalize pComputeLRLB c s f L.D L.b (min (d - 1) ls) ls R.D R.b (min (d - 1) (n - ls - 1)) (n - ls - 1) = lbs
  split
  · exact ⟨Nat.le_refl _, fun _ => rfl⟩
  · split
    · exact ⟨Nat.le_refl _, fun _ => rfl⟩
    · have m1 := hrec.mono L.D L.b (pSubtract c k v.UB lbs.2.2 v.sols) (min (d - 1) ls) ls s t
      have q1 := @TRecSim.eqs _ _ _ _ hrec L.D L.b (pSubtract c k v.UB lbs.2.2 v.sols) (min (d - 1) ls) ls s t
      generalize tr L.D L.b (pSubtract c k v.UB lbs.2.2 v.sols) (min (d - 1) ls) ls s t = lr at m1 q1 ⊢
      generalize pr L.D L.b (pSubtract c k v.UB lbs.2.2 v.sols) (min (d - 1) ls) ls s = lp at q1 ⊢
      obtain ⟨a, b, s1, t1⟩ := lr
      obtain ⟨a', b', s1'⟩ := lp
      simp only at m1 q1 ⊢
      split
      · rename_i h
        refine ⟨by simp only; omega, fun hf => ?_⟩
        have := hf t1 m1 (by simp only; omega)
        rw [h] at this
        cases this
      · split
        · rename_i hnil
          refine ⟨by simp only; omega, fun hf => ?_⟩
          obtain ⟨e1, e2, e3⟩ := q1 (hf.left (by simp only; omega))
          subst e1 e2 e3
          rw [if_pos hnil]
        · rename_i hnil
          have m2 := hrec.mono R.D R.b (pSubtract c k v.UB a v.sols) (min (d - 1) (n - ls - 1)) (n - ls - 1) s1 (t1 + 1)
          have q2 := @TRecSim.eqs _ _ _ _ hrec R.D R.b (pSubtract c k v.UB a v.sols) (min (d - 1) (n - ls - 1)) (n - ls - 1) s1 (t1 + 1)
          generalize tr R.D R.b (pSubtract c k v.UB a v.sols) (min (d - 1) (n - ls - 1)) (n - ls - 1) s1 (t1 + 1) = rr at m2 q2 ⊢
          obtain ⟨x, y, s2, t2⟩ := rr
          simp only at m2 q2 ⊢
          split
          · rename_i h
            refine ⟨by simp only; omega, fun hf => ?_⟩
            have := hf t2 (by omega) (by simp only; omega)
            rw [h] at this
            cases this
          · split
            · rename_i hnil2
              refine ⟨by simp only; omega, fun hf => ?_⟩
              simp only at hf
              obtain ⟨e1, e2, e3⟩ := q1 (hf.left (by omega))
              subst e1 e2 e3
              obtain ⟨e1, e2, e3⟩ := q2 ((hf.left (by omega)).right (by omega))
              subst e1 e2 e3
              rw [if_neg hnil, if_pos hnil2]
            · rename_i hnil2
              refine ⟨by simp only; omega, fun hf => ?_⟩
              simp only at hf
              obtain ⟨e1, e2, e3⟩ := q1 (hf.left (by omega))
              subst e1 e2 e3
              obtain ⟨e1, e2, e3⟩ := q2 ((hf.left (by omega)).right (by omega))
              subst e1 e2 e3
              rw [if_neg hnil, if_neg hnil2]

theorem sizeLoop_sim (hrec : TRecSim clk tr pr) (k f : Nat) (L R : PSide) (sw : Bool) (d n : Nat) (lss : List Nat) (v : PLoc S)
    (s : PSt S) (t : Nat) :
    t ≤ (tSizeLoop c clk tr k f L R sw d n lss v s t).2.2 ∧
    (InTime clk t (tSizeLoop c clk tr k f L R sw d n lss v s t).2.2 →
      (tSizeLoop c clk tr k f L R sw d n lss v s t).1 = (pSizeLoop c pr k f L R sw d n lss v s).1 ∧
      (tSizeLoop c clk tr k f L R sw d n lss v s t).2.1 = (pSizeLoop c pr k f L R sw d n lss v s).2) := by
  induction lss generalizing v s t with
  | nil => exact ⟨Nat.le_refl _, fun _ => ⟨rfl, rfl⟩⟩
  | cons ls lss ih =>
    rw [tSizeLoop, pSizeLoop]
    obtain ⟨m, q⟩ := sizeStep_sim (c := c) hrec k f L R sw d n ls v s t
    generalize tSizeStep c clk tr k f L R sw d n ls v s t = r at m q ⊢
    generalize pSizeStep c pr k f L R sw d n ls v s = p at q ⊢
    obtain ⟨stop, v1, s1, t1⟩ := r
    simp only at m q ⊢
    cases stop with
    | true =>
      refine ⟨m, fun hf => ?_⟩
      have := congrArg Prod.fst (q hf)
      simp at this
    | false =>
      simp only [Bool.false_eq_true, if_false]
      obtain ⟨m2, q2⟩ := ih v1 s1 t1
      refine ⟨by omega, fun hf => ?_⟩
      have e := q (hf.left m2)
      simp only [Prod.mk.injEq, true_and, and_true] at e
      obtain ⟨e1, e2⟩ := e
      subst e1 e2
      exact q2 (hf.right m)

theorem featLoop_sim (hrec : TRecSim clk tr pr) (D : Data) (b : Branch) (d n : Nat) (blb : Front S) (fs : List Nat) (v : PLoc S)
    (s : PSt S) (t : Nat) :
    t ≤ (tFeatLoop c clk tr D b d n blb fs v s t).2.2 ∧
    (InTime clk t (tFeatLoop c clk tr D b d n blb fs v s t).2.2 →
      (tFeatLoop c clk tr D b d n blb fs v s t).1 = (pFeatLoop c pr D b d n blb fs v s).1 ∧
      (tFeatLoop c clk tr D b d n blb fs v s t).2.1 = (pFeatLoop c pr D b d n blb fs v s).2) := by
  induction fs generalizing v s t with
  | nil => exact ⟨Nat.le_refl _, fun _ => ⟨rfl, rfl⟩⟩
  | cons f fs ih =>
    rw [tFeatLoop, pFeatLoop]
    split
    · rename_i h
      refine ⟨by simp only; omega, fun hf => ?_⟩
      have := hf t (Nat.le_refl _) (by simp only; omega)
      rw [h] at this
      cases this
    · split
      · exact ⟨by simp only; omega, fun _ => ⟨rfl, rfl⟩⟩
      · split
        · exact ⟨by simp only; omega, fun _ => ⟨rfl, rfl⟩⟩
        · have next : ∀ v s, t ≤ (tFeatLoop c clk tr D b d n blb fs v s (t + 1)).2.2 ∧
              (InTime clk t (tFeatLoop c clk tr D b d n blb fs v s (t + 1)).2.2 →
                (tFeatLoop c clk tr D b d n blb fs v s (t + 1)).1 = (pFeatLoop c pr D b d n blb fs v s).1 ∧
                (tFeatLoop c clk tr D b d n blb fs v s (t + 1)).2.1 = (pFeatLoop c pr D b d n blb fs v s).2) := by
            intro v s
            obtain ⟨m, q⟩ := ih v s (t + 1)
            exact ⟨by omega, fun hf => q (hf.right (by omega))⟩
          split
          · exact next v s
          · simp only
            split
            · exact next v s
            · have body : ∀ L R sw,
                  t ≤ (tFeatLoop c clk tr D b d n blb fs (tSizeLoop c clk tr b.length f L R sw d n (sizes d n) v s (t + 1)).1
                    (tSizeLoop c clk tr b.length f L R sw d n (sizes d n) v s (t + 1)).2.1
                    (tSizeLoop c clk tr b.length f L R sw d n (sizes d n) v s (t + 1)).2.2).2.2 ∧
                  (InTime clk t (tFeatLoop c clk tr D b d n blb fs (tSizeLoop c clk tr b.length f L R sw d n (sizes d n) v s (t + 1)).1
                    (tSizeLoop c clk tr b.length f L R sw d n (sizes d n) v s (t + 1)).2.1
                    (tSizeLoop c clk tr b.length f L R sw d n (sizes d n) v s (t + 1)).2.2).2.2 →
                    (tFeatLoop c clk tr D b d n blb fs (tSizeLoop c clk tr b.length f L R sw d n (sizes d n) v s (t + 1)).1
                      (tSizeLoop c clk tr b.length f L R sw d n (sizes d n) v s (t + 1)).2.1
                      (tSizeLoop c clk tr b.length f L R sw d n (sizes d n) v s (t + 1)).2.2).1 =
                      (pFeatLoop c pr D b d n blb fs (pSizeLoop c pr b.length f L R sw d n (sizes d n) v s).1
                        (pSizeLoop c pr b.length f L R sw d n (sizes d n) v s).2).1 ∧
                    (tFeatLoop c clk tr D b d n blb fs (tSizeLoop c clk tr b.length f L R sw d n (sizes d n) v s (t + 1)).1
                      (tSizeLoop c clk tr b.length f L R sw d n (sizes d n) v s (t + 1)).2.1
                      (tSizeLoop c clk tr b.length f L R sw d n (sizes d n) v s (t + 1)).2.2).2.1 =
                      (pFeatLoop c pr D b d n blb fs (pSizeLoop c pr b.length f L R sw d n (sizes d n) v s).1
                        (pSizeLoop c pr b.length f L R sw d n (sizes d n) v s).2).2) := by
                intro L R sw
                obtain ⟨m, q⟩ := sizeLoop_sim (c := c) hrec b.length f L R sw d n (sizes d n) v s (t + 1)
                generalize tSizeLoop c clk tr b.length f L R sw d n (sizes d n) v s (t + 1) = r at m q ⊢
                obtain ⟨m2, q2⟩ := ih r.1 r.2.1 r.2.2
                refine ⟨by omega, fun hf => ?_⟩
                obtain ⟨e1, e2⟩ := q ((hf.left m2).right (by omega))
                obtain ⟨e3, e4⟩ := q2 (hf.right (by omega))
                rw [e3, e4, e1, e2]
                exact ⟨rfl, rfl⟩
              split
              · exact body _ _ _
              · exact body _ _ _

theorem general_sim (hrec : TRecSim clk tr pr) (D : Data) (b : Branch) (UB : Front S) (d n : Nat) (s : PSt S) (t : Nat) :
    TSim clk t ((tGeneral c clk tr D b UB d n s t).1, (tGeneral c clk tr D b UB d n s t).2.1,
      (tGeneral c clk tr D b UB d n s t).2.2.1) (tGeneral c clk tr D b UB d n s t).2.2.2 (pGeneral c pr D b UB d n s) := by
  unfold tGeneral pGeneral
  simp only
  split
  · exact ⟨Nat.le_refl _, fun _ => rfl⟩
  · generalize pFilterAdd c b.length (pLowerCached c s D b n (d - 1)).sols (pSolveLeaf c D b.length UB).1
      (pSolveLeaf c D b.length UB).2 = st
    obtain ⟨m, q⟩ := featLoop_sim (c := c) hrec D b d n (pComputeLB c s D b d n) (c.order D) ⟨st.1, st.2, Front.empty⟩ s t
    generalize tFeatLoop c clk tr D b d n (pComputeLB c s D b d n) (c.order D) ⟨st.1, st.2, Front.empty⟩ s t = r at m q ⊢
    refine ⟨m, fun hf => ?_⟩
    obtain ⟨e1, e2⟩ := q hf
    rw [← e1, ← e2]

theorem subTree_sim (hrec : TRecSim clk tr pr) : TRecSim clk (tSubTree c clk tr) (pSubTree c pr) := by
  intro D b UB d n s t
  unfold tSubTree
  split
  · rename_i h
    refine ⟨by simp only; omega, fun hf => ?_⟩
    have := hf t (Nat.le_refl _) (by simp only; omega)
    rw [h] at this
    cases this
  · unfold pSubTree
    have one : ∀ {x y : Front S × Front S × PSt S}, x = y → TSim clk t x (t + 1) y := fun e => ⟨by omega, fun _ => e⟩
    split
    · exact one rfl
    · simp only
      split
      · exact one rfl
      · have go : ∀ (lf : Front S) (s : PSt S) (x : Front S × Front S × PSt S × Nat), x = (if c.useTerm = true ∧ d ≤ 2 then
            ((pSolveTerminal c D b (if c.useUB then pRelax c b.length UB.removeTemp lf else UB.removeTemp) d n s).1, UB,
              (pSolveTerminal c D b (if c.useUB then pRelax c b.length UB.removeTemp lf else UB.removeTemp) d n s).2, t + 1)
          else tGeneral c clk tr D b UB d n s (t + 1)) → TSim clk t (x.1, x.2.1, x.2.2.1) x.2.2.2
            (if c.useTerm = true ∧ d ≤ 2 then
            ((pSolveTerminal c D b (if c.useUB then pRelax c b.length UB.removeTemp lf else UB.removeTemp) d n s).1, UB,
              (pSolveTerminal c D b (if c.useUB then pRelax c b.length UB.removeTemp lf else UB.removeTemp) d n s).2)
          else pGeneral c pr D b UB d n s) := by
          intro lf s x hx
          subst hx
          split
          · exact one rfl
          · obtain ⟨m, q⟩ := general_sim (c := c) hrec D b UB d n s (t + 1)
            exact ⟨by omega, fun hf => q (hf.right (by omega))⟩
        split
        · generalize pUseSimilarity c s D b d n = sim
          split
          · exact one rfl
          · split
            · exact one rfl
            · split
              · exact one rfl
              · exact go _ _ _ rfl
        · exact go _ _ _ rfl

theorem solveSub_sim (fuel : Nat) : TRecSim clk (tSolveSub c clk fuel) (pSolveSub c fuel) := by
  induction fuel with
  | zero => exact subTree_sim fun D b UB d n s t => ⟨Nat.le_refl _, fun _ => rfl⟩
  | succ k ih => exact subTree_sim ih

theorem rootRun_sim (md : Nat) (D : Data) (r : TRun S) (p : Nat × Nat) :
    r.tick ≤ (tRootRun c clk md D r p).tick ∧ (tRootRun c clk md D r p).depth = p.1 ∧
    (InTime clk r.tick (tRootRun c clk md D r p).tick → (tRootRun c clk md D r p).run = pRootRun c md D r.run p) := by
  have m := (solveSub_sim (c := c) (clk := clk) md).mono D [] r.run.gUB p.1 p.2 r.run.st r.tick
  refine ⟨m, rfl, fun hf => ?_⟩
  obtain ⟨e1, e2, e3⟩ := (solveSub_sim (c := c) (clk := clk) md).eqs hf
  unfold tRootRun pRootRun
  simp only
  rw [e1, e2, e3]

theorem sizeRuns_sim (md : Nat) (D : Data) (bs : List (Nat × Nat)) (r : TRun S) :
    r.tick ≤ (tSizeRuns c clk md D bs r).tick ∧
    (InTime clk r.tick (tSizeRuns c clk md D bs r).tick → (tSizeRuns c clk md D bs r).run = bs.foldl (pRootRun c md D) r.run ∧
      (tSizeRuns c clk md D bs r).depth = (bs.map (·.1)).getLastD r.depth) := by
  induction bs generalizing r with
  | nil => exact ⟨Nat.le_refl _, fun _ => ⟨rfl, rfl⟩⟩
  | cons p ps ih =>
    rw [tSizeRuns]
    split
    · rename_i h
      refine ⟨by simp only; omega, fun hf => ?_⟩
      have := hf r.tick (Nat.le_refl _) (by simp only; omega)
      rw [h] at this
      cases this
    · simp only
      obtain ⟨m, dp, q⟩ := rootRun_sim (c := c) (clk := clk) md D { r with tick := r.tick + 1 } p
      generalize tRootRun c clk md D { r with tick := r.tick + 1 } p = x at m dp q ⊢
      simp only at m dp q
      split
      · rename_i h
        refine ⟨by simp only; omega, fun hf => ?_⟩
        have := hf x.tick (by omega) (by simp only; omega)
        rw [h] at this
        cases this
      · obtain ⟨m2, q2⟩ := ih { x with tick := x.tick + 1 }
        simp only at m2 q2
        refine ⟨by omega, fun hf => ?_⟩
        obtain ⟨e1, e2⟩ := q2 (hf.right (by omega))
        rw [e1, e2, q ((hf.left (by omega)).right (by omega)), dp, List.foldl_cons, List.map_cons, List.getLastD_cons]
        exact ⟨rfl, rfl⟩

theorem depthRuns_sim (md : Nat) (D : Data) (bs : List (Nat × Nat)) (r : TRun S) :
    r.tick ≤ (tDepthRuns c clk md D bs r).tick ∧
    (InTime clk r.tick (tDepthRuns c clk md D bs r).tick → (tDepthRuns c clk md D bs r).run = bs.foldl (pRootRun c md D) r.run ∧
      (tDepthRuns c clk md D bs r).depth = (bs.map (·.1)).getLastD r.depth) := by
  induction bs generalizing r with
  | nil => exact ⟨Nat.le_refl _, fun _ => ⟨rfl, rfl⟩⟩
  | cons p ps ih =>
    rw [tDepthRuns]
    obtain ⟨m, dp, q⟩ := rootRun_sim (c := c) (clk := clk) md D r p
    generalize tRootRun c clk md D r p = x at m dp q ⊢
    split
    · rename_i h
      refine ⟨by simp only; omega, fun hf => ?_⟩
      have := hf x.tick (by omega) (by simp only; omega)
      rw [h] at this
      cases this
    · obtain ⟨m2, q2⟩ := ih { x with tick := x.tick + 1 }
      simp only at m2 q2
      refine ⟨by omega, fun hf => ?_⟩
      obtain ⟨e1, e2⟩ := q2 (hf.right (by omega))
      rw [e1, e2, q (hf.left (by omega)), dp, List.foldl_cons, List.map_cons, List.getLastD_cons]
      exact ⟨rfl, rfl⟩

/-- If all checks of the run succeed, it ends with what the search without limit ends with. -/
theorem tSolve_sim (md mn : Nat) (allTrees : Bool) (D : Data)
    (hf : InTime clk 0 (tSolve c clk md mn allTrees D).1.tick) :
    (tSolve c clk md mn allTrees D).1.run = pSolve c md mn allTrees D ∧
      (tSolve c clk md mn allTrees D).1.depth = pDepthSearched md mn allTrees := by
  unfold tSolve at hf ⊢
  unfold pSolve pDepthSearched
  simp only at hf ⊢
  split at hf
  · rename_i h
    rw [if_pos h]
    exact (sizeRuns_sim md D _ _).2 hf
  · rename_i h
    rw [if_neg h]
    exact (depthRuns_sim md D _ _).2 hf

end

/-! ### Soundness -/

section
variable {c : PCfg S} {clk : Nat → Bool} {T : Data} (G : PSound c T)

/-- What is known of the result of a call. -/
structure TSPost (c : PCfg S) (T : Data) (D : Data) (d n : Nat) (r : Front S × Front S × PSt S × Nat) : Prop where
  st : PSInv c T r.2.2.1
  real : FReal c D d n r.1

/-- The recursive call meets its specification. -/
def TSRecOK (c : PCfg S) (T : Data) (rec : TRec S) : Prop :=
  ∀ D b UB d n s t, D = sel b T → (c.useTerm = true → n + 1 ≤ 2 ^ d) → PSInv c T s → TSPost c T D d n (rec D b UB d n s t)

theorem sizeStep_tsound {rec : TRec S} {D : Data} {k d n ls f : Nat} {L R : PSide} {sw : Bool} {v : PLoc S} {s : PSt S} {t : Nat}
    (hrec : TSRecOK c T rec) (hsp : PSSplit c T D L R sw f) (hd : 1 ≤ d) (hls : ls + 1 ≤ n)
    (hp1 : c.useTerm = true → ls + 1 ≤ 2 ^ (min (d - 1) ls))
    (hp2 : c.useTerm = true → n - ls - 1 + 1 ≤ 2 ^ (min (d - 1) (n - ls - 1)))
    (hs : PSInv c T s) (hv : FReal c D d n v.sols) :
    PSInv c T (tSizeStep c clk rec k f L R sw d n ls v s t).2.2.1 ∧
      FReal c D d n (tSizeStep c clk rec k f L R sw d n ls v s t).2.1.sols := by
  unfold tSizeStep
  simp only
  generalize pComputeLRLB c s f L.D L.b (min (d - 1) ls) ls R.D R.b (min (d - 1) (n - ls - 1)) (n - ls - 1) = lbs
  split
  · exact ⟨hs, hv⟩
  · split
    · exact ⟨hs, hv⟩
    · have qL := hrec L.D L.b (pSubtract c k v.UB lbs.2.2 v.sols) (min (d - 1) ls) ls s t hsp.aL hp1 hs
      generalize rec L.D L.b (pSubtract c k v.UB lbs.2.2 v.sols) (min (d - 1) ls) ls s t = lr at qL
      split
      · exact ⟨qL.st, hv⟩
      · split
        · exact ⟨qL.st, hv⟩
        · have qR := hrec R.D R.b (pSubtract c k v.UB lr.1 v.sols) (min (d - 1) (n - ls - 1)) (n - ls - 1) lr.2.2.1
            (lr.2.2.2 + 1) hsp.aR hp2 qL.st
          generalize rec R.D R.b (pSubtract c k v.UB lr.1 v.sols) (min (d - 1) (n - ls - 1)) (n - ls - 1) lr.2.2.1
            (lr.2.2.2 + 1) = rr at qR
          split
          · exact ⟨qR.st, hv⟩
          · split
            · exact ⟨qR.st, hv⟩
            · refine ⟨qR.st, ?_⟩
              apply hv.filterAdd
              have rl := qL.real.mono (Nat.min_le_left (d - 1) ls) (Nat.le_refl ls)
              have rr' := qR.real.mono (Nat.min_le_left (d - 1) (n - ls - 1)) (Nat.le_refl (n - ls - 1))
              have hdat := hsp.data
              cases sw with
              | false =>
                simp only [Bool.false_eq_true, if_false] at hdat ⊢
                rw [hdat.1] at rl
                rw [hdat.2] at rr'
                exact products_real hsp.feat hsp.may hd (by omega) rl rr'
              | true =>
                simp only [if_true] at hdat ⊢
                rw [hdat.1] at rl
                rw [hdat.2] at rr'
                exact products_real hsp.feat hsp.may hd (by omega) rr' rl

theorem sizeLoop_tsound {rec : TRec S} {D : Data} {k d n f : Nat} {L R : PSide} {sw : Bool}
    (hrec : TSRecOK c T rec) (hsp : PSSplit c T D L R sw f) (hd : 1 ≤ d) (lss : List Nat)
    (hls : ∀ ls ∈ lss, ls + 1 ≤ n ∧ (c.useTerm = true → ls + 1 ≤ 2 ^ (min (d - 1) ls)) ∧
      (c.useTerm = true → n - ls - 1 + 1 ≤ 2 ^ (min (d - 1) (n - ls - 1))))
    (v : PLoc S) (s : PSt S) (t : Nat) (hs : PSInv c T s) (hv : FReal c D d n v.sols) :
    PSInv c T (tSizeLoop c clk rec k f L R sw d n lss v s t).2.1 ∧
      FReal c D d n (tSizeLoop c clk rec k f L R sw d n lss v s t).1.sols := by
  induction lss generalizing v s t with
  | nil => exact ⟨hs, hv⟩
  | cons ls lss ih =>
    rw [tSizeLoop]
    obtain ⟨h1, h2, h3⟩ := hls ls (by simp)
    obtain ⟨a1, a2⟩ := sizeStep_tsound (clk := clk) (k := k) (t := t) hrec hsp hd h1 h2 h3 hs hv
    split
    · exact ⟨a1, a2⟩
    · exact ih (fun x hx => hls x (by simp [hx])) _ _ _ a1 a2

theorem featLoop_tsound {rec : TRec S} {D : Data} {b : Branch} {d n : Nat} (hrec : TSRecOK c T rec) (ha : D = sel b T)
    (hd : 1 ≤ d) (hn : 1 ≤ n) (hp : c.useTerm = true → n + 1 ≤ 2 ^ d) (blb : Front S) (fs : List Nat) (hfs : ∀ f ∈ fs, f < c.T.nF)
    (v : PLoc S) (s : PSt S) (t : Nat) (hs : PSInv c T s) (hv : FReal c D d n v.sols) :
    PSInv c T (tFeatLoop c clk rec D b d n blb fs v s t).2.1 ∧
      FReal c D d n (tFeatLoop c clk rec D b d n blb fs v s t).1.sols := by
  induction fs generalizing v s t with
  | nil => exact ⟨hs, hv⟩
  | cons f fs ih =>
    have hfs' : ∀ g ∈ fs, g < c.T.nF := fun g hg => hfs g (by simp [hg])
    rw [tFeatLoop]
    split
    · exact ⟨hs, hv⟩
    · split
      · exact ⟨hs, hv⟩
      · split
        · exact ⟨hs, hv⟩
        · split
          · exact ih hfs' v s _ hs hv
          · rename_i hb
            have hmay : c.T.may f = true := by
              cases h : c.T.may f with
              | true => rfl
              | false => rw [h] at hb; simp at hb
            simp only
            split
            · exact ih hfs' v s _ hs hv
            · obtain ⟨e0, e1⟩ := sel_side ha f
              split
              · obtain ⟨a1, a2⟩ := sizeLoop_tsound (clk := clk) (k := b.length) (L := ⟨having f D, b.child f true⟩)
                  (R := ⟨without f D, b.child f false⟩) (sw := true) hrec ⟨e1, e0, hfs f (by simp), hmay, ⟨rfl, rfl⟩⟩ hd
                  (sizes d n) (sizes_psound hd hn hp) v s (t + 1) hs hv
                exact ih hfs' _ _ _ a1 a2
              · obtain ⟨a1, a2⟩ := sizeLoop_tsound (clk := clk) (k := b.length) (L := ⟨without f D, b.child f false⟩)
                  (R := ⟨having f D, b.child f true⟩) (sw := false) hrec ⟨e0, e1, hfs f (by simp), hmay, ⟨rfl, rfl⟩⟩ hd
                  (sizes d n) (sizes_psound hd hn hp) v s (t + 1) hs hv
                exact ih hfs' _ _ _ a1 a2

include G

theorem general_tsound {rec : TRec S} {D : Data} {b : Branch} {d n : Nat} (hrec : TSRecOK c T rec) (ha : D = sel b T)
    (hd : 1 ≤ d) (hn : 1 ≤ n) (hp : c.useTerm = true → n + 1 ≤ 2 ^ d) (UB : Front S) (s : PSt S) (t : Nat) (hs : PSInv c T s) :
    TSPost c T D d n (tGeneral c clk rec D b UB d n s t) := by
  have hl := solveLeaf_psound c D b.length d n UB
  unfold tGeneral
  simp only
  split
  · exact ⟨hs, hl⟩
  · have h1 := hl.filterAdd (lowerCached_psound hs.cache ha n (d - 1) d (by omega)) b.length (pSolveLeaf c D b.length UB).2
    generalize pFilterAdd c b.length (pLowerCached c s D b n (d - 1)).sols (pSolveLeaf c D b.length UB).1
      (pSolveLeaf c D b.length UB).2 = st at *
    obtain ⟨g1, g2⟩ := featLoop_tsound (clk := clk) hrec ha hd hn hp (pComputeLB c s D b d n) (c.order D)
      (G.feats D) ⟨st.1, st.2, Front.empty⟩ s t hs h1
    generalize tFeatLoop c clk rec D b d n (pComputeLB c s D b d n) (c.order D) ⟨st.1, st.2, Front.empty⟩ s t = q at *
    refine ⟨?_, g2⟩
    refine PSInv.archive (g1.setCache ?_) ha d
    split
    · exact g1.cache.storeOpt G ha g2
    · exact g1.cache.updateLB G ha _ _ _

theorem subTree_tsound {rec : TRec S} (hrec : TSRecOK c T rec) : TSRecOK c T (tSubTree c clk rec) := by
  intro D b UB d n s t ha hp hs
  unfold tSubTree
  split
  · exact ⟨hs, FReal.empty _ _ _ _⟩
  · split
    · exact ⟨hs, solveLeaf_psound _ _ _ _ _ _⟩
    · rename_i h0
      have hd : 1 ≤ d := by omega
      have hn : 1 ≤ n := by omega
      simp only
      split
      · exact ⟨hs, hs.cache.retrieveOpt ha _ _⟩
      · have go : ∀ (lf : Front S) (s : PSt S), PSInv c T s → TSPost c T D d n
            (if c.useTerm = true ∧ d ≤ 2 then
              ((pSolveTerminal c D b (if c.useUB then pRelax c b.length UB.removeTemp lf else UB.removeTemp) d n s).1, UB,
                (pSolveTerminal c D b (if c.useUB then pRelax c b.length UB.removeTemp lf else UB.removeTemp) d n s).2, t + 1)
            else tGeneral c clk rec D b UB d n s (t + 1)) := by
          intro lf s hs
          split
          · rename_i ht
            obtain ⟨a, b⟩ := solveTerminal_psound G ha (if c.useUB then pRelax c b.length UB.removeTemp lf else UB.removeTemp) hd hn
              (hp ht.1) hs
            exact ⟨a, b⟩
          · exact general_tsound G hrec ha hd hn hp UB s _ hs
        split
        · have h1 := useSimilarity_psound G hs ha d n
          generalize pUseSimilarity c s D b d n = sim at h1
          split
          · exact ⟨h1, h1.cache.retrieveOpt ha _ _⟩
          · split
            · exact ⟨h1, FReal.empty _ _ _ _⟩
            · split
              · exact ⟨h1, solveLeaf_psound _ _ _ _ _ _⟩
              · exact go _ _ h1
        · exact go _ _ hs

theorem solveSub_tsound (fuel : Nat) : TSRecOK c T (tSolveSub c clk fuel) := by
  induction fuel with
  | zero => exact subTree_tsound G fun D b UB d n s t _ _ hs => ⟨hs, FReal.empty _ _ _ _⟩
  | succ k ih => exact subTree_tsound G ih

theorem rootRun_tsound (md mn : Nat) (p : Nat × Nat) (hp : p.1 ≤ md ∧ p.2 ≤ mn ∧ p.2 + 1 ≤ 2 ^ p.1)
    (r : TRun S) (hs : PSInv c T r.run.st) (hr : FReal c T md mn r.run.result) :
    PSInv c T (tRootRun c clk md T r p).run.st ∧ FReal c T md mn (tRootRun c clk md T r p).run.result := by
  obtain ⟨h1, h2, h3⟩ := hp
  have q := solveSub_tsound (clk := clk) G md T [] r.run.gUB p.1 p.2 r.run.st r.tick (sel_nil T).symm (fun _ => h3) hs
  exact ⟨q.st, hr.putAllAt (q.real.mono h1 h2) 0⟩

theorem sizeRuns_tsound (md mn : Nat) (bs : List (Nat × Nat)) (hbs : ∀ p ∈ bs, p.1 ≤ md ∧ p.2 ≤ mn ∧ p.2 + 1 ≤ 2 ^ p.1)
    (r : TRun S) (hs : PSInv c T r.run.st) (hr : FReal c T md mn r.run.result) :
    PSInv c T (tSizeRuns c clk md T bs r).run.st ∧ FReal c T md mn (tSizeRuns c clk md T bs r).run.result := by
  induction bs generalizing r with
  | nil => exact ⟨hs, hr⟩
  | cons p ps ih =>
    rw [tSizeRuns]
    split
    · exact ⟨hs, hr⟩
    · obtain ⟨a, b⟩ := rootRun_tsound (clk := clk) G md mn p (hbs p (by simp)) { r with tick := r.tick + 1 } hs hr
      simp only
      split
      · exact ⟨a, b⟩
      · exact ih (fun x hx => hbs x (by simp [hx])) _ a b

theorem depthRuns_tsound (md mn : Nat) (bs : List (Nat × Nat)) (hbs : ∀ p ∈ bs, p.1 ≤ md ∧ p.2 ≤ mn ∧ p.2 + 1 ≤ 2 ^ p.1)
    (r : TRun S) (hs : PSInv c T r.run.st) (hr : FReal c T md mn r.run.result) :
    PSInv c T (tDepthRuns c clk md T bs r).run.st ∧ FReal c T md mn (tDepthRuns c clk md T bs r).run.result := by
  induction bs generalizing r with
  | nil => exact ⟨hs, hr⟩
  | cons p ps ih =>
    rw [tDepthRuns]
    obtain ⟨a, b⟩ := rootRun_tsound (clk := clk) G md mn p (hbs p (by simp)) r hs hr
    split
    · exact ⟨a, b⟩
    · exact ih (fun x hx => hbs x (by simp [hx])) _ a b

/-- The search is sound whatever the options and the clock. -/
theorem tSolve_sound (clk : Nat → Bool) (md mn : Nat) (hp : mn + 1 ≤ 2 ^ md) (allTrees : Bool) :
    PSInv c T (tSolve c clk md mn allTrees T).1.run.st ∧ FReal c T md mn (tSolve c clk md mn allTrees T).1.run.result := by
  unfold tSolve
  simp only
  split
  · exact sizeRuns_tsound G md mn _ (fun p h => pBudgets_ok hp h) _ PSInv.init (solveLeaf_psound c T 0 md mn Front.empty)
  · exact depthRuns_tsound G md mn _ (fun p h => pBudgets_ok hp h) _ PSInv.init (solveLeaf_psound c T 0 md mn Front.empty)

end

/-! ### How many checks are made after the limit -/

section
variable {c : PCfg S} {clk : Nat → Bool} {k : Nat}

/-- From the `k`-th check on, calls make at most `a` more checks. -/
def TStop (k a : Nat) (tr : TRec S) : Prop := ∀ D b UB d n s t, (tr D b UB d n s t).2.2.2 ≤ max t k + a

theorem sizeStep_stop {tr : TRec S} {a : Nat} (hk : ∀ i, k ≤ i → clk i = false) (hrec : TStop k a tr) (kk f : Nat) (L R : PSide)
    (sw : Bool) (d n ls : Nat) (v : PLoc S) (s : PSt S) (t : Nat) (ht : t ≤ k) :
    (tSizeStep c clk tr kk f L R sw d n ls v s t).2.2.2 ≤ k + (a + 1) ∧
      ((tSizeStep c clk tr kk f L R sw d n ls v s t).1 = false → (tSizeStep c clk tr kk f L R sw d n ls v s t).2.2.2 ≤ k) := by
  have lt : ∀ {i}, ¬ clk i = false → i + 1 ≤ k := by
    intro i h
    by_contra hc
    exact h (hk i (by omega))
  unfold tSizeStep
  simp only
  generalize pComputeLRLB c s f L.D L.b (min (d - 1) ls) ls R.D R.b (min (d - 1) (n - ls - 1)) (n - ls - 1) = lbs
  split
  · exact ⟨by simp only; omega, fun _ => ht⟩
  · split
    · exact ⟨by simp only; omega, fun _ => ht⟩
    · have h1 := hrec L.D L.b (pSubtract c kk v.UB lbs.2.2 v.sols) (min (d - 1) ls) ls s t
      generalize tr L.D L.b (pSubtract c kk v.UB lbs.2.2 v.sols) (min (d - 1) ls) ls s t = lr at h1
      split
      · exact ⟨by simp only; omega, fun h => by simp at h⟩
      · rename_i hc
        have h2 := lt hc
        split
        · exact ⟨by simp only; omega, fun _ => h2⟩
        · have h3 := hrec R.D R.b (pSubtract c kk v.UB lr.1 v.sols) (min (d - 1) (n - ls - 1)) (n - ls - 1) lr.2.2.1 (lr.2.2.2 + 1)
          generalize tr R.D R.b (pSubtract c kk v.UB lr.1 v.sols) (min (d - 1) (n - ls - 1)) (n - ls - 1) lr.2.2.1
            (lr.2.2.2 + 1) = rr at h3
          split
          · exact ⟨by simp only; omega, fun h => by simp at h⟩
          · rename_i hc
            have h4 := lt hc
            split
            · exact ⟨by simp only; omega, fun _ => h4⟩
            · exact ⟨by simp only; omega, fun _ => h4⟩

theorem sizeLoop_stop {tr : TRec S} {a : Nat} (hk : ∀ i, k ≤ i → clk i = false) (hrec : TStop k a tr) (kk f : Nat) (L R : PSide)
    (sw : Bool) (d n : Nat) (lss : List Nat) (v : PLoc S) (s : PSt S) (t : Nat) (ht : t ≤ k) :
    (tSizeLoop c clk tr kk f L R sw d n lss v s t).2.2 ≤ k + (a + 1) := by
  induction lss generalizing v s t with
  | nil => rw [tSizeLoop]; simp only; omega
  | cons ls lss ih =>
    rw [tSizeLoop]
    obtain ⟨h1, h2⟩ := sizeStep_stop (c := c) hk hrec kk f L R sw d n ls v s t ht
    generalize tSizeStep c clk tr kk f L R sw d n ls v s t = r at h1 h2
    obtain ⟨stop, v1, s1, t1⟩ := r
    cases stop with
    | true => exact h1
    | false => exact ih v1 s1 t1 (h2 rfl)

theorem featLoop_stop {tr : TRec S} {a : Nat} (hk : ∀ i, k ≤ i → clk i = false) (hrec : TStop k a tr) (D : Data) (b : Branch)
    (d n : Nat) (blb : Front S) (fs : List Nat) (v : PLoc S) (s : PSt S) (t : Nat) (ht : t ≤ k + (a + 1)) :
    (tFeatLoop c clk tr D b d n blb fs v s t).2.2 ≤ k + (a + 2) := by
  induction fs generalizing v s t with
  | nil => rw [tFeatLoop]; simp only; omega
  | cons f fs ih =>
    rw [tFeatLoop]
    split
    · simp only; omega
    · rename_i hc
      have h2 : t + 1 ≤ k := by
        by_contra h
        exact hc (hk t (by omega))
      split
      · simp only; omega
      · split
        · simp only; omega
        · split
          · exact ih v s _ (by omega)
          · simp only
            split
            · exact ih v s _ (by omega)
            · split
              · exact ih _ _ _ (sizeLoop_stop hk hrec _ _ _ _ _ _ _ _ _ _ _ h2)
              · exact ih _ _ _ (sizeLoop_stop hk hrec _ _ _ _ _ _ _ _ _ _ _ h2)

theorem subTree_stop {tr : TRec S} {a : Nat} (hk : ∀ i, k ≤ i → clk i = false) (hrec : TStop k a tr) :
    TStop k (a + 2) (tSubTree c clk tr) := by
  intro D b UB d n s t
  unfold tSubTree
  split
  · simp only; omega
  · rename_i hc
    have h2 : t + 1 ≤ k := by
      by_contra h
      exact hc (hk t (by omega))
    have gen : ∀ s, (tGeneral c clk tr D b UB d n s (t + 1)).2.2.2 ≤ k + (a + 2) := by
      intro s
      unfold tGeneral
      simp only
      split
      · simp only; omega
      · exact featLoop_stop hk hrec D b d n _ _ _ _ _ (by omega)
    split
    · simp only; omega
    · simp only
      split
      · simp only; omega
      · have go : ∀ (lf : Front S) (s : PSt S), (if c.useTerm = true ∧ d ≤ 2 then
            ((pSolveTerminal c D b (if c.useUB then pRelax c b.length UB.removeTemp lf else UB.removeTemp) d n s).1, UB,
              (pSolveTerminal c D b (if c.useUB then pRelax c b.length UB.removeTemp lf else UB.removeTemp) d n s).2, t + 1)
          else tGeneral c clk tr D b UB d n s (t + 1)).2.2.2 ≤ max t k + (a + 2) := by
          intro lf s
          split
          · simp only; omega
          · have := gen s; omega
        split
        · generalize pUseSimilarity c s D b d n = sim
          split
          · simp only; omega
          · split
            · simp only; omega
            · split
              · simp only; omega
              · exact go _ _
        · exact go _ _

theorem solveSub_stop (hk : ∀ i, k ≤ i → clk i = false) (fuel : Nat) : TStop k (2 * fuel + 2) (tSolveSub c clk fuel) := by
  induction fuel with
  | zero => exact subTree_stop (a := 0) hk fun D b UB d n s t => by simp only; omega
  | succ j ih =>
    have := subTree_stop (c := c) hk ih
    exact this

theorem sizeRuns_stop (hk : ∀ i, k ≤ i → clk i = false) (md : Nat) (D : Data) (bs : List (Nat × Nat)) (r : TRun S)
    (hr : r.tick ≤ k + (2 * md + 3)) : (tSizeRuns c clk md D bs r).tick ≤ k + (2 * md + 4) := by
  induction bs generalizing r with
  | nil => rw [tSizeRuns]; omega
  | cons p ps ih =>
    rw [tSizeRuns]
    split
    · simp only; omega
    · rename_i hc
      have h2 : r.tick + 1 ≤ k := by
        by_contra h
        exact hc (hk _ (by omega))
      have h := solveSub_stop (c := c) hk md D [] r.run.gUB p.1 p.2 r.run.st (r.tick + 1)
      have e : (tRootRun c clk md D { r with tick := r.tick + 1 } p).tick ≤ k + (2 * md + 2) := by
        have : max (r.tick + 1) k = k := by omega
        rw [this] at h
        exact h
      simp only
      split
      · simp only; omega
      · exact ih _ (by simp only; omega)

theorem depthRuns_stop (hk : ∀ i, k ≤ i → clk i = false) (md : Nat) (D : Data) (bs : List (Nat × Nat)) (r : TRun S)
    (hr : r.tick ≤ k) : (tDepthRuns c clk md D bs r).tick ≤ k + (2 * md + 4) := by
  induction bs generalizing r with
  | nil => rw [tDepthRuns]; omega
  | cons p ps ih =>
    rw [tDepthRuns]
    have h := solveSub_stop (c := c) hk md D [] r.run.gUB p.1 p.2 r.run.st r.tick
    have e : (tRootRun c clk md D r p).tick ≤ k + (2 * md + 2) := by
      have : max r.tick k = k := by omega
      rw [this] at h
      exact h
    split
    · simp only; omega
    · rename_i hc
      exact ih _ (by
        by_contra h
        simp only at h
        exact hc (hk _ (by omega)))

/-- The search stops soon after the limit. -/
theorem tSolve_stop (hk : ∀ i, k ≤ i → clk i = false) (md mn : Nat) (allTrees : Bool) (D : Data) :
    (tSolve c clk md mn allTrees D).1.tick ≤ k + (2 * md + 4) := by
  unfold tSolve
  simp only
  split
  · exact sizeRuns_stop hk md D _ _ (by simp only; omega)
  · exact depthRuns_stop hk md D _ _ (by simp only; omega)

end

end Streed
