import Verif.Lemmas.Top
import Verif.Model.Tol

/-! The comparisons with a tolerance decide as the exact ones when all costs are below 10000 units. -/

namespace Streed

theorem tol_sdom_right {a b : Int} (h : 0 ≤ b ∧ b ≤ 10000) : Tol.sdom a b ↔ a < b := by
  unfold Tol.sdom; omega

theorem tol_sdom_left {a b : Int} (h : 0 ≤ a ∧ a < 10000) : Tol.sdom a b ↔ a < b := by
  unfold Tol.sdom; omega

theorem tol_same {a b : Int} (h : 0 ≤ a ∧ a < 10000) : Tol.same a b ↔ a = b := by
  unfold Tol.same; omega

theorem tol_dom {a b : Int} (h : 0 ≤ a ∧ a < 10000) : Tol.dom a b ↔ a ≤ b := by
  unfold Tol.dom; omega

theorem ite_same {α : Type} {p q : Prop} [Decidable p] [Decidable q] {x x' y y' : α} (h : p ↔ q)
    (h1 : q → x = x') (h2 : ¬ q → y = y') : (if p then x else y) = if q then x' else y' := by
  by_cases hq : q
  · rw [if_pos hq, if_pos (h.2 hq), h1 hq]
  · rw [if_neg hq, if_neg (fun hp => hq (h.1 hp)), h2 hq]

/-- When the tolerance has no effect: every tree costs less than 10000 units, "no solution" is far above,
the clock does not recover, and no bounds are copied between paths. -/
structure Fine (c : Cfg) (T : Data) : Prop where
  good : Good c T
  clock : Monotone c.clock
  cost : ∀ D, ViewOf T D → ∀ t : Tree, t.Legal c.P c.mls D → t.cost c.P D < 10000
  worst : 20000 ≤ c.worst
  copy : c.useBr = false ∨ c.simLB = false

section
variable {c : Cfg} {T : Data} (F : Fine c T)
include F

theorem Fine.real {D : Data} (hD : ViewOf T D) {d : Nat} {v : Node} (h : Real c.P c.mls d D v) :
    0 ≤ v.sol ∧ v.sol < 10000 := by
  obtain ⟨t, _, _, h3, h4⟩ := h
  rw [← h4]
  exact ⟨F.good.cost_nonneg hD t, F.cost D hD t h3⟩

theorem Fine.leaf {D : Data} (hD : ViewOf T D) (hm : c.mls ≤ D.length) {k : Nat} (hk : k < c.P.nL) :
    0 ≤ leafCost c.P D k ∧ leafCost c.P D k < 10000 :=
  ⟨F.good.cost_nonneg hD (.leaf k), F.cost D hD (.leaf k) ⟨hk, hm⟩⟩

theorem tol_leafLoop {D : Data} (hD : ViewOf T D) (hm : c.mls ≤ D.length) (ks : List Nat) (hks : ∀ k ∈ ks, k < c.P.nL)
    (r UB : Node) : Tol.leafLoop c D ks r UB = leafLoop c D ks r UB := by
  induction ks generalizing r UB with
  | nil => rfl
  | cons k ks ih =>
    have h1 := F.leaf hD hm (hks k (List.mem_cons_self ..))
    have ih := ih fun j hj => hks j (List.mem_cons_of_mem _ hj)
    unfold Tol.leafLoop leafLoop
    dsimp only
    refine ite_same (and_congr_right fun _ => tol_sdom_right ?_) (fun _ => ih _ _) fun _ => ih _ _
    exact ⟨h1.1, by have := h1.2; simp only [Node.leaf]; omega⟩

theorem tol_solveLeaf {D : Data} (hD : ViewOf T D) (UB : Node) : Tol.solveLeaf c D UB = solveLeaf c D UB := by
  unfold Tol.solveLeaf solveLeaf
  split
  · rfl
  · exact tol_leafLoop F hD (by omega) _ (fun k hk => List.mem_range.1 hk) _ _

theorem tol_computeLB (s : St) (D : Data) (b : Branch) (d n : Nat) :
    Tol.computeLB c s D b d n = computeLB c s D b d n := by
  unfold Tol.computeLB computeLB
  split
  · rename_i h
    have hsp : c.sparse = false := by
      cases h' : c.sparse with
      | false => rfl
      | true => rw [(F.good.sparse h').1] at h; simp at h
    dsimp only
    rw [if_neg (by rw [hsp]; simp), if_neg (by rw [hsp]; simp)]
  · rfl

theorem tol_computeLRLB (s : St) (f : Nat) (DL : Data) (bl : Branch) (dl nl : Nat) (DR : Data) (br : Branch)
    (dr nr : Nat) : Tol.computeLRLB c s f DL bl dl nl DR br dr nr = computeLRLB c s f DL bl dl nl DR br dr nr := by
  unfold Tol.computeLRLB computeLRLB
  rw [tol_computeLB F, tol_computeLB F]

theorem computeLB_nonneg (s : St) (D : Data) (b : Branch) (d n : Nat) : 0 ≤ (computeLB c s D b d n).sol := by
  unfold computeLB
  split
  · rename_i h
    have hsp : c.sparse = false := by
      cases h' : c.sparse with
      | false => rfl
      | true => rw [(F.good.sparse h').1] at h; simp at h
    dsimp only
    rw [if_neg (by rw [hsp]; simp)]
    have key : ∀ a b : Node, a.sol ≤ (Node.addMax a b).sol := by
      intro a b; unfold Node.addMax; split <;> omega
    exact Int.le_trans (Int.le_trans (Int.le_refl 0) (key (Node.value 0) _)) (key _ _)
  · exact Int.le_refl _

theorem computeLB_range {s : St} (hs : StOK c T s) {D : Data} {b : Branch} (hD : D = sel b T) (hm : c.mls ≤ D.length)
    {d n : Nat} (hb : BudOK c d n) (hH : AllOK c s.tick) :
    0 ≤ (computeLB c s D b d n).sol ∧ (computeLB c s D b d n).sol < 10000 := by
  have hv : ViewOf T D := by rw [hD]; exact sel_view b T
  refine ⟨computeLB_nonneg F s D b d n, ?_⟩
  have h1 := (computeLB_spec F.good hs hD d n hH).lower hb (.leaf 0) ⟨Nat.zero_le _, Nat.zero_le _, F.good.labels, hm⟩
  have h2 := (F.leaf hv hm F.good.labels).2
  exact Int.lt_of_le_of_lt h1 h2

theorem computeLRLB_range {s : St} (hs : StOK c T s) {D : Data} {d f : Nat} {L R : Side} {sw : Bool}
    (hsp : Split c T D d f L R sw) (hm : c.mls ≤ D.length) {ld ls rd rs : Nat} (hb1 : BudOK c ld ls) (hb2 : BudOK c rd rs)
    (hH : AllOK c s.tick) :
    0 ≤ (computeLRLB c s f L.D L.b ld ls R.D R.b rd rs).1.sol ∧
      (computeLRLB c s f L.D L.b ld ls R.D R.b rd rs).1.sol < 10000 := by
  have h1 := (computeLRLB_spec F.good hs hsp.hL hsp.hR (f := f) ld ls rd rs hb1 hb2 hH).1 (.leaf 0) (.leaf 0)
    ⟨Nat.zero_le _, Nat.zero_le _, F.good.labels, hsp.mL⟩ ⟨Nat.zero_le _, Nat.zero_le _, F.good.labels, hsp.mR⟩
  have h2 := (F.leaf hsp.view hm F.good.labels).2
  rw [hsp.leaf 0] at h2
  have n1 := computeLB_nonneg F s L.D L.b ld ls
  have n2 := computeLB_nonneg F s R.D R.b rd rs
  unfold computeLRLB at h1 ⊢
  split
  · rename_i hu
    rw [if_pos hu] at h1
    have hbc := F.good.bcLB hu
    simp only [Node.combine, Node.branch] at h1 ⊢
    change _ ≤ c.P.bc + (leafCost c.P L.D 0 + leafCost c.P R.D 0) at h1
    omega
  · simp only [Node.value]; omega

/-- Bounds on the local variables. -/
def LocFine (c : Cfg) (UB0 : Node) (v : Loc) : Prop :=
  (c.useUB = true → v.sols.isEmpty = true → UB0.sol < 10000) ∧
  (c.useLB = true → v.inf.sol < 10000 ∨ v.inf.sol = c.worst)

theorem tol_subtractUB {D : Data} (hD : ViewOf T D) {d n : Nat} {UB0 : Node} {v : Loc} (hv : LocOK c D d n UB0 v)
    (hl : LocFine c UB0 v) (o : Node) : Tol.subtractUB c v.UB o v.sols = subtractUB c v.UB o v.sols := by
  unfold Tol.subtractUB subtractUB
  split
  · rename_i h
    have hu : c.useUB = true := by revert h; cases c.useUB <;> simp
    dsimp only
    congr 2
    refine ite_same ?_ (fun _ => rfl) fun _ => rfl
    cases he : v.sols.isEmpty with
    | false => exact tol_dom (F.real hD (hv.real he).1)
    | true =>
      have h1 := hl.1 hu he
      have h2 := (hv.emp he).2
      have h3 : v.sols.sol = c.worst := by rw [(hv.emp he).1]; rfl
      have := F.worst
      rw [h2, h3]
      unfold Tol.dom; omega
  · rfl

/-- The two recursive calls agree up to depth `m`. -/
def TolRec (c : Cfg) (T : Data) (recT rec : Rec) (m : Nat) : Prop :=
  ∀ D b UB d n s, d ≤ m → D = sel b T → c.mls ≤ D.length → BudOK c d n → n + 1 ≤ 2 ^ d → StOK c T s →
    recT D b UB d n s = rec D b UB d n s

theorem sizeStep_exit (rec : Rec) (f : Nat) (L R : Side) (sw : Bool) (d n ls : Nat) (v : Loc) (s : St)
    (hH : AllOK c s.tick) :
    ((sizeStep c rec f L R sw d n ls v s).1 = false → AllOK c (sizeStep c rec f L R sw d n ls v s).2.2.tick) ∧
    ((sizeStep c rec f L R sw d n ls v s).1 = true → (sizeStep c rec f L R sw d n ls v s).2.1 = v) := by
  unfold sizeStep
  dsimp only
  generalize computeLRLB c s f L.D L.b (min (d - 1) ls) ls R.D R.b (min (d - 1) (n - ls - 1)) (n - ls - 1) = lbs
  split
  · exact ⟨fun _ => hH, fun h => by simp at h⟩
  split
  · exact ⟨fun _ => hH, fun h => by simp at h⟩
  generalize rec L.D L.b (subtractUB c v.UB lbs.2.2 v.sols) (min (d - 1) ls) ls s = lr
  split
  · exact ⟨fun h => by simp at h, fun _ => rfl⟩
  rename_i hok
  have h1 : AllOK c lr.2.next.tick := F.clock.allOK (by simpa using hok)
  split
  · exact ⟨fun _ => h1, fun h => by simp at h⟩
  generalize rec R.D R.b (subtractUB c v.UB lr.1 v.sols) (min (d - 1) (n - ls - 1)) (n - ls - 1) lr.2.next = rr
  split
  · exact ⟨fun h => by simp at h, fun _ => rfl⟩
  rename_i hok
  have h2 : AllOK c rr.2.next.tick := F.clock.allOK (by simpa using hok)
  split
  · exact ⟨fun _ => h2, fun h => by simp at h⟩
  generalize (if sw = true then Node.combine f rr.1 lr.1 c.P.bc else Node.combine f lr.1 rr.1 c.P.bc) = nn
  split
  · exact ⟨fun _ => h2, fun h => by simp at h⟩
  · exact ⟨fun _ => h2, fun h => by simp at h⟩

theorem tol_sizeStep {recT rec : Rec} {D : Data} {d n f ls : Nat} {L R : Side} {sw : Bool} {UB0 : Node} {v : Loc} {s : St}
    (heq : TolRec c T recT rec (d - 1))
    (hrec : RecOK c T rec (d - 1)) (hsp : Split c T D d f L R sw) (hm : c.mls ≤ D.length)
    (hb1 : BudOK c (min (d - 1) ls) ls) (hb2 : BudOK c (min (d - 1) (n - ls - 1)) (n - ls - 1))
    (hp1 : ls + 1 ≤ 2 ^ (min (d - 1) ls)) (hp2 : n - ls - 1 + 1 ≤ 2 ^ (min (d - 1) (n - ls - 1)))
    (hs : StOK c T s) (hv : LocOK c D d n UB0 v) (hl : LocFine c UB0 v) (hH : AllOK c s.tick) :
    Tol.sizeStep c recT f L R sw d n ls v s = sizeStep c rec f L R sw d n ls v s := by
  have hub : ∀ o, (subtractUB c v.UB o v.sols).isEmpty = true := by
    intro o; unfold subtractUB; split <;> rfl
  have hsub := tol_subtractUB F hsp.view hv hl
  have hr := computeLRLB_range F hs hsp hm hb1 hb2 hH
  unfold Tol.sizeStep sizeStep
  dsimp only
  simp only [tol_computeLRLB F, hsub]
  generalize computeLRLB c s f L.D L.b (min (d - 1) ls) ls R.D R.b (min (d - 1) (n - ls - 1)) (n - ls - 1) = lbs at hr
  refine ite_same (and_congr_right fun _ => tol_sdom_right (by omega)) (fun _ => rfl) fun _ => ?_
  refine ite_same (tol_same hr) (fun _ => rfl) fun _ => ?_
  rw [heq L.D L.b (subtractUB c v.UB lbs.2.2 v.sols) (min (d - 1) ls) ls s (Nat.min_le_left _ _) hsp.hL hsp.mL hb1 hp1 hs]
  have pL := hrec L.D L.b (subtractUB c v.UB lbs.2.2 v.sols) (min (d - 1) ls) ls s (Nat.min_le_left _ _) hsp.hL hsp.mL
    hb1 hp1 hs
  generalize rec L.D L.b (subtractUB c v.UB lbs.2.2 v.sols) (min (d - 1) ls) ls s = lr at pL
  have sL := (pL.st fun _ _ _ => hub _).next
  refine ite_same Iff.rfl (fun _ => rfl) fun _ => ?_
  refine ite_same Iff.rfl (fun _ => rfl) fun hne => ?_
  rw [heq R.D R.b (subtractUB c v.UB lr.1 v.sols) (min (d - 1) (n - ls - 1)) (n - ls - 1) lr.2.next
    (Nat.min_le_left _ _) hsp.hR hsp.mR hb2 hp2 sL]
  have pR := hrec R.D R.b (subtractUB c v.UB lr.1 v.sols) (min (d - 1) (n - ls - 1)) (n - ls - 1) lr.2.next
    (Nat.min_le_left _ _) hsp.hR hsp.mR hb2 hp2 sL
  generalize rec R.D R.b (subtractUB c v.UB lr.1 v.sols) (min (d - 1) (n - ls - 1)) (n - ls - 1) lr.2.next = rr at pR
  refine ite_same Iff.rfl (fun _ => rfl) fun _ => ?_
  refine ite_same Iff.rfl (fun _ => rfl) fun hne' => ?_
  have hnn := hsp.comb lr.1 rr.1 ((pL.real (by simpa using hne)).1.mono (Nat.min_le_left _ _))
    ((pR.real (by simpa using hne')).1.mono (Nat.min_le_left _ _))
  generalize (if sw = true then Node.combine f rr.1 lr.1 c.P.bc else Node.combine f lr.1 rr.1 c.P.bc) = nn at hnn
  have hn := F.real hsp.view hnn
  refine ite_same (and_congr_right fun _ => tol_sdom_right (by omega)) (fun _ => rfl) fun _ => ?_
  rw [ite_same (tol_sdom_left hn) (fun _ => rfl) (fun _ => rfl)]

theorem tol_sizeLoop {recT rec : Rec} {D : Data} {d n f : Nat} {L R : Side} {sw : Bool} {UB0 : Node}
    (heq : TolRec c T recT rec (d - 1)) (hrec : RecOK c T rec (d - 1)) (hsp : Split c T D d f L R sw) (hm : c.mls ≤ D.length)
    (l : List Nat)
    (hl : ∀ ls ∈ l, ls + 1 ≤ n ∧ BudOK c (min (d - 1) ls) ls ∧ BudOK c (min (d - 1) (n - ls - 1)) (n - ls - 1) ∧
      ls + 1 ≤ 2 ^ (min (d - 1) ls) ∧ n - ls - 1 + 1 ≤ 2 ^ (min (d - 1) (n - ls - 1)))
    (v : Loc) (s : St) (hs : StOK c T s) (hv : LocOK c D d n UB0 v) (hf : LocFine c UB0 v) (hH : AllOK c s.tick) :
    Tol.sizeLoop c recT f L R sw d n l v s = sizeLoop c rec f L R sw d n l v s ∧
      LocFine c UB0 (sizeLoop c rec f L R sw d n l v s).1 := by
  induction l generalizing v s with
  | nil => exact ⟨rfl, hf⟩
  | cons ls l ih =>
    obtain ⟨a1, a2, a3, a4, a5⟩ := hl ls (List.mem_cons_self ..)
    have h1 := sizeStep_spec F.good hrec hsp a1 a2 a3 a4 a5 hs hv
    have h2 := tol_sizeStep F heq hrec hsp hm a2 a3 a4 a5 hs hv hf hH
    have h3 := sizeStep_exit F rec f L R sw d n ls v s hH
    unfold Tol.sizeLoop sizeLoop
    rw [h2]
    generalize sizeStep c rec f L R sw d n ls v s = r at h1 h3
    obtain ⟨t1, s1, l1, st1, e1, c1⟩ := h1
    have hf' : LocFine c UB0 r.2.1 := by
      cases hr : r.1 with
      | true => rw [h3.2 hr]; exact hf
      | false =>
        refine ⟨fun hu he => hf.1 hu ?_, fun hu => ?_⟩
        · cases he0 : v.sols.isEmpty with
          | true => rfl
          | false => rw [(st1.ne he0).1] at he; simp at he
        · rcases st1.leaf (h3.1 hr) hu with h | h
          · rw [h]; exact hf.2 hu
          · left
            have := h 0 F.good.labels
            have := (F.leaf hsp.view hm F.good.labels).2
            omega
    dsimp only
    cases hr : r.1 with
    | true => exact ⟨rfl, hf'⟩
    | false =>
      exact ih (fun x hx => hl x (List.mem_cons_of_mem _ hx)) r.2.1 r.2.2 s1 l1 hf' (h3.1 hr)

theorem tol_feature {recT rec : Rec} {D : Data} {b : Branch} {d n f : Nat} {UB0 : Node}
    (heq : TolRec c T recT rec (d - 1)) (hrec : RecOK c T rec (d - 1)) (hD : D = sel b T) (hm : c.mls ≤ D.length)
    (hd : 1 ≤ d) (hn : 1 ≤ n) (hp : n + 1 ≤ 2 ^ d)
    (hb : BudOK c d n) (hf : f < c.P.nF) (hmay : c.P.may f = true) (hm0 : c.mls ≤ (without f D).length)
    (hm1 : c.mls ≤ (having f D).length) (v : Loc) (s : St) (hs : StOK c T s) (hv : LocOK c D d n UB0 v)
    (hfin : LocFine c UB0 v) (hH : AllOK c s.tick) :
    (if (without f D).length < (having f D).length then
        Tol.sizeLoop c recT f ⟨having f D, b.child f true⟩ ⟨without f D, b.child f false⟩ true d n (sizes d n) v s
      else Tol.sizeLoop c recT f ⟨without f D, b.child f false⟩ ⟨having f D, b.child f true⟩ false d n (sizes d n) v s) =
    (if (without f D).length < (having f D).length then
        sizeLoop c rec f ⟨having f D, b.child f true⟩ ⟨without f D, b.child f false⟩ true d n (sizes d n) v s
      else sizeLoop c rec f ⟨without f D, b.child f false⟩ ⟨having f D, b.child f true⟩ false d n (sizes d n) v s) ∧
    LocFine c UB0 (if (without f D).length < (having f D).length then
        sizeLoop c rec f ⟨having f D, b.child f true⟩ ⟨without f D, b.child f false⟩ true d n (sizes d n) v s
      else sizeLoop c rec f ⟨without f D, b.child f false⟩ ⟨having f D, b.child f true⟩ false d n (sizes d n) v s).1 := by
  have hv1 : ViewOf T D := by rw [hD]; exact sel_view b T
  have e0 : without f D = sel (b.child f false) T := by rw [sel_child, ← hD, side_false]
  have e1 : having f D = sel (b.child f true) T := by rw [sel_child, ← hD, side_true]
  have hsm : ∀ tL tR : Tree, tL.Legal c.P c.mls (without f D) → tR.Legal c.P c.mls (having f D) →
      c.P.bc + (tL.cost c.P (without f D) + tR.cost c.P (having f D)) < c.worst := by
    intro tL tR h0 h1
    have := F.good.small D hv1 (.node f tL tR) ⟨hf, hmay, h0, h1⟩
    simp only [Tree.cost] at this; omega
  obtain ⟨e, rfl⟩ : ∃ e, d = e + 1 := ⟨d - 1, by omega⟩
  have spR : Split c T D (e + 1) f ⟨having f D, b.child f true⟩ ⟨without f D, b.child f false⟩ true :=
    ⟨e1, e0, hm1, hm0, fun k => by have := leafCost_split c.P f D k; simp only; omega,
      fun x y hx hy => Real.combine hf hmay hy hx, hv1,
      fun tL tR h0 h1 => by have := hsm tR tL h1 h0; simp only; omega⟩
  have spL : Split c T D (e + 1) f ⟨without f D, b.child f false⟩ ⟨having f D, b.child f true⟩ false :=
    ⟨e0, e1, hm0, hm1, fun k => (leafCost_split c.P f D k).symm,
      fun x y hx hy => Real.combine hf hmay hx hy, hv1, hsm⟩
  by_cases hlt : (without f D).length < (having f D).length
  · rw [if_pos hlt, if_pos hlt]
    exact tol_sizeLoop F heq hrec spR hm (sizes (e + 1) n) (sizes_ok hd hn hp hb) v s hs hv hfin hH
  · rw [if_neg hlt, if_neg hlt]
    exact tol_sizeLoop F heq hrec spL hm (sizes (e + 1) n) (sizes_ok hd hn hp hb) v s hs hv hfin hH

theorem tol_featLoop {recT rec : Rec} {D : Data} {b : Branch} {d n : Nat} {UB0 blb : Node}
    (heq : TolRec c T recT rec (d - 1)) (hrec : RecOK c T rec (d - 1)) (hD : D = sel b T) (hm : c.mls ≤ D.length)
    (hd : 1 ≤ d) (hn : 1 ≤ n) (hp : n + 1 ≤ 2 ^ d)
    (hb : BudOK c d n) (hblb : 0 ≤ blb.sol ∧ blb.sol < 10000)
    (fs : List Nat) (hfs : ∀ f ∈ fs, f < c.P.nF) (v : Loc) (s : St) 
    (hs : StOK c T s) (hv : LocOK c D d n UB0 v) (hfin : LocFine c UB0 v) :
    Tol.featLoop c recT D b d n blb fs v s = featLoop c rec D b d n blb fs v s ∧
      LocFine c UB0 (featLoop c rec D b d n blb fs v s).1 := by
  induction fs generalizing v s with
  | nil => exact ⟨rfl, hfin⟩
  | cons f fs ih =>
    have ih := ih fun g hg => hfs g (List.mem_cons_of_mem _ hg)
    unfold Tol.featLoop featLoop
    dsimp only
    cases hok : c.ok s with
    | false => exact ⟨rfl, hfin⟩
    | true =>
      have hH : AllOK c s.next.tick := F.clock.allOK hok
      rw [if_neg (show ¬ (true = false) by simp), if_neg (show ¬ (true = false) by simp)]
      by_cases h1 : c.useLB = true ∧ blb.sol = v.sols.sol
      · rw [if_pos ⟨h1.1, (tol_same hblb).2 h1.2⟩, if_pos h1]; exact ⟨rfl, hfin⟩
      rw [if_neg (fun h => h1 ⟨h.1, (tol_same hblb).1 h.2⟩), if_neg h1]
      have hsd : Tol.sdom v.UB.sol blb.sol ↔ v.UB.sol < blb.sol := tol_sdom_right (by omega)
      by_cases h2 : c.useLB = true ∧ c.useUB = true ∧ v.UB.sol < blb.sol
      · rw [if_pos ⟨h2.1, h2.2.1, hsd.2 h2.2.2⟩, if_pos h2]; exact ⟨rfl, hfin⟩
      rw [if_neg (fun h => h2 ⟨h.1, h.2.1, hsd.1 h.2.2⟩), if_neg h2]
      cases h3 : b.has f || !c.P.may f || c.redundant f with
      | true => exact ih v s.next hs.next hv hfin
      | false =>
        rw [if_neg (show ¬ (false = true) by simp), if_neg (show ¬ (false = true) by simp)]
        by_cases h4 : c.sparse = true ∧ c.useUB = true ∧ v.UB.sol < c.P.bc
        · rw [if_pos h4, if_pos h4]; exact ⟨rfl, hfin⟩
        rw [if_neg h4, if_neg h4]
        by_cases h5 : (without f D).length < c.mls ∨ (having f D).length < c.mls
        · rw [if_pos h5, if_pos h5]; exact ih v s.next hs.next hv hfin
        rw [if_neg h5, if_neg h5]
        simp only [Bool.or_eq_false_iff, Bool.not_eq_false'] at h3
        have hf := hfs f (List.mem_cons_self ..)
        have g1 := feature_spec F.good hrec hD hd hn hp hb hf h3.1.2 (by omega) (by omega) v s.next hs.next hv
        obtain ⟨g2, g3⟩ := tol_feature F heq hrec hD hm hd hn hp hb hf h3.1.2 (by omega) (by omega) v s.next hs.next hv hfin hH
        rw [g2]
        generalize (if (without f D).length < (having f D).length then
            sizeLoop c rec f ⟨having f D, b.child f true⟩ ⟨without f D, b.child f false⟩ true d n (sizes d n) v s.next
          else sizeLoop c rec f ⟨without f D, b.child f false⟩ ⟨having f D, b.child f true⟩ false d n (sizes d n) v s.next)
          = r at g1 g3
        obtain ⟨t1, s1, l1, st1, c1⟩ := g1
        exact ih r.1 r.2 s1 l1 g3

theorem tol_startLoc {D : Data} {b : Branch} {d n : Nat} {s : St} (hs : StOK c T s) (hD : D = sel b T) (UB : Node) :
    Tol.startLoc c D b UB d n s = startLoc c D b UB d n s := by
  have hv1 : ViewOf T D := by rw [hD]; exact sel_view b T
  unfold Tol.startLoc startLoc
  rw [tol_solveLeaf F hv1]
  dsimp only
  cases hlow : lowerCached c s D b n (d - 1) with
  | none => rfl
  | some p =>
    obtain ⟨l, w⟩ := p
    have hw := F.real hv1 (lowerCached_spec hs.cache hD n (d - 1) hlow).2.1
    exact ite_same (and_congr_right fun _ => tol_sdom_right (by omega)) (fun _ => rfl) fun _ => rfl

theorem tol_generalCase {recT rec : Rec} {D : Data} {b : Branch} {d n : Nat} {UB : Node} {s : St}
    (heq : TolRec c T recT rec (d - 1)) (hrec : RecOK c T rec (d - 1)) (hD : D = sel b T) (hm : c.mls ≤ D.length) (hd : 1 ≤ d) (hn : 1 ≤ n)
    (hp : n + 1 ≤ 2 ^ d) (hb : BudOK c d n) (hs : StOK c T s) (hH : AllOK c s.tick) :
    Tol.generalCase c recT D b UB d n s = generalCase c rec D b UB d n s := by
  have hv1 : ViewOf T D := by rw [hD]; exact sel_view b T
  obtain ⟨l0, i0, k0⟩ := start_spec F.good (d := d) (n := n) hs hD hm UB
  have hfin : LocFine c UB (startLoc c D b UB d n s) := by
    refine ⟨fun hu he => ?_, fun _ => .inr (by rw [i0]; rfl)⟩
    have h1 := ((k0 0 F.good.labels).2 he).2
    have h2 := (F.leaf hv1 hm F.good.labels).2
    omega
  obtain ⟨e1, e2⟩ := tol_featLoop F heq hrec hD hm hd hn hp hb (computeLB_range F hs hD hm hb hH) (c.order D)
    (fun f hf => (F.good.order D f).1 hf) _ s hs l0 hfin
  unfold Tol.generalCase generalCase
  dsimp only
  rw [tol_solveLeaf F hv1, tol_startLoc F hs hD, tol_computeLB F, e1]
  generalize featLoop c rec D b d n (computeLB c s D b d n) (c.order D) (startLoc c D b UB d n s) s = r at e2
  have hC : (if r.1.sols.isEmpty = false then r.2.cache.storeOpt c.cc D b r.1.sols d n
        else r.2.cache.updateLB c.cc D b (if Tol.same r.1.inf.sol c.worst then UB else Node.addMax r.1.inf UB) d n) =
      (if r.1.sols.isEmpty = false then r.2.cache.storeOpt c.cc D b r.1.sols d n
        else r.2.cache.updateLB c.cc D b (if r.1.inf.sol = c.worst then UB else Node.addMax r.1.inf UB) d n) := by
    by_cases hu : c.useLB = true
    · refine ite_same Iff.rfl (fun _ => rfl) fun _ => ?_
      rw [ite_same (q := r.1.inf.sol = c.worst) ?_ (fun _ => rfl) (fun _ => rfl)]
      have hw := F.worst
      rcases e2.2 hu with h | h
      · unfold Tol.same; omega
      · unfold Tol.same; omega
    · refine ite_same Iff.rfl (fun _ => rfl) fun _ => ?_
      have hu : c.useLB = false := by simpa using hu
      have : c.cc.useLB = false := hu
      unfold Cache.updateLB
      rw [if_neg (by rw [this]; simp), if_neg (by rw [this]; simp)]
  rw [hC]

theorem tol_solveTerminal {D : Data} {b : Branch} {d n : Nat} {UB : Node} {s : St} (hD : D = sel b T)
    (hm : c.mls ≤ D.length) (hd : 1 ≤ d) (hd2 : d ≤ 2) (hb : BudOK c d n) (ht : c.useTerm = true) (hs : StOK c T s)
    (hH : AllOK c s.tick) : Tol.solveTerminal c D b UB d n s = solveTerminal c D b UB d n s := by
  have hv1 : ViewOf T D := by rw [hD]; exact sel_view b T
  have hp := solveTerminal_spec F.good (UB := Node.empty c.worst) hD hm hd hd2 hb ht hs
  unfold Tol.solveTerminal solveTerminal
  unfold solveTerminal at hp
  dsimp only at hp ⊢
  generalize (if n = 1 then (terminal c.tc (statsOf c.P D) b n).one
    else if n = 2 then (terminal c.tc (statsOf c.P D) b n).two else (terminal c.tc (statsOf c.P D) b n).three) = v at hp
  have hreal : Real c.P c.mls d D v := by
    have hl : Allowed c.P c.mls d n D (.leaf 0) := ⟨Nat.zero_le _, Nat.zero_le _, F.good.labels, hm⟩
    have hsm := F.good.small D hv1 (.leaf 0) hl.2.2
    have htick : ∀ C : Cache, (updateArchive c { s with cache := C } D b d).tick = s.tick := by
      intro C; unfold updateArchive; split <;> rfl
    generalize storeTerminal c D b (Node.empty c.worst) (terminal c.tc (statsOf c.P D) b n).three 2 3 _ = C at hp
    have hH' : AllOK c (updateArchive c { s with cache := C } D b d).tick := by rw [htick]; exact hH
    by_cases hlt : (Node.empty c.worst).sol < v.sol
    · rw [if_pos hlt] at hp
      have := (hp.inf hH' rfl _ hl).2
      simp only [Node.empty] at this; omega
    · rw [if_neg hlt] at hp
      cases he : v.isEmpty with
      | false => exact (hp.real he).1
      | true =>
        have := (hp.inf hH' he _ hl).2
        simp only [Node.empty] at this; omega
  have hr := F.real hv1 hreal
  rw [ite_same (tol_sdom_right (a := UB.sol) (b := v.sol) (by omega)) (fun _ => rfl) (fun _ => rfl)]

omit F in
theorem tol_simLoop (h : c.useBr = false) (D : Data) (b : Branch) (d n : Nat) (es : List (Data × Branch)) (lb : Node) (C : Cache) :
    Tol.simLoop c D b d n es lb C = simLoop c D b d n es lb C := by
  have ht : ∀ C : Cache, ∀ b' : Branch, Tol.transfer c.cc C b' b = C.transfer c.cc b' b := by
    intro C b'
    have : c.cc.useBr = false := h
    unfold Tol.transfer Cache.transfer
    rw [if_neg (by rw [this]; simp), if_neg (by rw [this]; simp)]
  induction es generalizing lb C with
  | nil => rfl
  | cons e es ih =>
    obtain ⟨D', b'⟩ := e
    unfold Tol.simLoop simLoop
    simp only [ih, ht]

theorem tol_useSimilarity (s : St) (D : Data) (b : Branch) (d n : Nat) :
    Tol.useSimilarity c s D b d n = useSimilarity c s D b d n := by
  unfold Tol.useSimilarity useSimilarity
  by_cases h : c.simLB = false
  · rw [if_pos h, if_pos h]
  · rw [if_neg h, if_neg h]
    have hb : c.useBr = false := by
      rcases F.copy with h' | h'
      · exact h'
      · exact absurd h' h
    rw [tol_simLoop hb]
    dsimp only
    refine ite_same Iff.rfl (fun _ => rfl) fun _ => ite_same Iff.rfl (fun _ => rfl) fun _ =>
      ite_same ?_ (fun _ => rfl) fun _ => rfl
    unfold Tol.same; omega

theorem tol_subTree {recT rec : Rec} {D : Data} {b : Branch} {d n : Nat} {UB : Node} {s : St}
    (heq : 1 ≤ d → TolRec c T recT rec (d - 1))
    (hrec : 1 ≤ d → RecOK c T rec (d - 1)) (hD : D = sel b T) (hm : c.mls ≤ D.length) (hp : n + 1 ≤ 2 ^ d)
    (hb : BudOK c d n) (hs : StOK c T s) : Tol.subTree c recT D b UB d n s = subTree c rec D b UB d n s := by
  have hv1 : ViewOf T D := by rw [hD]; exact sel_view b T
  unfold Tol.subTree subTree
  refine ite_same Iff.rfl (fun _ => rfl) fun hok => ?_
  have hH : AllOK c s.next.tick := F.clock.allOK (by simpa using hok)
  obtain ⟨r1, r2, r3, r4, r5⟩ := reduceBudget_bud (UB := UB) hp hb
  dsimp only
  generalize (reduceBudget c UB d n).1 = d' at r1 r3 r4
  generalize (reduceBudget c UB d n).2 = n' at r2 r3 r4
  rw [tol_solveLeaf F hv1]
  refine ite_same Iff.rfl (fun _ => rfl) fun h0 => ?_
  refine ite_same Iff.rfl (fun _ => rfl) fun _ => ?_
  have heq' : TolRec c T recT rec (d' - 1) := fun D' b' UB' d'' n'' s' hd' =>
    heq (by omega) D' b' UB' d'' n'' s' (by omega)
  have hrec' : RecOK c T rec (d' - 1) := fun D' b' UB' d'' n'' s' hd' =>
    hrec (by omega) D' b' UB' d'' n'' s' (by omega)
  have go : ∀ s' : St, StOK c T s' → AllOK c s'.tick →
      (if c.useTerm = true ∧ d' ≤ 2 then Tol.solveTerminal c D b UB d' n' s' else Tol.generalCase c recT D b UB d' n' s') =
      (if c.useTerm = true ∧ d' ≤ 2 then solveTerminal c D b UB d' n' s' else generalCase c rec D b UB d' n' s') := by
    intro s' hs' hH'
    refine ite_same Iff.rfl (fun hc => ?_) fun _ => ?_
    · exact tol_solveTerminal F hD hm (by omega) hc.2 r4 hc.1 hs' hH'
    · exact tol_generalCase F heq' hrec' hD hm (by omega) (by omega) r3 r4 hs' hH'
  by_cases hu : c.useLB = true
  · rw [if_pos hu, if_pos hu]
    obtain ⟨h1, h2⟩ := useSimilarity_spec F.good hs.next hD d' n' r4 hu
    rw [tol_useSimilarity F]
    generalize useSimilarity c s.next D b d' n' = sim at h1 h2
    have hH' : AllOK c sim.2.tick := by rw [h2]; exact hH
    have hr := computeLB_range F h1 hD hm r4 hH'
    rw [tol_computeLB F, tol_solveLeaf F hv1]
    refine ite_same Iff.rfl (fun _ => rfl) fun _ => ?_
    refine ite_same (and_congr_right fun _ => tol_sdom_right (by omega)) (fun _ => rfl) fun _ => ?_
    exact ite_same (tol_same hr) (fun _ => rfl) fun _ => go sim.2 h1 hH'
  · rw [if_neg hu, if_neg hu]
    exact go s.next hs.next hH

theorem tol_solveSub (fuel : Nat) : TolRec c T (Tol.solveSub c fuel) (solveSub c fuel) fuel := by
  induction fuel with
  | zero =>
    intro D b UB d n s hd hD hm hb hp hs
    exact tol_subTree F (fun h => by omega) (fun h => by omega) hD hm hp hb hs
  | succ fuel ih =>
    intro D b UB d n s hd hD hm hb hp hs
    refine tol_subTree F (fun h => ?_) (fun h => ?_) hD hm hp hb hs
    · intro D' b' UB' d' n' s' hd'
      exact ih D' b' UB' d' n' s' (by omega)
    · intro D' b' UB' d' n' s' hd'
      exact solveSub_spec F.good fuel D' b' UB' d' n' s' (by omega)

theorem tol_depthRuns (t : Top) (hm : c.mls ≤ T.length) (a m : Nat) (hmd : a + m ≤ t.maxDepth + 1)
    (hbud : ∀ d, d ≤ t.maxDepth → BudOK c d (min t.maxNodes (2 ^ d - 1)))
    (h1 : c.useTerm = true → 2 ≤ m → ∀ d, a ≤ d → min t.maxNodes (2 ^ d - 1) ≠ 1) (r : Run) (hr : RunOK c t T r)
    (hs : StOK c T r.st) :
    Tol.depthRuns c t T (List.range' a m) r = depthRuns c t T (List.range' a m) r := by
  induction m generalizing a r with
  | zero => rfl
  | succ m ih =>
    simp only [List.range'_succ, Tol.depthRuns, depthRuns]
    have hpos : 1 ≤ 2 ^ a := Nat.one_le_two_pow
    have e : Tol.depthRun c t T r a = depthRun c t T r a := by
      unfold Tol.depthRun depthRun
      dsimp only
      rw [tol_solveSub F t.maxDepth T [] r.gUB a _ r.st (by omega) (sel_nil T).symm hm (hbud a (by omega)) (by omega) hs]
    rw [e]
    have hstep := run_step F.good t hr hs hm (d := a) (n := min t.maxNodes (2 ^ a - 1)) (by omega) (by omega)
      (hbud a (by omega)) (by omega) false a a
    dsimp only at hstep
    obtain ⟨g1, g2, g3, g4, g5⟩ := hstep
    change RunOK c t T (depthRun c t T r a) at g1
    change _ → StOK c T (depthRun c t T r a).st at g3
    generalize depthRun c t T r a = r1 at g1 g3
    have gn : RunOK c t T { r1 with st := r1.st.next } := ⟨g1.real, g1.emp, g1.ubE, g1.ubN⟩
    refine ite_same Iff.rfl (fun _ => rfl) fun _ => ?_
    cases m with
    | zero => rfl
    | succ m =>
      have hst : StOK c T r1.st := g3 fun _ hu hn => absurd hn (h1 hu (by omega) a (Nat.le_refl _))
      exact ih (a + 1) (by omega) (fun hu _ d hd => h1 hu (by omega) d (by omega)) { r1 with st := r1.st.next } gn hst.next

theorem tol_sizeRuns (t : Top) (hm : c.mls ≤ T.length) (a m : Nat) (hmn : a + m ≤ t.maxNodes + 1)
    (hfit : t.maxNodes + 1 ≤ 2 ^ t.maxDepth) (hbud : ∀ n, a ≤ n → n < a + m → BudOK c (min t.maxDepth n) n)
    (h1 : c.useTerm = true → m ≤ 1) (r : Run) (hr : RunOK c t T r) (hs : StOK c T r.st) :
    Tol.sizeRuns c t T (List.range' a m) r = sizeRuns c t T (List.range' a m) r := by
  induction m generalizing a r with
  | zero => rfl
  | succ m ih =>
    simp only [List.range'_succ, Tol.sizeRuns, sizeRuns]
    have rn : RunOK c t T { r with st := r.st.next } := ⟨hr.real, hr.emp, hr.ubE, hr.ubN⟩
    refine ite_same Iff.rfl (fun _ => rfl) fun _ => ?_
    have hp : a + 1 ≤ 2 ^ (min t.maxDepth a) := by
      rcases Nat.le_total t.maxDepth a with h | h
      · rw [Nat.min_eq_left h]; omega
      · rw [Nat.min_eq_right h]; exact Nat.lt_two_pow_self
    have e : Tol.sizeRun c t T { r with st := r.st.next } a = sizeRun c t T { r with st := r.st.next } a := by
      unfold Tol.sizeRun sizeRun
      dsimp only
      rw [tol_solveSub F t.maxDepth T [] r.gUB (min t.maxDepth a) a r.st.next (by omega) (sel_nil T).symm hm
        (hbud a (Nat.le_refl _) (by omega)) hp hs.next]
    rw [e]
    have hstep := run_step F.good t rn hs.next hm (d := min t.maxDepth a) (n := a) (by omega) (by omega)
      (hbud a (Nat.le_refl _) (by omega)) hp true (min t.maxDepth a) (Nat.log2 (a + 1))
    dsimp only at hstep
    obtain ⟨g1, g2, g3, g4, g5⟩ := hstep
    change RunOK c t T (sizeRun c t T { r with st := r.st.next } a) at g1
    change _ → StOK c T (sizeRun c t T { r with st := r.st.next } a).st at g3
    generalize sizeRun c t T { r with st := r.st.next } a = r1 at g1 g3
    have gn : RunOK c t T { r1 with st := r1.st.next } := ⟨g1.real, g1.emp, g1.ubE, g1.ubN⟩
    refine ite_same Iff.rfl (fun _ => rfl) fun _ => ?_
    cases m with
    | zero => rfl
    | succ m =>
      have hst : StOK c T r1.st := g3 fun _ hu _ => by have := h1 hu; omega
      exact ih (a + 1) (by omega) (fun n h2 h3 => hbud n (by omega) (by omega))
        (fun hu => by have := h1 hu; omega) { r1 with st := r1.st.next } gn hst.next

/-- The search with a tolerance does exactly what the search without does. -/
theorem tol_solve (t : Top) (hm : c.mls ≤ T.length) (hfit : t.maxNodes + 1 ≤ 2 ^ t.maxDepth)
    (hterm : c.useTerm = true → t.maxNodes + 1 = 2 ^ t.maxDepth ∧ (t.allTrees = true → t.maxNodes ≤ 1)) :
    Tol.solve c t T = solve c t T := by
  have e1 : (if (Node.empty c.worst).isEmpty = true then Tol.solveLeaf c T (Node.addMin (Node.empty c.worst) (Node.value t.ub))
      else (Node.empty c.worst, Node.empty c.worst)) = solveLeaf c T (startUB c t) := by
    rw [if_pos (by rfl), tol_solveLeaf F (List.Sublist.refl T)]; rfl
  have e2 : (if (Node.empty c.worst).isEmpty = true then solveLeaf c T (Node.addMin (Node.empty c.worst) (Node.value t.ub))
      else (Node.empty c.worst, Node.empty c.worst)) = solveLeaf c T (startUB c t) := by
    rw [if_pos (by rfl)]; rfl
  unfold Tol.solve solve Tol.solveFrom solveFrom
  dsimp only
  rw [e1, e2]
  have h0 := start_ok F.good t hm t.maxDepth { St.init with mdf := 0 }
  have hs0 : StOK c T { St.init with mdf := 0 } :=
    ⟨CInv.init c T _, fun d p hp => by simp [St.init, Tbl.get] at hp⟩
  generalize hr0 : (Run.mk _ _ _ _ : Run) = r0 at h0
  have hs0' : StOK c T r0.st := by rw [← hr0]; exact hs0
  suffices h : (if t.allTrees = true ∨ t.maxNodes = 1 then Tol.sizeRuns c t T (List.range' 1 t.maxNodes) r0
      else Tol.depthRuns c t T (List.range' (min 2 (min t.maxDepth t.maxNodes))
        (min t.maxDepth t.maxNodes + 1 - min 2 (min t.maxDepth t.maxNodes))) r0) =
      (if t.allTrees = true ∨ t.maxNodes = 1 then sizeRuns c t T (List.range' 1 t.maxNodes) r0
      else depthRuns c t T (List.range' (min 2 (min t.maxDepth t.maxNodes))
        (min t.maxDepth t.maxNodes + 1 - min 2 (min t.maxDepth t.maxNodes))) r0) by
    rw [h]
  refine ite_same Iff.rfl (fun hc => ?_) fun hc => ?_
  · rcases Nat.eq_zero_or_pos t.maxNodes with hz | hn
    · rw [hz]; rfl
    have hd : 1 ≤ t.maxDepth := by
      rcases Nat.eq_zero_or_pos t.maxDepth with h | h
      · rw [h] at hfit; omega
      · exact h
    refine tol_sizeRuns F t hm 1 t.maxNodes (by omega) hfit ?_ ?_ r0 h0 hs0'
    · intro n h2 h3
      cases hu : c.useTerm with
      | false => exact .inl hu
      | true =>
        have h4 := hterm hu
        have h5 : t.maxNodes = 1 := by
          rcases hc with h | h
          · have := h4.2 h; omega
          · exact h
        obtain rfl : n = 1 := by omega
        right; rw [Nat.min_eq_right hd]; rfl
    · intro hu
      rcases hc with h | h
      · have := (hterm hu).2 h; omega
      · omega
  · have hc' : t.maxNodes ≠ 1 := fun h => hc (.inr h)
    refine tol_depthRuns F t hm _ _ (by omega) ?_ ?_ r0 h0 hs0'
    · intro d h2
      cases hu : c.useTerm with
      | false => exact .inl hu
      | true =>
        right
        have h3 := (hterm hu).1
        have h4 : 2 ^ d ≤ 2 ^ t.maxDepth := Nat.pow_le_pow_right (by decide) h2
        have : 1 ≤ 2 ^ d := Nat.one_le_two_pow
        omega
    · intro _ h3 d h4
      have h5 : 2 ^ 2 ≤ 2 ^ d := Nat.pow_le_pow_right (by decide) (by omega)
      omega

end
end Streed
