import Verif.Lemmas.ApxCache
import Verif.Lemmas.Optimal
import Mathlib.Tactic.Ring

/-! Leaves and lower bounds of the search with tolerant comparisons. -/

namespace Streed.Apx

/-- The circumstances: those of the exact search, no similarity bound, no minimum difference, exponents `K`, and "no solution"
is larger than any cost with its factor. -/
structure Setting (c : Cfg) (T : Data) (K : Rank c T) : Prop where
  good : Good c T
  sim : c.simLB = false
  md : c.md = 0
  flat : c.sparse = true → ∀ b d n d' n', K.w b d n = K.w b d' n'
  big : ∀ b d n, K.ok b d n → ∀ t : Tree, t.Legal c.P c.mls (sel b T) →
    tol ^ (K.w b d n + 1) * (t.cost c.P (sel b T) : ℚ) < (c.worst : ℚ)

/-- State invariant. -/
def StOK (c : Cfg) (T : Data) (K : Rank c T) (s : St) : Prop := CInv c T K (AllOK c s.tick) s.cache

theorem StOK.next {c : Cfg} {T : Data} {K : Rank c T} {s : St} (h : StOK c T K s) : StOK c T K s.next :=
  CInv.weaken h fun a => a.mono (Nat.le_succ _)

section
variable {c : Cfg} {T : Data} {K : Rank c T} (S : Setting c T K)
include S

theorem Setting.pos {D : Data} (hD : ViewOf T D) : Pos c D := fun t => S.good.cost_nonneg hD t

theorem Setting.posSel (b : Branch) : Pos c (sel b T) := S.pos (sel_view b T)

theorem real_nonneg {D : Data} (hD : ViewOf T D) {d : Nat} {v : Node} (h : Real c.P c.mls d D v) : 0 ≤ v.sol := by
  obtain ⟨t, _, _, _, h4⟩ := h
  rw [← h4]; exact S.good.cost_nonneg hD t

theorem leafLoop_spec {D : Data} (hD : ViewOf T D) (hm : c.mls ≤ D.length) (UB0 : Node) (ks : List Nat)
    (done : List Nat) (hks : ∀ k ∈ ks, k < c.P.nL) (r UB : Node)
    (h1 : r.isEmpty = true → r = Node.empty c.worst ∧ UB = UB0 ∧
      ∀ k ∈ done, c.useUB = true ∧ Tol.sdom UB0.sol (leafCost c.P D k))
    (h2 : r.isEmpty = false → Real c.P c.mls 0 D r ∧
      (c.useUB = true → UB.sol = min UB0.sol r.sol ∧ 10000 * r.sol ≤ 10001 * UB.sol) ∧
      ∀ k ∈ done, r.sol ≤ leafCost c.P D k) :
    let x := Tol.leafLoop c D ks r UB
    (x.1.isEmpty = true → x.1 = Node.empty c.worst ∧ x.2 = UB0 ∧
      ∀ k, k ∈ done ∨ k ∈ ks → c.useUB = true ∧ Tol.sdom UB0.sol (leafCost c.P D k)) ∧
    (x.1.isEmpty = false → Real c.P c.mls 0 D x.1 ∧
      (c.useUB = true → x.2.sol = min UB0.sol x.1.sol ∧ 10000 * x.1.sol ≤ 10001 * x.2.sol) ∧
      ∀ k, k ∈ done ∨ k ∈ ks → x.1.sol ≤ leafCost c.P D k) := by
  have G := S.good
  induction ks generalizing r UB done with
  | nil =>
    simp only [Tol.leafLoop]
    refine ⟨fun h => ⟨(h1 h).1, (h1 h).2.1, fun k hk => (h1 h).2.2 k (by simpa using hk)⟩,
      fun h => ⟨(h2 h).1, (h2 h).2.1, fun k hk => (h2 h).2.2 k (by simpa using hk)⟩⟩
  | cons k ks ih =>
    have hk := hks k (List.mem_cons_self ..)
    have hreal : Real c.P c.mls 0 D (Node.leaf k (leafCost c.P D k)) := Real.leaf hk hm
    have hsm : leafCost c.P D k < c.worst := G.small D hD (.leaf k) ⟨hk, hm⟩
    have hpos : 0 ≤ leafCost c.P D k := G.cost_nonneg hD (.leaf k)
    have hsol : (Node.leaf k (leafCost c.P D k)).sol = leafCost c.P D k := rfl
    have conv : ∀ j, j ∈ done ∨ j ∈ k :: ks ↔ j ∈ k :: done ∨ j ∈ ks := by
      intro j; simp only [List.mem_cons]; constructor
      · rintro (h | h | h) <;> simp [h]
      · rintro ((h | h) | h) <;> simp [h]
    simp only [Tol.leafLoop, conv]
    split
    · rename_i hc
      rw [hsol] at hc
      refine ih (k :: done) (fun j hj => hks j (List.mem_cons_of_mem _ hj)) r UB ?_ ?_
      · intro he
        obtain ⟨e1, e2, e3⟩ := h1 he
        refine ⟨e1, e2, fun j hj => ?_⟩
        rcases List.mem_cons.1 hj with rfl | hj
        · rw [← e2]; exact hc
        · exact e3 j hj
      · intro he
        obtain ⟨e1, e2, e3⟩ := h2 he
        refine ⟨e1, e2, fun j hj => ?_⟩
        rcases List.mem_cons.1 hj with rfl | hj
        · have := (e2 hc.1).2; have := hc.2; unfold Tol.sdom at this; omega
        · exact e3 j hj
    · rename_i hc
      rw [hsol] at hc
      have hle : c.useUB = true → 10000 * leafCost c.P D k ≤ 10001 * UB.sol := fun hu => by
        by_contra hcon; exact hc ⟨hu, by unfold Tol.sdom; omega⟩
      refine ih (k :: done) (fun j hj => hks j (List.mem_cons_of_mem _ hj)) _ _ ?_ ?_
      · intro he
        exfalso
        cases hr : r.isEmpty with
        | true =>
          rw [(h1 hr).1] at he
          have : Node.addMin (Node.empty c.worst) (Node.leaf k (leafCost c.P D k)) = Node.leaf k (leafCost c.P D k) := by
            exact if_pos hsm
          rw [this, hreal.nonempty] at he; simp at he
        | false =>
          rcases addMin_cases r (Node.leaf k (leafCost c.P D k)) with h | h <;> rw [h] at he
          · rw [hr] at he; simp at he
          · rw [hreal.nonempty] at he; simp at he
      · intro _
        cases hr : r.isEmpty with
        | true =>
          obtain ⟨e1, e2, e3⟩ := h1 hr
          have : Node.addMin r (Node.leaf k (leafCost c.P D k)) = Node.leaf k (leafCost c.P D k) := by
            rw [e1]; exact if_pos hsm
          rw [this]
          refine ⟨hreal, fun hu => ?_, fun j hj => ?_⟩
          · have hle := hle hu
            unfold updateUB; rw [if_pos hu, hsol]
            unfold Node.addMin; rw [hsol]
            rw [← e2]
            split
            · rw [hsol]; omega
            · omega
          · rw [hsol]
            rcases List.mem_cons.1 hj with rfl | hj
            · exact Int.le_refl _
            · have h3 := e3 j hj
              have hle := hle h3.1
              rw [e2] at hle
              have := h3.2; unfold Tol.sdom at this; omega
        | false =>
          obtain ⟨e1, e2, e3⟩ := h2 hr
          refine ⟨?_, fun hu => ?_, fun j hj => ?_⟩
          · rcases addMin_cases r (Node.leaf k (leafCost c.P D k)) with h | h <;> rw [h] <;> assumption
          · have := e2 hu
            have := hle hu
            unfold updateUB; rw [if_pos hu]
            unfold Node.addMin; rw [hsol]
            split <;> split <;> (try rw [hsol]) <;> omega
          · rcases List.mem_cons.1 hj with rfl | hj
            · exact addMin_le_right _ _
            · exact Int.le_trans (addMin_le_left _ _) (e3 j hj)

/-- What `SolveLeafNode` returns. -/
theorem solveLeaf_spec {D : Data} (hD : ViewOf T D) (hm : c.mls ≤ D.length) (UB : Node) :
    ((Tol.solveLeaf c D UB).1.isEmpty = true → (Tol.solveLeaf c D UB).1 = Node.empty c.worst ∧ (Tol.solveLeaf c D UB).2 = UB ∧
      ∀ k, k < c.P.nL → c.useUB = true ∧ Tol.sdom UB.sol (leafCost c.P D k)) ∧
    ((Tol.solveLeaf c D UB).1.isEmpty = false → Real c.P c.mls 0 D (Tol.solveLeaf c D UB).1 ∧
      (c.useUB = true → (Tol.solveLeaf c D UB).2.sol = min UB.sol (Tol.solveLeaf c D UB).1.sol ∧
        10000 * (Tol.solveLeaf c D UB).1.sol ≤ 10001 * (Tol.solveLeaf c D UB).2.sol) ∧
      ∀ k, k < c.P.nL → (Tol.solveLeaf c D UB).1.sol ≤ leafCost c.P D k) := by
  unfold Tol.solveLeaf
  rw [if_neg (by omega)]
  have h := leafLoop_spec S hD hm UB (List.range c.P.nL) [] (fun k hk => List.mem_range.1 hk) (Node.empty c.worst) UB
    (fun _ => ⟨rfl, rfl, by simp⟩) (fun h => by simp [Node.empty, Node.isEmpty] at h)
  simp only at h
  refine ⟨fun he => ⟨(h.1 he).1, (h.1 he).2.1, fun k hk => (h.1 he).2.2 k (.inr (List.mem_range.2 hk))⟩,
    fun he => ⟨(h.2 he).1, (h.2 he).2.1, fun k hk => (h.2 he).2.2 k (.inr (List.mem_range.2 hk))⟩⟩

/-! ### Lower bounds -/

theorem computeLB_of {s : St} {b : Branch} {d n : Nat} {k : ℤ} (hk : 0 ≤ k)
    (hr : c.useLB = true → LBk c k d n (sel b T) (s.cache.retrieveLB c.cc (sel b T) b d n).sol) :
    LBk c k d n (sel b T) (Tol.computeLB c s (sel b T) b d n).sol := by
  have hv : ViewOf T (sel b T) := sel_view b T
  have h0 : LBk c k d n (sel b T) (Node.value 0).sol := LBk.zero (S.pos hv) k d n
  have hcust : LBk c k d n (sel b T) (c.customLB (sel b T)) :=
    LBk.exact (S.pos hv) hk (LowerBound.lbok fun t ht => S.good.custom _ hv t ht.2.2)
  unfold Tol.computeLB
  split
  · rename_i hlb
    have hsp : c.sparse = false := by
      cases h : c.sparse with
      | false => rfl
      | true => rw [(S.good.sparse h).1] at hlb; simp at hlb
    simp only [hsp]
    rcases addMax_cases (Node.addMax (Node.value 0) (s.cache.retrieveLB c.cc (sel b T) b d n)) (Node.value (c.customLB (sel b T)))
      with h | h <;> rw [if_neg (by simp), h]
    · rcases addMax_cases (Node.value 0) (s.cache.retrieveLB c.cc (sel b T) b d n) with h' | h' <;> rw [h']
      · exact h0
      · exact hr hlb
    · exact hcust
  · exact h0

theorem computeLB_spec {s : St} (hs : StOK c T K s) {b : Branch} {d n : Nat} (hok : K.ok b d n) (hH : AllOK c s.tick) :
    LBk c (K.w b d n + 1) d n (sel b T) (Tol.computeLB c s (sel b T) b d n).sol :=
  computeLB_of S (by have := K.nonneg b d n hok; omega) fun _ => retrieveLB_spec hs (S.posSel b) hH

/-- The bound used where no optimal solution is stored. -/
theorem computeLB_open {s : St} (hs : StOK c T K s) {b : Branch} {d n : Nat} (hok : K.ok b d n) (hH : AllOK c s.tick)
    (ho : c.useLB = true → (s.cache.retrieveOpt c.cc (sel b T) b d n).isEmpty = true) :
    LBk c (K.w b d n) d n (sel b T) (Tol.computeLB c s (sel b T) b d n).sol :=
  computeLB_of S (K.nonneg b d n hok) fun hl => retrieveLB_open hs (S.posSel b) hH hl (ho hl)

theorem computeLRLB_spec {s : St} (hs : StOK c T K s) {f : Nat} {bl br : Branch} {ld ls rd rs : Nat} {k : ℤ} (hk : 0 ≤ k)
    (hb1 : BudOK c ld ls) (hb2 : BudOK c rd rs) (ok1 : K.ok bl ld ls) (ok2 : K.ok br rd rs)
    (k1 : K.w bl ld ls + 1 ≤ k) (k2 : K.w br rd rs + 1 ≤ k) (hH : AllOK c s.tick) :
    let x := Tol.computeLRLB c s f (sel bl T) bl ld ls (sel br T) br rd rs
    (∀ tL tR, Allowed c.P c.mls ld ls (sel bl T) tL → Allowed c.P c.mls rd rs (sel br T) tR →
      (x.1.sol : ℚ) ≤ tol ^ k * ((c.P.bc + (tL.cost c.P (sel bl T) + tR.cost c.P (sel br T)) : Int) : ℚ)) ∧
    ∀ tR, Allowed c.P c.mls rd rs (sel br T) tR → (x.2.2.sol : ℚ) ≤ tol ^ k * (tR.cost c.P (sel br T) : ℚ) := by
  have pL := S.posSel bl
  have pR := S.posSel br
  have h1 := ((computeLB_spec S hs ok1 hH).mono pL k1 (Nat.le_refl _) (Nat.le_refl _)).lower hb1
  have h2 := ((computeLB_spec S hs ok2 hH).mono pR k2 (Nat.le_refl _) (Nat.le_refl _)).lower hb2
  have hbc : (0 : ℚ) ≤ c.P.bc := by exact_mod_cast S.good.bc
  have h1k := pow_one_le hk
  unfold Tol.computeLRLB
  split
  · refine ⟨fun tL tR a b => ?_, h2⟩
    have := h1 tL a
    have := h2 tR b
    simp only [Node.combine, Node.branch]
    push_cast
    nlinarith
  · refine ⟨fun tL tR _ _ => ?_, fun t _ => by simpa [Node.value] using scale_nonneg pR k t⟩
    have e1 : (0 : ℚ) ≤ tL.cost c.P (sel bl T) := by exact_mod_cast pL tL
    have e2 : (0 : ℚ) ≤ tR.cost c.P (sel br T) := by exact_mod_cast pR tR
    simp only [Node.value]
    push_cast
    have := pow_pos k
    positivity

end
end Streed.Apx
