import Verif.Lemmas.ApxOptimal
import Verif.Lemmas.Top

/-! The loops of `Solve` around the recursive search with tolerant comparisons. -/

namespace Streed.Apx

/-- The factor of a whole run. -/
def total {c : Cfg} {T : Data} (K : Rank c T) : ℚ := tol ^ (K.w [] 0 0 + 1)

/-- The result of a run is, up to the factor, no worse than any tree of a budget that respects the given upper bound. -/
def Settled (c : Cfg) (t : Top) (T : Data) (g : ℚ) (d n : Nat) (v : Node) : Prop :=
  ∀ x, Allowed c.P c.mls d n T x → g * (x.cost c.P T : ℚ) ≤ t.ub → v.isEmpty = false ∧ (v.sol : ℚ) ≤ g * (x.cost c.P T : ℚ)

section
variable {c : Cfg} {T : Data} {K : Rank c T} (S : Setting c T K)
include S

theorem start_ok (t : Top) (hm : c.mls ≤ T.length) (k : Nat) (s : St) :
    RunOK c t T ⟨(Tol.solveLeaf c T (startUB c t)).1, (Tol.solveLeaf c T (startUB c t)).2, k, s⟩ := by
  obtain ⟨h1, h2⟩ := solveLeaf_spec S (List.Sublist.refl T) hm (startUB c t)
  have G := S.good
  have hmd := S.md
  refine ⟨fun he => ?_, fun he => (h1 he).1, fun _ he => ?_, fun hu he => ?_⟩ <;> dsimp only at *
  · have := (h2 he).1
    exact ⟨this.mono (Nat.zero_le _), by rw [this.numNodes_zero]; exact Nat.zero_le _⟩
  · rw [(h1 he).2.1]; exact (startUB_sol t).1
  · have h3 := ((h2 he).2.1 hu).1
    have h4 := (startUB_sol (c := c) t).1
    rw [h4] at h3; omega

/-- The effect of a call from the top that meets its specification. -/
theorem run_post (t : Top) {r : Run} (hr : RunOK c t T r) {d n : Nat}
    (hd : d ≤ t.maxDepth) (hn : n ≤ t.maxNodes) (b : Bool) (k : Nat) (mdf : Int) {x : Node × St}
    (hok : K.ok [] d n) (hpost : Post c T K [] r.gUB d n r.st x) :
    let result := Node.addMin r.result x.1
    let r' : Run := ⟨result, tighten c b result (Node.addMin r.gUB x.1), k, { x.2 with mdf := mdf }⟩
    RunOK c t T r' ∧ r.st.tick ≤ r'.st.tick ∧ ((c.useLB = true → c.useTerm = true → n = 1 → r.gUB.isEmpty = true) → StOK c T K r'.st) ∧
    (AllOK c r'.st.tick → Settled c t T (total K) d n r'.result) ∧
    (r.result.isEmpty = false → r'.result.isEmpty = false ∧ r'.result.sol ≤ r.result.sol) := by
  have hv : ViewOf T T := List.Sublist.refl T
  have G := S.good
  have hmd := S.md
  have hw := K.anti [] 0 0 d n (Nat.zero_le _) (Nat.zero_le _)
  have hk := K.nonneg [] d n hok
  have pD := S.pos hv
  have hbig := S.big [] 0 0 (K.small _ _ _ _ _ hok (Nat.zero_le _) (Nat.zero_le _))
  rw [sel_nil] at hbig
  obtain ⟨p1, p2, p3, p4, p5, p6⟩ := hpost
  rw [sel_nil] at p3 p5 p6
  dsimp only
  have hne : ∀ y : Node, y.isEmpty = false → Real c.P c.mls t.maxDepth T y → y.sol < c.worst := fun y _ h => Real.small G hv h
  -- the four cases of result and x
  have hres : (r.result.isEmpty = false → (Node.addMin r.result x.1).isEmpty = false) ∧
      (x.1.isEmpty = false → (Node.addMin r.result x.1).isEmpty = false) ∧
      (r.result.isEmpty = true → x.1.isEmpty = true → Node.addMin r.result x.1 = Node.empty c.worst) ∧
      (r.result.isEmpty = true → x.1.isEmpty = false → Node.addMin r.result x.1 = x.1) := by
    refine ⟨fun h1 => ?_, fun h2 => ?_, fun h1 h2 => ?_, fun h1 h2 => ?_⟩
    · rcases addMin_cases r.result x.1 with h | h <;> rw [h]
      · exact h1
      · cases h2 : x.1.isEmpty with
        | false => rfl
        | true =>
          have h3 := p4 h2
          have h4 := hne _ h1 (hr.real h1).1
          unfold Node.addMin at h
          rw [h3] at h
          rw [if_neg (by simp only [Node.empty]; omega)] at h
          rw [h] at h1; simp [Node.empty, Node.isEmpty] at h1
    · rcases addMin_cases r.result x.1 with h | h <;> rw [h]
      · cases h1 : r.result.isEmpty with
        | false => rfl
        | true =>
          have h3 := hr.emp h1
          have h4 := Real.small G hv (p3 h2).1
          unfold Node.addMin at h
          rw [h3] at h
          rw [if_pos (by simp only [Node.empty]; omega)] at h
          rw [h] at h2; simp [Node.empty, Node.isEmpty] at h2
      · exact h2
    · rw [hr.emp h1, p4 h2]; unfold Node.addMin; split <;> rfl
    · have h4 := Real.small G hv (p3 h2).1
      rw [hr.emp h1]; exact if_pos (by simp only [Node.empty]; omega)
  have hreal : (Node.addMin r.result x.1).isEmpty = false →
      Real c.P c.mls t.maxDepth T (Node.addMin r.result x.1) ∧ (Node.addMin r.result x.1).numNodes ≤ t.maxNodes := by
    intro he
    rcases addMin_cases r.result x.1 with h | h <;> rw [h] at he ⊢
    · exact hr.real he
    · have := p3 he
      exact ⟨this.1.mono hd, by omega⟩
  have hboth : (Node.addMin r.result x.1).isEmpty = true → r.result.isEmpty = true ∧ x.1.isEmpty = true := by
    intro h
    constructor
    · cases h1 : r.result.isEmpty with
      | true => rfl
      | false => rw [hres.1 h1] at h; simp at h
    · cases h1 : x.1.isEmpty with
      | true => rfl
      | false => rw [hres.2.1 h1] at h; simp at h
  refine ⟨⟨hreal, fun he => ?_, fun hu he => ?_, fun hu he => ?_⟩, p1, fun h => p2 h,
    fun hH y hy hub => ?_, fun he => ⟨hres.1 he, addMin_le_left _ _⟩⟩
  · dsimp only at he ⊢
    obtain ⟨e1, e2⟩ := hboth he
    exact hres.2.2.1 e1 e2
  · dsimp only at he ⊢
    obtain ⟨e1, e2⟩ := hboth he
    have h3 := hr.ubE hu e1
    rw [(tighten_sol b _ _).1 (by rw [hres.2.2.1 e1 e2]; rfl), p4 e2]
    unfold Node.addMin Node.empty
    simp only
    split
    · simp only; omega
    · exact h3
  · dsimp only at he ⊢
    have h1 := Real.small G hv (hreal he).1
    have h2 := (tighten_sol (c := c) b (Node.addMin r.result x.1) (Node.addMin r.gUB x.1)).2 (by omega)
    have h3 : (Node.addMin r.gUB x.1).sol = min r.gUB.sol x.1.sol := by
      unfold Node.addMin; split <;> omega
    have h4 : (Node.addMin r.result x.1).sol ≤ x.1.sol := addMin_le_right _ _
    have h5 : (Node.addMin r.result x.1).sol ≤ r.result.sol := addMin_le_left _ _
    cases e1 : r.result.isEmpty with
    | false => have := hr.ubN hu e1; omega
    | true => have := hr.ubE hu e1; omega
  · have h4 : (Node.addMin r.result x.1).sol ≤ x.1.sol := addMin_le_right _ _
    have h5 : (Node.addMin r.result x.1).sol ≤ r.result.sol := addMin_le_left _ _
    have hlt : total K * (y.cost c.P T : ℚ) < c.worst := hbig y hy.2.2
    have z0 : tol ^ (K.w [] d n) * (y.cost c.P T : ℚ) ≤ total K * (y.cost c.P T : ℚ) := scale_mono pD (by omega) y
    have key : ∀ z : ℚ, c.useUB = true → z ≤ total K * (y.cost c.P T : ℚ) → (r.gUB.sol : ℚ) < z →
        (Node.addMin r.result x.1).isEmpty = false ∧ ((Node.addMin r.result x.1).sol : ℚ) ≤ total K * (y.cost c.P T : ℚ) := by
      intro z hu hz hg
      have h6 : ¬ (min c.worst t.ub ≤ r.gUB.sol) := by
        intro h
        have h' : ((min c.worst t.ub : Int) : ℚ) ≤ r.gUB.sol := by exact_mod_cast h
        rcases Int.le_total c.worst t.ub with h7 | h7
        · rw [Int.min_eq_left h7] at h'; linarith
        · rw [Int.min_eq_right h7] at h'; linarith
      cases e1 : r.result.isEmpty with
      | false =>
        have h7 := hr.ubN hu e1
        have h8 : (Node.addMin r.result x.1).sol ≤ r.gUB.sol := by omega
        have h8 : ((Node.addMin r.result x.1).sol : ℚ) ≤ r.gUB.sol := by exact_mod_cast h8
        exact ⟨hres.1 e1, by linarith⟩
      | true => have := hr.ubE hu e1; omega
    cases e2 : x.1.isEmpty with
    | false =>
      rcases p5 hH e2 y hy with h6 | ⟨hsp, h6⟩
      · have h7 : tol ^ (K.w [] d n + 1) * (y.cost c.P T : ℚ) ≤ total K * (y.cost c.P T : ℚ) := scale_mono pD (by omega) y
        have h8 : ((Node.addMin r.result x.1).sol : ℚ) ≤ x.1.sol := by exact_mod_cast h4
        exact ⟨hres.2.1 e2, by linarith⟩
      · exact key _ (G.sparse hsp).2 (scale_one pD (by omega) y) (by exact_mod_cast h6)
    | true =>
      obtain ⟨hu, h6⟩ := p6 hH e2 y hy
      exact key _ hu z0 h6

/-- One call of the search from the top. -/
theorem run_step (t : Top) {r : Run} (hr : RunOK c t T r) (hs : StOK c T K r.st) (hm : c.mls ≤ T.length)
    (hK : K.ok [] t.maxDepth t.maxNodes) {d n : Nat}
    (hd : d ≤ t.maxDepth) (hn : n ≤ t.maxNodes) (hb : BudOK c d n) (hp : n + 1 ≤ 2 ^ d) (b : Bool) (k : Nat) (mdf : Int) :
    let x := Tol.solveSub c t.maxDepth T [] r.gUB d n r.st
    let result := Node.addMin r.result x.1
    let r' : Run := ⟨result, tighten c b result (Node.addMin r.gUB x.1), k, { x.2 with mdf := mdf }⟩
    RunOK c t T r' ∧ r.st.tick ≤ r'.st.tick ∧ ((c.useLB = true → c.useTerm = true → n = 1 → r.gUB.isEmpty = true) → StOK c T K r'.st) ∧
    (AllOK c r'.st.tick → Settled c t T (total K) d n r'.result) ∧
    (r.result.isEmpty = false → r'.result.isEmpty = false ∧ r'.result.sol ≤ r.result.sol) := by
  have hok := K.small _ _ _ _ _ hK hd hn
  have h := solveSub_spec S t.maxDepth [] r.gUB d n r.st hd (by rw [sel_nil]; exact hm) hb hp hok hs
  have e : Tol.solveSub c t.maxDepth (sel [] T) = Tol.solveSub c t.maxDepth T := by rw [sel_nil]
  rw [e] at h
  exact run_post S t hr hd hn b k mdf hok h

theorem depthRuns_spec (t : Top) (hm : c.mls ≤ T.length) (hK : K.ok [] t.maxDepth t.maxNodes) (a m : Nat) (hmd : a + m ≤ t.maxDepth + 1)
    (hbud : ∀ d, d ≤ t.maxDepth → BudOK c d (min t.maxNodes (2 ^ d - 1)))
    (h1 : c.useTerm = true → 2 ≤ m → ∀ d, a ≤ d → min t.maxNodes (2 ^ d - 1) ≠ 1) (r : Run) (hr : RunOK c t T r)
    (hs : StOK c T K r.st) :
    let r' := Tol.depthRuns c t T (List.range' a m) r
    RunOK c t T r' ∧ r.st.tick ≤ r'.st.tick ∧
    (AllOK c r'.st.tick → 1 ≤ m → Settled c t T (total K) (a + m - 1) (min t.maxNodes (2 ^ (a + m - 1) - 1)) r'.result) := by
  induction m generalizing a r with
  | zero => exact ⟨hr, Nat.le_refl _, fun _ h => by omega⟩
  | succ m ih =>
    simp only [List.range'_succ, Tol.depthRuns]
    have hpos : 1 ≤ 2 ^ a := Nat.one_le_two_pow
    have hstep := run_step S t hr hs hm hK (d := a) (n := min t.maxNodes (2 ^ a - 1)) (by omega) (by omega)
      (hbud a (by omega)) (by omega) false a a
    dsimp only at hstep
    obtain ⟨g1, g2, g3, g4, g5⟩ := hstep
    change RunOK c t T (Tol.depthRun c t T r a) at g1
    change r.st.tick ≤ (Tol.depthRun c t T r a).st.tick at g2
    change _ → StOK c T K (Tol.depthRun c t T r a).st at g3
    change AllOK c (Tol.depthRun c t T r a).st.tick → Settled c t T (total K) _ _ (Tol.depthRun c t T r a).result at g4
    generalize Tol.depthRun c t T r a = r1 at g1 g2 g3 g4
    have gn : RunOK c t T { r1 with st := r1.st.next } := ⟨g1.real, g1.emp, g1.ubE, g1.ubN⟩
    split
    · rename_i hok
      refine ⟨gn, ?_, fun h => absurd h (not_AllOK_next hok)⟩
      simp only [St.next]; omega
    · cases m with
      | zero =>
        simp only [List.range'_zero, Tol.depthRuns]
        refine ⟨gn, by simp only [St.next]; omega, fun hH _ => ?_⟩
        have := g4 (hH.mono (Nat.le_succ _))
        simpa using this
      | succ m =>
        have hst : StOK c T K r1.st := g3 fun _ hu hn => absurd hn (h1 hu (by omega) a (Nat.le_refl _))
        obtain ⟨i1, i2, i3⟩ := ih (a + 1) (by omega) (fun hu _ d hd => h1 hu (by omega) d (by omega))
          { r1 with st := r1.st.next } gn hst.next
        have i2' : r1.st.tick + 1 ≤ _ := i2
        refine ⟨i1, by omega, fun hH _ => ?_⟩
        · have := i3 hH (by omega)
          have e : a + 1 + (m + 1) - 1 = a + (m + 1 + 1) - 1 := by omega
          rw [e] at this; exact this

theorem sizeRuns_spec (t : Top) (hm : c.mls ≤ T.length) (hK : K.ok [] t.maxDepth t.maxNodes) (a m : Nat) (hmn : a + m ≤ t.maxNodes + 1)
    (hfit : t.maxNodes + 1 ≤ 2 ^ t.maxDepth) (hbud : ∀ n, a ≤ n → n < a + m → BudOK c (min t.maxDepth n) n)
    (h1 : c.useTerm = true → m ≤ 1) (r : Run) (hr : RunOK c t T r) (hs : StOK c T K r.st) :
    let r' := Tol.sizeRuns c t T (List.range' a m) r
    RunOK c t T r' ∧ r.st.tick ≤ r'.st.tick ∧
    (AllOK c r'.st.tick → (∀ n, a ≤ n → n < a + m → Settled c t T (total K) (min t.maxDepth n) n r'.result) ∧
      (r.result.isEmpty = false → r'.result.isEmpty = false ∧ r'.result.sol ≤ r.result.sol)) := by
  induction m generalizing a r with
  | zero => exact ⟨hr, Nat.le_refl _, fun _ => ⟨fun n h1 h2 => by omega, fun h => ⟨h, Int.le_refl _⟩⟩⟩
  | succ m ih =>
    simp only [List.range'_succ, Tol.sizeRuns]
    have rn : RunOK c t T { r with st := r.st.next } := ⟨hr.real, hr.emp, hr.ubE, hr.ubN⟩
    split
    · rename_i hok
      exact ⟨rn, Nat.le_succ _, fun h => absurd h (not_AllOK_next hok)⟩
    · have hp : a + 1 ≤ 2 ^ (min t.maxDepth a) := by
        rcases Nat.le_total t.maxDepth a with h | h
        · rw [Nat.min_eq_left h]; omega
        · rw [Nat.min_eq_right h]; exact Nat.lt_two_pow_self
      have hstep := run_step S t rn hs.next hm hK (d := min t.maxDepth a) (n := a) (by omega) (by omega)
        (hbud a (Nat.le_refl _) (by omega)) hp true (min t.maxDepth a) (Nat.log2 (a + 1))
      dsimp only at hstep
      obtain ⟨g1, g2, g3, g4, g5⟩ := hstep
      change RunOK c t T (Tol.sizeRun c t T { r with st := r.st.next } a) at g1
      change r.st.next.tick ≤ (Tol.sizeRun c t T { r with st := r.st.next } a).st.tick at g2
      change _ → StOK c T K (Tol.sizeRun c t T { r with st := r.st.next } a).st at g3
      change AllOK c (Tol.sizeRun c t T { r with st := r.st.next } a).st.tick →
        Settled c t T (total K) _ _ (Tol.sizeRun c t T { r with st := r.st.next } a).result at g4
      change _ → (Tol.sizeRun c t T { r with st := r.st.next } a).result.isEmpty = false ∧
        (Tol.sizeRun c t T { r with st := r.st.next } a).result.sol ≤ r.result.sol at g5
      generalize Tol.sizeRun c t T { r with st := r.st.next } a = r1 at g1 g2 g3 g4 g5
      have gn : RunOK c t T { r1 with st := r1.st.next } := ⟨g1.real, g1.emp, g1.ubE, g1.ubN⟩
      have tk : r.st.tick ≤ r1.st.tick := by simp only [St.next] at g2; omega
      split
      · rename_i hok
        refine ⟨gn, ?_, fun h => absurd h (not_AllOK_next hok)⟩
        simp only [St.next]; omega
      · cases m with
        | zero =>
          simp only [List.range'_zero, Tol.sizeRuns]
          refine ⟨gn, by simp only [St.next]; omega, fun hH => ⟨fun n h2 h3 => ?_, g5⟩⟩
          obtain rfl : n = a := by omega
          exact g4 (hH.mono (Nat.le_succ _))
        | succ m =>
          have hst : StOK c T K r1.st := g3 fun _ hu _ => by have := h1 hu; omega
          obtain ⟨i1, i2, i3⟩ := ih (a + 1) (by omega) (fun n h2 h3 => hbud n (by omega) (by omega))
            (fun hu => by have := h1 hu; omega) { r1 with st := r1.st.next } gn hst.next
          have i2' : r1.st.tick + 1 ≤ _ := i2
          refine ⟨i1, by omega, fun hH => ?_⟩
          obtain ⟨j1, j2⟩ := i3 hH
          refine ⟨fun n h2 h3 => ?_, fun he => ?_⟩
          · by_cases hn : n = a
            · subst hn
              intro y hy hub
              have h4 := g4 (hH.mono (by omega)) y hy hub
              have h5 := j2 h4.1
              exact ⟨h5.1, le_trans (by exact_mod_cast h5.2) h4.2⟩
            · exact j1 n (by omega) (by omega)
          · have h4 := g5 he
            have h5 := j2 h4.1
            exact ⟨h5.1, Int.le_trans h5.2 h4.2⟩

omit S in
theorem settled_full {t : Top} {v : Node} {d n : Nat} (hd : min t.maxDepth t.maxNodes ≤ d)
    (hn : min t.maxNodes (2 ^ d - 1) ≤ n) (h : Settled c t T (total K) d n v) : Settled c t T (total K) t.maxDepth t.maxNodes v := by
  intro x hx hub
  refine h x ⟨?_, ?_, hx.2.2⟩ hub
  · have := x.depth_le_nodes
    have := hx.1
    have := hx.2.1
    omega
  · have h1 := x.nodes_lt_pow
    have h2 : x.depth ≤ d := by
      have := x.depth_le_nodes
      have := hx.1
      have := hx.2.1
      omega
    have h3 : 2 ^ x.depth ≤ 2 ^ d := Nat.pow_le_pow_right (by decide) h2
    have := hx.2.1
    omega

/-- **Correctness of `Solve`.** If the run reports an optimal result, every allowed tree within the given
upper bound costs at least the reported value. -/
theorem solve_spec (t : Top) (hm : c.mls ≤ T.length) (hK : K.ok [] t.maxDepth t.maxNodes) (hclk : Monotone c.clock)
    (hfit : t.maxNodes + 1 ≤ 2 ^ t.maxDepth)
    (hterm : c.useTerm = true → t.maxNodes + 1 = 2 ^ t.maxDepth ∧ (t.allTrees = true → t.maxNodes ≤ 1)) :
    RunOK c t T (Tol.solve c t T).1 ∧
    ((Tol.solve c t T).2 = true → AllOK c (Tol.solve c t T).1.st.tick ∧ Settled c t T (total K) t.maxDepth t.maxNodes (Tol.solve c t T).1.result) := by
  have hstart : (if (Node.empty c.worst).isEmpty = true then Tol.solveLeaf c T (Node.addMin (Node.empty c.worst) (Node.value t.ub))
      else (Node.empty c.worst, Node.empty c.worst)) = Tol.solveLeaf c T (startUB c t) := by
    rw [if_pos (by rfl)]; rfl
  unfold Tol.solve Tol.solveFrom
  dsimp only
  rw [hstart]
  have h0 := start_ok S t hm t.maxDepth { St.init with mdf := 0 }
  have hs0 : StOK c T K { St.init with mdf := 0 } :=
    CInv.init c T K _
  have fin : ∀ r : Run, RunOK c t T r → (AllOK c r.st.tick → Settled c t T (total K) t.maxDepth t.maxNodes r.result) →
      RunOK c t T { r with st := r.st.next } ∧ (c.ok r.st = true → AllOK c r.st.next.tick ∧ Settled c t T (total K) t.maxDepth t.maxNodes r.result) := by
    intro r hr hset
    refine ⟨⟨hr.real, hr.emp, hr.ubE, hr.ubN⟩, fun hok => ?_⟩
    have := hclk.allOK hok
    exact ⟨this, hset (this.mono (Nat.le_succ _))⟩
  split
  · rename_i hc
    rcases Nat.eq_zero_or_pos t.maxNodes with hz | hn
    · rw [show List.range' 1 t.maxNodes = [] by rw [hz]; rfl]
      simp only [Tol.sizeRuns]
      refine fin _ h0 fun _ => ?_
      have hleaf := solveLeaf_spec S (List.Sublist.refl T) hm (startUB c t)
      intro x hx hub
      obtain ⟨k, rfl⟩ := leaf_of_depth_zero (t := x) (.inr (by have := hx.2.1; omega))
      have hok0 := K.small _ _ _ _ _ hK (Nat.zero_le _) (Nat.zero_le _)
      have hbig := S.big [] 0 0 hok0 (.leaf k) (by rw [sel_nil]; exact hx.2.2)
      rw [sel_nil] at hbig
      have hbig : total K * ((Tree.leaf k).cost c.P T : ℚ) < c.worst := hbig
      have hk := K.nonneg _ _ _ hok0
      have pD := S.pos (List.Sublist.refl T)
      have h1 : ((Tree.leaf k).cost c.P T : ℚ) ≤ total K * ((Tree.leaf k).cost c.P T : ℚ) := scale_one pD (by omega) _
      have h0 := pD (.leaf k)
      have e : (Tree.leaf k).cost c.P T = leafCost c.P T k := rfl
      rw [e] at hub h1 hbig h0
      cases he : (Tol.solveLeaf c T (startUB c t)).1.isEmpty with
      | true =>
        have h2 := ((hleaf.1 he).2.2 k hx.2.2.1).2
        rw [(startUB_sol t).1] at h2
        have h3 : leafCost c.P T k ≤ t.ub := by exact_mod_cast le_trans h1 hub
        have h4 : leafCost c.P T k < c.worst := by exact_mod_cast lt_of_le_of_lt h1 hbig
        unfold Tol.sdom at h2
        omega
      | false =>
        refine ⟨rfl, le_trans ?_ h1⟩
        exact_mod_cast (hleaf.2 he).2.2 k hx.2.2.1
    have hd : 1 ≤ t.maxDepth := by
      rcases Nat.eq_zero_or_pos t.maxDepth with h | h
      · rw [h] at hfit; omega
      · exact h
    have hb : ∀ n, 1 ≤ n → n < 1 + t.maxNodes → BudOK c (min t.maxDepth n) n := by
      intro n h2 h3
      cases hu : c.useTerm with
      | false => exact .inl hu
      | true =>
        have h4 := hterm hu
        have h5 : t.maxNodes = 1 := by
          rcases hc with h | h
          · have := h4.2 h; omega
          · exact h
        obtain rfl : n = 1 := by omega
        right; rw [Nat.min_eq_right hd]; rfl
    have hm1 : c.useTerm = true → t.maxNodes ≤ 1 := by
      intro hu
      rcases hc with h | h
      · have := (hterm hu).2 h; omega
      · omega
    obtain ⟨g1, _, g3⟩ := sizeRuns_spec S t hm hK 1 t.maxNodes (by omega) hfit hb hm1 _ h0 hs0
    refine fin _ g1 fun hH => ?_
    refine settled_full (Nat.le_refl _) ?_ ((g3 hH).1 t.maxNodes hn (by omega))
    omega
  · rename_i hc
    have hc' : t.maxNodes ≠ 1 := fun h => hc (.inr h)
    have hbud : ∀ d, d ≤ t.maxDepth → BudOK c d (min t.maxNodes (2 ^ d - 1)) := by
      intro d h2
      cases hu : c.useTerm with
      | false => exact .inl hu
      | true =>
        right
        have h3 := (hterm hu).1
        have h4 : 2 ^ d ≤ 2 ^ t.maxDepth := Nat.pow_le_pow_right (by decide) h2
        have : 1 ≤ 2 ^ d := Nat.one_le_two_pow
        omega
    have h2 : c.useTerm = true → 2 ≤ min t.maxDepth t.maxNodes + 1 - min 2 (min t.maxDepth t.maxNodes) →
        ∀ d, min 2 (min t.maxDepth t.maxNodes) ≤ d → min t.maxNodes (2 ^ d - 1) ≠ 1 := by
      intro _ h3 d h4
      have h5 : 2 ^ 2 ≤ 2 ^ d := Nat.pow_le_pow_right (by decide) (by omega)
      omega
    obtain ⟨g1, _, g3⟩ := depthRuns_spec S t hm hK (min 2 (min t.maxDepth t.maxNodes))
      (min t.maxDepth t.maxNodes + 1 - min 2 (min t.maxDepth t.maxNodes)) (by omega) hbud h2 _ h0 hs0
    refine fin _ g1 fun hH => ?_
    have h3 := g3 hH (by omega)
    have e : min 2 (min t.maxDepth t.maxNodes) + (min t.maxDepth t.maxNodes + 1 - min 2 (min t.maxDepth t.maxNodes)) - 1 =
        min t.maxDepth t.maxNodes := by omega
    rw [e] at h3
    exact settled_full (Nat.le_refl _) (Nat.le_refl _) h3

end
end Streed.Apx
