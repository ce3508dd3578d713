import Verif.Lemmas.PwOptimal

/-! The loops of `Solve` around the search with fitted leaves. -/

namespace Streed.Pw
open Apx (tol tol_pos tol_one)

/-- `result` and `global_UB` are consistent. -/
structure RunOK (p : Task) (T : Data) (t : Top) (r : Run) : Prop where
  sound : Sound p t.maxDepth t.maxNodes T r.result
  ubE : Open p T → r.result.isEmpty = true → r.gUB.sol = min p.c.worst t.ub
  ubN : Open p T → r.result.isEmpty = false → min r.result.sol (min p.c.worst t.ub) ≤ r.gUB.sol

/-- Up to the factor, the result is no worse than any tree of a budget that respects the given upper bound. -/
def Settled (p : Task) (T : Data) (t : Top) (d n : Nat) (v : Node) : Prop :=
  ∀ x, p.fitting.Allowed d n T x → tol ^ (p.c.P.nF + 1) * (p.fitting.cost x T : ℚ) ≤ t.ub →
    v.isEmpty = false ∧ (v.sol : ℚ) ≤ tol ^ (p.c.P.nF + 1) * (p.fitting.cost x T : ℚ)

section
variable {p : Task} {T : Data}

theorem start_ok (t : Top) (k : Nat) (s : St) :
    RunOK p T t ⟨(solveLeaf p T (startUB p.c t)).1, (solveLeaf p T (startUB p.c t)).2, k, s⟩ := by
  have hub := (startUB_sol (c := p.c) t).1
  refine ⟨solveLeaf_sound _ _ _ _, fun O he => ?_, fun O he => ?_⟩
  all_goals
    dsimp only at he ⊢
    by_cases hm : p.c.mls ≤ p.weight T
  · obtain ⟨v, _, _, h3⟩ := solveLeaf_open O (List.Sublist.refl T) hm (startUB p.c t)
    rcases h3 with ⟨h3, _⟩ | ⟨h3, _⟩
    · rw [h3]; exact hub
    · rw [h3] at he; simp [Node.leaf, Node.isEmpty] at he
  · unfold solveLeaf; rw [if_pos (by omega)]; exact hub
  · obtain ⟨v, _, _, h3⟩ := solveLeaf_open O (List.Sublist.refl T) hm (startUB p.c t)
    rcases h3 with ⟨h3, _⟩ | ⟨h3, h4, _⟩
    · rw [h3] at he; simp [Node.empty, Node.isEmpty] at he
    · rw [h3, h4, hub]; simp only [Node.leaf]; omega
  · unfold solveLeaf at he; rw [if_pos (by omega)] at he; simp [Node.empty, Node.isEmpty] at he

/-- The effect of a call from the top that meets its specification. -/
theorem run_post (t : Top) {r : Run} (hr : RunOK p T t r) {d n : Nat}
    (hd : d ≤ t.maxDepth) (hn : n ≤ t.maxNodes) (b : Bool) (k : Nat) (mdf : Int) {x : Node × St}
    (hpost : Post p T T r.gUB d n r.st x) :
    let result := Node.addMin r.result x.1
    let r' : Run := ⟨result, tighten p.c b result (Node.addMin r.gUB x.1), k, { x.2 with mdf := mdf }⟩
    RunOK p T t r' ∧ r.st.tick ≤ r'.st.tick ∧ SOK p T r'.st ∧
    (Open p T → AllOK p.c r'.st.tick → Settled p T t d n r'.result) ∧
    (Open p T → r.result.isEmpty = false → r'.result.isEmpty = false ∧ r'.result.sol ≤ r.result.sol) := by
  have hv : ViewOf T T := List.Sublist.refl T
  have g1 := loss_one p T
  have g2 := loss_le p T
  obtain ⟨p1, p2, p3, p4, p5⟩ := hpost
  dsimp only
  have hsnd : Sound p t.maxDepth t.maxNodes T (Node.addMin r.result x.1) := hr.sound.addMin (p3.mono hd hn)
  have hres : Open p T → (r.result.isEmpty = false → (Node.addMin r.result x.1).isEmpty = false) ∧
      (x.1.isEmpty = false → (Node.addMin r.result x.1).isEmpty = false) ∧
      (r.result.isEmpty = true → x.1.isEmpty = true → Node.addMin r.result x.1 = Node.empty p.c.worst) := by
    intro O
    refine ⟨fun h1 => ?_, fun h2 => ?_, fun h1 h2 => ?_⟩
    · have h4 := O.real_small hv (hr.sound.real h1).1
      rcases addMin_cases r.result x.1 with h | h <;> rw [h]
      · exact h1
      · cases h2 : x.1.isEmpty with
        | false => rfl
        | true =>
          have h3 := p3.emp h2
          have h5 : x.1.sol ≤ r.result.sol := by rw [← h]; exact addMin_le_left _ _
          rw [h3] at h5
          simp only [Node.empty] at h5; omega
    · have h4 := O.real_small hv (p3.real h2).1
      rcases addMin_cases r.result x.1 with h | h <;> rw [h]
      · cases h1 : r.result.isEmpty with
        | false => rfl
        | true =>
          have h3 := hr.sound.emp h1
          have h5 : r.result.sol ≤ x.1.sol := by rw [← h]; exact addMin_le_right _ _
          rw [h3] at h5
          simp only [Node.empty] at h5; omega
      · exact h2
    · rw [hr.sound.emp h1, p3.emp h2]; unfold Node.addMin; split <;> rfl
  have hboth : Open p T → (Node.addMin r.result x.1).isEmpty = true → r.result.isEmpty = true ∧ x.1.isEmpty = true := by
    intro O h
    constructor
    · cases h1 : r.result.isEmpty with
      | true => rfl
      | false => rw [(hres O).1 h1] at h; simp at h
    · cases h1 : x.1.isEmpty with
      | true => rfl
      | false => rw [(hres O).2.1 h1] at h; simp at h
  refine ⟨⟨hsnd, fun O he => ?_, fun O he => ?_⟩, p1, ⟨p2.cache, p2.arch⟩, fun O hH y hy hub => ?_,
    fun O he => ⟨(hres O).1 he, addMin_le_left _ _⟩⟩
  · dsimp only at he ⊢
    obtain ⟨e1, e2⟩ := hboth O he
    have h3 := hr.ubE O e1
    rw [(tighten_sol b _ _).1 (by rw [(hres O).2.2 e1 e2]; rfl), p3.emp e2, addMin_sol, h3]
    simp only [Node.empty]; omega
  · dsimp only at he ⊢
    have hmd := O.md
    have h1 := O.real_small hv (hsnd.real he).1
    have h2 := (tighten_sol (c := p.c) b (Node.addMin r.result x.1) (Node.addMin r.gUB x.1)).2 (by omega)
    have h3 := addMin_sol r.gUB x.1
    have h4 : (Node.addMin r.result x.1).sol ≤ x.1.sol := addMin_le_right _ _
    have h5 : (Node.addMin r.result x.1).sol ≤ r.result.sol := addMin_le_left _ _
    cases e1 : r.result.isEmpty with
    | false => have := hr.ubN O e1; omega
    | true => have := hr.ubE O e1; omega
  · have h4 : ((Node.addMin r.result x.1).sol : ℚ) ≤ x.1.sol := by exact_mod_cast addMin_le_right _ _
    have h5 : (Node.addMin r.result x.1).sol ≤ r.result.sol := addMin_le_left _ _
    have hlt := O.big T hv y hy.2.2
    have y0 : (0 : ℚ) ≤ p.fitting.cost y T := by exact_mod_cast O.cost_nonneg hv hy.2.2
    have z0 : loss p T * (p.fitting.cost y T : ℚ) ≤ tol ^ p.c.P.nF * (p.fitting.cost y T : ℚ) := mul_le_mul_of_nonneg_right g2 y0
    have z1 : (p.fitting.cost y T : ℚ) ≤ loss p T * (p.fitting.cost y T : ℚ) := by nlinarith
    have z2 : tol * (loss p T * (p.fitting.cost y T : ℚ)) ≤ tol ^ (p.c.P.nF + 1) * (p.fitting.cost y T : ℚ) := by
      rw [pow_succ', mul_assoc]
      exact mul_le_mul_of_nonneg_left z0 (le_of_lt tol_pos)
    have z3 : loss p T * (p.fitting.cost y T : ℚ) ≤ tol ^ (p.c.P.nF + 1) * (p.fitting.cost y T : ℚ) := by
      refine le_trans ?_ z2
      have := tol_one
      nlinarith
    generalize tol ^ (p.c.P.nF + 1) * (p.fitting.cost y T : ℚ) = Z at hlt hub z2 z3 ⊢
    have key : ∀ z : ℚ, z ≤ Z → (r.gUB.sol : ℚ) < z →
        (Node.addMin r.result x.1).isEmpty = false ∧ ((Node.addMin r.result x.1).sol : ℚ) ≤ Z := by
      intro z hz hg
      have h6 : ¬ (min p.c.worst t.ub ≤ r.gUB.sol) := by
        intro h
        have h' : ((min p.c.worst t.ub : Int) : ℚ) ≤ r.gUB.sol := by exact_mod_cast h
        rcases Int.le_total p.c.worst t.ub with h7 | h7
        · rw [Int.min_eq_left h7] at h'; linarith
        · rw [Int.min_eq_right h7] at h'; linarith
      cases e1 : r.result.isEmpty with
      | false =>
        have h7 := hr.ubN O e1
        have h8 : (Node.addMin r.result x.1).sol ≤ r.gUB.sol := by omega
        have h8 : ((Node.addMin r.result x.1).sol : ℚ) ≤ r.gUB.sol := by exact_mod_cast h8
        exact ⟨(hres O).1 e1, by linarith⟩
      | true => have := hr.ubE O e1; omega
    cases e2 : x.1.isEmpty with
    | false =>
      rcases p4 O hH e2 y hy with h6 | h6
      · exact ⟨(hres O).2.1 e2, by linarith⟩
      · exact key _ (le_trans z1 z3) (by exact_mod_cast h6)
    | true => exact key _ z3 (p5 O hH e2 y hy)

/-- One call of the search from the top. -/
theorem run_step (G : Fair p T) (t : Top) {r : Run} (hr : RunOK p T t r) (hs : SOK p T r.st) {d n : Nat}
    (hd : d ≤ t.maxDepth) (hn : n ≤ t.maxNodes) (hp : n + 1 ≤ 2 ^ d) (b : Bool) (k : Nat) (mdf : Int) :
    let x := solveSub p t.maxDepth T [] r.gUB d n r.st
    let result := Node.addMin r.result x.1
    let r' : Run := ⟨result, tighten p.c b result (Node.addMin r.gUB x.1), k, { x.2 with mdf := mdf }⟩
    RunOK p T t r' ∧ r.st.tick ≤ r'.st.tick ∧ SOK p T r'.st ∧
    (Open p T → AllOK p.c r'.st.tick → Settled p T t d n r'.result) ∧
    (Open p T → r.result.isEmpty = false → r'.result.isEmpty = false ∧ r'.result.sol ≤ r.result.sol) :=
  run_post t hr hd hn b k mdf (solveSub_spec G t.maxDepth T [] r.gUB d n r.st hd (sel_nil T).symm hp hs)

theorem depthRuns_spec (G : Fair p T) (t : Top) (a m : Nat) (hmd : a + m ≤ t.maxDepth + 1) (r : Run) (hr : RunOK p T t r)
    (hs : SOK p T r.st) :
    let r' := depthRuns p t T (List.range' a m) r
    RunOK p T t r' ∧
    (Open p T → AllOK p.c r'.st.tick → 1 ≤ m → Settled p T t (a + m - 1) (min t.maxNodes (2 ^ (a + m - 1) - 1)) r'.result) := by
  induction m generalizing a r with
  | zero => exact ⟨hr, fun _ _ h => by omega⟩
  | succ m ih =>
    simp only [List.range'_succ, depthRuns]
    have hpos : 1 ≤ 2 ^ a := Nat.one_le_two_pow
    have hstep := run_step G t hr hs (d := a) (n := min t.maxNodes (2 ^ a - 1)) (by omega) (by omega) (by omega) false a a
    dsimp only at hstep
    obtain ⟨g1, g2, g3, g4, g5⟩ := hstep
    change RunOK p T t (depthRun p t T r a) at g1
    change r.st.tick ≤ (depthRun p t T r a).st.tick at g2
    change SOK p T (depthRun p t T r a).st at g3
    change _ → AllOK p.c (depthRun p t T r a).st.tick → Settled p T t _ _ (depthRun p t T r a).result at g4
    clear g5
    generalize depthRun p t T r a = r1 at g1 g2 g3 g4
    have gn : RunOK p T t { r1 with st := r1.st.next } := ⟨g1.sound, g1.ubE, g1.ubN⟩
    split
    · rename_i hok
      exact ⟨gn, fun _ h => absurd h (not_AllOK_next hok)⟩
    · cases m with
      | zero =>
        simp only [List.range'_zero, depthRuns]
        refine ⟨gn, fun O hH _ => ?_⟩
        have := g4 O (hH.mono (Nat.le_succ _))
        simpa using this
      | succ m =>
        obtain ⟨i1, i3⟩ := ih (a + 1) (by omega) { r1 with st := r1.st.next } gn g3.next
        refine ⟨i1, fun O hH _ => ?_⟩
        have := i3 O hH (by omega)
        have e : a + 1 + (m + 1) - 1 = a + (m + 1 + 1) - 1 := by omega
        rw [e] at this; exact this

theorem sizeRuns_spec (G : Fair p T) (t : Top) (a m : Nat) (hmn : a + m ≤ t.maxNodes + 1)
    (hfit : t.maxNodes + 1 ≤ 2 ^ t.maxDepth) (r : Run) (hr : RunOK p T t r) (hs : SOK p T r.st) :
    let r' := sizeRuns p t T (List.range' a m) r
    RunOK p T t r' ∧ (Open p T → AllOK p.c r'.st.tick → 1 ≤ m → Settled p T t (min t.maxDepth (a + m - 1)) (a + m - 1) r'.result) := by
  induction m generalizing a r with
  | zero => exact ⟨hr, fun _ _ h => by omega⟩
  | succ m ih =>
    simp only [List.range'_succ, sizeRuns]
    have rn : RunOK p T t { r with st := r.st.next } := ⟨hr.sound, hr.ubE, hr.ubN⟩
    split
    · rename_i hok
      exact ⟨rn, fun _ h => absurd h (not_AllOK_next hok)⟩
    · have hp : a + 1 ≤ 2 ^ (min t.maxDepth a) := by
        rcases Nat.le_total t.maxDepth a with h | h
        · rw [Nat.min_eq_left h]; omega
        · rw [Nat.min_eq_right h]; exact Nat.lt_two_pow_self
      have hstep := run_step G t rn hs.next (d := min t.maxDepth a) (n := a) (by omega) (by omega) hp true (min t.maxDepth a)
        (Nat.log2 (a + 1))
      dsimp only at hstep
      obtain ⟨g1, g2, g3, g4, g5⟩ := hstep
      change RunOK p T t (sizeRun p t T { r with st := r.st.next } a) at g1
      change SOK p T (sizeRun p t T { r with st := r.st.next } a).st at g3
      change _ → AllOK p.c (sizeRun p t T { r with st := r.st.next } a).st.tick →
        Settled p T t _ _ (sizeRun p t T { r with st := r.st.next } a).result at g4
      clear g2 g5
      generalize sizeRun p t T { r with st := r.st.next } a = r1 at g1 g3 g4
      have gn : RunOK p T t { r1 with st := r1.st.next } := ⟨g1.sound, g1.ubE, g1.ubN⟩
      split
      · rename_i hok
        exact ⟨gn, fun _ h => absurd h (not_AllOK_next hok)⟩
      · cases m with
        | zero =>
          simp only [List.range'_zero, sizeRuns]
          refine ⟨gn, fun O hH _ => ?_⟩
          have := g4 O (hH.mono (Nat.le_succ _))
          simpa using this
        | succ m =>
          obtain ⟨i1, i3⟩ := ih (a + 1) (by omega) { r1 with st := r1.st.next } gn g3.next
          refine ⟨i1, fun O hH _ => ?_⟩
          have := i3 O hH (by omega)
          have e : a + 1 + (m + 1) - 1 = a + (m + 1 + 1) - 1 := by omega
          rw [e] at this; exact this

theorem settled_full {t : Top} {v : Node} {d n : Nat} (hd : min t.maxDepth t.maxNodes ≤ d)
    (hn : min t.maxNodes (2 ^ d - 1) ≤ n) (h : Settled p T t d n v) : Settled p T t t.maxDepth t.maxNodes v := by
  intro x hx hub
  refine h x ⟨?_, ?_, hx.2.2⟩ hub
  · have := x.depth_le_nodes
    have := hx.1
    have := hx.2.1
    omega
  · have h1 := x.nodes_lt_pow
    have h2 : x.depth ≤ d := by
      have := x.depth_le_nodes
      have := hx.1
      have := hx.2.1
      omega
    have h3 : 2 ^ x.depth ≤ 2 ^ d := Nat.pow_le_pow_right (by decide) h2
    have := hx.2.1
    omega

theorem solve_spec (G : Fair p T) (t : Top) (hfit : t.maxNodes + 1 ≤ 2 ^ t.maxDepth) :
    Sound p t.maxDepth t.maxNodes T (solve p t T).1.result ∧
    (Open p T → Monotone p.c.clock → (solve p t T).2 = true → Settled p T t t.maxDepth t.maxNodes (solve p t T).1.result) := by
  unfold solve
  dsimp only
  have hst : Node.addMin (Node.empty p.c.worst) (Node.value t.ub) = startUB p.c t := rfl
  rw [hst]
  have h0 := start_ok (p := p) (T := T) t t.maxDepth St.init
  have hs0 : SOK p T St.init := SOK.init
  have fin : ∀ r : Run, RunOK p T t r → (Open p T → AllOK p.c r.st.tick → Settled p T t t.maxDepth t.maxNodes r.result) →
      Sound p t.maxDepth t.maxNodes T r.result ∧
      (Open p T → Monotone p.c.clock → p.c.ok r.st = true → Settled p T t t.maxDepth t.maxNodes r.result) := by
    intro r hr hset
    exact ⟨hr.sound, fun O hclk hok => hset O ((hclk.allOK hok).mono (Nat.le_succ _))⟩
  split
  · rcases Nat.eq_zero_or_pos t.maxNodes with hz | hn
    · rw [show List.range' 1 t.maxNodes = [] by rw [hz]; rfl]
      simp only [sizeRuns]
      refine fin _ h0 fun O _ x hx hub => ?_
      obtain ⟨k, rfl⟩ := leaf_of_depth_zero (t := x) (.inr (by have := hx.2.1; omega))
      have hv : ViewOf T T := List.Sublist.refl T
      have hbig := O.big T hv _ hx.2.2
      have y0 : (0 : ℚ) ≤ p.fitting.cost (.leaf k) T := by exact_mod_cast O.cost_nonneg hv hx.2.2
      have h1 : (1 : ℚ) ≤ tol ^ (p.c.P.nF + 1) := one_le_pow₀ tol_one
      have h2 : (p.fitting.cost (.leaf k) T : ℚ) ≤ tol ^ (p.c.P.nF + 1) * (p.fitting.cost (.leaf k) T : ℚ) := by nlinarith
      obtain ⟨v, h3, h4, h5⟩ := solveLeaf_open O hv hx.2.2.1 (startUB p.c t)
      rw [leaf_cost h3] at *
      rcases h5 with ⟨_, h5⟩ | ⟨h5, _⟩
      · exfalso
        rw [(startUB_sol t).1] at h5
        have h6 : v ≤ t.ub := by exact_mod_cast le_trans h2 hub
        have h7 : v < p.c.worst := by exact_mod_cast lt_of_le_of_lt h2 hbig
        unfold Tol.sdom at h5
        omega
      · dsimp only
        rw [h5]
        exact ⟨rfl, h2⟩
    have hd : 1 ≤ t.maxDepth := by
      rcases Nat.eq_zero_or_pos t.maxDepth with h | h
      · rw [h] at hfit; omega
      · exact h
    obtain ⟨g1, g3⟩ := sizeRuns_spec G t 1 t.maxNodes (by omega) hfit _ h0 hs0
    refine fin _ g1 fun O hH => ?_
    have h3 := g3 O hH hn
    rw [show 1 + t.maxNodes - 1 = t.maxNodes by omega] at h3
    refine settled_full (Nat.le_refl _) ?_ h3
    omega
  · obtain ⟨g1, g3⟩ := depthRuns_spec G t (min 2 (min t.maxDepth t.maxNodes))
      (min t.maxDepth t.maxNodes + 1 - min 2 (min t.maxDepth t.maxNodes)) (by omega) _ h0 hs0
    refine fin _ g1 fun O hH => ?_
    have h3 := g3 O hH (by omega)
    have e : min 2 (min t.maxDepth t.maxNodes) + (min t.maxDepth t.maxNodes + 1 - min 2 (min t.maxDepth t.maxNodes)) - 1 =
        min t.maxDepth t.maxNodes := by omega
    rw [e] at h3
    exact settled_full (Nat.le_refl _) (Nat.le_refl _) h3

end
end Streed.Pw
