import Verif.Lemmas.Optimal

/-! The loops of `Solve` around the recursive search. -/

namespace Streed

/-- The upper bound a search starts with. -/
def startUB (c : Cfg) (t : Top) : Node := Node.addMin (Node.empty c.worst) (Node.value t.ub)

/-- `result` and `global_UB` are consistent. -/
structure RunOK (c : Cfg) (t : Top) (T : Data) (r : Run) : Prop where
  real : r.result.isEmpty = false → Real c.P c.mls t.maxDepth T r.result ∧ r.result.numNodes ≤ t.maxNodes
  emp : r.result.isEmpty = true → r.result = Node.empty c.worst
  ubE : c.useUB = true → r.result.isEmpty = true → r.gUB.sol = min c.worst t.ub
  ubN : c.useUB = true → r.result.isEmpty = false → min (r.result.sol - c.md) (min c.worst t.ub) ≤ r.gUB.sol

/-- The result of a run accounts for all trees of a budget that respect the given upper bound. -/
def Settled (c : Cfg) (t : Top) (T : Data) (d n : Nat) (v : Node) : Prop :=
  ∀ x, Allowed c.P c.mls d n T x → x.cost c.P T ≤ t.ub → v.isEmpty = false ∧ v.sol ≤ x.cost c.P T

/-- The clock never recovers. -/
def Monotone (clock : Nat → Bool) : Prop := ∀ i j, i ≤ j → clock j = true → clock i = true

theorem Monotone.allOK {c : Cfg} (h : Monotone c.clock) {s : St} (hs : c.ok s = true) : AllOK c (s.tick + 1) :=
  fun i hi => h i s.tick (by omega) hs

section
variable {c : Cfg} {T : Data} (G : Good c T)
include G

omit G in
theorem startUB_sol (t : Top) : (startUB c t).sol = min c.worst t.ub ∧ (startUB c t).isEmpty = true := by
  unfold startUB Node.addMin
  by_cases h : t.ub < c.worst
  · rw [if_pos (by exact h)]; exact ⟨by simp only [Node.value]; omega, rfl⟩
  · rw [if_neg (by exact h)]; exact ⟨by simp only [Node.empty]; omega, rfl⟩

theorem start_ok (t : Top) (hm : c.mls ≤ T.length) (k : Nat) (s : St) :
    RunOK c t T ⟨(solveLeaf c T (startUB c t)).1, (solveLeaf c T (startUB c t)).2, k, s⟩ := by
  obtain ⟨h1, h2⟩ := solveLeaf_spec G (List.Sublist.refl T) hm (startUB c t)
  have hmd := G.md
  refine ⟨fun he => ?_, fun he => (h1 he).1, fun _ he => ?_, fun hu he => ?_⟩ <;> dsimp only at *
  · have := (h2 he).1
    exact ⟨this.mono (Nat.zero_le _), by rw [this.numNodes_zero]; exact Nat.zero_le _⟩
  · rw [(h1 he).2.1]; exact (startUB_sol t).1
  · have := ((h2 he).2.1 hu).1; omega

omit G in
theorem tighten_sol (b : Bool) (result gUB : Node) : (result.sol = c.worst → (tighten c b result gUB).sol = gUB.sol) ∧
    (result.sol ≠ c.worst → min gUB.sol (result.sol - c.md) ≤ (tighten c b result gUB).sol) := by
  unfold tighten
  refine ⟨fun h => by rw [if_pos h], fun h => ?_⟩
  rw [if_neg h]
  cases b <;> simp

/-- The effect of a call from the top that meets its specification. -/
theorem run_post (t : Top) {r : Run} (hr : RunOK c t T r) {d n : Nat}
    (hd : d ≤ t.maxDepth) (hn : n ≤ t.maxNodes) (b : Bool) (k : Nat) (mdf : Int) {x : Node × St}
    (hpost : Post c T T r.gUB d n r.st x) :
    let result := Node.addMin r.result x.1
    let r' : Run := ⟨result, tighten c b result (Node.addMin r.gUB x.1), k, { x.2 with mdf := mdf }⟩
    RunOK c t T r' ∧ r.st.tick ≤ r'.st.tick ∧ ((c.useLB = true → c.useTerm = true → n = 1 → r.gUB.isEmpty = true) → StOK c T r'.st) ∧
    (AllOK c r'.st.tick → Settled c t T d n r'.result) ∧
    (r.result.isEmpty = false → r'.result.isEmpty = false ∧ r'.result.sol ≤ r.result.sol) := by
  have hv : ViewOf T T := List.Sublist.refl T
  have hmd := G.md
  dsimp only
  have hne : ∀ y : Node, y.isEmpty = false → Real c.P c.mls t.maxDepth T y → y.sol < c.worst := fun y _ h => Real.small G hv h
  -- the four cases of result and x
  have hres : (r.result.isEmpty = false → (Node.addMin r.result x.1).isEmpty = false) ∧
      (x.1.isEmpty = false → (Node.addMin r.result x.1).isEmpty = false) ∧
      (r.result.isEmpty = true → x.1.isEmpty = true → Node.addMin r.result x.1 = Node.empty c.worst) ∧
      (r.result.isEmpty = true → x.1.isEmpty = false → Node.addMin r.result x.1 = x.1) := by
    refine ⟨fun h1 => ?_, fun h2 => ?_, fun h1 h2 => ?_, fun h1 h2 => ?_⟩
    · rcases addMin_cases r.result x.1 with h | h <;> rw [h]
      · exact h1
      · cases h2 : x.1.isEmpty with
        | false => rfl
        | true =>
          have h3 := hpost.emp h2
          have h4 := hne _ h1 (hr.real h1).1
          unfold Node.addMin at h
          rw [h3] at h
          rw [if_neg (by simp only [Node.empty]; omega)] at h
          rw [h] at h1; simp [Node.empty, Node.isEmpty] at h1
    · rcases addMin_cases r.result x.1 with h | h <;> rw [h]
      · cases h1 : r.result.isEmpty with
        | false => rfl
        | true =>
          have h3 := hr.emp h1
          have h4 := Real.small G hv (hpost.real h2).1
          unfold Node.addMin at h
          rw [h3] at h
          rw [if_pos (by simp only [Node.empty]; omega)] at h
          rw [h] at h2; simp [Node.empty, Node.isEmpty] at h2
      · exact h2
    · rw [hr.emp h1, hpost.emp h2]; unfold Node.addMin; split <;> rfl
    · have h4 := Real.small G hv (hpost.real h2).1
      rw [hr.emp h1]; exact if_pos (by simp only [Node.empty]; omega)
  have hreal : (Node.addMin r.result x.1).isEmpty = false →
      Real c.P c.mls t.maxDepth T (Node.addMin r.result x.1) ∧ (Node.addMin r.result x.1).numNodes ≤ t.maxNodes := by
    intro he
    rcases addMin_cases r.result x.1 with h | h <;> rw [h] at he ⊢
    · exact hr.real he
    · have := hpost.real he
      exact ⟨this.1.mono hd, by omega⟩
  have hboth : (Node.addMin r.result x.1).isEmpty = true → r.result.isEmpty = true ∧ x.1.isEmpty = true := by
    intro h
    constructor
    · cases h1 : r.result.isEmpty with
      | true => rfl
      | false => rw [hres.1 h1] at h; simp at h
    · cases h1 : x.1.isEmpty with
      | true => rfl
      | false => rw [hres.2.1 h1] at h; simp at h
  refine ⟨⟨hreal, fun he => ?_, fun hu he => ?_, fun hu he => ?_⟩, hpost.tick, fun h => ⟨(hpost.st h).cache, (hpost.st h).arch⟩,
    fun hH y hy hub => ?_, fun he => ⟨hres.1 he, addMin_le_left _ _⟩⟩
  · dsimp only at he ⊢
    obtain ⟨e1, e2⟩ := hboth he
    exact hres.2.2.1 e1 e2
  · dsimp only at he ⊢
    obtain ⟨e1, e2⟩ := hboth he
    have h3 := hr.ubE hu e1
    rw [(tighten_sol b _ _).1 (by rw [hres.2.2.1 e1 e2]; rfl), hpost.emp e2]
    unfold Node.addMin Node.empty
    simp only
    split
    · simp only; omega
    · exact h3
  · dsimp only at he ⊢
    have h1 := Real.small G hv (hreal he).1
    have h2 := (tighten_sol (c := c) b (Node.addMin r.result x.1) (Node.addMin r.gUB x.1)).2 (by omega)
    have h3 : (Node.addMin r.gUB x.1).sol = min r.gUB.sol x.1.sol := by
      unfold Node.addMin; split <;> omega
    have h4 : (Node.addMin r.result x.1).sol ≤ x.1.sol := addMin_le_right _ _
    have h5 : (Node.addMin r.result x.1).sol ≤ r.result.sol := addMin_le_left _ _
    cases e1 : r.result.isEmpty with
    | false => have := hr.ubN hu e1; omega
    | true => have := hr.ubE hu e1; omega
  · have h4 : (Node.addMin r.result x.1).sol ≤ x.1.sol := addMin_le_right _ _
    have h5 : (Node.addMin r.result x.1).sol ≤ r.result.sol := addMin_le_left _ _
    have hsm := G.small T hv y hy.2.2
    cases e2 : x.1.isEmpty with
    | false =>
      rcases hpost.low hH e2 y hy with h6 | ⟨hsp, h6⟩
      · exact ⟨hres.2.1 e2, by omega⟩
      · have hu := (G.sparse hsp).2
        cases e1 : r.result.isEmpty with
        | false =>
          have := hr.ubN hu e1
          exact ⟨hres.1 e1, by omega⟩
        | true => have := hr.ubE hu e1; omega
    | true =>
      obtain ⟨hu, h6⟩ := hpost.inf hH e2 y hy
      cases e1 : r.result.isEmpty with
      | false =>
        have := hr.ubN hu e1
        exact ⟨hres.1 e1, by omega⟩
      | true => have := hr.ubE hu e1; omega

/-- One call of the search from the top. -/
theorem run_step (t : Top) {r : Run} (hr : RunOK c t T r) (hs : StOK c T r.st) (hm : c.mls ≤ T.length) {d n : Nat}
    (hd : d ≤ t.maxDepth) (hn : n ≤ t.maxNodes) (hb : BudOK c d n) (hp : n + 1 ≤ 2 ^ d) (b : Bool) (k : Nat) (mdf : Int) :
    let x := solveSub c t.maxDepth T [] r.gUB d n r.st
    let result := Node.addMin r.result x.1
    let r' : Run := ⟨result, tighten c b result (Node.addMin r.gUB x.1), k, { x.2 with mdf := mdf }⟩
    RunOK c t T r' ∧ r.st.tick ≤ r'.st.tick ∧ ((c.useLB = true → c.useTerm = true → n = 1 → r.gUB.isEmpty = true) → StOK c T r'.st) ∧
    (AllOK c r'.st.tick → Settled c t T d n r'.result) ∧
    (r.result.isEmpty = false → r'.result.isEmpty = false ∧ r'.result.sol ≤ r.result.sol) := by
  exact run_post G t hr hd hn b k mdf (solveSub_spec G t.maxDepth T [] r.gUB d n r.st hd (sel_nil T).symm hm hb hp hs)

theorem depthRuns_spec (t : Top) (hm : c.mls ≤ T.length) (a m : Nat) (hmd : a + m ≤ t.maxDepth + 1)
    (hbud : ∀ d, d ≤ t.maxDepth → BudOK c d (min t.maxNodes (2 ^ d - 1)))
    (h1 : c.useTerm = true → 2 ≤ m → ∀ d, a ≤ d → min t.maxNodes (2 ^ d - 1) ≠ 1) (r : Run) (hr : RunOK c t T r)
    (hs : StOK c T r.st) :
    let r' := depthRuns c t T (List.range' a m) r
    RunOK c t T r' ∧ r.st.tick ≤ r'.st.tick ∧
    (AllOK c r'.st.tick → 1 ≤ m → Settled c t T (a + m - 1) (min t.maxNodes (2 ^ (a + m - 1) - 1)) r'.result) := by
  induction m generalizing a r with
  | zero => exact ⟨hr, Nat.le_refl _, fun _ h => by omega⟩
  | succ m ih =>
    simp only [List.range'_succ, depthRuns]
    have hpos : 1 ≤ 2 ^ a := Nat.one_le_two_pow
    have hstep := run_step G t hr hs hm (d := a) (n := min t.maxNodes (2 ^ a - 1)) (by omega) (by omega)
      (hbud a (by omega)) (by omega) false a a
    dsimp only at hstep
    obtain ⟨g1, g2, g3, g4, g5⟩ := hstep
    change RunOK c t T (depthRun c t T r a) at g1
    change r.st.tick ≤ (depthRun c t T r a).st.tick at g2
    change _ → StOK c T (depthRun c t T r a).st at g3
    change AllOK c (depthRun c t T r a).st.tick → Settled c t T _ _ (depthRun c t T r a).result at g4
    generalize depthRun c t T r a = r1 at g1 g2 g3 g4
    have gn : RunOK c t T { r1 with st := r1.st.next } := ⟨g1.real, g1.emp, g1.ubE, g1.ubN⟩
    split
    · rename_i hok
      refine ⟨gn, ?_, fun h => absurd h (not_AllOK_next hok)⟩
      simp only [St.next]; omega
    · cases m with
      | zero =>
        simp only [List.range'_zero, depthRuns]
        refine ⟨gn, by simp only [St.next]; omega, fun hH _ => ?_⟩
        have := g4 (hH.mono (Nat.le_succ _))
        simpa using this
      | succ m =>
        have hst : StOK c T r1.st := g3 fun _ hu hn => absurd hn (h1 hu (by omega) a (Nat.le_refl _))
        obtain ⟨i1, i2, i3⟩ := ih (a + 1) (by omega) (fun hu _ d hd => h1 hu (by omega) d (by omega))
          { r1 with st := r1.st.next } gn hst.next
        have i2' : r1.st.tick + 1 ≤ _ := i2
        refine ⟨i1, by omega, fun hH _ => ?_⟩
        · have := i3 hH (by omega)
          have e : a + 1 + (m + 1) - 1 = a + (m + 1 + 1) - 1 := by omega
          rw [e] at this; exact this

theorem sizeRuns_spec (t : Top) (hm : c.mls ≤ T.length) (a m : Nat) (hmn : a + m ≤ t.maxNodes + 1)
    (hfit : t.maxNodes + 1 ≤ 2 ^ t.maxDepth) (hbud : ∀ n, a ≤ n → n < a + m → BudOK c (min t.maxDepth n) n)
    (h1 : c.useTerm = true → m ≤ 1) (r : Run) (hr : RunOK c t T r) (hs : StOK c T r.st) :
    let r' := sizeRuns c t T (List.range' a m) r
    RunOK c t T r' ∧ r.st.tick ≤ r'.st.tick ∧
    (AllOK c r'.st.tick → (∀ n, a ≤ n → n < a + m → Settled c t T (min t.maxDepth n) n r'.result) ∧
      (r.result.isEmpty = false → r'.result.isEmpty = false ∧ r'.result.sol ≤ r.result.sol)) := by
  induction m generalizing a r with
  | zero => exact ⟨hr, Nat.le_refl _, fun _ => ⟨fun n h1 h2 => by omega, fun h => ⟨h, Int.le_refl _⟩⟩⟩
  | succ m ih =>
    simp only [List.range'_succ, sizeRuns]
    have rn : RunOK c t T { r with st := r.st.next } := ⟨hr.real, hr.emp, hr.ubE, hr.ubN⟩
    split
    · rename_i hok
      exact ⟨rn, Nat.le_succ _, fun h => absurd h (not_AllOK_next hok)⟩
    · have hp : a + 1 ≤ 2 ^ (min t.maxDepth a) := by
        rcases Nat.le_total t.maxDepth a with h | h
        · rw [Nat.min_eq_left h]; omega
        · rw [Nat.min_eq_right h]; exact Nat.lt_two_pow_self
      have hstep := run_step G t rn hs.next hm (d := min t.maxDepth a) (n := a) (by omega) (by omega)
        (hbud a (Nat.le_refl _) (by omega)) hp true (min t.maxDepth a) (Nat.log2 (a + 1))
      dsimp only at hstep
      obtain ⟨g1, g2, g3, g4, g5⟩ := hstep
      change RunOK c t T (sizeRun c t T { r with st := r.st.next } a) at g1
      change r.st.next.tick ≤ (sizeRun c t T { r with st := r.st.next } a).st.tick at g2
      change _ → StOK c T (sizeRun c t T { r with st := r.st.next } a).st at g3
      change AllOK c (sizeRun c t T { r with st := r.st.next } a).st.tick →
        Settled c t T _ _ (sizeRun c t T { r with st := r.st.next } a).result at g4
      change _ → (sizeRun c t T { r with st := r.st.next } a).result.isEmpty = false ∧
        (sizeRun c t T { r with st := r.st.next } a).result.sol ≤ r.result.sol at g5
      generalize sizeRun c t T { r with st := r.st.next } a = r1 at g1 g2 g3 g4 g5
      have gn : RunOK c t T { r1 with st := r1.st.next } := ⟨g1.real, g1.emp, g1.ubE, g1.ubN⟩
      have tk : r.st.tick ≤ r1.st.tick := by simp only [St.next] at g2; omega
      split
      · rename_i hok
        refine ⟨gn, ?_, fun h => absurd h (not_AllOK_next hok)⟩
        simp only [St.next]; omega
      · cases m with
        | zero =>
          simp only [List.range'_zero, sizeRuns]
          refine ⟨gn, by simp only [St.next]; omega, fun hH => ⟨fun n h2 h3 => ?_, g5⟩⟩
          obtain rfl : n = a := by omega
          exact g4 (hH.mono (Nat.le_succ _))
        | succ m =>
          have hst : StOK c T r1.st := g3 fun _ hu _ => by have := h1 hu; omega
          obtain ⟨i1, i2, i3⟩ := ih (a + 1) (by omega) (fun n h2 h3 => hbud n (by omega) (by omega))
            (fun hu => by have := h1 hu; omega) { r1 with st := r1.st.next } gn hst.next
          have i2' : r1.st.tick + 1 ≤ _ := i2
          refine ⟨i1, by omega, fun hH => ?_⟩
          obtain ⟨j1, j2⟩ := i3 hH
          refine ⟨fun n h2 h3 => ?_, fun he => ?_⟩
          · by_cases hn : n = a
            · subst hn
              intro y hy hub
              have h4 := g4 (hH.mono (by omega)) y hy hub
              have h5 := j2 h4.1
              exact ⟨h5.1, Int.le_trans h5.2 h4.2⟩
            · exact j1 n (by omega) (by omega)
          · have h4 := g5 he
            have h5 := j2 h4.1
            exact ⟨h5.1, Int.le_trans h5.2 h4.2⟩

omit G in
theorem settled_full {t : Top} {v : Node} {d n : Nat} (hd : min t.maxDepth t.maxNodes ≤ d)
    (hn : min t.maxNodes (2 ^ d - 1) ≤ n) (h : Settled c t T d n v) : Settled c t T t.maxDepth t.maxNodes v := by
  intro x hx hub
  refine h x ⟨?_, ?_, hx.2.2⟩ hub
  · have := x.depth_le_nodes
    have := hx.1
    have := hx.2.1
    omega
  · have h1 := x.nodes_lt_pow
    have h2 : x.depth ≤ d := by
      have := x.depth_le_nodes
      have := hx.1
      have := hx.2.1
      omega
    have h3 : 2 ^ x.depth ≤ 2 ^ d := Nat.pow_le_pow_right (by decide) h2
    have := hx.2.1
    omega

/-- **Correctness of `Solve`.** If the run reports an optimal result, every allowed tree within the given
upper bound costs at least the reported value. -/
theorem solve_spec (t : Top) (hm : c.mls ≤ T.length) (hclk : Monotone c.clock)
    (hfit : t.maxNodes + 1 ≤ 2 ^ t.maxDepth)
    (hterm : c.useTerm = true → t.maxNodes + 1 = 2 ^ t.maxDepth ∧ (t.allTrees = true → t.maxNodes ≤ 1)) :
    RunOK c t T (solve c t T).1 ∧
    ((solve c t T).2 = true → AllOK c (solve c t T).1.st.tick ∧ Settled c t T t.maxDepth t.maxNodes (solve c t T).1.result) := by
  have hstart : (if (Node.empty c.worst).isEmpty = true then solveLeaf c T (Node.addMin (Node.empty c.worst) (Node.value t.ub))
      else (Node.empty c.worst, Node.empty c.worst)) = solveLeaf c T (startUB c t) := by
    rw [if_pos (by rfl)]; rfl
  unfold solve solveFrom
  dsimp only
  rw [hstart]
  have h0 := start_ok G t hm t.maxDepth { St.init with mdf := 0 }
  have hs0 : StOK c T { St.init with mdf := 0 } :=
    ⟨CInv.init c T _, fun d p hp => by simp [St.init, Tbl.get] at hp⟩
  have fin : ∀ r : Run, RunOK c t T r → (AllOK c r.st.tick → Settled c t T t.maxDepth t.maxNodes r.result) →
      RunOK c t T { r with st := r.st.next } ∧ (c.ok r.st = true → AllOK c r.st.next.tick ∧ Settled c t T t.maxDepth t.maxNodes r.result) := by
    intro r hr hset
    refine ⟨⟨hr.real, hr.emp, hr.ubE, hr.ubN⟩, fun hok => ?_⟩
    have := hclk.allOK hok
    exact ⟨this, hset (this.mono (Nat.le_succ _))⟩
  split
  · rename_i hc
    rcases Nat.eq_zero_or_pos t.maxNodes with hz | hn
    · rw [show List.range' 1 t.maxNodes = [] by rw [hz]; rfl]
      simp only [sizeRuns]
      refine fin _ h0 fun _ => ?_
      have hleaf := solveLeaf_spec G (List.Sublist.refl T) hm (startUB c t)
      intro x hx hub
      obtain ⟨k, rfl⟩ := leaf_of_depth_zero (t := x) (.inr (by have := hx.2.1; omega))
      have hsm : leafCost c.P T k < c.worst := G.small T (List.Sublist.refl T) _ hx.2.2
      have hub : leafCost c.P T k ≤ t.ub := hub
      cases he : (solveLeaf c T (startUB c t)).1.isEmpty with
      | true =>
        have := ((hleaf.1 he).2.2 k hx.2.2.1).2
        rw [(startUB_sol t).1] at this
        omega
      | false => exact ⟨rfl, (hleaf.2 he).2.2 k hx.2.2.1⟩
    have hd : 1 ≤ t.maxDepth := by
      rcases Nat.eq_zero_or_pos t.maxDepth with h | h
      · rw [h] at hfit; omega
      · exact h
    have hb : ∀ n, 1 ≤ n → n < 1 + t.maxNodes → BudOK c (min t.maxDepth n) n := by
      intro n h2 h3
      cases hu : c.useTerm with
      | false => exact .inl hu
      | true =>
        have h4 := hterm hu
        have h5 : t.maxNodes = 1 := by
          rcases hc with h | h
          · have := h4.2 h; omega
          · exact h
        obtain rfl : n = 1 := by omega
        right; rw [Nat.min_eq_right hd]; rfl
    have hm1 : c.useTerm = true → t.maxNodes ≤ 1 := by
      intro hu
      rcases hc with h | h
      · have := (hterm hu).2 h; omega
      · omega
    obtain ⟨g1, _, g3⟩ := sizeRuns_spec G t hm 1 t.maxNodes (by omega) hfit hb hm1 _ h0 hs0
    refine fin _ g1 fun hH => ?_
    refine settled_full (Nat.le_refl _) ?_ ((g3 hH).1 t.maxNodes hn (by omega))
    omega
  · rename_i hc
    have hc' : t.maxNodes ≠ 1 := fun h => hc (.inr h)
    have hbud : ∀ d, d ≤ t.maxDepth → BudOK c d (min t.maxNodes (2 ^ d - 1)) := by
      intro d h2
      cases hu : c.useTerm with
      | false => exact .inl hu
      | true =>
        right
        have h3 := (hterm hu).1
        have h4 : 2 ^ d ≤ 2 ^ t.maxDepth := Nat.pow_le_pow_right (by decide) h2
        have : 1 ≤ 2 ^ d := Nat.one_le_two_pow
        omega
    have h2 : c.useTerm = true → 2 ≤ min t.maxDepth t.maxNodes + 1 - min 2 (min t.maxDepth t.maxNodes) →
        ∀ d, min 2 (min t.maxDepth t.maxNodes) ≤ d → min t.maxNodes (2 ^ d - 1) ≠ 1 := by
      intro _ h3 d h4
      have h5 : 2 ^ 2 ≤ 2 ^ d := Nat.pow_le_pow_right (by decide) (by omega)
      omega
    obtain ⟨g1, _, g3⟩ := depthRuns_spec G t hm (min 2 (min t.maxDepth t.maxNodes))
      (min t.maxDepth t.maxNodes + 1 - min 2 (min t.maxDepth t.maxNodes)) (by omega) hbud h2 _ h0 hs0
    refine fin _ g1 fun hH => ?_
    have h3 := g3 hH (by omega)
    have e : min 2 (min t.maxDepth t.maxNodes) + (min t.maxDepth t.maxNodes + 1 - min 2 (min t.maxDepth t.maxNodes)) - 1 =
        min t.maxDepth t.maxNodes := by omega
    rw [e] at h3
    exact settled_full (Nat.le_refl _) (Nat.le_refl _) h3

end
end Streed
