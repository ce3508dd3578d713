import Verif.Lemmas.PwSteps
import Verif.Lemmas.Top

/-! The search with fitted leaves returns legal trees, and nearly the best one if the lower bounds are switched off. -/

namespace Streed.Pw
open Apx (tol tol_pos tol_one le_tol same_le sdom_lt)

section
variable {p : Task} {T : Data}

theorem addMin_sol (a b : Node) : (Node.addMin a b).sol = min a.sol b.sol := by
  unfold Node.addMin; split <;> omega

theorem solveLeaf_sound (D : Data) (UB : Node) (d n : Nat) : Sound p d n D (solveLeaf p D UB).1 := by
  unfold solveLeaf
  split
  · exact .inl rfl
  · rename_i hw
    dsimp only
    split
    · exact .inl rfl
    · unfold Task.leafNode
      cases h : p.leaf D with
      | none => exact .inl rfl
      | some v => exact .inr ⟨Real.leaf (by omega) h, Nat.zero_le _⟩

/-- The leaf of the search, when there are enough rows. -/
theorem solveLeaf_open (O : Open p T) {D : Data} (hD : ViewOf T D) (hm : p.c.mls ≤ p.weight D) (UB : Node) :
    ∃ v : Int, p.leaf D = some v ∧ 0 ≤ v ∧
      (((solveLeaf p D UB) = (Node.empty p.c.worst, UB) ∧ Tol.sdom UB.sol v) ∨
       ((solveLeaf p D UB).1 = Node.leaf 0 v ∧ (solveLeaf p D UB).2.sol = min UB.sol v ∧ 10000 * v ≤ 10001 * UB.sol)) := by
  obtain ⟨v, h1, h2⟩ := O.leaf D hD hm
  refine ⟨v, h1, h2, ?_⟩
  have e : p.leafNode D = Node.leaf 0 v := by unfold Task.leafNode; rw [h1]
  unfold solveLeaf
  rw [if_neg (by omega)]
  dsimp only
  rw [e]
  by_cases hs : Tol.sdom UB.sol v
  · left
    rw [if_pos ⟨O.ub, hs⟩]; exact ⟨rfl, hs⟩
  · right
    rw [if_neg fun h => hs h.2]
    refine ⟨rfl, ?_, by unfold Tol.sdom at hs; omega⟩
    unfold updateUB
    rw [if_pos O.ub]
    exact addMin_sol UB (Node.leaf 0 v)

theorem leaf_cost {D : Data} {v : Int} (h : p.leaf D = some v) (k : Nat) : p.fitting.cost (.leaf k) D = v := by
  simp only [Fitting.cost, Task.fitting, h, Option.getD_some]

/-- The leaf result as the result of a call with any budget that allows only leaves. -/
theorem leaf_post {D : Data} (hD : ViewOf T D) (UB : Node) (d n : Nat) (s s' : St)
    (ht : s.tick ≤ s'.tick) (hs : SOK p T s') (hl : Open p T → ∀ t, p.fitting.Allowed d n D t → ∃ k, t = .leaf k) :
    Post p T D UB d n s ((solveLeaf p D UB).1, s') := by
  have g1 := loss_one p D
  refine ⟨ht, hs, solveLeaf_sound D UB d n, fun O _ he t ha => ?_, fun O _ he t ha => ?_⟩
  all_goals
    obtain ⟨k, rfl⟩ := hl O t ha
    obtain ⟨v, h1, h2, h3⟩ := solveLeaf_open O hD ha.2.2.1 UB
    rw [leaf_cost h1]
    have h2' : (0 : ℚ) ≤ v := by exact_mod_cast h2
    have h5 : (v : ℚ) ≤ loss p D * v := by nlinarith
  · rcases h3 with ⟨h3, _⟩ | ⟨h3, _⟩
    · dsimp only at he; rw [h3] at he; simp [Node.empty, Node.isEmpty] at he
    · left
      dsimp only
      rw [h3]
      have := tol_one
      simp only [Node.leaf]
      nlinarith
  · rcases h3 with ⟨_, h4⟩ | ⟨h3, _⟩
    · have h4 : UB.sol < v := by unfold Tol.sdom at h4; omega
      have h4 : (UB.sol : ℚ) < v := by exact_mod_cast h4
      linarith
    · dsimp only at he; rw [h3] at he; simp [Node.leaf, Node.isEmpty] at he

/-- The local variables before the feature loop. -/
theorem start_spec {D : Data} {b : Branch} (hD : D = sel b T) {d n : Nat} {s : St} (hs : SOK p T s) (UB : Node) :
    LocOK p T D d n UB (startLoc p D b UB d n s) ∧
    (Open p T → ∀ k, p.fitting.Allowed d n D (.leaf k) →
      Covers UB (startLoc p D b UB d n s) (loss p D * (p.fitting.cost (.leaf k) D : ℚ))) := by
  have hv : ViewOf T D := by rw [hD]; exact sel_view b T
  have g1 := loss_one p D
  have hsnd := solveLeaf_sound (p := p) D UB d n
  have hop := fun O : Open p T => solveLeaf_open O hv
  have hshort : p.weight D < p.c.mls → solveLeaf p D UB = (Node.empty p.c.worst, UB) := fun h => by unfold solveLeaf; rw [if_pos h]
  unfold startLoc
  generalize hlf : solveLeaf p D UB = lf at hsnd hshort
  -- what is known of the leaf
  have hk : Open p T → (lf = (Node.empty p.c.worst, UB) ∧ (p.weight D < p.c.mls ∨ ∃ v, p.leaf D = some v ∧ 0 ≤ v ∧ Tol.sdom UB.sol v)) ∨
      ∃ v, p.leaf D = some v ∧ 0 ≤ v ∧ lf.1 = Node.leaf 0 v ∧ lf.2.sol = min UB.sol v ∧ 10000 * v ≤ 10001 * UB.sol := by
    intro O
    by_cases hm : p.c.mls ≤ p.weight D
    · obtain ⟨v, h1, h2, h3⟩ := hop O hm UB
      rw [hlf] at h3
      rcases h3 with ⟨h3, h4⟩ | ⟨h3, h4, h5⟩
      · exact .inl ⟨h3, .inr ⟨v, h1, h2, h4⟩⟩
      · exact .inr ⟨v, h1, h2, h3, h4, h5⟩
    · exact .inl ⟨hshort (by omega), .inl (by omega)⟩
  -- a value below the leaf covers the leaf
  have cov : ∀ {v : Int} {w : Loc}, 0 ≤ v → (w.sols.isEmpty = false → w.sols.sol ≤ v) → (w.sols.isEmpty = true → Tol.sdom UB.sol v) →
      Covers UB w (loss p D * (v : ℚ)) := by
    intro v w h0 h1 h2
    have h0 : (0 : ℚ) ≤ v := by exact_mod_cast h0
    have h5 : (v : ℚ) ≤ loss p D * v := by nlinarith
    refine ⟨fun he => ?_, fun he => ?_⟩
    · have h1 : (w.sols.sol : ℚ) ≤ v := by exact_mod_cast h1 he
      have := tol_one
      nlinarith
    · exact sdom_lt (h2 he) h5 (by linarith)
  have base : LocOK p T D d n UB ⟨lf.1, lf.2, Node.empty p.c.worst⟩ ∧
      (Open p T → ∀ k, p.fitting.Allowed d n D (.leaf k) →
        Covers UB ⟨lf.1, lf.2, Node.empty p.c.worst⟩ (loss p D * (p.fitting.cost (.leaf k) D : ℚ))) := by
    refine ⟨⟨hsnd, fun O he => ?_, fun O he => ?_⟩, fun O k ha => ?_⟩
    · dsimp only at he ⊢
      rcases hk O with ⟨h, _⟩ | ⟨v, h1, h2, h3, h4, h5⟩
      · rw [h] at he; simp [Node.empty, Node.isEmpty] at he
      · rw [h3, h4]; simp only [Node.leaf]; omega
    · dsimp only at he ⊢
      rcases hk O with ⟨h, _⟩ | ⟨v, h1, h2, h3, h4, h5⟩
      · rw [h]
      · rw [h3] at he; simp [Node.leaf, Node.isEmpty] at he
    · rcases hk O with ⟨h, h'⟩ | ⟨v, h1, h2, h3, h4, h5⟩
      · have hm : p.c.mls ≤ p.weight D := ha.2.2.1
        obtain ⟨v, h1, h2, h3⟩ : ∃ v, p.leaf D = some v ∧ 0 ≤ v ∧ Tol.sdom UB.sol v := h'.resolve_left (by omega)
        rw [leaf_cost h1]
        refine cov h2 (fun he => ?_) fun _ => h3
        dsimp only at he; rw [h] at he; simp [Node.empty, Node.isEmpty] at he
      · rw [leaf_cost h1]
        refine cov h2 (fun _ => ?_) fun he => ?_
        · dsimp only; rw [h3]; simp only [Node.leaf]; omega
        · dsimp only at he; rw [h3] at he; simp [Node.leaf, Node.isEmpty] at he
  dsimp only
  cases hlow : lowerCached p.c s D b n (d - 1) with
  | none => exact base
  | some q =>
    obtain ⟨l, w⟩ := q
    obtain ⟨a2, a3⟩ := lowerCached_sound hs hD n (d - 1) hlow
    have a2' : Real p d D w := a2.mono (by omega)
    have hne := a2.nonempty
    dsimp only
    split
    · exact base
    · rename_i hc
      have hle : Open p T → 10000 * w.sol ≤ 10001 * lf.2.sol := fun O => by
        by_contra hcon; exact hc ⟨O.ub, by unfold Tol.sdom; omega⟩
      have hUB : (Node.addMin lf.2 w).sol = min lf.2.sol w.sol := by
        unfold Node.addMin; split <;> omega
      have hmin : (Node.addMin lf.1 w).sol = min lf.1.sol w.sol := by unfold Node.addMin; split <;> omega
      have hpos : Open p T → 0 ≤ w.sol := fun O => O.real_nonneg hv a2
      have hsm : Open p T → w.sol < p.c.worst := fun O => O.real_small hv a2
      have hne2 : Open p T → (Node.addMin lf.1 w).isEmpty = false := by
        intro O
        rcases hk O with ⟨h, _⟩ | ⟨v, h1, h2, h3, h4, h5⟩
        · rw [h]
          show (if w.sol < p.c.worst then w else Node.empty p.c.worst).isEmpty = false
          rw [if_pos (hsm O)]; exact hne
        · rcases addMin_cases lf.1 w with h | h <;> rw [h]
          · rw [h3]; rfl
          · exact hne
      refine ⟨⟨hsnd.addMin (.inr ⟨a2', a3⟩), fun O _ => ?_, fun O he => ?_⟩, fun O k ha => ?_⟩
      · have h7 := hle O
        have h8 := hpos O
        have h9 := hsm O
        dsimp only
        rw [hUB, hmin]
        rcases hk O with ⟨h, _⟩ | ⟨v, h1, h2, h3, h4, h5⟩
        · rw [h] at h7 ⊢
          simp only [Node.empty] at *
          omega
        · rw [h3]
          simp only [Node.leaf]
          omega
      · dsimp only at he; rw [hne2 O] at he; simp at he
      · have h7 := hle O
        rcases hk O with ⟨h, h'⟩ | ⟨v, h1, h2, h3, h4, h5⟩
        · have hm : p.c.mls ≤ p.weight D := ha.2.2.1
          obtain ⟨v, h1, h2, h3⟩ : ∃ v, p.leaf D = some v ∧ 0 ≤ v ∧ Tol.sdom UB.sol v := h'.resolve_left (by omega)
          rw [leaf_cost h1]
          refine cov h2 (fun _ => ?_) fun _ => h3
          dsimp only
          rw [hmin]
          rw [h] at h7
          unfold Tol.sdom at h3
          simp only at h7
          omega
        · rw [leaf_cost h1]
          refine cov h2 (fun _ => ?_) fun he => ?_
          · dsimp only; rw [hmin, h3]; simp only [Node.leaf]; omega
          · dsimp only at he; rw [hne2 O] at he; simp at he

theorem generalCase_spec (G : Fair p T) {rec : Rec} {D : Data} {b : Branch} {d n : Nat} {UB : Node} {s : St}
    (hrec : RecOK p T rec (d - 1)) (hD : D = sel b T) (hd : 1 ≤ d) (hn : 1 ≤ n)
    (hp : n + 1 ≤ 2 ^ d) (hs : SOK p T s) : Post p T D UB d n s (generalCase p rec D b UB d n s) := by
  have hv : ViewOf T D := by rw [hD]; exact sel_view b T
  unfold generalCase
  dsimp only
  split
  · rename_i hlen
    refine leaf_post hv UB d n s s (Nat.le_refl _) hs fun O t ht => ?_
    cases t with
    | leaf k => exact ⟨k, rfl⟩
    | node f l r =>
      have h1 := O.legal_weight ((without_sublist f D).trans hv) ht.2.2.2.1
      have h2 := O.legal_weight ((having_sublist f D).trans hv) ht.2.2.2.2
      have := O.split f D hv
      omega
  · have hst := start_spec hD (d := d) (n := n) hs UB
    generalize startLoc p D b UB d n s = v0 at hst ⊢
    obtain ⟨l0, k0⟩ := hst
    have hf := featLoop_spec (blb := computeLB p s D b d n) hrec hD hd hn hp (p.c.order D) (fun f hf => G.order _ f hf) v0 s
      (fun _ => False) hs l0 (fun _ _ _ h => h.elim) (fun _ h => h.elim)
    generalize featLoop p rec D b d n (computeLB p s D b d n) (p.c.order D) v0 s = r at hf ⊢
    obtain ⟨t1, s1, l1, st1, c1⟩ := hf
    -- every allowed tree is accounted for
    have fin : Open p T → AllOK p.c r.2.tick → ∀ t, p.fitting.Allowed d n D t → Covers UB r.1 (loss p D * (p.fitting.cost t D : ℚ)) := by
      intro O hH t ht
      cases t with
      | node f l rr => exact c1 O hH _ (.inr ⟨f, O.all _ f ht.2.2.1, l, rr, ht, rfl⟩)
      | leaf k => exact (k0 O k ht).step O (st1 O) l1
    have hC : CAll T (QS p T r.2.tick) (if r.1.sols.isEmpty = false then r.2.cache.storeOpt p.c.cc D b r.1.sols d n
        else r.2.cache.updateLB p.c.cc D b (if Tol.same r.1.inf.sol p.c.worst then UB else Node.addMax r.1.inf UB) d n) := by
      split
      · rename_i he
        obtain ⟨g1, g2⟩ := l1.sound.real he
        exact store_all G s1.cache hD g1 g2 fun O hH t ht => (fin O hH t ht).1 he
      · exact upd_all G s1.cache hD _ _ _
    have hA := updateArchive_sound (s1.setCache hC) hD d
    generalize updateArchive p.c _ D b d = s2 at hA ⊢
    have e : s2.tick = r.2.tick := hA.2
    refine ⟨by rw [e]; exact t1, hA.1, l1.sound, fun O hH he t ht => ?_, fun O hH he t ht => ?_⟩
    · rw [e] at hH; exact .inl ((fin O hH t ht).1 he)
    · rw [e] at hH; exact (fin O hH t ht).2 he

/-- Shift the start of a call. -/
theorem Post.shift {D : Data} {UB : Node} {d n : Nat} {s s' : St} {r : Node × St} (h : Post p T D UB d n s' r)
    (ht : s.tick ≤ s'.tick) : Post p T D UB d n s r := ⟨Nat.le_trans ht h.tick, h.st, h.sound, h.low, h.inf⟩

/-- The result for a smaller budget, if the trees outside it cost more than the upper bound. -/
theorem Post.widen {D : Data} (hD : ViewOf T D) {UB : Node} {d n d' n' : Nat} {s : St} {r : Node × St} (h : Post p T D UB d' n' s r)
    (hd : d' ≤ d) (hn : n' ≤ n)
    (hout : Open p T → ∀ t, p.fitting.Allowed d n D t → ¬ p.fitting.Allowed d' n' D t → UB.sol < p.fitting.cost t D) :
    Post p T D UB d n s r := by
  have g1 := loss_one p D
  refine ⟨h.tick, h.st, h.sound.mono hd hn, fun O hH he t ht => ?_, fun O hH he t ht => ?_⟩
  · by_cases ha : p.fitting.Allowed d' n' D t
    · exact h.low O hH he t ha
    · exact .inr (hout O t ht ha)
  · by_cases ha : p.fitting.Allowed d' n' D t
    · exact h.inf O hH he t ha
    · have h1 : (UB.sol : ℚ) < p.fitting.cost t D := by exact_mod_cast hout O t ht ha
      have h2 : (0 : ℚ) ≤ p.fitting.cost t D := by exact_mod_cast O.cost_nonneg hD ht.2.2
      nlinarith

/-- Branching nodes alone cost this much. -/
theorem Open.nodes_cost (O : Open p T) {t : Tree} {D : Data} (hD : ViewOf T D) (h : p.fitting.Legal t D) :
    (t.nodes : Int) * p.c.P.bc ≤ p.fitting.cost t D := by
  induction t generalizing D with
  | leaf k => simpa [Tree.nodes] using O.cost_nonneg hD h
  | node f l r ihl ihr =>
    have h1 := ihl ((without_sublist f D).trans hD) h.2.1
    have h2 := ihr ((having_sublist f D).trans hD) h.2.2
    have e : p.fitting.bc = p.c.P.bc := rfl
    simp only [Fitting.cost, Tree.nodes, e]
    push_cast
    linarith

theorem reduceBudget_fits (UB : Node) {d n : Nat} (hp : n + 1 ≤ 2 ^ d) :
    (reduceBudget p UB d n).1 ≤ d ∧ (reduceBudget p UB d n).2 ≤ n ∧ (reduceBudget p UB d n).2 + 1 ≤ 2 ^ (reduceBudget p UB d n).1 := by
  unfold reduceBudget
  split
  · exact ⟨Nat.le_refl _, Nat.le_refl _, hp⟩
  · dsimp only
    split
    · split
      · refine ⟨Nat.min_le_left _ _, Nat.min_le_left _ _, ?_⟩
        dsimp only
        have : 1 ≤ 2 ^ (min d (max 0 (1000000 * UB.sol + p.q) / (1000000 * p.c.P.bc)).toNat) := Nat.one_le_two_pow
        omega
      · exact ⟨Nat.le_refl _, Nat.le_refl _, hp⟩
    · exact ⟨Nat.le_refl _, Nat.le_refl _, hp⟩

theorem reduceBudget_keeps (O : Open p T) {D : Data} (hD : ViewOf T D) (UB : Node) {d n : Nat} {t : Tree}
    (ht : p.fitting.Allowed d n D t) (hn : ¬ p.fitting.Allowed (reduceBudget p UB d n).1 (reduceBudget p UB d n).2 D t) :
    UB.sol < p.fitting.cost t D := by
  unfold reduceBudget at hn
  split at hn
  · exact absurd ht hn
  · rename_i hbc
    dsimp only at hn
    split at hn
    · split at hn
      · rename_i h1 h2
        generalize hN : (max 0 (1000000 * UB.sol + p.q) / (1000000 * p.c.P.bc)).toNat = N at *
        have hdep : N < t.depth := by
          by_contra hcon
          apply hn
          have := t.nodes_lt_pow
          have h3 : 2 ^ t.depth ≤ 2 ^ (min d N) := Nat.pow_le_pow_right (by decide) (by have := ht.1; omega)
          have := ht.2.1
          have := ht.1
          exact ⟨by dsimp only; omega, by dsimp only; omega, ht.2.2⟩
        have hnod : N + 1 ≤ t.nodes := by have := t.depth_le_nodes; omega
        have h4 := O.nodes_cost hD ht.2.2
        have h5 : ((N : Int) + 1) * p.c.P.bc ≤ t.nodes * p.c.P.bc :=
          Int.mul_le_mul_of_nonneg_right (by exact_mod_cast hnod) (by omega)
        have h6 : max 0 (1000000 * UB.sol + (p.q : Int)) / (1000000 * p.c.P.bc) = (N : Int) := by
          rw [← hN, Int.toNat_of_nonneg]
          exact Int.ediv_nonneg (by omega) (by omega)
        have h7 := Int.lt_ediv_add_one_mul_self (max 0 (1000000 * UB.sol + (p.q : Int))) (b := 1000000 * p.c.P.bc) (by omega)
        rw [h6] at h7
        have h8 : ((N : Int) + 1) * (1000000 * p.c.P.bc) = 1000000 * (((N : Int) + 1) * p.c.P.bc) := by ring
        rw [h8] at h7
        omega
      · exact absurd ht hn
    · exact absurd ht hn

theorem subTree_spec (G : Fair p T) {rec : Rec} {D : Data} {b : Branch} {UB : Node} {d n : Nat} {s : St}
    (hrec : 1 ≤ d → RecOK p T rec (d - 1)) (hD : D = sel b T) (hp : n + 1 ≤ 2 ^ d) (hs : SOK p T s) :
    Post p T D UB d n s (subTree p rec D b UB d n s) := by
  have hv : ViewOf T D := by rw [hD]; exact sel_view b T
  have tn : s.tick ≤ s.next.tick := Nat.le_succ _
  unfold subTree
  split
  · rename_i hok
    have := not_AllOK_next hok
    exact ⟨tn, hs.next, .inl rfl, fun _ h => absurd h this, fun _ h => absurd h this⟩
  · dsimp only
    obtain ⟨f1, f2, f3⟩ := reduceBudget_fits (p := p) UB hp
    have hout := fun (O : Open p T) t ha hn => reduceBudget_keeps O hv UB (d := d) (n := n) (t := t) ha hn
    generalize reduceBudget p UB d n = dn at f1 f2 f3 hout ⊢
    refine Post.widen hv ?_ f1 f2 hout
    have hs' := hs.next
    generalize s.next = s1 at tn hs' ⊢
    refine Post.shift ?_ tn
    split
    · rename_i h0
      refine leaf_post hv UB _ _ s1 s1 (Nat.le_refl _) hs' fun _ t ht => leaf_of_depth_zero ?_
      have h1 := ht.1
      have h2 := ht.2.1
      omega
    · rename_i h0
      have hd : 1 ≤ dn.1 := by omega
      have hn : 1 ≤ dn.2 := by omega
      have hrec' : RecOK p T rec (dn.1 - 1) := fun D b UB d' n s h => hrec (by omega) D b UB d' n s (by omega)
      have hit : ∀ s2 : St, SOK p T s2 → s1.tick ≤ s2.tick → (s2.cache.retrieveOpt p.c.cc D b dn.1 dn.2).isEmpty = false →
          Post p T D UB dn.1 dn.2 s1 (s2.cache.retrieveOpt p.c.cc D b dn.1 dn.2, s2) := by
        intro s2 h2 h2' he
        obtain ⟨h3, h4⟩ := h2.hit hD dn.1 dn.2
        exact ⟨h2', h2, h3, fun O hH he t ht => .inl (h4 O hH he t ht), fun _ _ h => by dsimp only at h; rw [he] at h; simp at h⟩
      have gen : ∀ s2 : St, SOK p T s2 → s1.tick ≤ s2.tick → Post p T D UB dn.1 dn.2 s1 (generalCase p rec D b UB dn.1 dn.2 s2) :=
        fun s2 h2 h2' => (generalCase_spec G hrec' hD hd hn f3 h2).shift h2'
      split
      · rename_i he
        exact hit s1 hs' (Nat.le_refl _) he
      · split
        · rename_i hlb
          have no : Open p T → False := fun O => by rw [O.noLB] at hlb; simp at hlb
          obtain ⟨h2, h2'⟩ := useSimilarity_sound G hs' hD dn.1 dn.2
          generalize Tol.useSimilarity p.c s1 D b dn.1 dn.2 = sim at h2 h2' ⊢
          have tk : s1.tick ≤ sim.2.tick := by omega
          split
          · rename_i hc
            exact hit sim.2 h2 tk hc.2
          · split
            · exact ⟨tk, h2, .inl rfl, fun O => (no O).elim, fun O => (no O).elim⟩
            · split
              · exact ⟨tk, h2, solveLeaf_sound _ _ _ _, fun O => (no O).elim, fun O => (no O).elim⟩
              · exact gen sim.2 h2 tk
        · exact gen s1 hs' (Nat.le_refl _)

theorem solveSub_spec (G : Fair p T) (fuel : Nat) : RecOK p T (solveSub p fuel) fuel := by
  induction fuel with
  | zero =>
    intro D b UB d n s hd hD hp hs
    exact subTree_spec G (fun h => by omega) hD hp hs
  | succ m ih =>
    intro D b UB d n s hd hD hp hs
    exact subTree_spec G (fun _ D b UB d' n s h => ih D b UB d' n s (by omega)) hD hp hs

end
end Streed.Pw
