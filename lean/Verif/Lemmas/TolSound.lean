import Verif.Lemmas.Sound
import Verif.Lemmas.Tol

/-!
# Soundness of the search with tolerant comparisons

Whatever the comparisons decide, a solution describes a legal tree: the counterpart of `Lemmas/Sound.lean` for `Model/Tol.lean`.
-/

namespace Streed.Tol

/-! ### Transfers -/

section
variable {T : Data} {Q : Data → Entry → Prop}

theorem transferOne_all {D : Data} {src : Entry} {es : List Entry} (hs : Q D src) (h : ∀ e ∈ es, Q D e) :
    ∀ e ∈ transferOne src es, Q D e := by
  induction es with
  | nil => exact h
  | cons e es ih =>
    have h1 := h e (List.mem_cons_self ..)
    have h2 : ∀ e ∈ es, Q D e := fun x hx => h x (List.mem_cons_of_mem _ hx)
    unfold transferOne
    split
    · intro x hx
      rcases List.mem_cons.1 hx with rfl | hx
      · exact hs
      · exact h2 x hx
    · intro x hx
      rcases List.mem_cons.1 hx with rfl | hx
      · exact h1
      · exact ih h2 x hx

theorem transferEntries_all {D : Data} {src es : List Entry} (hs : ∀ e ∈ src, Q D e) (h : ∀ e ∈ es, Q D e) :
    ∀ e ∈ transferEntries src es, Q D e := by
  unfold transferEntries
  refine foldl_inv (fun es => ∀ e ∈ es, Q D e) _ _ _ h ?_
  intro es hes e he
  split
  · exact transferOne_all (hs e he) hes
  · intro x hx
    rcases List.mem_append.1 hx with hx | hx
    · exact hes x hx
    · rw [List.mem_singleton.1 hx]; exact hs e he

theorem callTransfer {C : Cache} (h : CAll T Q C) (cc : CacheCfg) {src dst : Branch} (heq : sel src T = sel dst T) :
    CAll T Q (transfer cc C src dst) := by
  have wr : ∀ es, (∀ e ∈ es, Q (sel dst T) e) → CAll T Q { C with br := C.br.set dst es } := by
    intro es hes
    refine ⟨?_, h.ds⟩
    intro b' es1 hf e hx
    rw [Store.find_set] at hf
    split at hf
    · rename_i eq
      simp only [Option.some.injEq] at hf
      subst hf
      rw [eq]; exact hes e hx
    · exact h.br b' es1 hf e hx
  unfold transfer
  split
  · split
    · exact h
    · rename_i es hs hd
      exact wr es fun e he => by rw [← heq]; exact h.br src es hs e he
    · rename_i es es' hs hd
      split
      · refine wr _ (transferEntries_all (fun e he => ?_) (fun e he => h.br dst es' hd e he))
        rw [← heq]; exact h.br src es hs e he
      · exact h
  · exact h
end

section
variable {c : Cfg} {T : Data} (G : Base c T)
include G


/-! ### Leaves -/

theorem leafLoop_sound {D : Data} (hD : ViewOf T D) (hm : c.mls ≤ D.length) (ks : List Nat) (hks : ∀ k ∈ ks, k < c.P.nL)
    (r UB : Node) (hr : Sound c.P c.mls c.worst 0 0 D r) (hub : UB.sol ≤ c.worst) :
    Sound c.P c.mls c.worst 0 0 D (leafLoop c D ks r UB).1 ∧ (leafLoop c D ks r UB).2.sol ≤ c.worst ∧
    (leafLoop c D ks r UB).1.sol ≤ r.sol ∧
    (ks ≠ [] → c.worst ≤ UB.sol → (leafLoop c D ks r UB).1.sol < c.worst) := by
  induction ks generalizing r UB with
  | nil => exact ⟨hr, hub, Int.le_refl _, fun h => absurd rfl h⟩
  | cons k ks ih =>
    have hk := hks k (List.mem_cons_self ..)
    have hreal : Real c.P c.mls 0 D (Node.leaf k (leafCost c.P D k)) := Real.leaf hk hm
    have hsm := G.real_small hD hreal
    have hks' := fun j hj => hks j (List.mem_cons_of_mem _ hj)
    unfold leafLoop
    dsimp only
    split
    · rename_i hc
      obtain ⟨a1, a2, a3, _⟩ := ih hks' r UB hr hub
      exact ⟨a1, a2, a3, fun _ h => by have := G.worst; have := hc.2; omega⟩
    · obtain ⟨a1, a2, a3, _⟩ := ih hks' (Node.addMin r (Node.leaf k (leafCost c.P D k)))
        (updateUB c UB (Node.leaf k (leafCost c.P D k))) (hr.addMin (.inr ⟨hreal, Nat.le_refl _⟩)) (by
          unfold updateUB; split
          · exact Int.le_trans (addMin_le_left _ _) hub
          · exact hub)
      have h1 := addMin_le_left r (Node.leaf k (leafCost c.P D k))
      have h2 := addMin_le_right r (Node.leaf k (leafCost c.P D k))
      exact ⟨a1, a2, by omega, fun _ _ => by omega⟩

theorem solveLeaf_sound {D : Data} (hD : ViewOf T D) (UB : Node) (hub : UB.sol ≤ c.worst) (d n : Nat) :
    Sound c.P c.mls c.worst d n D (solveLeaf c D UB).1 ∧ (solveLeaf c D UB).2.sol ≤ c.worst ∧
    (c.mls ≤ D.length → c.worst ≤ UB.sol → (solveLeaf c D UB).1.sol < c.worst) := by
  unfold solveLeaf
  split
  · exact ⟨.inl rfl, hub, fun h => by omega⟩
  · obtain ⟨a1, a2, _, a4⟩ := leafLoop_sound G hD (by omega) (List.range c.P.nL) (fun k hk => List.mem_range.1 hk)
      (Node.empty c.worst) UB (.inl rfl) hub
    refine ⟨a1.mono (Nat.zero_le _) (Nat.zero_le _), a2, fun _ h => a4 ?_ h⟩
    have := G.labels
    intro h0
    have := List.length_range (n := c.P.nL)
    rw [h0] at this; simp at this; omega

/-! ### Lower bounds stay below `worst` -/


theorem computeLB_sound {s : St} (hs : SOK c T s) {D : Data} {b : Branch} (hD : D = sel b T) (d n : Nat) :
    0 ≤ (computeLB c s D b d n).sol ∧ (computeLB c s D b d n).sol ≤ c.worst := by
  have hv : ViewOf T D := by rw [hD]; exact sel_view b T
  have hr : (s.cache.retrieveLB c.cc D b d n).sol ≤ c.worst :=
    hs.cache.retrieveLB (R := fun x => x ≤ c.worst) hD G.worst fun e he _ _ => he.2
  have h0 : (Node.value 0).sol ≤ c.worst := G.worst
  have hlb : 0 ≤ (Node.addMax (Node.addMax (Node.value 0) (s.cache.retrieveLB c.cc D b d n)) (Node.value (c.customLB D))).sol := by
    refine Int.le_trans ?_ (le_addMax_left _ _)
    exact le_addMax_left (Node.value 0) _
  have hcu : (Node.value (c.customLB D)).sol ≤ c.worst := G.custom D hv
  have hub := addMax_le (addMax_le h0 hr) hcu
  unfold computeLB
  split
  · dsimp only
    generalize Node.addMax (Node.addMax (Node.value 0) (s.cache.retrieveLB c.cc D b d n)) (Node.value (c.customLB D)) = lb at hlb hub
    split
    · unfold sparseLB
      dsimp only
      have hl := (solveLeaf_sound G hv (Node.empty c.worst) (Int.le_refl _) 0 0).1
      have hle := G.sound_le hv hl
      have aux : ∀ (sols : Node) (x : Int), sols.sol ≤ c.worst →
          0 ≤ (if sols.sol ≤ x then Node.addMax lb sols else Node.addMax lb ⟨some 0, none, x, sols.nl, sols.nr⟩).sol ∧
          (if sols.sol ≤ x then Node.addMax lb sols else Node.addMax lb ⟨some 0, none, x, sols.nl, sols.nr⟩).sol ≤ c.worst := by
        intro sols x hls
        split
        · exact ⟨Int.le_trans hlb (le_addMax_left _ _), addMax_le hub hls⟩
        · refine ⟨Int.le_trans hlb (le_addMax_left _ _), addMax_le hub ?_⟩
          dsimp only
          omega
      cases lowerCached c s D b n (d - 1) with
      | none => exact aux _ _ hle
      | some p => exact aux _ _ (Int.le_trans (addMin_le_left _ _) hle)
    · exact ⟨hlb, hub⟩
  · exact ⟨Int.le_refl _, h0⟩

theorem computeLRLB_sound {s : St} (hs : SOK c T s) {f : Nat} {L R : Side} (hR : R.D = sel R.b T) (ld ls rd rs : Nat) :
    0 ≤ (computeLRLB c s f L.D L.b ld ls R.D R.b rd rs).2.2.sol := by
  unfold computeLRLB
  split
  · exact (computeLB_sound G hs hR rd rs).1
  · exact Int.le_refl _

theorem subtractUB_le {UB o v : Node} (hub : UB.sol ≤ c.worst) (hv : v.sol ≤ c.worst) (ho : 0 ≤ o.sol) :
    (subtractUB c UB o v).sol ≤ c.worst := by
  have h1 := G.worst
  have h2 := G.bc
  have h3 := G.md
  unfold subtractUB
  split
  · dsimp only [Node.value, subtract]
    split <;> omega
  · exact hub

/-! ### Similarity -/

theorem simLoop_sound {D : Data} {b : Branch} (hD : D = sel b T) (d n : Nat) (es : List (Data × Branch))
    (hes : ∀ p ∈ es, p.1 = sel p.2 T) (lb : Node) (C : Cache) (hC : CAll T (QS c) C) (hlb : lb.sol ≤ c.worst) :
    CAll T (QS c) (simLoop c D b d n es lb C).2.2 ∧ (simLoop c D b d n es lb C).1.sol ≤ c.worst := by
  have hv : ViewOf T D := by rw [hD]; exact sel_view b T
  induction es generalizing lb C with
  | nil => exact ⟨hC, hlb⟩
  | cons p es ih =>
    obtain ⟨D', b'⟩ := p
    have hD' : D' = sel b' T := hes (D', b') (List.mem_cons_self ..)
    have hv' : ViewOf T D' := by rw [hD']; exact sel_view b' T
    have hes' := fun p hp => hes p (List.mem_cons_of_mem _ hp)
    have hrm : 0 ≤ removalCost c D' D := by
      unfold removalCost
      split
      · exact sum_map_nonneg _ _ fun k _ => G.removal_nonneg hv' D k
      · rename_i w hw
        have hl : ∀ i ∈ D' ++ D, i.label < c.P.nL := by
          intro i hi
          rcases List.mem_append.1 hi with h | h
          · exact G.inRange i (hv'.subset h)
          · exact G.inRange i (hv.subset h)
        exact sum_map_nonneg _ _ fun i hi => G.simInst w hw i
          (hv'.subset ((difference_mem c.P.nL D' D (hv'.sorted G.sorted) (hv.sorted G.sorted) hl i).2.1 hi).1)
    have he : ({ C.retrieveLB c.cc D' b' d n with sol := subtract (C.retrieveLB c.cc D' b' d n).sol (removalCost c D' D) } : Node).sol
        ≤ c.worst := by
      have := hC.retrieveLB (cc := c.cc) (d := d) (n := n) (R := fun x => x ≤ c.worst) hD' G.worst fun e he _ _ => he.2
      have := G.worst
      dsimp only [subtract]; omega
    unfold simLoop
    split
    · exact ih hes' lb C hC hlb
    · split
      · exact ih hes' lb C hC hlb
      · dsimp only
        split
        · rename_i h0
          have heq : sel b' T = sel b T := by rw [← hD', ← hD]; exact diff_zero' G hv' hv h0
          have hC' := callTransfer hC c.cc heq
          split
          · exact ⟨hC', he⟩
          · exact ih hes' _ _ hC' (addMax_le hlb he)
        · exact ih hes' _ _ hC (addMax_le hlb he)

theorem useSimilarity_sound {s : St} (hs : SOK c T s) {D : Data} {b : Branch} (hD : D = sel b T) (d n : Nat) :
    SOK c T (useSimilarity c s D b d n).2 := by
  unfold useSimilarity
  split
  · exact hs
  · obtain ⟨h1, h2⟩ := simLoop_sound G hD d n (Tbl.get s.arch d []) (hs.arch d) (Node.value 0) s.cache hs.cache G.worst
    dsimp only
    split
    · exact ⟨h1, hs.arch⟩
    · split
      · exact ⟨h1, hs.arch⟩
      · split
        · exact ⟨G.upd h1 hD h2, hs.arch⟩
        · exact ⟨h1, hs.arch⟩

theorem solveTerminal_sound {D : Data} {b : Branch} (hD : D = sel b T) {UB : Node} {d n : Nat} {s : St} (hn : 1 ≤ n)
    (hp : n + 1 ≤ 2 ^ d) (hub : UB.sol ≤ c.worst) (hs : SOK c T s) :
    SPost c T D UB d n (solveTerminal c D b UB d n s) := by
  have hv : ViewOf T D := by rw [hD]; exact sel_view b T
  have ht := terminal_sound c.P c.mls c.worst D b n
  have htc : tcOf c.P c.mls c.worst = c.tc := rfl
  rw [htc] at ht
  have hd1 : 1 ≤ d := by
    rcases Nat.eq_zero_or_pos d with h | h
    · rw [h] at hp; omega
    · exact h
  have hd2 : n ≠ 1 → 2 ≤ d := by
    intro h
    by_contra hc
    have : d = 1 := by omega
    rw [this] at hp; omega
  have hle : c.mls ≤ D.length → (terminal c.tc (statsOf c.P D) b n).one.sol < c.worst ∧
      (n ≠ 1 → (terminal c.tc (statsOf c.P D) b n).two.sol ≤ (terminal c.tc (statsOf c.P D) b n).one.sol ∧
        (terminal c.tc (statsOf c.P D) b n).three.sol ≤ (terminal c.tc (statsOf c.P D) b n).two.sol) := by
    intro hm
    have h1 := oneNode_le_leaf c.P c.mls c.worst D 0 G.labels
    have h2 : leafCost c.P D 0 < c.worst := G.small D hv (.leaf 0) ⟨G.labels, hm⟩
    rw [htc] at h1
    have hnot : ¬ (statsOf c.P D).tot < (c.tc.mls : Int) := by simp only [statsOf, Cfg.tc]; omega
    unfold terminal
    rw [if_neg hnot]
    dsimp only
    split
    · exact ⟨by dsimp only; omega, fun h => absurd ‹_› h⟩
    · split
      · exact ⟨by dsimp only; omega, fun _ => ⟨addMin_le_right _ _, addMin_le_right _ _⟩⟩
      · exact ⟨by dsimp only; omega, fun _ => ⟨addMin_le_right _ _, addMin_le_right _ _⟩⟩
  unfold solveTerminal
  dsimp only
  generalize terminal c.tc (statsOf c.P D) b n = r at ht hle
  obtain ⟨t1, t2, t3⟩ := ht
  have hC := storeTerminal_sound G (storeTerminal_sound G (storeTerminal_sound G hs.cache hD hub t1) hD hub t2) hD hub t3
  have hsv : Sound c.P c.mls c.worst d n D (if n = 1 then r.one else if n = 2 then r.two else r.three) := by
    split
    · rename_i h; rw [h]; exact t1.mono hd1 (Nat.le_refl _)
    · rename_i h
      have h2 := hd2 h
      split
      · rename_i h3; rw [h3]; exact t2.mono h2 (Nat.le_refl _)
      · exact t3.mono h2 (by omega)
  refine ⟨updateArchive_sound (hs.setCache hC) hD d, ?_, fun _ hm hw => ?_⟩
  · generalize (if n = 1 then r.one else if n = 2 then r.two else r.three) = v at hsv ⊢
    dsimp only
    split
    · exact .inl rfl
    · exact hsv
  · obtain ⟨h1, h2⟩ := hle hm
    have h3 : (if n = 1 then r.one else if n = 2 then r.two else r.three).sol < c.worst := by
      split
      · exact h1
      · rename_i h
        have := h2 h
        split <;> omega
    dsimp only
    have := G.worst
    rw [if_neg (by omega)]; exact h3

/-! ### The general case -/

theorem sizeStep_sound {rec : Rec} {D : Data} {d n f ls : Nat} {L R : Side} {sw : Bool} {v : Loc} {s : St} (hvD : ViewOf T D)
    (hrec : RecS c T rec (d - 1)) (hL : L.D = sel L.b T) (hR : R.D = sel R.b T)
    (comb : ∀ a b, Real c.P c.mls (d - 1) L.D a → Real c.P c.mls (d - 1) R.D b →
      Real c.P c.mls d D (if sw then Node.combine f b a c.P.bc else Node.combine f a b c.P.bc))
    (hls : ls + 1 ≤ n) (hp1 : ls + 1 ≤ 2 ^ (min (d - 1) ls)) (hp2 : n - ls - 1 + 1 ≤ 2 ^ (min (d - 1) (n - ls - 1)))
    (hs : SOK c T s) (hv : LocS c D d n v) :
    SOK c T (sizeStep c rec f L R sw d n ls v s).2.2 ∧ LocS c D d n (sizeStep c rec f L R sw d n ls v s).2.1 ∧
    (sizeStep c rec f L R sw d n ls v s).2.1.sols.sol ≤ v.sols.sol := by
  have hvL : ViewOf T L.D := by rw [hL]; exact sel_view _ T
  have infOK : ∀ x : Node, LocS c D d n { v with inf := Node.addMin v.inf x } := fun x =>
    ⟨hv.sols, hv.ub, Int.le_trans (addMin_le_left _ _) hv.inf⟩
  unfold sizeStep
  dsimp only
  have hlb := computeLRLB_sound G hs (f := f) (L := L) hR (min (d - 1) ls) ls (min (d - 1) (n - ls - 1)) (n - ls - 1)
  generalize computeLRLB c s f L.D L.b (min (d - 1) ls) ls R.D R.b (min (d - 1) (n - ls - 1)) (n - ls - 1) = lbs at hlb
  split
  · exact ⟨hs, infOK _, Int.le_refl _⟩
  · split
    · exact ⟨hs, hv, Int.le_refl _⟩
    · have pL := hrec L.D L.b (subtractUB c v.UB lbs.2.2 v.sols) (min (d - 1) ls) ls s (Nat.min_le_left _ _) hL hp1
        (subtractUB_le G hv.ub (G.sound_le hvD hv.sols) hlb) hs
      generalize rec L.D L.b (subtractUB c v.UB lbs.2.2 v.sols) (min (d - 1) ls) ls s = lr at pL
      split
      · exact ⟨pL.st.next, hv, Int.le_refl _⟩
      · split
        · exact ⟨pL.st.next, infOK _, Int.le_refl _⟩
        · rename_i hne
          have hne : lr.1.isEmpty = false := by simpa using hne
          have pR := hrec R.D R.b (subtractUB c v.UB lr.1 v.sols) (min (d - 1) (n - ls - 1)) (n - ls - 1) lr.2.next
            (Nat.min_le_left _ _) hR hp2 (subtractUB_le G hv.ub (G.sound_le hvD hv.sols) (G.sound_nonneg hvL pL.sound)) pL.st.next
          generalize rec R.D R.b (subtractUB c v.UB lr.1 v.sols) (min (d - 1) (n - ls - 1)) (n - ls - 1) lr.2.next = rr at pR
          split
          · exact ⟨pR.st.next, hv, Int.le_refl _⟩
          · split
            · exact ⟨pR.st.next, infOK _, Int.le_refl _⟩
            · rename_i hne'
              have hne' : rr.1.isEmpty = false := by simpa using hne'
              obtain ⟨rl, nl⟩ := pL.sound.real hne
              obtain ⟨rr', nr⟩ := pR.sound.real hne'
              have hnn := comb lr.1 rr.1 (rl.mono (Nat.min_le_left _ _)) (rr'.mono (Nat.min_le_left _ _))
              have hnum : (if sw = true then Node.combine f rr.1 lr.1 c.P.bc else Node.combine f lr.1 rr.1 c.P.bc).numNodes ≤ n := by
                cases sw <;> simp [combine_numNodes] <;> omega
              generalize (if sw = true then Node.combine f rr.1 lr.1 c.P.bc else Node.combine f lr.1 rr.1 c.P.bc) = nn
                at hnn hnum
              split
              · exact ⟨pR.st.next, infOK _, Int.le_refl _⟩
              · refine ⟨pR.st.next, ⟨?_, ?_, hv.inf⟩, ?_⟩
                · dsimp only; split
                  · exact .inr ⟨hnn, hnum⟩
                  · exact hv.sols
                · dsimp only; unfold updateUB; split
                  · exact Int.le_trans (addMin_le_left _ _) hv.ub
                  · exact hv.ub
                · dsimp only; split
                  · rename_i h
                    have h0 := G.sound_nonneg hvD (.inr ⟨hnn, hnum⟩)
                    omega
                  · exact Int.le_refl _

theorem sizeLoop_sound {rec : Rec} {D : Data} {d n f : Nat} {L R : Side} {sw : Bool} (hvD : ViewOf T D)
    (hrec : RecS c T rec (d - 1)) (hL : L.D = sel L.b T) (hR : R.D = sel R.b T)
    (comb : ∀ a b, Real c.P c.mls (d - 1) L.D a → Real c.P c.mls (d - 1) R.D b →
      Real c.P c.mls d D (if sw then Node.combine f b a c.P.bc else Node.combine f a b c.P.bc)) (l : List Nat)
    (hl : ∀ ls ∈ l, ls + 1 ≤ n ∧ ls + 1 ≤ 2 ^ (min (d - 1) ls) ∧ n - ls - 1 + 1 ≤ 2 ^ (min (d - 1) (n - ls - 1)))
    (v : Loc) (s : St) (hs : SOK c T s) (hv : LocS c D d n v) :
    SOK c T (sizeLoop c rec f L R sw d n l v s).2 ∧ LocS c D d n (sizeLoop c rec f L R sw d n l v s).1 ∧
    (sizeLoop c rec f L R sw d n l v s).1.sols.sol ≤ v.sols.sol := by
  induction l generalizing v s with
  | nil => exact ⟨hs, hv, Int.le_refl _⟩
  | cons ls l ih =>
    obtain ⟨a1, a4, a5⟩ := hl ls (List.mem_cons_self ..)
    have h1 := sizeStep_sound G hvD hrec hL hR comb a1 a4 a5 hs hv
    unfold sizeLoop
    generalize sizeStep c rec f L R sw d n ls v s = r at h1
    obtain ⟨s1, l1, e1⟩ := h1
    dsimp only
    split
    · exact ⟨s1, l1, e1⟩
    · obtain ⟨s2, l2, e2⟩ := ih (fun x hx => hl x (List.mem_cons_of_mem _ hx)) r.2.1 r.2.2 s1 l1
      exact ⟨s2, l2, by omega⟩

theorem featLoop_sound {rec : Rec} {D : Data} {b : Branch} {d n : Nat} {blb : Node}
    (hrec : RecS c T rec (d - 1)) (hD : D = sel b T) (hd : 1 ≤ d) (hn : 1 ≤ n) (hp : n + 1 ≤ 2 ^ d)
    (fs : List Nat) (hfs : ∀ f ∈ fs, f < c.P.nF) (v : Loc) (s : St) (hs : SOK c T s) (hv : LocS c D d n v) :
    SOK c T (featLoop c rec D b d n blb fs v s).2 ∧ LocS c D d n (featLoop c rec D b d n blb fs v s).1 ∧
    (featLoop c rec D b d n blb fs v s).1.sols.sol ≤ v.sols.sol := by
  have hv1 : ViewOf T D := by rw [hD]; exact sel_view b T
  induction fs generalizing v s with
  | nil => exact ⟨hs, hv, Int.le_refl _⟩
  | cons f fs ih =>
    have hfs' : ∀ g ∈ fs, g < c.P.nF := fun g hg => hfs g (List.mem_cons_of_mem _ hg)
    have hf := hfs f (List.mem_cons_self ..)
    unfold featLoop
    split
    · exact ⟨hs.next, hv, Int.le_refl _⟩
    · dsimp only
      split
      · exact ⟨hs.next, hv, Int.le_refl _⟩
      · split
        · exact ⟨hs.next, hv, Int.le_refl _⟩
        · split
          · exact ih hfs' v s.next hs.next hv
          · rename_i hskip
            simp only [Bool.or_eq_true, Bool.not_eq_true', not_or, Bool.not_eq_true, Bool.not_eq_false] at hskip
            have hmay := hskip.1.2
            split
            · exact ⟨hs.next, hv, Int.le_refl _⟩
            · split
              · exact ih hfs' v s.next hs.next hv
              · have e0 : without f D = sel (b.child f false) T := by rw [sel_child, ← hD, side_false]
                have e1 : having f D = sel (b.child f true) T := by rw [sel_child, ← hD, side_true]
                obtain ⟨e, rfl⟩ : ∃ e, d = e + 1 := ⟨d - 1, by omega⟩
                have hsz : ∀ ls ∈ sizes (e + 1) n, ls + 1 ≤ n ∧ ls + 1 ≤ 2 ^ (min (e + 1 - 1) ls) ∧
                    n - ls - 1 + 1 ≤ 2 ^ (min (e + 1 - 1) (n - ls - 1)) := by
                  intro ls hls
                  have := sizes_ok (c := { c with useTerm := false }) hd hn hp (.inl rfl) ls hls
                  exact ⟨this.1, this.2.2.2⟩
                have h1 : ∀ r, r = (if (without f D).length < (having f D).length then
                    sizeLoop c rec f ⟨having f D, b.child f true⟩ ⟨without f D, b.child f false⟩ true (e + 1) n (sizes (e + 1) n) v s.next
                  else sizeLoop c rec f ⟨without f D, b.child f false⟩ ⟨having f D, b.child f true⟩ false (e + 1) n (sizes (e + 1) n) v s.next) →
                    SOK c T r.2 ∧ LocS c D (e + 1) n r.1 ∧ r.1.sols.sol ≤ v.sols.sol := by
                  intro r hr
                  rw [hr]
                  split
                  · exact sizeLoop_sound G hv1 hrec e1 e0 (fun x y hx hy => Real.combine hf hmay hy hx) _ hsz v s.next hs.next hv
                  · exact sizeLoop_sound G hv1 hrec e0 e1 (fun x y hx hy => Real.combine hf hmay hx hy) _ hsz v s.next hs.next hv
                have h1 := h1 _ rfl
                generalize (if (without f D).length < (having f D).length then
                    sizeLoop c rec f ⟨having f D, b.child f true⟩ ⟨without f D, b.child f false⟩ true (e + 1) n (sizes (e + 1) n) v s.next
                  else sizeLoop c rec f ⟨without f D, b.child f false⟩ ⟨having f D, b.child f true⟩ false (e + 1) n (sizes (e + 1) n) v s.next)
                  = r at h1
                obtain ⟨s1, l1, x1⟩ := h1
                obtain ⟨s2, l2, x2⟩ := ih hfs' r.1 r.2 s1 l1
                exact ⟨s2, l2, by omega⟩

theorem start_sound {D : Data} {b : Branch} {d n : Nat} {s : St} (hs : SOK c T s) (hD : D = sel b T)
    (UB : Node) (hub : UB.sol ≤ c.worst) :
    LocS c D d n (startLoc c D b UB d n s) ∧
    (c.mls ≤ D.length → c.worst ≤ UB.sol → (startLoc c D b UB d n s).sols.sol < c.worst) := by
  have hv1 : ViewOf T D := by rw [hD]; exact sel_view b T
  obtain ⟨h1, h2, h3⟩ := solveLeaf_sound G hv1 UB hub d n
  unfold startLoc
  generalize solveLeaf c D UB = lf at h1 h2 h3
  have base : LocS c D d n ⟨lf.1, lf.2, Node.empty c.worst⟩ := ⟨h1, h2, Int.le_refl _⟩
  dsimp only
  cases hlow : lowerCached c s D b n (d - 1) with
  | none => exact ⟨base, h3⟩
  | some p =>
    obtain ⟨l, w⟩ := p
    have hw := (lowerCached_sound hs hD n (d - 1) hlow).mono (Nat.sub_le _ _) (Nat.le_refl _)
    dsimp only
    split
    · exact ⟨base, h3⟩
    · refine ⟨⟨h1.addMin hw, Int.le_trans (addMin_le_left _ _) h2, Int.le_refl _⟩, fun hm h => ?_⟩
      have := h3 hm h
      have := addMin_le_left lf.1 w
      dsimp only; omega

theorem generalCase_sound {rec : Rec} {D : Data} {b : Branch} {d n : Nat} {UB : Node} {s : St}
    (hrec : RecS c T rec (d - 1)) (hD : D = sel b T) (hd : 1 ≤ d) (hn : 1 ≤ n) (hp : n + 1 ≤ 2 ^ d)
    (hub : UB.sol ≤ c.worst) (hs : SOK c T s) : SPost c T D UB d n (generalCase c rec D b UB d n s) := by
  have hv1 : ViewOf T D := by rw [hD]; exact sel_view b T
  unfold generalCase
  dsimp only
  split
  · obtain ⟨h1, h2, h3⟩ := solveLeaf_sound G hv1 UB hub d n
    exact ⟨hs, h1, fun _ => h3⟩
  · obtain ⟨h1, h2⟩ := start_sound G (d := d) (n := n) hs hD UB hub
    generalize startLoc c D b UB d n s = v0 at h1 h2
    have hf := featLoop_sound G (blb := computeLB c s D b d n) hrec hD hd hn hp (c.order D) (G.order D) v0 s hs h1
    generalize featLoop c rec D b d n (computeLB c s D b d n) (c.order D) v0 s = r at hf
    obtain ⟨s1, l1, x1⟩ := hf
    refine ⟨updateArchive_sound (s1.setCache ?_) hD d, l1.sols, fun _ hm hw => ?_⟩
    · split
      · rename_i hne
        have := l1.sols.real hne
        exact G.store s1.cache hD this.1 this.2
      · refine G.upd s1.cache hD ?_
        split
        · exact hub
        · exact addMax_le l1.inf hub
    · have := h2 hm hw
      dsimp only; omega


theorem subTree_sound {rec : Rec} {D : Data} {b : Branch} {UB : Node} {d n : Nat} {s : St}
    (hrec : 1 ≤ d → RecS c T rec (d - 1)) (hD : D = sel b T) (hp : n + 1 ≤ 2 ^ d)
    (hub : UB.sol ≤ c.worst) (hs : SOK c T s) : SPost c T D UB d n (subTree c rec D b UB d n s) := by
  have hv1 : ViewOf T D := by rw [hD]; exact sel_view b T
  unfold subTree
  split
  · rename_i hok
    refine ⟨hs.next, .inl rfl, fun hc => ?_⟩
    unfold Cfg.ok at hok; rw [hc] at hok; simp at hok
  · obtain ⟨b1, b2, b3⟩ := reduceBudget_fits (c := c) UB d n hp
    dsimp only
    generalize (reduceBudget c UB d n).1 = d' at *
    generalize (reduceBudget c UB d n).2 = n' at *
    have lift : ∀ {r : Node × St}, SPost c T D UB d' n' r → SPost c T D UB d n r :=
      fun h => ⟨h.st, h.sound.mono b1 b2, h.ne⟩
    apply lift
    have sn := hs.next
    generalize s.next = s1 at sn
    split
    · obtain ⟨h1, h2, h3⟩ := solveLeaf_sound G hv1 UB hub d' n'
      exact ⟨sn, h1, fun _ => h3⟩
    · rename_i hz
      have hhit := sn.hit (c := c) hD d' n'
      split
      · rename_i hne
        exact ⟨sn, hhit, fun _ _ _ => (G.ne_iff hv1 hhit).1 hne⟩
      · have hgo : ∀ s', SOK c T s' → SPost c T D UB d' n' (if c.useTerm = true ∧ d' ≤ 2 then solveTerminal c D b UB d' n' s'
            else generalCase c rec D b UB d' n' s') := by
          intro s' hs'
          split
          · exact solveTerminal_sound G hD (by omega) b3 hub hs'
          · exact generalCase_sound G (fun D b UB e m s he => hrec (by omega) D b UB e m s (by omega)) hD (by omega) (by omega) b3 hub hs'
        split
        · have hsim := useSimilarity_sound G sn hD d' n'
          have hhit2 := hsim.hit (c := c) hD d' n'
          split
          · rename_i hh
            exact ⟨hsim, hhit2, fun _ _ _ => (G.ne_iff hv1 hhit2).1 hh.2⟩
          · split
            · rename_i hlb
              refine ⟨hsim, .inl rfl, fun _ _ hw => ?_⟩
              have := (computeLB_sound G hsim hD d' n').2
              have := G.worst
              omega
            · split
              · obtain ⟨h1, h2, h3⟩ := solveLeaf_sound G hv1 (Node.empty c.worst) (Int.le_refl _) d' n'
                exact ⟨hsim, h1, fun _ hm _ => h3 hm (Int.le_refl _)⟩
              · exact hgo _ hsim
        · exact hgo _ sn

/-- Every call of the search is sound. -/
theorem solveSub_sound (fuel : Nat) : RecS c T (solveSub c fuel) fuel := by
  induction fuel with
  | zero =>
    intro D b UB d n s hd hD hp hub hs
    obtain rfl : d = 0 := by omega
    exact subTree_sound G (fun h => by omega) hD hp hub hs
  | succ m ih =>
    intro D b UB d n s hd hD hp hub hs
    exact subTree_sound G (fun _ D' b' UB' d' n' s' h1 => ih D' b' UB' d' n' s' (by omega)) hD hp hub hs

end
end Streed.Tol
