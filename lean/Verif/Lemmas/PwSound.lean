import Verif.Lemmas.PwTop
import Verif.Lemmas.PwLine
import Verif.Lemmas.LeafBestTree

/-!
# The search with fitted leaves finds a solution

Cached bounds never exceed the value of "no solution", so a call without an upper bound finds a solution wherever a leaf is allowed.
-/

namespace Streed.Pw.Feas

/-- What is needed of the task. -/
structure Base (p : Task) (T : Data) : Prop where
  bc : 0 ≤ p.c.P.bc
  worst : 0 ≤ p.c.worst
  md : 0 ≤ p.c.md
  leaf : ∀ D, ViewOf T D → ∀ v, p.leaf D = some v → 0 ≤ v
  ex : ∀ D, ViewOf T D → p.c.mls ≤ p.weight D → (p.leaf D).isSome = true
  split : ∀ f D, ViewOf T D → p.weight D = p.weight (without f D) + p.weight (having f D)
  small : ∀ D, ViewOf T D → ∀ t : Tree, p.fitting.Legal t D → p.fitting.cost t D < p.c.worst
  fair : Fair p T
  sim : ∃ w, p.c.simInst = some w ∧ ∀ i ∈ T, 0 ≤ w i

/-- A cache entry for `D` holds a real solution, if any, and a bound that is not above `worst`. -/
def QS (p : Task) (D : Data) (e : Entry) : Prop :=
  (e.opt.isEmpty = false → Real p e.depth D e.opt ∧ e.opt.numNodes ≤ e.nodes) ∧ e.lb.sol ≤ p.c.worst

/-- State invariant. -/
structure SOK (p : Task) (T : Data) (s : St) : Prop where
  cache : CAll T (QS p) s.cache
  arch : ∀ d, ∀ x ∈ Tbl.get s.arch d [], x.1 = sel x.2 T

theorem SOK.next {p : Task} {T : Data} {s : St} (h : SOK p T s) : SOK p T s.next := ⟨h.cache, h.arch⟩
theorem SOK.setCache {p : Task} {T : Data} {s : St} (h : SOK p T s) {C : Cache} (hC : CAll T (QS p) C) :
    SOK p T { s with cache := C } := ⟨hC, h.arch⟩
theorem SOK.init {p : Task} {T : Data} : SOK p T St.init :=
  ⟨CAll.init, fun d x hx => by simp [St.init, Tbl.get] at hx⟩

/-- What every call guarantees. -/
structure SPost (p : Task) (T : Data) (D : Data) (UB : Node) (d n : Nat) (r : Node × St) : Prop where
  st : SOK p T r.2
  sound : Sound p d n D r.1
  ne : (∀ i, p.c.clock i = true) → p.c.mls ≤ p.weight D → p.c.worst ≤ UB.sol → r.1.sol < p.c.worst

/-- The recursive call is sound up to depth `m`. -/
def RecS (p : Task) (T : Data) (rec : Rec) (m : Nat) : Prop :=
  ∀ D b UB d n s, d ≤ m → D = sel b T → n + 1 ≤ 2 ^ d → UB.sol ≤ p.c.worst → SOK p T s →
    SPost p T D UB d n (rec D b UB d n s)

/-- Local variables are sound. -/
structure LocS (p : Task) (D : Data) (d n : Nat) (v : Loc) : Prop where
  sols : Sound p d n D v.sols
  ub : v.UB.sol ≤ p.c.worst
  inf : v.inf.sol ≤ p.c.worst

section
variable {p : Task} {T : Data} (G : Base p T)
include G

theorem Base.real_small {D : Data} (hD : ViewOf T D) {d : Nat} {v : Node} (h : Real p d D v) :
    v.sol < p.c.worst := by
  obtain ⟨t, _, _, h3, h4⟩ := h
  rw [← h4]; exact G.small D hD t h3

theorem Base.cost_nonneg {D : Data} (hD : ViewOf T D) (t : Tree) : 0 ≤ p.fitting.cost t D := by
  induction t generalizing D with
  | leaf k =>
    show 0 ≤ (p.leaf D).getD 0
    cases h : p.leaf D with
    | none => exact Int.le_refl _
    | some v => exact G.leaf D hD v h
  | node f l r ihl ihr =>
    have h1 := ihl ((without_sublist f D).trans hD)
    have h2 := ihr ((having_sublist f D).trans hD)
    have := G.bc
    have e : p.fitting.bc = p.c.P.bc := rfl
    simp only [Fitting.cost]; omega

theorem Base.legal_weight {D : Data} (hD : ViewOf T D) {t : Tree} (h : p.fitting.Legal t D) : p.c.mls ≤ p.weight D := by
  induction t generalizing D with
  | leaf k => exact h.1
  | node f l r ihl ihr =>
    have h1 := ihl ((without_sublist f D).trans hD) h.2.1
    rw [G.split f D hD]; omega

theorem Base.sound_nonneg {D : Data} (hD : ViewOf T D) {d n : Nat} {v : Node}
    (h : Sound p d n D v) : 0 ≤ v.sol := by
  rcases h with rfl | ⟨⟨t, _, _, _, h4⟩, _⟩
  · exact G.worst
  · rw [← h4]; exact G.cost_nonneg hD t

theorem Base.sound_le {D : Data} (hD : ViewOf T D) {d n : Nat} {v : Node}
    (h : Sound p d n D v) : v.sol ≤ p.c.worst := by
  rcases h with rfl | h
  · exact Int.le_refl _
  · have := G.real_small hD h.1; omega

theorem Base.ne_iff {D : Data} (hD : ViewOf T D) {d n : Nat} {v : Node}
    (h : Sound p d n D v) : v.isEmpty = false ↔ v.sol < p.c.worst := by
  rcases h with rfl | h
  · simp [Node.empty, Node.isEmpty]
  · exact ⟨fun _ => G.real_small hD h.1, fun _ => h.1.nonempty⟩

theorem Base.qs_fresh (D : Data) (d n : Nat) : QS p D (Entry.fresh p.c.worst d n) :=
  ⟨fun h => by simp [Entry.fresh, Node.empty, Node.isEmpty] at h, G.worst⟩

omit G in
theorem QS.updLB {D : Data} {e : Entry} (h : QS p D e) {v : Node} (hv : v.sol ≤ p.c.worst) : QS p D (e.updLB v) :=
  ⟨h.1, addMax_le h.2 hv⟩

theorem Base.store {C : Cache} (h : CAll T (QS p) C) {D : Data} {b : Branch} (hD : D = sel b T) {v : Node} {d n : Nat}
    (hr : Real p d D v) (hn : v.numNodes ≤ n) : CAll T (QS p) (C.storeOpt p.c.cc D b v d n) := by
  have hv : ViewOf T D := by rw [hD]; exact sel_view b T
  refine h.storeOpt G.fair.sorted hD hr.nonempty hn fun d' n' h1 h2 h3 h4 => ?_
  refine ⟨fun _ => ⟨(hr.depth_min (Nat.le_refl _)).mono h1, h3⟩, ?_⟩
  exact Int.le_of_lt (G.real_small hv hr)

theorem Base.upd {C : Cache} (h : CAll T (QS p) C) {D : Data} {b : Branch} (hD : D = sel b T) {v : Node} {d n : Nat}
    (hv : v.sol ≤ p.c.worst) : CAll T (QS p) (C.updateLB p.c.cc D b v d n) :=
  h.updateLB G.fair.sorted hD (G.qs_fresh D d n) fun _ _ _ hq => hq.updLB hv

omit G in
theorem SOK.hit {s : St} (hs : SOK p T s) {D : Data} {b : Branch} (hD : D = sel b T) (d n : Nat) :
    Sound p d n D (s.cache.retrieveOpt p.c.cc D b d n) := by
  cases h : (s.cache.retrieveOpt p.c.cc D b d n).isEmpty with
  | true => exact .inl (retrieveOpt_empty h)
  | false =>
    obtain ⟨e, h1, h2, h3, h4⟩ := hs.cache.retrieveOpt hD h
    have := h1.1 (by rw [h4]; exact h)
    rw [h2, h3, h4] at this
    exact .inr this

omit G in
theorem lowerCached_sound {s : St} (hs : SOK p T s) {D : Data} {b : Branch} (hD : D = sel b T) (n m : Nat)
    {l : Nat} {w : Node} (h : lowerCached p.c s D b n m = some (l, w)) : Sound p m n D w := by
  induction m with
  | zero => simp [lowerCached] at h
  | succ m ih =>
    unfold lowerCached at h
    dsimp only at h
    split at h
    · rename_i hc
      simp only [Option.some.injEq, Prod.mk.injEq] at h
      obtain ⟨rfl, rfl⟩ := h
      exact (hs.hit hD (m + 1) (min n (2 ^ m))).mono (Nat.le_refl _) (Nat.min_le_left _ _)
    · exact (ih h).mono (Nat.le_succ _) (Nat.le_refl _)

omit G in
theorem updateArchive_sound {s : St} (hs : SOK p T s) {D : Data} {b : Branch} (hD : D = sel b T) (d : Nat) :
    SOK p T (updateArchive p.c s D b d) := by
  unfold updateArchive
  split
  · exact hs
  · refine ⟨hs.cache, ?_⟩
    intro d' x hx
    simp only at hx
    rw [Tbl.get_set] at hx
    split at hx
    · split at hx
      · rcases List.mem_append.1 hx with hx | hx
        · exact hs.arch d x hx
        · rw [List.mem_singleton.1 hx]; exact hD
      · rcases mem_replaceSimilar hx with hx | hx
        · exact hs.arch d x hx
        · rw [hx]; exact hD
    · exact hs.arch d' x hx

/-! ### Leaves -/

theorem solveLeaf_sound {D : Data} (hD : ViewOf T D) (UB : Node) (hub : UB.sol ≤ p.c.worst) (d n : Nat) :
    Sound p d n D (solveLeaf p D UB).1 ∧ (solveLeaf p D UB).2.sol ≤ p.c.worst ∧
    (p.c.mls ≤ p.weight D → p.c.worst ≤ UB.sol → (solveLeaf p D UB).1.sol < p.c.worst) := by
  refine ⟨Pw.solveLeaf_sound D UB d n, ?_, fun hm hw => ?_⟩
  · unfold solveLeaf
    split
    · exact hub
    · dsimp only
      split
      · exact hub
      · dsimp only; unfold updateUB; split
        · exact Int.le_trans (addMin_le_left _ _) hub
        · exact hub
  · obtain ⟨v, hv⟩ := Option.isSome_iff_exists.1 (G.ex D hD hm)
    have hs := G.real_small hD (Real.leaf (d := 0) hm hv)
    have h0 := G.worst
    unfold solveLeaf Task.leafNode
    rw [if_neg (by omega), hv]
    dsimp only
    rw [if_neg]
    · exact hs
    · rintro ⟨_, h⟩
      unfold Tol.sdom at h
      omega

/-! ### Lower bounds stay below `worst` -/

theorem computeLB_sound {s : St} (hs : SOK p T s) {D : Data} {b : Branch} (hD : D = sel b T) (d n : Nat) :
    0 ≤ (computeLB p s D b d n).sol ∧ (computeLB p s D b d n).sol ≤ p.c.worst := by
  have hv : ViewOf T D := by rw [hD]; exact sel_view b T
  have hr : (s.cache.retrieveLB p.c.cc D b d n).sol ≤ p.c.worst :=
    hs.cache.retrieveLB (R := fun x => x ≤ p.c.worst) hD G.worst fun e he _ _ => he.2
  have h0 : (Node.value 0).sol ≤ p.c.worst := G.worst
  have hlb : 0 ≤ (Node.addMax (Node.value 0) (s.cache.retrieveLB p.c.cc D b d n)).sol := le_addMax_left (Node.value 0) _
  have hub := addMax_le h0 hr
  unfold computeLB
  split
  · generalize Node.addMax (Node.value 0) (s.cache.retrieveLB p.c.cc D b d n) = lb at hlb hub
    unfold sparseLB
    dsimp only
    have aux : ∀ (sols : Node) (x : Int), sols.sol ≤ p.c.worst →
        0 ≤ (if sols.sol ≤ x then Node.addMax lb sols else Node.addMax lb ⟨some 0, none, x, sols.nl, sols.nr⟩).sol ∧
        (if sols.sol ≤ x then Node.addMax lb sols else Node.addMax lb ⟨some 0, none, x, sols.nl, sols.nr⟩).sol ≤ p.c.worst := by
      intro sols x hls
      split
      · exact ⟨Int.le_trans hlb (le_addMax_left _ _), addMax_le hub hls⟩
      · refine ⟨Int.le_trans hlb (le_addMax_left _ _), addMax_le hub ?_⟩
        dsimp only
        omega
    cases hlow : lowerCached p.c s D b n (d - 1) with
    | none => exact aux _ _ (Int.le_refl _)
    | some q =>
      obtain ⟨l, w⟩ := q
      exact aux _ _ (G.sound_le hv (lowerCached_sound hs hD n (d - 1) hlow))
  · exact ⟨Int.le_refl _, h0⟩

theorem computeLRLB_sound {s : St} (hs : SOK p T s) {f : Nat} {L R : Side} (hR : R.D = sel R.b T) (ld ls rd rs : Nat) :
    0 ≤ (computeLRLB p s f L.D L.b ld ls R.D R.b rd rs).2.2.sol := by
  unfold computeLRLB
  split
  · exact (computeLB_sound G hs hR rd rs).1
  · exact Int.le_refl _

theorem subtractUB_le {UB o v : Node} (hub : UB.sol ≤ p.c.worst) (hv : v.sol ≤ p.c.worst) (ho : 0 ≤ o.sol) :
    (Tol.subtractUB p.c UB o v).sol ≤ p.c.worst := by
  have h1 := G.worst
  have h2 := G.bc
  have h3 := G.md
  unfold Tol.subtractUB
  split
  · dsimp only [Node.value, subtract]
    split <;> omega
  · exact hub

/-! ### Similarity -/

theorem simLoop_sound {D : Data} {b : Branch} (hD : D = sel b T) (d n : Nat) (es : List (Data × Branch))
    (hes : ∀ x ∈ es, x.1 = sel x.2 T) (lb : Node) (C : Cache) (hC : CAll T (QS p) C) (hlb : lb.sol ≤ p.c.worst) :
    CAll T (QS p) (Tol.simLoop p.c D b d n es lb C).2.2 ∧ (Tol.simLoop p.c D b d n es lb C).1.sol ≤ p.c.worst := by
  have hv : ViewOf T D := by rw [hD]; exact sel_view b T
  induction es generalizing lb C with
  | nil => exact ⟨hC, hlb⟩
  | cons x es ih =>
    obtain ⟨D', b'⟩ := x
    have hD' : D' = sel b' T := hes (D', b') (List.mem_cons_self ..)
    have hv' : ViewOf T D' := by rw [hD']; exact sel_view b' T
    have hes' := fun x hx => hes x (List.mem_cons_of_mem _ hx)
    have hrm : 0 ≤ removalCost p.c D' D := by
      obtain ⟨w, hw, hw0⟩ := G.sim
      unfold removalCost
      rw [hw]
      have hl : ∀ i ∈ D' ++ D, i.label < p.c.P.nL := by
        intro i hi
        rcases List.mem_append.1 hi with h | h
        · exact G.fair.labels i (hv'.subset h)
        · exact G.fair.labels i (hv.subset h)
      exact sum_map_nonneg _ _ fun i hi => hw0 i
        (hv'.subset ((difference_mem p.c.P.nL D' D (hv'.sorted G.fair.sorted) (hv.sorted G.fair.sorted) hl i).2.1 hi).1)
    have he : ({ C.retrieveLB p.c.cc D' b' d n with sol := subtract (C.retrieveLB p.c.cc D' b' d n).sol (removalCost p.c D' D) } : Node).sol
        ≤ p.c.worst := by
      have := hC.retrieveLB (cc := p.c.cc) (d := d) (n := n) (R := fun x => x ≤ p.c.worst) hD' G.worst fun e he _ _ => he.2
      have := G.worst
      dsimp only [subtract]; omega
    unfold Tol.simLoop
    split
    · exact ih hes' lb C hC hlb
    · split
      · exact ih hes' lb C hC hlb
      · dsimp only
        split
        · rename_i h0
          have heq : sel b' T = sel b T := by rw [← hD', ← hD]; exact diff_zero G.fair hv' hv h0
          have hC' := Tol.callTransfer hC p.c.cc heq
          split
          · exact ⟨hC', he⟩
          · exact ih hes' _ _ hC' (addMax_le hlb he)
        · exact ih hes' _ _ hC (addMax_le hlb he)

theorem useSimilarity_sound {s : St} (hs : SOK p T s) {D : Data} {b : Branch} (hD : D = sel b T) (d n : Nat) :
    SOK p T (Tol.useSimilarity p.c s D b d n).2 := by
  unfold Tol.useSimilarity
  split
  · exact hs
  · obtain ⟨h1, h2⟩ := simLoop_sound G hD d n (Tbl.get s.arch d []) (hs.arch d) (Node.value 0) s.cache hs.cache G.worst
    dsimp only
    split
    · exact ⟨h1, hs.arch⟩
    · split
      · exact ⟨h1, hs.arch⟩
      · split
        · exact ⟨G.upd h1 hD h2, hs.arch⟩
        · exact ⟨h1, hs.arch⟩

/-! ### The general case -/

theorem sizeStep_sound {rec : Rec} {D : Data} {d n f ls : Nat} {L R : Side} {sw : Bool} {v : Loc} {s : St} (hvD : ViewOf T D)
    (hrec : RecS p T rec (d - 1)) (hL : L.D = sel L.b T) (hR : R.D = sel R.b T)
    (comb : ∀ a b, Real p (d - 1) L.D a → Real p (d - 1) R.D b →
      Real p d D (if sw then Node.combine f b a p.c.P.bc else Node.combine f a b p.c.P.bc))
    (hls : ls + 1 ≤ n) (hp1 : ls + 1 ≤ 2 ^ (min (d - 1) ls)) (hp2 : n - ls - 1 + 1 ≤ 2 ^ (min (d - 1) (n - ls - 1)))
    (hs : SOK p T s) (hv : LocS p D d n v) :
    SOK p T (sizeStep p rec f L R sw d n ls v s).2.2 ∧ LocS p D d n (sizeStep p rec f L R sw d n ls v s).2.1 ∧
    (sizeStep p rec f L R sw d n ls v s).2.1.sols.sol ≤ v.sols.sol := by
  have hvL : ViewOf T L.D := by rw [hL]; exact sel_view _ T
  have infOK : ∀ x : Node, LocS p D d n { v with inf := Node.addMin v.inf x } := fun x =>
    ⟨hv.sols, hv.ub, Int.le_trans (addMin_le_left _ _) hv.inf⟩
  unfold sizeStep
  dsimp only
  have hlb := computeLRLB_sound G hs (f := f) (L := L) hR (min (d - 1) ls) ls (min (d - 1) (n - ls - 1)) (n - ls - 1)
  generalize computeLRLB p s f L.D L.b (min (d - 1) ls) ls R.D R.b (min (d - 1) (n - ls - 1)) (n - ls - 1) = lbs at hlb
  split
  · exact ⟨hs, infOK _, Int.le_refl _⟩
  · split
    · exact ⟨hs, hv, Int.le_refl _⟩
    · have pL := hrec L.D L.b (Tol.subtractUB p.c v.UB lbs.2.2 v.sols) (min (d - 1) ls) ls s (Nat.min_le_left _ _) hL hp1
        (subtractUB_le G hv.ub (G.sound_le hvD hv.sols) hlb) hs
      generalize rec L.D L.b (Tol.subtractUB p.c v.UB lbs.2.2 v.sols) (min (d - 1) ls) ls s = lr at pL
      split
      · exact ⟨pL.st.next, hv, Int.le_refl _⟩
      · split
        · exact ⟨pL.st.next, infOK _, Int.le_refl _⟩
        · rename_i hne
          have hne : lr.1.isEmpty = false := by simpa using hne
          have pR := hrec R.D R.b (Tol.subtractUB p.c v.UB lr.1 v.sols) (min (d - 1) (n - ls - 1)) (n - ls - 1) lr.2.next
            (Nat.min_le_left _ _) hR hp2 (subtractUB_le G hv.ub (G.sound_le hvD hv.sols) (G.sound_nonneg hvL pL.sound)) pL.st.next
          generalize rec R.D R.b (Tol.subtractUB p.c v.UB lr.1 v.sols) (min (d - 1) (n - ls - 1)) (n - ls - 1) lr.2.next = rr at pR
          split
          · exact ⟨pR.st.next, hv, Int.le_refl _⟩
          · split
            · exact ⟨pR.st.next, infOK _, Int.le_refl _⟩
            · rename_i hne'
              have hne' : rr.1.isEmpty = false := by simpa using hne'
              obtain ⟨rl, nl⟩ := pL.sound.real hne
              obtain ⟨rr', nr⟩ := pR.sound.real hne'
              have hnn := comb lr.1 rr.1 (rl.mono (Nat.min_le_left _ _)) (rr'.mono (Nat.min_le_left _ _))
              have hnum : (if sw = true then Node.combine f rr.1 lr.1 p.c.P.bc else Node.combine f lr.1 rr.1 p.c.P.bc).numNodes ≤ n := by
                cases sw <;> simp [combine_numNodes] <;> omega
              generalize (if sw = true then Node.combine f rr.1 lr.1 p.c.P.bc else Node.combine f lr.1 rr.1 p.c.P.bc) = nn
                at hnn hnum
              split
              · exact ⟨pR.st.next, infOK _, Int.le_refl _⟩
              · refine ⟨pR.st.next, ⟨?_, ?_, hv.inf⟩, ?_⟩
                · dsimp only; split
                  · exact .inr ⟨hnn, hnum⟩
                  · exact hv.sols
                · dsimp only; unfold updateUB; split
                  · exact Int.le_trans (addMin_le_left _ _) hv.ub
                  · exact hv.ub
                · dsimp only; split
                  · rename_i h
                    have h0 := G.sound_nonneg hvD (.inr ⟨hnn, hnum⟩)
                    omega
                  · exact Int.le_refl _

theorem sizeLoop_sound {rec : Rec} {D : Data} {d n f : Nat} {L R : Side} {sw : Bool} (hvD : ViewOf T D)
    (hrec : RecS p T rec (d - 1)) (hL : L.D = sel L.b T) (hR : R.D = sel R.b T)
    (comb : ∀ a b, Real p (d - 1) L.D a → Real p (d - 1) R.D b →
      Real p d D (if sw then Node.combine f b a p.c.P.bc else Node.combine f a b p.c.P.bc)) (l : List Nat)
    (hl : ∀ ls ∈ l, ls + 1 ≤ n ∧ ls + 1 ≤ 2 ^ (min (d - 1) ls) ∧ n - ls - 1 + 1 ≤ 2 ^ (min (d - 1) (n - ls - 1)))
    (v : Loc) (s : St) (hs : SOK p T s) (hv : LocS p D d n v) :
    SOK p T (sizeLoop p rec f L R sw d n l v s).2 ∧ LocS p D d n (sizeLoop p rec f L R sw d n l v s).1 ∧
    (sizeLoop p rec f L R sw d n l v s).1.sols.sol ≤ v.sols.sol := by
  induction l generalizing v s with
  | nil => exact ⟨hs, hv, Int.le_refl _⟩
  | cons ls l ih =>
    obtain ⟨a1, a4, a5⟩ := hl ls (List.mem_cons_self ..)
    have h1 := sizeStep_sound G hvD hrec hL hR comb a1 a4 a5 hs hv
    unfold sizeLoop
    generalize sizeStep p rec f L R sw d n ls v s = r at h1
    obtain ⟨s1, l1, e1⟩ := h1
    dsimp only
    split
    · exact ⟨s1, l1, e1⟩
    · obtain ⟨s2, l2, e2⟩ := ih (fun x hx => hl x (List.mem_cons_of_mem _ hx)) r.2.1 r.2.2 s1 l1
      exact ⟨s2, l2, by omega⟩

theorem featLoop_sound {rec : Rec} {D : Data} {b : Branch} {d n : Nat} {blb : Node}
    (hrec : RecS p T rec (d - 1)) (hD : D = sel b T) (hd : 1 ≤ d) (hn : 1 ≤ n) (hp : n + 1 ≤ 2 ^ d)
    (fs : List Nat) (hfs : ∀ f ∈ fs, f < p.c.P.nF) (v : Loc) (s : St) (hs : SOK p T s) (hv : LocS p D d n v) :
    SOK p T (featLoop p rec D b d n blb fs v s).2 ∧ LocS p D d n (featLoop p rec D b d n blb fs v s).1 ∧
    (featLoop p rec D b d n blb fs v s).1.sols.sol ≤ v.sols.sol := by
  have hv1 : ViewOf T D := by rw [hD]; exact sel_view b T
  induction fs generalizing v s with
  | nil => exact ⟨hs, hv, Int.le_refl _⟩
  | cons f fs ih =>
    have hfs' : ∀ g ∈ fs, g < p.c.P.nF := fun g hg => hfs g (List.mem_cons_of_mem _ hg)
    have hf := hfs f (List.mem_cons_self ..)
    unfold featLoop
    split
    · exact ⟨hs.next, hv, Int.le_refl _⟩
    · dsimp only
      split
      · exact ⟨hs.next, hv, Int.le_refl _⟩
      · split
        · exact ⟨hs.next, hv, Int.le_refl _⟩
        · split
          · exact ih hfs' v s.next hs.next hv
          · split
            · exact ⟨hs.next, hv, Int.le_refl _⟩
            · split
              · exact ih hfs' v s.next hs.next hv
              · have e0 : without f D = sel (b.child f false) T := by rw [sel_child, ← hD, side_false]
                have e1 : having f D = sel (b.child f true) T := by rw [sel_child, ← hD, side_true]
                obtain ⟨e, rfl⟩ : ∃ e, d = e + 1 := ⟨d - 1, by omega⟩
                have hsz : ∀ ls ∈ sizes (e + 1) n, ls + 1 ≤ n ∧ ls + 1 ≤ 2 ^ (min (e + 1 - 1) ls) ∧
                    n - ls - 1 + 1 ≤ 2 ^ (min (e + 1 - 1) (n - ls - 1)) := by
                  intro ls hls
                  have := sizes_ok (c := { p.c with useTerm := false }) hd hn hp (.inl rfl) ls hls
                  exact ⟨this.1, this.2.2.2⟩
                have h1 : ∀ r, r = (if (without f D).length < (having f D).length then
                    sizeLoop p rec f ⟨having f D, b.child f true⟩ ⟨without f D, b.child f false⟩ true (e + 1) n (sizes (e + 1) n) v s.next
                  else sizeLoop p rec f ⟨without f D, b.child f false⟩ ⟨having f D, b.child f true⟩ false (e + 1) n (sizes (e + 1) n) v s.next) →
                    SOK p T r.2 ∧ LocS p D (e + 1) n r.1 ∧ r.1.sols.sol ≤ v.sols.sol := by
                  intro r hr
                  rw [hr]
                  split
                  · exact sizeLoop_sound G hv1 hrec e1 e0 (fun x y hx hy => Real.combine hf hy hx) _ hsz v s.next hs.next hv
                  · exact sizeLoop_sound G hv1 hrec e0 e1 (fun x y hx hy => Real.combine hf hx hy) _ hsz v s.next hs.next hv
                have h1 := h1 _ rfl
                generalize (if (without f D).length < (having f D).length then
                    sizeLoop p rec f ⟨having f D, b.child f true⟩ ⟨without f D, b.child f false⟩ true (e + 1) n (sizes (e + 1) n) v s.next
                  else sizeLoop p rec f ⟨without f D, b.child f false⟩ ⟨having f D, b.child f true⟩ false (e + 1) n (sizes (e + 1) n) v s.next)
                  = r at h1
                obtain ⟨s1, l1, x1⟩ := h1
                obtain ⟨s2, l2, x2⟩ := ih hfs' r.1 r.2 s1 l1
                exact ⟨s2, l2, by omega⟩

theorem start_sound {D : Data} {b : Branch} {d n : Nat} {s : St} (hs : SOK p T s) (hD : D = sel b T)
    (UB : Node) (hub : UB.sol ≤ p.c.worst) :
    LocS p D d n (startLoc p D b UB d n s) ∧
    (p.c.mls ≤ p.weight D → p.c.worst ≤ UB.sol → (startLoc p D b UB d n s).sols.sol < p.c.worst) := by
  have hv1 : ViewOf T D := by rw [hD]; exact sel_view b T
  obtain ⟨h1, h2, h3⟩ := solveLeaf_sound G hv1 UB hub d n
  unfold startLoc
  generalize solveLeaf p D UB = lf at h1 h2 h3
  have base : LocS p D d n ⟨lf.1, lf.2, Node.empty p.c.worst⟩ := ⟨h1, h2, Int.le_refl _⟩
  dsimp only
  cases hlow : lowerCached p.c s D b n (d - 1) with
  | none => exact ⟨base, h3⟩
  | some p =>
    obtain ⟨l, w⟩ := p
    have hw := (lowerCached_sound hs hD n (d - 1) hlow).mono (Nat.sub_le _ _) (Nat.le_refl _)
    dsimp only
    split
    · exact ⟨base, h3⟩
    · refine ⟨⟨h1.addMin hw, Int.le_trans (addMin_le_left _ _) h2, Int.le_refl _⟩, fun hm h => ?_⟩
      have := h3 hm h
      have := addMin_le_left lf.1 w
      dsimp only; omega

theorem generalCase_sound {rec : Rec} {D : Data} {b : Branch} {d n : Nat} {UB : Node} {s : St}
    (hrec : RecS p T rec (d - 1)) (hD : D = sel b T) (hd : 1 ≤ d) (hn : 1 ≤ n) (hp : n + 1 ≤ 2 ^ d)
    (hub : UB.sol ≤ p.c.worst) (hs : SOK p T s) : SPost p T D UB d n (generalCase p rec D b UB d n s) := by
  have hv1 : ViewOf T D := by rw [hD]; exact sel_view b T
  unfold generalCase
  dsimp only
  split
  · obtain ⟨h1, h2, h3⟩ := solveLeaf_sound G hv1 UB hub d n
    exact ⟨hs, h1, fun _ => h3⟩
  · obtain ⟨h1, h2⟩ := start_sound G (d := d) (n := n) hs hD UB hub
    generalize startLoc p D b UB d n s = v0 at h1 h2
    have hf := featLoop_sound G (blb := computeLB p s D b d n) hrec hD hd hn hp (p.c.order D) (G.fair.order D) v0 s hs h1
    generalize featLoop p rec D b d n (computeLB p s D b d n) (p.c.order D) v0 s = r at hf
    obtain ⟨s1, l1, x1⟩ := hf
    refine ⟨updateArchive_sound (s1.setCache ?_) hD d, l1.sols, fun _ hm hw => ?_⟩
    · split
      · rename_i hne
        have := l1.sols.real hne
        exact G.store s1.cache hD this.1 this.2
      · refine G.upd s1.cache hD ?_
        split
        · exact hub
        · exact addMax_le l1.inf hub
    · have := h2 hm hw
      dsimp only; omega


theorem subTree_sound {rec : Rec} {D : Data} {b : Branch} {UB : Node} {d n : Nat} {s : St}
    (hrec : 1 ≤ d → RecS p T rec (d - 1)) (hD : D = sel b T) (hp : n + 1 ≤ 2 ^ d)
    (hub : UB.sol ≤ p.c.worst) (hs : SOK p T s) : SPost p T D UB d n (subTree p rec D b UB d n s) := by
  have hv1 : ViewOf T D := by rw [hD]; exact sel_view b T
  unfold subTree
  split
  · rename_i hok
    refine ⟨hs.next, .inl rfl, fun hc => ?_⟩
    unfold Cfg.ok at hok; rw [hc] at hok; simp at hok
  · obtain ⟨b1, b2, b3⟩ := reduceBudget_fits (p := p) UB hp
    dsimp only
    generalize (reduceBudget p UB d n).1 = d' at *
    generalize (reduceBudget p UB d n).2 = n' at *
    have lift : ∀ {r : Node × St}, SPost p T D UB d' n' r → SPost p T D UB d n r :=
      fun h => ⟨h.st, h.sound.mono b1 b2, h.ne⟩
    apply lift
    have sn := hs.next
    generalize s.next = s1 at sn
    split
    · obtain ⟨h1, h2, h3⟩ := solveLeaf_sound G hv1 UB hub d' n'
      exact ⟨sn, h1, fun _ => h3⟩
    · rename_i hz
      have hhit := sn.hit hD d' n'
      split
      · rename_i hne
        exact ⟨sn, hhit, fun _ _ _ => (G.ne_iff hv1 hhit).1 hne⟩
      · have hgo : ∀ s', SOK p T s' → SPost p T D UB d' n' (generalCase p rec D b UB d' n' s') := fun s' hs' =>
          generalCase_sound G (fun D b UB e m s he => hrec (by omega) D b UB e m s (by omega)) hD (by omega) (by omega) b3 hub hs'
        split
        · have hsim := useSimilarity_sound G sn hD d' n'
          have hhit2 := hsim.hit hD d' n'
          split
          · rename_i hh
            exact ⟨hsim, hhit2, fun _ _ _ => (G.ne_iff hv1 hhit2).1 hh.2⟩
          · split
            · rename_i hlb
              refine ⟨hsim, .inl rfl, fun _ _ hw => ?_⟩
              have := (computeLB_sound G hsim hD d' n').2
              have := G.worst
              omega
            · split
              · obtain ⟨h1, h2, h3⟩ := solveLeaf_sound G hv1 (Node.empty p.c.worst) (Int.le_refl _) d' n'
                exact ⟨hsim, h1, fun _ hm _ => h3 hm (Int.le_refl _)⟩
              · exact hgo _ hsim
        · exact hgo _ sn

/-- Every call of the search is sound. -/
theorem solveSub_sound (fuel : Nat) : RecS p T (solveSub p fuel) fuel := by
  induction fuel with
  | zero =>
    intro D b UB d n s hd hD hp hub hs
    obtain rfl : d = 0 := by omega
    exact subTree_sound G (fun h => by omega) hD hp hub hs
  | succ m ih =>
    intro D b UB d n s hd hD hp hub hs
    exact subTree_sound G (fun _ D' b' UB' d' n' s' h1 => ih D' b' UB' d' n' s' (by omega)) hD hp hub hs

end
end Streed.Pw.Feas
