import Verif.Lemmas.ReturnedTop

/-! Whatever the options and whatever the clock: every leaf that the search handles carries a label that costs least on its
data. -/

namespace Streed

/-- If the solution is a leaf, no other label costs less on `D`. -/
def BestLabel (P : Problem) (D : Data) (v : Node) : Prop :=
  v.feature = none → v.isEmpty = false → ∀ k, k < P.nL → v.sol ≤ leafCost P D k

/-- A cache entry for `D`. -/
def QB (c : Cfg) (D : Data) (e : Entry) : Prop := BestLabel c.P D e.opt

/-- Every leaf of the tree carries a label that costs least on the instances it receives. -/
def BestLeaves (P : Problem) : Tree → Data → Prop
  | .leaf k, D => ∀ j, j < P.nL → leafCost P D k ≤ leafCost P D j
  | .node f l r, D => BestLeaves P l (without f D) ∧ BestLeaves P r (having f D)

theorem BestLabel.empty (P : Problem) (D : Data) (w : Int) : BestLabel P D (Node.empty w) := fun _ h => by
  simp [Node.empty, Node.isEmpty] at h

theorem BestLabel.addMin {P : Problem} {D : Data} {a b : Node} (ha : BestLabel P D a) (hb : BestLabel P D b) :
    BestLabel P D (Node.addMin a b) := by
  rcases addMin_cases a b with h | h <;> rw [h] <;> assumption

theorem BestLabel.combine (P : Problem) (D : Data) (f : Nat) (a b : Node) (x : Int) : BestLabel P D (Node.combine f a b x) :=
  fun h => by simp [Node.combine, Node.branch] at h

theorem BestLabel.ite {P : Problem} {D : Data} {p : Prop} [Decidable p] {a b : Node} (ha : BestLabel P D a) (hb : BestLabel P D b) :
    BestLabel P D (if p then a else b) := by split <;> assumption

theorem BestLabel.of_le {P : Problem} {D : Data} {v : Node} (h : ∀ k, k < P.nL → v.sol ≤ leafCost P D k) : BestLabel P D v :=
  fun _ _ => h

section
variable {c : Cfg} {T : Data}

/-! ### Leaves -/

/-- What holds of the best label so far, `ks` being the labels seen. -/
structure LeafInv (c : Cfg) (D : Data) (r UB : Node) (seen : Nat → Prop) : Prop where
  none : r.isEmpty = true → r.sol = c.worst ∧ ∀ j, seen j → c.worst ≤ leafCost c.P D j ∨ (c.useUB = true ∧ UB.sol < leafCost c.P D j)
  some : r.isEmpty = false → (∀ j, seen j → r.sol ≤ leafCost c.P D j) ∧ (c.useUB = true → r.sol ≤ UB.sol)

theorem leafLoop_best {D : Data} (ks : List Nat) (r UB : Node) (seen : Nat → Prop) (h : LeafInv c D r UB seen) :
    LeafInv c D (leafLoop c D ks r UB).1 (leafLoop c D ks r UB).2 (fun j => seen j ∨ j ∈ ks) := by
  induction ks generalizing r UB seen with
  | nil => simpa [leafLoop] using h
  | cons k ks ih =>
    have e : (fun j => seen j ∨ j ∈ k :: ks) = (fun j => (seen j ∨ j = k) ∨ j ∈ ks) := by
      funext j; simp [or_assoc]
    rw [e]
    unfold leafLoop
    dsimp only
    have hv : (Node.leaf k (leafCost c.P D k)).sol = leafCost c.P D k := rfl
    have hvn : (Node.leaf k (leafCost c.P D k)).isEmpty = false := rfl
    split
    · rename_i hc
      rw [hv] at hc
      refine ih r UB _ ⟨fun he => ⟨(h.none he).1, fun j hj => ?_⟩, fun he => ⟨fun j hj => ?_, (h.some he).2⟩⟩
      · rcases hj with hj | rfl
        · exact (h.none he).2 j hj
        · exact .inr hc
      · rcases hj with hj | rfl
        · exact (h.some he).1 j hj
        · have := (h.some he).2 hc.1; omega
    · rename_i hc
      rw [hv] at hc
      apply ih
      have hu : c.useUB = true → leafCost c.P D k ≤ UB.sol := fun a => by
        by_contra h'; exact hc ⟨a, by omega⟩
      have hub : c.useUB = true → (updateUB c UB (Node.leaf k (leafCost c.P D k))).sol = leafCost c.P D k ∨
          (updateUB c UB (Node.leaf k (leafCost c.P D k))).sol = UB.sol ∧ UB.sol ≤ leafCost c.P D k := fun a => by
        unfold updateUB; rw [if_pos a]; unfold Node.addMin; rw [hv]
        split
        · exact .inl rfl
        · exact .inr ⟨rfl, by omega⟩
      unfold Node.addMin
      rw [hv]
      split
      · rename_i hlt
        refine ⟨fun he => by rw [hvn] at he; simp at he, fun _ => ⟨fun j hj => ?_, fun a => ?_⟩⟩
        · rw [hv]
          rcases hj with hj | rfl
          · cases hr : r.isEmpty with
            | true =>
              obtain ⟨h1, h2⟩ := h.none hr
              rcases h2 j hj with h3 | ⟨h3, h4⟩
              · omega
              · have := hu h3; omega
            | false => have := (h.some hr).1 j hj; omega
          · exact Int.le_refl _
        · rw [hv]
          rcases hub a with h1 | h1
          · omega
          · have := hu a; omega
      · rename_i hlt
        refine ⟨fun he => ⟨(h.none he).1, fun j hj => ?_⟩, fun he => ⟨fun j hj => ?_, fun a => ?_⟩⟩
        · obtain ⟨h1, h2⟩ := h.none he
          rcases hj with hj | rfl
          · rcases h2 j hj with h3 | ⟨h3, h4⟩
            · exact .inl h3
            · refine .inr ⟨h3, ?_⟩
              have := hu h3
              rcases hub h3 with h5 | h5 <;> omega
          · left; omega
        · rcases hj with hj | rfl
          · exact (h.some he).1 j hj
          · omega
        · have := (h.some he).2 a
          rcases hub a with h5 | h5 <;> omega

theorem solveLeaf_best (c : Cfg) (D : Data) (UB : Node) : BestLabel c.P D (solveLeaf c D UB).1 := by
  unfold solveLeaf
  split
  · exact BestLabel.empty _ _ _
  · intro _ hne k hk
    have := leafLoop_best (c := c) (D := D) (List.range c.P.nL) (Node.empty c.worst) UB (fun _ => False)
      ⟨fun _ => ⟨rfl, fun j hj => hj.elim⟩, fun h => by simp [Node.empty, Node.isEmpty] at h⟩
    exact (this.some hne).1 k (.inr (List.mem_range.2 hk))

/-! ### Caches -/

theorem hit_best {C : Cache} (h : CAll T (QB c) C) {D : Data} {b : Branch} (hD : D = sel b T) (d n : Nat) :
    BestLabel c.P D (C.retrieveOpt c.cc D b d n) := by
  cases he : (C.retrieveOpt c.cc D b d n).isEmpty with
  | true => intro _ h'; rw [he] at h'; simp at h'
  | false =>
    obtain ⟨e, h1, _, _, h4⟩ := h.retrieveOpt hD he
    rw [← h4]; exact h1

theorem lowerCached_best {s : St} (hs : CAll T (QB c) s.cache) {D : Data} {b : Branch} (hD : D = sel b T) (n m : Nat)
    {l : Nat} {w : Node} (h : lowerCached c s D b n m = some (l, w)) : BestLabel c.P D w := by
  induction m with
  | zero => simp [lowerCached] at h
  | succ m ih =>
    unfold lowerCached at h
    dsimp only at h
    split at h
    · simp only [Option.some.injEq, Prod.mk.injEq] at h
      obtain ⟨rfl, rfl⟩ := h
      exact hit_best hs hD _ _
    · exact ih h

variable (G : Base c T)
include G

theorem store_best {C : Cache} (h : CAll T (QB c) C) {D : Data} {b : Branch} (hD : D = sel b T) {v : Node} {d n : Nat}
    (hv : v.isEmpty = false) (hn : v.numNodes ≤ n) (hb : BestLabel c.P D v) : CAll T (QB c) (C.storeOpt c.cc D b v d n) :=
  h.storeOpt G.sorted hD hv hn fun _ _ _ _ _ _ => hb

theorem upd_best {C : Cache} (h : CAll T (QB c) C) {D : Data} {b : Branch} (hD : D = sel b T) {v : Node} {d n : Nat} :
    CAll T (QB c) (C.updateLB c.cc D b v d n) :=
  h.updateLB G.sorted hD (BestLabel.empty _ _ _) fun _ _ _ hq => hq

theorem simLoop_best {D : Data} {b : Branch} (hD : D = sel b T) (d n : Nat) (es : List (Data × Branch))
    (hes : ∀ p ∈ es, p.1 = sel p.2 T) (lb : Node) (C : Cache) (hC : CAll T (QB c) C) :
    CAll T (QB c) (simLoop c D b d n es lb C).2.2 := by
  have hv : ViewOf T D := by rw [hD]; exact sel_view b T
  induction es generalizing lb C with
  | nil => exact hC
  | cons p es ih =>
    obtain ⟨D', b'⟩ := p
    have hD' : D' = sel b' T := hes (D', b') (List.mem_cons_self ..)
    have hv' : ViewOf T D' := by rw [hD']; exact sel_view b' T
    have hes' := fun p hp => hes p (List.mem_cons_of_mem _ hp)
    unfold simLoop
    split
    · exact ih hes' lb C hC
    · split
      · exact ih hes' lb C hC
      · dsimp only
        split
        · rename_i h0
          have heq : sel b' T = sel b T := by rw [← hD', ← hD]; exact diff_zero' G hv' hv h0
          have hC' := hC.transfer (cc := c.cc) heq
          split
          · exact hC'
          · exact ih hes' _ _ hC'
        · exact ih hes' _ _ hC

theorem useSimilarity_best {s : St} (hs : SOK c T s) (hq : CAll T (QB c) s.cache) {D : Data} {b : Branch} (hD : D = sel b T) (d n : Nat) :
    CAll T (QB c) (useSimilarity c s D b d n).2.cache := by
  unfold useSimilarity
  split
  · exact hq
  · have h1 := simLoop_best G hD d n (Tbl.get s.arch d []) (hs.arch d) (Node.value 0) s.cache hq
    dsimp only
    split
    · exact h1
    · split
      · exact h1
      · split
        · exact upd_best G h1 hD
        · exact h1

omit G in
theorem updateArchive_cacheB (s : St) (D : Data) (b : Branch) (d : Nat) : (updateArchive c s D b d).cache = s.cache := by
  unfold updateArchive
  split <;> rfl

/-! ### Depth-two nodes -/

theorem storeTerminal_best {C : Cache} (h : CAll T (QB c) C) {D : Data} {b : Branch} (hD : D = sel b T) {UB v : Node}
    {d n : Nat} (hs : Sound c.P c.mls c.worst d n D v) (hb : BestLabel c.P D v) :
    CAll T (QB c) (storeTerminal c D b UB v d n C) := by
  unfold storeTerminal
  split
  · exact h
  · split
    · rename_i hne
      exact store_best G h hD hne (hs.real hne).2 hb
    · exact upd_best G h hD

omit G in
theorem terminal_best (c : Cfg) (D : Data) (b : Branch) (n : Nat) :
    BestLabel c.P D (terminal c.tc (statsOf c.P D) b n).one ∧ BestLabel c.P D (terminal c.tc (statsOf c.P D) b n).two ∧
    BestLabel c.P D (terminal c.tc (statsOf c.P D) b n).three := by
  have h1 := oneNode_le_leaf c.P c.mls c.worst D
  have htc : tcOf c.P c.mls c.worst = c.tc := rfl
  rw [htc] at h1
  unfold terminal
  split
  · exact ⟨BestLabel.empty _ _ _, BestLabel.empty _ _ _, BestLabel.empty _ _ _⟩
  · dsimp only
    split
    · exact ⟨.of_le h1, BestLabel.empty _ _ _, BestLabel.empty _ _ _⟩
    · have h2 : ∀ v : Node, ∀ k, k < c.P.nL → (Node.addMin v (oneNode c.tc (statsOf c.P D))).sol ≤ leafCost c.P D k :=
        fun v k hk => Int.le_trans (addMin_le_right _ _) (h1 k hk)
      split
      · exact ⟨.of_le h1, .of_le (h2 _), .of_le fun k hk => Int.le_trans (addMin_le_right _ _) (h2 _ k hk)⟩
      · exact ⟨.of_le h1, .of_le (h2 _), .of_le fun k hk => Int.le_trans (addMin_le_right _ _) (h2 _ k hk)⟩

theorem solveTerminal_best {D : Data} {b : Branch} (hD : D = sel b T) {UB : Node} {d n : Nat} {s : St}
    (hq : CAll T (QB c) s.cache) :
    CAll T (QB c) (solveTerminal c D b UB d n s).2.cache ∧ BestLabel c.P D (solveTerminal c D b UB d n s).1 := by
  have ht := terminal_sound c.P c.mls c.worst D b n
  have htc : tcOf c.P c.mls c.worst = c.tc := rfl
  rw [htc] at ht
  have hb := terminal_best c D b n
  unfold solveTerminal
  dsimp only
  rw [updateArchive_cacheB]
  generalize terminal c.tc (statsOf c.P D) b n = r at ht hb
  obtain ⟨t1, t2, t3⟩ := ht
  obtain ⟨b1, b2, b3⟩ := hb
  refine ⟨storeTerminal_best G (storeTerminal_best G (storeTerminal_best G hq hD t1 b1) hD t2 b2) hD t3 b3, ?_⟩
  exact BestLabel.ite (BestLabel.empty _ _ _) (BestLabel.ite b1 (BestLabel.ite b2 b3))

/-! ### The general case -/

omit G in
/-- The recursive call, up to depth `m`. -/
def RecB (c : Cfg) (T : Data) (rec : Rec) (m : Nat) : Prop :=
  ∀ D b UB d n s, d ≤ m → D = sel b T → n + 1 ≤ 2 ^ d → UB.sol ≤ c.worst → SOK c T s → CAll T (QB c) s.cache →
    CAll T (QB c) (rec D b UB d n s).2.cache ∧ BestLabel c.P D (rec D b UB d n s).1

theorem sizeStep_best {rec : Rec} {D : Data} {d n f ls : Nat} {L R : Side} {sw : Bool} {v : Loc} {s : St}
    (hrec : RecS c T rec (d - 1)) (hrb : RecB c T rec (d - 1)) (hL : L.D = sel L.b T) (hR : R.D = sel R.b T)
    (hp1 : ls + 1 ≤ 2 ^ (min (d - 1) ls)) (hp2 : n - ls - 1 + 1 ≤ 2 ^ (min (d - 1) (n - ls - 1)))
    (hs : SOK c T s) (hv : LocS c D d n v) (hq : CAll T (QB c) s.cache) (hb : BestLabel c.P D v.sols) :
    CAll T (QB c) (sizeStep c rec f L R sw d n ls v s).2.2.cache ∧ BestLabel c.P D (sizeStep c rec f L R sw d n ls v s).2.1.sols := by
  have hvL : ViewOf T L.D := by rw [hL]; exact sel_view _ T
  unfold sizeStep
  dsimp only
  have hlb := computeLRLB_sound G hs (f := f) (L := L) hR (min (d - 1) ls) ls (min (d - 1) (n - ls - 1)) (n - ls - 1)
  generalize computeLRLB c s f L.D L.b (min (d - 1) ls) ls R.D R.b (min (d - 1) (n - ls - 1)) (n - ls - 1) = lbs at hlb
  split
  · exact ⟨hq, hb⟩
  · split
    · exact ⟨hq, hb⟩
    · have pL := hrec L.D L.b (subtractUB c v.UB lbs.2.2 v.sols) (min (d - 1) ls) ls s (Nat.min_le_left _ _) hL hp1
        (subtractUB_le G hv.ub hlb) hs
      have qL := hrb L.D L.b (subtractUB c v.UB lbs.2.2 v.sols) (min (d - 1) ls) ls s (Nat.min_le_left _ _) hL hp1
        (subtractUB_le G hv.ub hlb) hs hq
      generalize rec L.D L.b (subtractUB c v.UB lbs.2.2 v.sols) (min (d - 1) ls) ls s = lr at pL qL
      split
      · exact ⟨qL.1, hb⟩
      · split
        · exact ⟨qL.1, hb⟩
        · have qR := hrb R.D R.b (subtractUB c v.UB lr.1 v.sols) (min (d - 1) (n - ls - 1)) (n - ls - 1) lr.2.next
            (Nat.min_le_left _ _) hR hp2 (subtractUB_le G hv.ub (G.sound_nonneg hvL pL.sound)) pL.st.next qL.1
          generalize rec R.D R.b (subtractUB c v.UB lr.1 v.sols) (min (d - 1) (n - ls - 1)) (n - ls - 1) lr.2.next = rr at qR
          split
          · exact ⟨qR.1, hb⟩
          · split
            · exact ⟨qR.1, hb⟩
            · have hnn : BestLabel c.P D (if sw = true then Node.combine f rr.1 lr.1 c.P.bc else Node.combine f lr.1 rr.1 c.P.bc) := by
                cases sw <;> exact BestLabel.combine _ _ _ _ _ _
              generalize (if sw = true then Node.combine f rr.1 lr.1 c.P.bc else Node.combine f lr.1 rr.1 c.P.bc) = nn at hnn
              split
              · exact ⟨qR.1, hb⟩
              · exact ⟨qR.1, BestLabel.ite hnn hb⟩

theorem sizeLoop_best {rec : Rec} {D : Data} {d n f : Nat} {L R : Side} {sw : Bool}
    (hrec : RecS c T rec (d - 1)) (hrb : RecB c T rec (d - 1)) (hL : L.D = sel L.b T) (hR : R.D = sel R.b T)
    (comb : ∀ a b, Real c.P c.mls (d - 1) L.D a → Real c.P c.mls (d - 1) R.D b →
      Real c.P c.mls d D (if sw then Node.combine f b a c.P.bc else Node.combine f a b c.P.bc)) (l : List Nat)
    (hl : ∀ ls ∈ l, ls + 1 ≤ n ∧ ls + 1 ≤ 2 ^ (min (d - 1) ls) ∧ n - ls - 1 + 1 ≤ 2 ^ (min (d - 1) (n - ls - 1)))
    (v : Loc) (s : St) (hs : SOK c T s) (hv : LocS c D d n v) (hq : CAll T (QB c) s.cache) (hb : BestLabel c.P D v.sols) :
    CAll T (QB c) (sizeLoop c rec f L R sw d n l v s).2.cache ∧ BestLabel c.P D (sizeLoop c rec f L R sw d n l v s).1.sols := by
  induction l generalizing v s with
  | nil => exact ⟨hq, hb⟩
  | cons ls l ih =>
    obtain ⟨a1, a4, a5⟩ := hl ls (List.mem_cons_self ..)
    have h1 := sizeStep_sound G hrec hL hR comb a1 a4 a5 hs hv
    have h2 := sizeStep_best G (f := f) (sw := sw) hrec hrb hL hR a4 a5 hs hv hq hb
    unfold sizeLoop
    generalize sizeStep c rec f L R sw d n ls v s = r at h1 h2
    obtain ⟨s1, l1, _⟩ := h1
    dsimp only
    split
    · exact h2
    · exact ih (fun x hx => hl x (List.mem_cons_of_mem _ hx)) r.2.1 r.2.2 s1 l1 h2.1 h2.2

theorem featLoop_best {rec : Rec} {D : Data} {b : Branch} {d n : Nat} {blb : Node}
    (hrec : RecS c T rec (d - 1)) (hrb : RecB c T rec (d - 1)) (hD : D = sel b T) (hd : 1 ≤ d) (hn : 1 ≤ n) (hp : n + 1 ≤ 2 ^ d)
    (fs : List Nat) (hfs : ∀ f ∈ fs, f < c.P.nF) (v : Loc) (s : St) (hs : SOK c T s) (hv : LocS c D d n v)
    (hq : CAll T (QB c) s.cache) (hb : BestLabel c.P D v.sols) :
    CAll T (QB c) (featLoop c rec D b d n blb fs v s).2.cache ∧ BestLabel c.P D (featLoop c rec D b d n blb fs v s).1.sols := by
  induction fs generalizing v s with
  | nil => exact ⟨hq, hb⟩
  | cons f fs ih =>
    have hfs' : ∀ g ∈ fs, g < c.P.nF := fun g hg => hfs g (List.mem_cons_of_mem _ hg)
    have hf := hfs f (List.mem_cons_self ..)
    unfold featLoop
    split
    · exact ⟨hq, hb⟩
    · dsimp only
      split
      · exact ⟨hq, hb⟩
      · split
        · exact ⟨hq, hb⟩
        · split
          · exact ih hfs' v s.next hs.next hv hq hb
          · rename_i hskip
            simp only [Bool.or_eq_true, Bool.not_eq_true', not_or, Bool.not_eq_true, Bool.not_eq_false] at hskip
            have hmay := hskip.1.2
            split
            · exact ⟨hq, hb⟩
            · split
              · exact ih hfs' v s.next hs.next hv hq hb
              · have e0 : without f D = sel (b.child f false) T := by rw [sel_child, ← hD, side_false]
                have e1 : having f D = sel (b.child f true) T := by rw [sel_child, ← hD, side_true]
                obtain ⟨e, rfl⟩ : ∃ e, d = e + 1 := ⟨d - 1, by omega⟩
                have hsz : ∀ ls ∈ sizes (e + 1) n, ls + 1 ≤ n ∧ ls + 1 ≤ 2 ^ (min (e + 1 - 1) ls) ∧
                    n - ls - 1 + 1 ≤ 2 ^ (min (e + 1 - 1) (n - ls - 1)) := by
                  intro ls hls
                  have := sizes_ok (c := { c with useTerm := false }) hd hn hp (.inl rfl) ls hls
                  exact ⟨this.1, this.2.2.2⟩
                have h1 : ∀ r, r = (if (without f D).length < (having f D).length then
                    sizeLoop c rec f ⟨having f D, b.child f true⟩ ⟨without f D, b.child f false⟩ true (e + 1) n (sizes (e + 1) n) v s.next
                  else sizeLoop c rec f ⟨without f D, b.child f false⟩ ⟨having f D, b.child f true⟩ false (e + 1) n (sizes (e + 1) n) v s.next) →
                    (SOK c T r.2 ∧ LocS c D (e + 1) n r.1 ∧ r.1.sols.sol ≤ v.sols.sol) ∧ CAll T (QB c) r.2.cache ∧ BestLabel c.P D r.1.sols := by
                  intro r hr
                  rw [hr]
                  split
                  · exact ⟨sizeLoop_sound G hrec e1 e0 (fun x y hx hy => Real.combine hf hmay hy hx) _ hsz v s.next hs.next hv,
                      sizeLoop_best G hrec hrb e1 e0 (fun x y hx hy => Real.combine hf hmay hy hx) _ hsz v s.next hs.next hv hq hb⟩
                  · exact ⟨sizeLoop_sound G hrec e0 e1 (fun x y hx hy => Real.combine hf hmay hx hy) _ hsz v s.next hs.next hv,
                      sizeLoop_best G hrec hrb e0 e1 (fun x y hx hy => Real.combine hf hmay hx hy) _ hsz v s.next hs.next hv hq hb⟩
                have h1 := h1 _ rfl
                generalize (if (without f D).length < (having f D).length then
                    sizeLoop c rec f ⟨having f D, b.child f true⟩ ⟨without f D, b.child f false⟩ true (e + 1) n (sizes (e + 1) n) v s.next
                  else sizeLoop c rec f ⟨without f D, b.child f false⟩ ⟨having f D, b.child f true⟩ false (e + 1) n (sizes (e + 1) n) v s.next)
                  = r at h1
                obtain ⟨⟨s1, l1, _⟩, q1, b1⟩ := h1
                exact ih hfs' r.1 r.2 s1 l1 q1 b1

omit G in
theorem start_best {D : Data} {b : Branch} {d n : Nat} {s : St} (hq : CAll T (QB c) s.cache) (hD : D = sel b T)
    (UB : Node) : BestLabel c.P D (startLoc c D b UB d n s).sols := by
  have h1 := solveLeaf_best c D UB
  unfold startLoc
  dsimp only
  cases hlow : lowerCached c s D b n (d - 1) with
  | none => exact h1
  | some p =>
    obtain ⟨l, w⟩ := p
    dsimp only
    split
    · exact h1
    · exact h1.addMin (lowerCached_best hq hD n (d - 1) hlow)

theorem generalCase_best {rec : Rec} {D : Data} {b : Branch} {d n : Nat} {UB : Node} {s : St}
    (hrec : RecS c T rec (d - 1)) (hrb : RecB c T rec (d - 1)) (hD : D = sel b T) (hd : 1 ≤ d) (hn : 1 ≤ n) (hp : n + 1 ≤ 2 ^ d)
    (hub : UB.sol ≤ c.worst) (hs : SOK c T s) (hq : CAll T (QB c) s.cache) :
    CAll T (QB c) (generalCase c rec D b UB d n s).2.cache ∧ BestLabel c.P D (generalCase c rec D b UB d n s).1 := by
  unfold generalCase
  dsimp only
  split
  · exact ⟨hq, solveLeaf_best c D UB⟩
  · have h1 := (start_sound G (d := d) (n := n) hs hD UB hub).1
    have h2 := start_best (d := d) (n := n) hq hD UB
    generalize startLoc c D b UB d n s = v0 at h1 h2
    have hf := featLoop_sound G (blb := computeLB c s D b d n) hrec hD hd hn hp (c.order D) (G.order D) v0 s hs h1
    have hg := featLoop_best G (blb := computeLB c s D b d n) hrec hrb hD hd hn hp (c.order D) (G.order D) v0 s hs h1 hq h2
    generalize featLoop c rec D b d n (computeLB c s D b d n) (c.order D) v0 s = r at hf hg
    obtain ⟨s1, l1, _⟩ := hf
    rw [updateArchive_cacheB]
    refine ⟨?_, hg.2⟩
    dsimp only
    split
    · rename_i hne
      exact store_best G hg.1 hD hne (l1.sols.real hne).2 hg.2
    · exact upd_best G hg.1 hD

theorem subTree_best {rec : Rec} {D : Data} {b : Branch} {UB : Node} {d n : Nat} {s : St}
    (hrec : 1 ≤ d → RecS c T rec (d - 1)) (hrb : 1 ≤ d → RecB c T rec (d - 1)) (hD : D = sel b T) (hp : n + 1 ≤ 2 ^ d)
    (hub : UB.sol ≤ c.worst) (hs : SOK c T s) (hq : CAll T (QB c) s.cache) :
    CAll T (QB c) (subTree c rec D b UB d n s).2.cache ∧ BestLabel c.P D (subTree c rec D b UB d n s).1 := by
  unfold subTree
  split
  · exact ⟨hq, BestLabel.empty _ _ _⟩
  · obtain ⟨b1, b2, b3⟩ := reduceBudget_fits (c := c) UB d n hp
    dsimp only
    generalize (reduceBudget c UB d n).1 = d' at *
    generalize (reduceBudget c UB d n).2 = n' at *
    have sn := hs.next
    have qn : CAll T (QB c) s.next.cache := hq
    generalize s.next = s1 at sn qn
    split
    · exact ⟨qn, solveLeaf_best c D UB⟩
    · rename_i hz
      have hhit := hit_best qn hD d' n'
      split
      · exact ⟨qn, hhit⟩
      · have hgo : ∀ s', SOK c T s' → CAll T (QB c) s'.cache →
            CAll T (QB c) (if c.useTerm = true ∧ d' ≤ 2 then solveTerminal c D b UB d' n' s'
              else generalCase c rec D b UB d' n' s').2.cache ∧
            BestLabel c.P D (if c.useTerm = true ∧ d' ≤ 2 then solveTerminal c D b UB d' n' s'
              else generalCase c rec D b UB d' n' s').1 := by
          intro s' hs' hq'
          split
          · exact solveTerminal_best G hD hq'
          · exact generalCase_best G (fun D b UB e m s he => hrec (by omega) D b UB e m s (by omega))
              (fun D b UB e m s he => hrb (by omega) D b UB e m s (by omega)) hD (by omega) (by omega) b3 hub hs' hq'
        split
        · have hsim := useSimilarity_sound G sn hD d' n'
          have hqs := useSimilarity_best G sn qn hD d' n'
          split
          · exact ⟨hqs, hit_best hqs hD d' n'⟩
          · split
            · exact ⟨hqs, BestLabel.empty _ _ _⟩
            · split
              · exact ⟨hqs, solveLeaf_best c D _⟩
              · exact hgo _ hsim hqs
        · exact hgo _ sn qn

/-- Every leaf that a call of the search returns or stores carries a best label. -/
theorem solveSub_best (fuel : Nat) : RecB c T (solveSub c fuel) fuel := by
  induction fuel with
  | zero =>
    intro D b UB d n s hd hD hp hub hs hq
    obtain rfl : d = 0 := by omega
    exact subTree_best G (fun h => by omega) (fun h => by omega) hD hp hub hs hq
  | succ m ih =>
    intro D b UB d n s hd hD hp hub hs hq
    exact subTree_best G (fun _ D' b' UB' d' n' s' h1 => solveSub_sound G m D' b' UB' d' n' s' (by omega))
      (fun _ D' b' UB' d' n' s' h1 => ih D' b' UB' d' n' s' (by omega)) hD hp hub hs hq

end
end Streed
