import Verif.Lemmas.TolReturned

/-! Every leaf of the tree returned by the search with tolerant comparisons carries a label that costs least on the instances it
receives: the counterpart of `Lemmas/LeafBest.lean` and `Lemmas/LeafBestTree.lean` for `Model/Tol.lean`. The comparison of labels
with the upper bound is tolerant, the choice between labels is not. -/

namespace Streed.Tol

section
variable {c : Cfg} {T : Data}

/-! ### Leaves -/

/-- What holds of the best label so far, `ks` being the labels seen. -/
structure LeafInv (c : Cfg) (D : Data) (r UB : Node) (seen : Nat → Prop) : Prop where
  none : r.isEmpty = true → r.sol = c.worst ∧ ∀ j, seen j → c.worst ≤ leafCost c.P D j ∨ (c.useUB = true ∧ sdom UB.sol (leafCost c.P D j))
  some : r.isEmpty = false → (∀ j, seen j → r.sol ≤ leafCost c.P D j) ∧ (c.useUB = true → ¬ sdom UB.sol r.sol)

theorem leafLoop_best {D : Data} (hk0 : ∀ k, 0 ≤ leafCost c.P D k) (ks : List Nat) (r UB : Node) (seen : Nat → Prop) (h : LeafInv c D r UB seen) :
    LeafInv c D (leafLoop c D ks r UB).1 (leafLoop c D ks r UB).2 (fun j => seen j ∨ j ∈ ks) := by
  induction ks generalizing r UB seen with
  | nil => simpa [leafLoop] using h
  | cons k ks ih =>
    have e : (fun j => seen j ∨ j ∈ k :: ks) = (fun j => (seen j ∨ j = k) ∨ j ∈ ks) := by
      funext j; simp [or_assoc]
    rw [e]
    unfold leafLoop
    dsimp only
    have hv : (Node.leaf k (leafCost c.P D k)).sol = leafCost c.P D k := rfl
    have hvn : (Node.leaf k (leafCost c.P D k)).isEmpty = false := rfl
    split
    · rename_i hc
      rw [hv] at hc
      refine ih r UB _ ⟨fun he => ⟨(h.none he).1, fun j hj => ?_⟩, fun he => ⟨fun j hj => ?_, (h.some he).2⟩⟩
      · rcases hj with hj | rfl
        · exact (h.none he).2 j hj
        · exact .inr hc
      · rcases hj with hj | rfl
        · exact (h.some he).1 j hj
        · have := (h.some he).2 hc.1; omega
    · rename_i hc
      rw [hv] at hc
      apply ih
      have hu : c.useUB = true → ¬ sdom UB.sol (leafCost c.P D k) := fun a h' => hc ⟨a, h'⟩
      have := hk0 k
      have hub : c.useUB = true → (updateUB c UB (Node.leaf k (leafCost c.P D k))).sol = leafCost c.P D k ∧ leafCost c.P D k < UB.sol ∨
          (updateUB c UB (Node.leaf k (leafCost c.P D k))).sol = UB.sol ∧ UB.sol ≤ leafCost c.P D k := fun a => by
        unfold updateUB; rw [if_pos a]; unfold Node.addMin; rw [hv]
        split
        · exact .inl ⟨rfl, ‹_›⟩
        · exact .inr ⟨rfl, by omega⟩
      unfold Node.addMin
      rw [hv]
      split
      · rename_i hlt
        refine ⟨fun he => by rw [hvn] at he; simp at he, fun _ => ⟨fun j hj => ?_, fun a => ?_⟩⟩
        · rw [hv]
          rcases hj with hj | rfl
          · cases hr : r.isEmpty with
            | true =>
              obtain ⟨h1, h2⟩ := h.none hr
              rcases h2 j hj with h3 | ⟨h3, h4⟩
              · omega
              · have := hu h3; omega
            | false => have := (h.some hr).1 j hj; omega
          · exact Int.le_refl _
        · rw [hv]
          rcases hub a with h1 | h1
          · omega
          · have := hu a; omega
      · rename_i hlt
        refine ⟨fun he => ⟨(h.none he).1, fun j hj => ?_⟩, fun he => ⟨fun j hj => ?_, fun a => ?_⟩⟩
        · obtain ⟨h1, h2⟩ := h.none he
          rcases hj with hj | rfl
          · rcases h2 j hj with h3 | ⟨h3, h4⟩
            · exact .inl h3
            · refine .inr ⟨h3, ?_⟩
              have := hu h3
              rcases hub h3 with h5 | h5 <;> omega
          · left; omega
        · rcases hj with hj | rfl
          · exact (h.some he).1 j hj
          · omega
        · have := (h.some he).2 a
          rcases hub a with h5 | h5 <;> omega

theorem solveLeaf_best (G : Base c T) {D : Data} (hD : ViewOf T D) (UB : Node) : BestLabel c.P D (solveLeaf c D UB).1 := by
  unfold solveLeaf
  split
  · exact BestLabel.empty _ _ _
  · intro _ hne k hk
    have := leafLoop_best (c := c) (D := D) (fun k => leafCost_nonneg c.P D k (fun i hi => G.nonneg i (hD.subset hi)))
      (List.range c.P.nL) (Node.empty c.worst) UB (fun _ => False)
      ⟨fun _ => ⟨rfl, fun j hj => hj.elim⟩, fun h => by simp [Node.empty, Node.isEmpty] at h⟩
    exact (this.some hne).1 k (.inr (List.mem_range.2 hk))

variable (G : Base c T)
include G

theorem simLoop_best {D : Data} {b : Branch} (hD : D = sel b T) (d n : Nat) (es : List (Data × Branch))
    (hes : ∀ p ∈ es, p.1 = sel p.2 T) (lb : Node) (C : Cache) (hC : CAll T (QB c) C) :
    CAll T (QB c) (simLoop c D b d n es lb C).2.2 := by
  have hv : ViewOf T D := by rw [hD]; exact sel_view b T
  induction es generalizing lb C with
  | nil => exact hC
  | cons p es ih =>
    obtain ⟨D', b'⟩ := p
    have hD' : D' = sel b' T := hes (D', b') (List.mem_cons_self ..)
    have hv' : ViewOf T D' := by rw [hD']; exact sel_view b' T
    have hes' := fun p hp => hes p (List.mem_cons_of_mem _ hp)
    unfold simLoop
    split
    · exact ih hes' lb C hC
    · split
      · exact ih hes' lb C hC
      · dsimp only
        split
        · rename_i h0
          have heq : sel b' T = sel b T := by rw [← hD', ← hD]; exact diff_zero' G hv' hv h0
          have hC' := callTransfer hC c.cc heq
          split
          · exact hC'
          · exact ih hes' _ _ hC'
        · exact ih hes' _ _ hC

theorem useSimilarity_best {s : St} (hs : SOK c T s) (hq : CAll T (QB c) s.cache) {D : Data} {b : Branch} (hD : D = sel b T) (d n : Nat) :
    CAll T (QB c) (useSimilarity c s D b d n).2.cache := by
  unfold useSimilarity
  split
  · exact hq
  · have h1 := simLoop_best G hD d n (Tbl.get s.arch d []) (hs.arch d) (Node.value 0) s.cache hq
    dsimp only
    split
    · exact h1
    · split
      · exact h1
      · split
        · exact upd_best G h1 hD
        · exact h1

/-! ### Depth-two nodes -/

theorem solveTerminal_best {D : Data} {b : Branch} (hD : D = sel b T) {UB : Node} {d n : Nat} {s : St}
    (hq : CAll T (QB c) s.cache) :
    CAll T (QB c) (solveTerminal c D b UB d n s).2.cache ∧ BestLabel c.P D (solveTerminal c D b UB d n s).1 := by
  have ht := terminal_sound c.P c.mls c.worst D b n
  have htc : tcOf c.P c.mls c.worst = c.tc := rfl
  rw [htc] at ht
  have hb := terminal_best c D b n
  unfold solveTerminal
  dsimp only
  rw [updateArchive_cacheB]
  generalize terminal c.tc (statsOf c.P D) b n = r at ht hb
  obtain ⟨t1, t2, t3⟩ := ht
  obtain ⟨b1, b2, b3⟩ := hb
  refine ⟨storeTerminal_best G (storeTerminal_best G (storeTerminal_best G hq hD t1 b1) hD t2 b2) hD t3 b3, ?_⟩
  exact BestLabel.ite (BestLabel.empty _ _ _) (BestLabel.ite b1 (BestLabel.ite b2 b3))

/-! ### The general case -/

theorem sizeStep_best {rec : Rec} {D : Data} {d n f ls : Nat} {L R : Side} {sw : Bool} {v : Loc} {s : St} (hvD : ViewOf T D)
    (hrec : RecS c T rec (d - 1)) (hrb : RecB c T rec (d - 1)) (hL : L.D = sel L.b T) (hR : R.D = sel R.b T)
    (hp1 : ls + 1 ≤ 2 ^ (min (d - 1) ls)) (hp2 : n - ls - 1 + 1 ≤ 2 ^ (min (d - 1) (n - ls - 1)))
    (hs : SOK c T s) (hv : LocS c D d n v) (hq : CAll T (QB c) s.cache) (hb : BestLabel c.P D v.sols) :
    CAll T (QB c) (sizeStep c rec f L R sw d n ls v s).2.2.cache ∧ BestLabel c.P D (sizeStep c rec f L R sw d n ls v s).2.1.sols := by
  have hvL : ViewOf T L.D := by rw [hL]; exact sel_view _ T
  unfold sizeStep
  dsimp only
  have hlb := computeLRLB_sound G hs (f := f) (L := L) hR (min (d - 1) ls) ls (min (d - 1) (n - ls - 1)) (n - ls - 1)
  generalize computeLRLB c s f L.D L.b (min (d - 1) ls) ls R.D R.b (min (d - 1) (n - ls - 1)) (n - ls - 1) = lbs at hlb
  split
  · exact ⟨hq, hb⟩
  · split
    · exact ⟨hq, hb⟩
    · have pL := hrec L.D L.b (subtractUB c v.UB lbs.2.2 v.sols) (min (d - 1) ls) ls s (Nat.min_le_left _ _) hL hp1
        (subtractUB_le G hv.ub (G.sound_le hvD hv.sols) hlb) hs
      have qL := hrb L.D L.b (subtractUB c v.UB lbs.2.2 v.sols) (min (d - 1) ls) ls s (Nat.min_le_left _ _) hL hp1
        (subtractUB_le G hv.ub (G.sound_le hvD hv.sols) hlb) hs hq
      generalize rec L.D L.b (subtractUB c v.UB lbs.2.2 v.sols) (min (d - 1) ls) ls s = lr at pL qL
      split
      · exact ⟨qL.1, hb⟩
      · split
        · exact ⟨qL.1, hb⟩
        · have qR := hrb R.D R.b (subtractUB c v.UB lr.1 v.sols) (min (d - 1) (n - ls - 1)) (n - ls - 1) lr.2.next
            (Nat.min_le_left _ _) hR hp2 (subtractUB_le G hv.ub (G.sound_le hvD hv.sols) (G.sound_nonneg hvL pL.sound)) pL.st.next qL.1
          generalize rec R.D R.b (subtractUB c v.UB lr.1 v.sols) (min (d - 1) (n - ls - 1)) (n - ls - 1) lr.2.next = rr at qR
          split
          · exact ⟨qR.1, hb⟩
          · split
            · exact ⟨qR.1, hb⟩
            · have hnn : BestLabel c.P D (if sw = true then Node.combine f rr.1 lr.1 c.P.bc else Node.combine f lr.1 rr.1 c.P.bc) := by
                cases sw <;> exact BestLabel.combine _ _ _ _ _ _
              generalize (if sw = true then Node.combine f rr.1 lr.1 c.P.bc else Node.combine f lr.1 rr.1 c.P.bc) = nn at hnn
              split
              · exact ⟨qR.1, hb⟩
              · exact ⟨qR.1, BestLabel.ite hnn hb⟩

theorem sizeLoop_best {rec : Rec} {D : Data} {d n f : Nat} {L R : Side} {sw : Bool} (hvD : ViewOf T D)
    (hrec : RecS c T rec (d - 1)) (hrb : RecB c T rec (d - 1)) (hL : L.D = sel L.b T) (hR : R.D = sel R.b T)
    (comb : ∀ a b, Real c.P c.mls (d - 1) L.D a → Real c.P c.mls (d - 1) R.D b →
      Real c.P c.mls d D (if sw then Node.combine f b a c.P.bc else Node.combine f a b c.P.bc)) (l : List Nat)
    (hl : ∀ ls ∈ l, ls + 1 ≤ n ∧ ls + 1 ≤ 2 ^ (min (d - 1) ls) ∧ n - ls - 1 + 1 ≤ 2 ^ (min (d - 1) (n - ls - 1)))
    (v : Loc) (s : St) (hs : SOK c T s) (hv : LocS c D d n v) (hq : CAll T (QB c) s.cache) (hb : BestLabel c.P D v.sols) :
    CAll T (QB c) (sizeLoop c rec f L R sw d n l v s).2.cache ∧ BestLabel c.P D (sizeLoop c rec f L R sw d n l v s).1.sols := by
  induction l generalizing v s with
  | nil => exact ⟨hq, hb⟩
  | cons ls l ih =>
    obtain ⟨a1, a4, a5⟩ := hl ls (List.mem_cons_self ..)
    have h1 := sizeStep_sound G hvD hrec hL hR comb a1 a4 a5 hs hv
    have h2 := sizeStep_best G (f := f) (sw := sw) hvD hrec hrb hL hR a4 a5 hs hv hq hb
    unfold sizeLoop
    generalize sizeStep c rec f L R sw d n ls v s = r at h1 h2
    obtain ⟨s1, l1, _⟩ := h1
    dsimp only
    split
    · exact h2
    · exact ih (fun x hx => hl x (List.mem_cons_of_mem _ hx)) r.2.1 r.2.2 s1 l1 h2.1 h2.2

theorem featLoop_best {rec : Rec} {D : Data} {b : Branch} {d n : Nat} {blb : Node}
    (hrec : RecS c T rec (d - 1)) (hrb : RecB c T rec (d - 1)) (hD : D = sel b T) (hd : 1 ≤ d) (hn : 1 ≤ n) (hp : n + 1 ≤ 2 ^ d)
    (fs : List Nat) (hfs : ∀ f ∈ fs, f < c.P.nF) (v : Loc) (s : St) (hs : SOK c T s) (hv : LocS c D d n v)
    (hq : CAll T (QB c) s.cache) (hb : BestLabel c.P D v.sols) :
    CAll T (QB c) (featLoop c rec D b d n blb fs v s).2.cache ∧ BestLabel c.P D (featLoop c rec D b d n blb fs v s).1.sols := by
  have hvD : ViewOf T D := by rw [hD]; exact sel_view b T
  induction fs generalizing v s with
  | nil => exact ⟨hq, hb⟩
  | cons f fs ih =>
    have hfs' : ∀ g ∈ fs, g < c.P.nF := fun g hg => hfs g (List.mem_cons_of_mem _ hg)
    have hf := hfs f (List.mem_cons_self ..)
    unfold featLoop
    split
    · exact ⟨hq, hb⟩
    · dsimp only
      split
      · exact ⟨hq, hb⟩
      · split
        · exact ⟨hq, hb⟩
        · split
          · exact ih hfs' v s.next hs.next hv hq hb
          · rename_i hskip
            simp only [Bool.or_eq_true, Bool.not_eq_true', not_or, Bool.not_eq_true, Bool.not_eq_false] at hskip
            have hmay := hskip.1.2
            split
            · exact ⟨hq, hb⟩
            · split
              · exact ih hfs' v s.next hs.next hv hq hb
              · have e0 : without f D = sel (b.child f false) T := by rw [sel_child, ← hD, side_false]
                have e1 : having f D = sel (b.child f true) T := by rw [sel_child, ← hD, side_true]
                obtain ⟨e, rfl⟩ : ∃ e, d = e + 1 := ⟨d - 1, by omega⟩
                have hsz : ∀ ls ∈ sizes (e + 1) n, ls + 1 ≤ n ∧ ls + 1 ≤ 2 ^ (min (e + 1 - 1) ls) ∧
                    n - ls - 1 + 1 ≤ 2 ^ (min (e + 1 - 1) (n - ls - 1)) := by
                  intro ls hls
                  have := sizes_ok (c := { c with useTerm := false }) hd hn hp (.inl rfl) ls hls
                  exact ⟨this.1, this.2.2.2⟩
                have h1 : ∀ r, r = (if (without f D).length < (having f D).length then
                    sizeLoop c rec f ⟨having f D, b.child f true⟩ ⟨without f D, b.child f false⟩ true (e + 1) n (sizes (e + 1) n) v s.next
                  else sizeLoop c rec f ⟨without f D, b.child f false⟩ ⟨having f D, b.child f true⟩ false (e + 1) n (sizes (e + 1) n) v s.next) →
                    (SOK c T r.2 ∧ LocS c D (e + 1) n r.1 ∧ r.1.sols.sol ≤ v.sols.sol) ∧ CAll T (QB c) r.2.cache ∧ BestLabel c.P D r.1.sols := by
                  intro r hr
                  rw [hr]
                  split
                  · exact ⟨sizeLoop_sound G hvD hrec e1 e0 (fun x y hx hy => Real.combine hf hmay hy hx) _ hsz v s.next hs.next hv,
                      sizeLoop_best G hvD hrec hrb e1 e0 (fun x y hx hy => Real.combine hf hmay hy hx) _ hsz v s.next hs.next hv hq hb⟩
                  · exact ⟨sizeLoop_sound G hvD hrec e0 e1 (fun x y hx hy => Real.combine hf hmay hx hy) _ hsz v s.next hs.next hv,
                      sizeLoop_best G hvD hrec hrb e0 e1 (fun x y hx hy => Real.combine hf hmay hx hy) _ hsz v s.next hs.next hv hq hb⟩
                have h1 := h1 _ rfl
                generalize (if (without f D).length < (having f D).length then
                    sizeLoop c rec f ⟨having f D, b.child f true⟩ ⟨without f D, b.child f false⟩ true (e + 1) n (sizes (e + 1) n) v s.next
                  else sizeLoop c rec f ⟨without f D, b.child f false⟩ ⟨having f D, b.child f true⟩ false (e + 1) n (sizes (e + 1) n) v s.next)
                  = r at h1
                obtain ⟨⟨s1, l1, _⟩, q1, b1⟩ := h1
                exact ih hfs' r.1 r.2 s1 l1 q1 b1

theorem start_best {D : Data} {b : Branch} {d n : Nat} {s : St} (hq : CAll T (QB c) s.cache) (hD : D = sel b T)
    (UB : Node) : BestLabel c.P D (startLoc c D b UB d n s).sols := by
  have h1 := solveLeaf_best G (D := D) (by rw [hD]; exact sel_view b T) UB
  unfold startLoc
  dsimp only
  cases hlow : lowerCached c s D b n (d - 1) with
  | none => exact h1
  | some p =>
    obtain ⟨l, w⟩ := p
    dsimp only
    split
    · exact h1
    · exact h1.addMin (lowerCached_best hq hD n (d - 1) hlow)

theorem generalCase_best {rec : Rec} {D : Data} {b : Branch} {d n : Nat} {UB : Node} {s : St}
    (hrec : RecS c T rec (d - 1)) (hrb : RecB c T rec (d - 1)) (hD : D = sel b T) (hd : 1 ≤ d) (hn : 1 ≤ n) (hp : n + 1 ≤ 2 ^ d)
    (hub : UB.sol ≤ c.worst) (hs : SOK c T s) (hq : CAll T (QB c) s.cache) :
    CAll T (QB c) (generalCase c rec D b UB d n s).2.cache ∧ BestLabel c.P D (generalCase c rec D b UB d n s).1 := by
  unfold generalCase
  dsimp only
  split
  · exact ⟨hq, solveLeaf_best G (by rw [hD]; exact sel_view b T) UB⟩
  · have h1 := (start_sound G (d := d) (n := n) hs hD UB hub).1
    have h2 := start_best G (d := d) (n := n) hq hD UB
    generalize startLoc c D b UB d n s = v0 at h1 h2
    have hf := featLoop_sound G (blb := computeLB c s D b d n) hrec hD hd hn hp (c.order D) (G.order D) v0 s hs h1
    have hg := featLoop_best G (blb := computeLB c s D b d n) hrec hrb hD hd hn hp (c.order D) (G.order D) v0 s hs h1 hq h2
    generalize featLoop c rec D b d n (computeLB c s D b d n) (c.order D) v0 s = r at hf hg
    obtain ⟨s1, l1, _⟩ := hf
    rw [updateArchive_cacheB]
    refine ⟨?_, hg.2⟩
    dsimp only
    split
    · rename_i hne
      exact store_best G hg.1 hD hne (l1.sols.real hne).2 hg.2
    · exact upd_best G hg.1 hD

theorem subTree_best {rec : Rec} {D : Data} {b : Branch} {UB : Node} {d n : Nat} {s : St}
    (hrec : 1 ≤ d → RecS c T rec (d - 1)) (hrb : 1 ≤ d → RecB c T rec (d - 1)) (hD : D = sel b T) (hp : n + 1 ≤ 2 ^ d)
    (hub : UB.sol ≤ c.worst) (hs : SOK c T s) (hq : CAll T (QB c) s.cache) :
    CAll T (QB c) (subTree c rec D b UB d n s).2.cache ∧ BestLabel c.P D (subTree c rec D b UB d n s).1 := by
  unfold subTree
  split
  · exact ⟨hq, BestLabel.empty _ _ _⟩
  · obtain ⟨b1, b2, b3⟩ := reduceBudget_fits (c := c) UB d n hp
    dsimp only
    generalize (reduceBudget c UB d n).1 = d' at *
    generalize (reduceBudget c UB d n).2 = n' at *
    have sn := hs.next
    have qn : CAll T (QB c) s.next.cache := hq
    generalize s.next = s1 at sn qn
    split
    · exact ⟨qn, solveLeaf_best G (by rw [hD]; exact sel_view b T) UB⟩
    · rename_i hz
      have hhit := hit_best qn hD d' n'
      split
      · exact ⟨qn, hhit⟩
      · have hgo : ∀ s', SOK c T s' → CAll T (QB c) s'.cache →
            CAll T (QB c) (if c.useTerm = true ∧ d' ≤ 2 then solveTerminal c D b UB d' n' s'
              else generalCase c rec D b UB d' n' s').2.cache ∧
            BestLabel c.P D (if c.useTerm = true ∧ d' ≤ 2 then solveTerminal c D b UB d' n' s'
              else generalCase c rec D b UB d' n' s').1 := by
          intro s' hs' hq'
          split
          · exact solveTerminal_best G hD hq'
          · exact generalCase_best G (fun D b UB e m s he => hrec (by omega) D b UB e m s (by omega))
              (fun D b UB e m s he => hrb (by omega) D b UB e m s (by omega)) hD (by omega) (by omega) b3 hub hs' hq'
        split
        · have hsim := useSimilarity_sound G sn hD d' n'
          have hqs := useSimilarity_best G sn qn hD d' n'
          split
          · exact ⟨hqs, hit_best hqs hD d' n'⟩
          · split
            · exact ⟨hqs, BestLabel.empty _ _ _⟩
            · split
              · exact ⟨hqs, solveLeaf_best G (by rw [hD]; exact sel_view b T) _⟩
              · exact hgo _ hsim hqs
        · exact hgo _ sn qn

/-- Every leaf that a call of the search returns or stores carries a best label. -/
theorem solveSub_best (fuel : Nat) : RecB c T (solveSub c fuel) fuel := by
  induction fuel with
  | zero =>
    intro D b UB d n s hd hD hp hub hs hq
    obtain rfl : d = 0 := by omega
    exact subTree_best G (fun h => by omega) (fun h => by omega) hD hp hub hs hq
  | succ m ih =>
    intro D b UB d n s hd hD hp hub hs hq
    exact subTree_best G (fun _ D' b' UB' d' n' s' h1 => solveSub_sound G m D' b' UB' d' n' s' (by omega))
      (fun _ D' b' UB' d' n' s' h1 => ih D' b' UB' d' n' s' (by omega)) hD hp hub hs hq

end

/-! ### The recursion -/

section
variable {c : Cfg} {T : Data} (G : Base c T) (hclk : ∀ i, c.clock i = true)

include G in
theorem childLookup_best {s : St} (hq : CAll T (QB c) s.cache) {D : Data} {b : Branch} (hD : D = sel b T) (d : Nat) (zs : List Nat) :
    BestLabel c.P D (childLookup c s D b d zs).1 := by
  induction zs with
  | nil => exact BestLabel.empty _ _ _
  | cons y zs ih =>
    unfold childLookup
    dsimp only
    have h := BestLabel.ite (p := y = 0) (solveLeaf_best G (by rw [hD]; exact sel_view b T) (Node.empty c.worst)) (hit_best hq hD (min (d - 1) y) y)
    generalize (if y = 0 then (solveLeaf c D (Node.empty c.worst)).1 else s.cache.retrieveOpt c.cc D b (min (d - 1) y) y) = v at h
    split
    · exact ih
    · exact h

include G in
theorem childSol_best {s : St} (hs : SOK c T s) (hq : CAll T (QB c) s.cache) {D : Data} {b : Branch} (hD : D = sel b T)
    (d n z : Nat) (hz : z + 1 ≤ 2 ^ (min (d - 1) z)) (look : Node × Option Nat) (hlook : BestLabel c.P D look.1) :
    CAll T (QB c) (childSol c D b d n z look s).2.cache ∧ BestLabel c.P D (childSol c D b d n z look s).1.1 := by
  unfold childSol
  cases look.2 with
  | some y => exact ⟨hq, hlook⟩
  | none =>
    dsimp only
    have hp := solveSub_sound G (min (d - 1) z) D b (Node.empty c.worst) (min (d - 1) z) z s (Nat.le_refl _) hD hz (Int.le_refl _) hs
    have h1 := solveSub_best G (min (d - 1) z) D b (Node.empty c.worst) (min (d - 1) z) z s (Nat.le_refl _) hD hz (Int.le_refl _) hs hq
    generalize solveSub c (min (d - 1) z) D b (Node.empty c.worst) (min (d - 1) z) z s = r at hp h1
    split
    · exact solveSub_best G (min (d - 1) z) D b (Node.empty c.worst) (min (d - 1) z) z r.2 (Nat.le_refl _) hD hz (Int.le_refl _) hp.st h1.1
    · exact h1

include G hclk in
theorem construct_best (hmay : c.useTerm = true → ∀ f, f < c.P.nF → c.P.may f = true) (fuel : Nat) (v : Node) (D : Data)
    (b : Branch) (d0 n0 : Nat) (s : St) (hfuel : d0 < fuel) (hD : D = sel b T) (hv : Real c.P c.mls d0 D v)
    (hn : v.numNodes ≤ n0) (hs : SOK c T s) (hb : BestLabel c.P D v) (hq : CAll T (QB c) s.cache) :
    (∀ t, (construct c fuel v D b d0 n0 s).1 = some t → BestLeaves c.P t D) ∧
    CAll T (QB c) (construct c fuel v D b d0 n0 s).2.cache := by
  induction fuel generalizing v D b d0 n0 s with
  | zero => omega
  | succ fuel ih =>
    have hv0 := hv
    obtain ⟨t0, hrep, hdep, hleg, hcost⟩ := hv
    unfold construct
    dsimp only
    cases t0 with
    | leaf k =>
      rw [hrep.1]
      dsimp only
      refine ⟨fun t ht => ?_, hq⟩
      unfold labelTree at ht
      rw [hrep.2] at ht
      simp only [Option.map_some, Option.some.injEq] at ht
      subst ht
      intro j hj
      have h1 : leafCost c.P D k = v.sol := hcost
      rw [h1]
      exact hb hrep.1 hv0.nonempty j hj
    | node f l r =>
      have hnum : l.nodes + r.nodes + 1 = v.numNodes := by rw [← hrep.nodes]; simp [Tree.nodes]; omega
      have hd0 : l.depth + 1 ≤ d0 ∧ r.depth + 1 ≤ d0 := by simp only [Tree.depth] at hdep; omega
      have hdl : l.depth ≤ min d0 n0 - 1 ∧ r.depth ≤ min d0 n0 - 1 := by
        have := l.depth_le_nodes
        have := r.depth_le_nodes
        omega
      have hfeat : v.feature = some f := hrep.1
      have hnl : v.nl = l.nodes := hrep.2.2.1.symm
      have hnr : v.nr = r.nodes := hrep.2.2.2.symm
      obtain ⟨hf, hm, hl0, hl1⟩ := hleg
      rw [hfeat]
      dsimp only
      generalize hd : min d0 n0 = d at hdl ⊢
      have hd1 : 1 ≤ d := by omega
      have hp : 1 < 2 ^ d := Nat.one_lt_two_pow (by omega)
      rw [if_neg (by omega)]
      generalize hsp : (if ¬(d = 1 ∨ min n0 (2 ^ d - 1) = 1 ∨ v.numNodes = 1) ∧ c.useTerm = true ∧ d ≤ 2 then
        terminalConstruct c.tc (statsOf c.P D) v f else none) = sp
      have hspec : ∀ x, sp = some (some x) → BestLeaves c.P x D := by
        intro x hx
        rw [← hsp] at hx
        split at hx
        · rw [terminalConstruct_eq] at hx
          exact terminalConstruct_best c.P c.mls c.worst D _ f x hx
        · simp at hx
      cases sp with
      | some o => exact ⟨fun t ht => hspec t (by dsimp only at ht; rw [ht]), hq⟩
      | none =>
        dsimp only
        have e0 : without f D = sel (b.child f false) T := by rw [sel_child, ← hD, side_false]
        have e1 : having f D = sel (b.child f true) T := by rw [sel_child, ← hD, side_true]
        rw [hnl, hnr]
        generalize hmx : min (2 ^ (d - 1) - 1) (min n0 (2 ^ d - 1) - 1) = mx
        generalize hmn : min n0 (2 ^ d - 1) - 1 - mx = mn
        generalize min n0 (2 ^ d - 1) = n at *
        have hzs : ∀ t : Tree, t.depth ≤ d - 1 → t.nodes + 1 ≤ 2 ^ (min (d - 1) t.nodes) := by
          intro t htd
          refine Nat.le_trans t.nodes_lt_pow (Nat.pow_le_pow_right (by decide) ?_)
          have := t.depth_le_nodes
          omega
        have lookB : ∀ (E : Data) (b' : Branch) (zs : List Nat), E = sel b' T →
            BestLabel c.P E (if (c.useBr || c.useDs) = true then childLookup c s E b' d zs else (Node.empty c.worst, none)).1 := by
          intro E b' zs hE
          split
          · exact childLookup_best G hq hE d zs
          · exact BestLabel.empty _ _ _
        have cl := childSol_spec G hclk hs hs e0 d n mn (mx + 1 - max l.nodes mn) l hl0 hdl.1 _ rfl
        have bl := childSol_best G hs hq e0 d n l.nodes (hzs l hdl.1) _ (lookB _ _ (List.range' (max l.nodes mn) (mx + 1 - max l.nodes mn)) e0)
        generalize childSol c (without f D) (b.child f false) d n l.nodes _ s = x at cl bl ⊢
        have cr := childSol_spec G hclk hs cl.st e1 d n mn (mx + 1 - max r.nodes mn) r hl1 hdl.2 _ rfl
        have br := childSol_best G cl.st bl.1 e1 d n r.nodes (hzs r hdl.2) _ (lookB _ _ (List.range' (max r.nodes mn) (mx + 1 - max r.nodes mn)) e1)
        generalize childSol c (having f D) (b.child f true) d n r.nodes _ x.2 = y at cr br ⊢
        have il := ih x.1.1 (without f D) (b.child f false) x.1.2.1 x.1.2.2 y.2
          (by have := cl.depth; omega) e0 cl.real cl.num cr.st bl.2 br.1
        obtain ⟨tl, u1, _, _, u4⟩ := construct_spec G hclk hmay fuel x.1.1 (without f D) (b.child f false) x.1.2.1 x.1.2.2 y.2
          (by have := cl.depth; omega) e0 cl.real cl.num cr.st
        generalize construct c fuel x.1.1 (without f D) (b.child f false) x.1.2.1 x.1.2.2 y.2 = tlr at u1 u4 il ⊢
        have ir := ih y.1.1 (having f D) (b.child f true) y.1.2.1 y.1.2.2 tlr.2
          (by have := cr.depth; omega) e1 cr.real cr.num u4 br.2 il.2
        generalize construct c fuel y.1.1 (having f D) (b.child f true) y.1.2.1 y.1.2.2 tlr.2 = trr at ir ⊢
        refine ⟨fun t ht => ?_, ir.2⟩
        rw [u1] at ht
        cases h2 : trr.1 with
        | none => rw [h2] at ht; simp at ht
        | some tr =>
          rw [h2] at ht
          simp only [Option.bind_some, Option.map_some, Option.some.injEq] at ht
          rw [← ht]
          exact ⟨il.1 tl u1, ir.1 tr h2⟩

end

/-! ### The whole run -/

section
variable {c : Cfg} {T : Data} (G : Base c T)
include G

theorem run_best (t : Top) {e : Nat} {r : Run} (hr : RunS c t T e r) (hb : RunB c T r) {d n : Nat} (hd : d ≤ t.maxDepth)
    (hp : n + 1 ≤ 2 ^ d) (b : Bool) (mdf : Int) :
    let x := solveSub c t.maxDepth T [] r.gUB d n r.st
    let result := Node.addMin r.result x.1
    RunB c T ⟨result, tighten c b result (Node.addMin r.gUB x.1), d, { x.2 with mdf := mdf }⟩ := by
  have h := solveSub_best G t.maxDepth T [] r.gUB d n r.st hd (sel_nil T).symm hp hr.ub hr.st hb.cache
  exact ⟨hb.label.addMin h.2, h.1⟩

theorem depthRuns_best (t : Top) (a m : Nat) (hmd : a + m ≤ t.maxDepth + 1) {e : Nat} {r : Run} (hr : RunS c t T e r)
    (hb : RunB c T r) (he : e ≤ a) : RunB c T (depthRuns c t T (List.range' a m) r) := by
  induction m generalizing a e r with
  | zero => exact hb
  | succ m ih =>
    simp only [List.range'_succ, depthRuns]
    have hpos : 1 ≤ 2 ^ a := Nat.one_le_two_pow
    have h1 : RunS c t T a (depthRun c t T r a) :=
      run_sound G t hr (d := a) (n := min t.maxNodes (2 ^ a - 1)) he (by omega) (by omega) (by omega) false a
    have h2 : RunB c T (depthRun c t T r a) :=
      run_best G t hr hb (d := a) (n := min t.maxNodes (2 ^ a - 1)) (by omega) (by omega) false a
    split
    · exact ⟨h2.label, h2.cache⟩
    · exact ih (a + 1) (by omega) h1.next ⟨h2.label, h2.cache⟩ (Nat.le_succ _)

theorem sizeRuns_best (t : Top) (a m : Nat) (hmn : a + m ≤ t.maxNodes + 1) (hfit : t.maxNodes + 1 ≤ 2 ^ t.maxDepth)
    {e : Nat} {r : Run} (hr : RunS c t T e r) (hb : RunB c T r)
    (he : e ≤ min t.maxDepth a) : RunB c T (sizeRuns c t T (List.range' a m) r) := by
  induction m generalizing a e r with
  | zero => exact hb
  | succ m ih =>
    simp only [List.range'_succ, sizeRuns]
    split
    · exact ⟨hb.label, hb.cache⟩
    · have hp : a + 1 ≤ 2 ^ (min t.maxDepth a) := by
        rcases Nat.le_total t.maxDepth a with h | h
        · rw [Nat.min_eq_left h]; omega
        · rw [Nat.min_eq_right h]; exact Nat.lt_two_pow_self
      have h1 : RunS c t T (min t.maxDepth a) (sizeRun c t T { r with st := r.st.next } a) :=
        run_sound G t hr.next (d := min t.maxDepth a) (n := a) he (by omega) (by omega) hp true (Nat.log2 (a + 1))
      have h2 : RunB c T (sizeRun c t T { r with st := r.st.next } a) :=
        run_best G t hr.next ⟨hb.label, hb.cache⟩ (d := min t.maxDepth a) (n := a) (by omega) hp true (Nat.log2 (a + 1))
      split
      · exact ⟨h2.label, h2.cache⟩
      · exact ih (a + 1) (by omega) h1.next ⟨h2.label, h2.cache⟩ (by omega)

theorem solve_bestLeaves (t : Top) (hfit : t.maxNodes + 1 ≤ 2 ^ t.maxDepth) : RunB c T (solve c t T).1 := by
  have hstart : (if (Node.empty c.worst).isEmpty = true then solveLeaf c T (Node.addMin (Node.empty c.worst) (Node.value t.ub))
      else (Node.empty c.worst, Node.empty c.worst)) = solveLeaf c T (startUB c t) := by
    rw [if_pos (by rfl)]; rfl
  unfold solve solveFrom
  dsimp only
  rw [hstart]
  have hub : (startUB c t).sol ≤ c.worst := by rw [(startUB_sol t).1]; omega
  have hleaf := solveLeaf_sound G (List.Sublist.refl T) (startUB c t) hub 0 t.maxNodes
  have h0 : RunS c t T 0 ⟨(solveLeaf c T (startUB c t)).1, (solveLeaf c T (startUB c t)).2, t.maxDepth, { St.init with mdf := 0 }⟩ :=
    ⟨hleaf.1, Nat.zero_le _, Nat.le_refl _, hleaf.2.1, ⟨(SOK.init (c := c) (T := T)).cache, (SOK.init (c := c) (T := T)).arch⟩,
      fun h7 h8 => hleaf.2.2 h8 (by rw [(startUB_sol t).1]; omega)⟩
  have b0 : RunB c T ⟨(solveLeaf c T (startUB c t)).1, (solveLeaf c T (startUB c t)).2, t.maxDepth, { St.init with mdf := 0 }⟩ :=
    ⟨solveLeaf_best G (List.Sublist.refl T) _, CAll.init⟩
  split
  · have h := sizeRuns_best G t 1 t.maxNodes (by omega) hfit h0 b0 (Nat.zero_le _)
    exact ⟨h.label, h.cache⟩
  · have h := depthRuns_best G t (min 2 (min t.maxDepth t.maxNodes))
      (min t.maxDepth t.maxNodes + 1 - min 2 (min t.maxDepth t.maxNodes)) (by omega) h0 b0 (Nat.zero_le _)
    exact ⟨h.label, h.cache⟩

/-- **The labels of the returned tree.** Every leaf carries a label that costs least on the instances it receives. -/
theorem returned_bestLeaves (t : Top) {e : Nat} {r : Run} (hr : RunS c t T e r) (hb : RunB c T r)
    (hmay : c.useTerm = true → ∀ f, f < c.P.nF → c.P.may f = true) (x : Tree) (h : returned c T r = some (some x)) :
    BestLeaves c.P x T := by
  unfold returned at h
  split at h
  · simp at h
  · rename_i hw
    dsimp only at h
    have hv : ViewOf T T := List.Sublist.refl T
    have hne : r.result.isEmpty = false := (G.ne_iff hv hr.sound).2 (by have := G.sound_le hv hr.sound; omega)
    have h1 := hr.sound.real hne
    have hlog : min r.maxDepthSearched r.result.numNodes ≤
        min r.maxDepthSearched r.result.numNodes + 1 - Nat.log2 (r.result.numNodes + 1) + Nat.log2 (r.result.numNodes + 1) := by omega
    have h2 := rootDepth_spec hr.st (h1.1.mono hr.le) _ _ hlog
    generalize hd : min (rootDepth c T r.result r.st (min r.maxDepthSearched r.result.numNodes + 1 - Nat.log2 (r.result.numNodes + 1))
      (Nat.log2 (r.result.numNodes + 1))) r.maxDepthSearched = d at h2 h
    exact (construct_best (c := { c with clock := fun _ => true }) (G.clock _) (fun _ => rfl) hmay (d + 1) r.result T [] d
      r.result.numNodes r.st (Nat.lt_succ_self _) (sel_nil T).symm h2 (Nat.le_refl _) (hr.st.clock _) hb.label hb.cache).1 x
      (by simpa using h)

end
end Streed.Tol
