import Verif.Lemmas.PwOptimal

/-! With lower bounds, a split is never tried if the single leaf costs less than three branching nodes. -/

namespace Streed.Pw

/-- The situation: the single leaf on the training data costs `L`. -/
structure Cheap (p : Task) (T : Data) (L : Int) : Prop where
  sorted : IdSorted T
  labels : ∀ i ∈ T, i.label < p.c.P.nL
  lb : p.c.useLB = true
  ub : p.c.useUB = true
  md : 0 ≤ p.c.md
  mls : 1 ≤ p.c.mls
  nil : p.weight [] = 0
  rows : p.c.mls ≤ p.weight T
  leaf : p.leaf T = some L
  pos : 0 ≤ L
  bc : 0 ≤ p.c.P.bc
  bcBig : p.c.P.bc ≤ p.c.worst
  cheap : 10001 * L < 30000 * p.c.P.bc

/-- The leaf, or nothing. -/
def Only (p : Task) (L : Int) (v : Node) : Prop := v = Node.leaf 0 L ∨ v = Node.empty p.c.worst

theorem Only.addMin {p : Task} {L : Int} {a b : Node} (ha : Only p L a) (hb : Only p L b) : Only p L (Node.addMin a b) := by
  rcases addMin_cases a b with h | h <;> rw [h] <;> assumption

/-- Solutions are stored for the whole training data only. -/
def QO (T : Data) (L : Int) (D : Data) (e : Entry) : Prop := e.opt.isEmpty = false → D = T ∧ e.opt = Node.leaf 0 L

/-- State invariant. -/
structure OOK (T : Data) (L : Int) (s : St) : Prop where
  cache : CAll T (QO T L) s.cache
  arch : ∀ d, ∀ x ∈ Tbl.get s.arch d [], x.1 = sel x.2 T

theorem OOK.next {T : Data} {L : Int} {s : St} (h : OOK T L s) : OOK T L s.next := ⟨h.cache, h.arch⟩

section
variable {p : Task} {T : Data} {L : Int}

theorem Cheap.leafNode (H : Cheap p T L) : p.leafNode T = Node.leaf 0 L := by
  unfold Task.leafNode; rw [H.leaf]

theorem Cheap.solveLeaf (H : Cheap p T L) (UB : Node) :
    (10000 * L ≤ 10001 * UB.sol → Pw.solveLeaf p T UB = (Node.leaf 0 L, Node.addMin UB (Node.leaf 0 L))) ∧
    (¬ 10000 * L ≤ 10001 * UB.sol → Pw.solveLeaf p T UB = (Node.empty p.c.worst, UB)) := by
  have hr := H.rows
  unfold Pw.solveLeaf
  rw [if_neg (by omega)]
  dsimp only
  rw [H.leafNode]
  have e : (Node.leaf 0 L).sol = L := rfl
  refine ⟨fun h => ?_, fun h => ?_⟩
  · rw [if_neg (by unfold Tol.sdom; rw [e]; omega)]
    unfold updateUB; rw [if_pos H.ub]
  · rw [if_pos ⟨H.ub, by unfold Tol.sdom; rw [e]; omega⟩]

theorem Cheap.solveLeaf_only (H : Cheap p T L) (UB : Node) (hub : UB.sol ≤ L) :
    Only p L (Pw.solveLeaf p T UB).1 ∧ (Pw.solveLeaf p T UB).2.sol ≤ L := by
  by_cases h : 10000 * L ≤ 10001 * UB.sol
  · rw [(H.solveLeaf UB).1 h]; exact ⟨.inl rfl, addMin_le_right _ _⟩
  · rw [(H.solveLeaf UB).2 h]; exact ⟨.inr rfl, hub⟩

theorem OOK.hit {s : St} (hs : OOK T L s) {D : Data} {b : Branch} (hD : D = sel b T) {d n : Nat}
    (h : (s.cache.retrieveOpt p.c.cc D b d n).isEmpty = false) : D = T ∧ s.cache.retrieveOpt p.c.cc D b d n = Node.leaf 0 L := by
  obtain ⟨e, h1, _, _, h4⟩ := hs.cache.retrieveOpt hD h
  rw [← h4]; exact h1 (by rw [h4]; exact h)

theorem OOK.lower {s : St} (hs : OOK T L s) {D : Data} {b : Branch} (hD : D = sel b T) (n m : Nat) {l : Nat} {w : Node}
    (h : lowerCached p.c s D b n m = some (l, w)) : D = T ∧ w = Node.leaf 0 L := by
  induction m with
  | zero => simp [lowerCached] at h
  | succ m ih =>
    unfold lowerCached at h
    dsimp only at h
    split at h
    · rename_i hc
      simp only [Option.some.injEq, Prod.mk.injEq] at h
      obtain ⟨rfl, rfl⟩ := h
      exact hs.hit hD (isOptCached_retrieve hc)
    · exact ih h

theorem addMax_ge (a b : Node) : a.sol ≤ (Node.addMax a b).sol ∧ b.sol ≤ (Node.addMax a b).sol := by
  unfold Node.addMax; split <;> omega

/-- Without a stored solution, a subset costs at least one branching node according to the lower bound. -/
theorem Cheap.computeLB (H : Cheap p T L) {s : St} (hs : OOK T L s) {D : Data} {b : Branch} (hD : D = sel b T) (hne : D ≠ T) (d n : Nat) :
    p.c.P.bc ≤ (Pw.computeLB p s D b d n).sol := by
  unfold Pw.computeLB
  rw [if_pos H.lb]
  unfold sparseLB
  have hlow : lowerCached p.c s D b n (d - 1) = none := by
    cases h : lowerCached p.c s D b n (d - 1) with
    | none => rfl
    | some q => exact absurd (hs.lower hD n (d - 1) h).1 hne
  rw [hlow]
  dsimp only
  have hbc := H.bc
  have hbig := H.bcBig
  have h1 : p.c.P.bc ≤ (max (0 : Int) (s.mdf - b.length) + 1) * p.c.P.bc := by
    have h : 1 * p.c.P.bc ≤ (max (0 : Int) (s.mdf - b.length) + 1) * p.c.P.bc :=
      Int.mul_le_mul_of_nonneg_right (by omega) hbc
    omega
  split
  · exact Int.le_trans hbig (addMax_ge _ _).2
  · exact Int.le_trans h1 (addMax_ge _ _).2

/-- Both sides of the split are not the whole training data. -/
theorem Cheap.sides (H : Cheap p T L) {f : Nat} (h0 : p.c.mls ≤ p.weight (without f T)) (h1 : p.c.mls ≤ p.weight (having f T)) :
    without f T ≠ T ∧ having f T ≠ T := by
  have hm := H.mls
  have hn := H.nil
  have hlen : (without f T).length + (having f T).length = T.length := by
    unfold without having
    have := List.length_eq_countP_add_countP (fun i : Inst => i.feat f) (l := T)
    rw [List.countP_eq_length_filter, List.countP_eq_length_filter] at this
    simp only [Bool.not_eq_true, Bool.decide_eq_false] at this
    omega
  have e0 : without f T ≠ [] := fun h => by rw [h] at h0; omega
  have e1 : having f T ≠ [] := fun h => by rw [h] at h1; omega
  have l0 := List.length_pos_of_ne_nil e0
  have l1 := List.length_pos_of_ne_nil e1
  constructor
  · intro h; rw [h] at hlen; omega
  · intro h; rw [h] at hlen; omega

theorem Cheap.sizeStep (H : Cheap p T L) {s : St} (hs : OOK T L s) {rec : Rec} {f : Nat} {A B : Side} (sw : Bool) (d n ls : Nat) (v : Loc)
    (hA : A.D = sel A.b T) (hB : B.D = sel B.b T) (hA' : A.D ≠ T) (hB' : B.D ≠ T) (hv : v.UB.sol ≤ L) :
    ∃ i, Pw.sizeStep p rec f A B sw d n ls v s = (false, { v with inf := i }, s) := by
  unfold Pw.sizeStep
  dsimp only
  have h1 := H.computeLB hs hA hA' (min (d - 1) ls) ls
  have h2 := H.computeLB hs hB hB' (min (d - 1) (n - ls - 1)) (n - ls - 1)
  have e : (Pw.computeLRLB p s f A.D A.b (min (d - 1) ls) ls B.D B.b (min (d - 1) (n - ls - 1)) (n - ls - 1)).1.sol =
      p.c.P.bc + ((Pw.computeLB p s A.D A.b (min (d - 1) ls) ls).sol +
        (Pw.computeLB p s B.D B.b (min (d - 1) (n - ls - 1)) (n - ls - 1)).sol) := by
    unfold Pw.computeLRLB
    rw [if_pos H.lb]
    rfl
  have hc := H.cheap
  have hbc := H.bc
  rw [if_pos ⟨H.ub, by unfold Tol.sdom; rw [e]; omega⟩]
  exact ⟨_, rfl⟩

theorem Cheap.sizeLoop (H : Cheap p T L) {s : St} (hs : OOK T L s) {rec : Rec} {f : Nat} {A B : Side} (sw : Bool) (d n : Nat)
    (hA : A.D = sel A.b T) (hB : B.D = sel B.b T) (hA' : A.D ≠ T) (hB' : B.D ≠ T) (l : List Nat) (v : Loc) (hv : v.UB.sol ≤ L) :
    ∃ i, Pw.sizeLoop p rec f A B sw d n l v s = ({ v with inf := i }, s) := by
  induction l generalizing v with
  | nil => exact ⟨v.inf, rfl⟩
  | cons ls l ih =>
    obtain ⟨i, h⟩ := H.sizeStep hs (rec := rec) (f := f) sw d n ls v hA hB hA' hB' hv
    unfold Pw.sizeLoop
    rw [h]
    exact ih { v with inf := i } hv

theorem Cheap.featLoop (H : Cheap p T L) {rec : Rec} {b : Branch} (hb : T = sel b T) (d n : Nat) (blb : Node) (fs : List Nat) (v : Loc)
    (s : St) (hs : OOK T L s) (hv : v.UB.sol ≤ L) :
    (Pw.featLoop p rec T b d n blb fs v s).1.sols = v.sols ∧ OOK T L (Pw.featLoop p rec T b d n blb fs v s).2 := by
  induction fs generalizing v s with
  | nil => exact ⟨rfl, hs⟩
  | cons f fs ih =>
    unfold Pw.featLoop
    split
    · exact ⟨rfl, hs.next⟩
    · dsimp only
      split
      · exact ⟨rfl, hs.next⟩
      · split
        · exact ⟨rfl, hs.next⟩
        · split
          · exact ih v s.next hs.next hv
          · split
            · exact ⟨rfl, hs.next⟩
            · split
              · exact ih v s.next hs.next hv
              · rename_i hw
                obtain ⟨n0, n1⟩ := H.sides (f := f) (by omega) (by omega)
                have e0 : without f T = sel (b.child f false) T := by rw [sel_child, ← hb, side_false]
                have e1 : having f T = sel (b.child f true) T := by rw [sel_child, ← hb, side_true]
                split
                · obtain ⟨i, h⟩ := H.sizeLoop hs.next (rec := rec) (f := f) (A := ⟨having f T, b.child f true⟩)
                    (B := ⟨without f T, b.child f false⟩) true d n e1 e0 n1 n0 (sizes d n) v hv
                  rw [h]; exact ih { v with inf := i } s.next hs.next hv
                · obtain ⟨i, h⟩ := H.sizeLoop hs.next (rec := rec) (f := f) (A := ⟨without f T, b.child f false⟩)
                    (B := ⟨having f T, b.child f true⟩) false d n e0 e1 n0 n1 (sizes d n) v hv
                  rw [h]; exact ih { v with inf := i } s.next hs.next hv

theorem Cheap.startLoc (H : Cheap p T L) {b : Branch} (hb : T = sel b T) {UB : Node} (hub : UB.sol ≤ L) (d n : Nat) {s : St}
    (hs : OOK T L s) : Only p L (Pw.startLoc p T b UB d n s).sols ∧ (Pw.startLoc p T b UB d n s).UB.sol ≤ L := by
  obtain ⟨h1, h2⟩ := H.solveLeaf_only UB hub
  unfold Pw.startLoc
  dsimp only
  cases h : lowerCached p.c s T b n (d - 1) with
  | none => exact ⟨h1, h2⟩
  | some q =>
    obtain ⟨l, w⟩ := q
    dsimp only
    split
    · exact ⟨h1, h2⟩
    · exact ⟨h1.addMin (.inl (hs.lower hb n (d - 1) h).2), Int.le_trans (addMin_le_left _ _) h2⟩

theorem OOK.archive {s : St} (hs : OOK T L s) {D : Data} {b : Branch} (hD : D = sel b T) (d : Nat) : OOK T L (updateArchive p.c s D b d) := by
  unfold updateArchive
  split
  · exact hs
  · refine ⟨hs.cache, ?_⟩
    intro d' x hx
    simp only at hx
    rw [Tbl.get_set] at hx
    split at hx
    · split at hx
      · rcases List.mem_append.1 hx with hx | hx
        · exact hs.arch d x hx
        · rw [List.mem_singleton.1 hx]; exact hD
      · rcases mem_replaceSimilar hx with hx | hx
        · exact hs.arch d x hx
        · rw [hx]; exact hD
    · exact hs.arch d' x hx

theorem upd_only (hT : IdSorted T) {C : Cache} (h : CAll T (QO T L) C) {D : Data} {b : Branch} (hD : D = sel b T) (v : Node)
    (d n : Nat) : CAll T (QO T L) (C.updateLB p.c.cc D b v d n) :=
  h.updateLB hT hD (fun h => by simp [Entry.fresh, Node.empty, Node.isEmpty] at h) fun _ _ _ hq => hq

theorem Cheap.generalCase (H : Cheap p T L) {rec : Rec} {b : Branch} (hb : T = sel b T) {UB : Node} (hub : UB.sol ≤ L) (d n : Nat) {s : St}
    (hs : OOK T L s) : Only p L (Pw.generalCase p rec T b UB d n s).1 ∧ OOK T L (Pw.generalCase p rec T b UB d n s).2 := by
  unfold Pw.generalCase
  dsimp only
  split
  · exact ⟨(H.solveLeaf_only UB hub).1, hs⟩
  · obtain ⟨h1, h2⟩ := H.startLoc hb hub d n hs
    generalize Pw.startLoc p T b UB d n s = v0 at h1 h2 ⊢
    obtain ⟨h3, h4⟩ := H.featLoop (rec := rec) hb d n (Pw.computeLB p s T b d n) (p.c.order T) v0 s hs h2
    generalize Pw.featLoop p rec T b d n (Pw.computeLB p s T b d n) (p.c.order T) v0 s = r at h3 h4 ⊢
    rw [← h3] at h1
    have hC : CAll T (QO T L) (if r.1.sols.isEmpty = false then r.2.cache.storeOpt p.c.cc T b r.1.sols d n
        else r.2.cache.updateLB p.c.cc T b (if Tol.same r.1.inf.sol p.c.worst then UB else Node.addMax r.1.inf UB) d n) := by
      split
      · rename_i he
        rcases h1 with h1 | h1
        · rw [h1]
          exact h4.cache.storeOpt H.sorted hb rfl (Nat.zero_le _) fun _ _ _ _ _ _ _ => ⟨rfl, rfl⟩
        · rw [h1] at he; simp [Node.empty, Node.isEmpty] at he
      · exact upd_only H.sorted h4.cache hb _ d n
    generalize (if r.1.sols.isEmpty = false then r.2.cache.storeOpt p.c.cc T b r.1.sols d n
        else r.2.cache.updateLB p.c.cc T b (if Tol.same r.1.inf.sol p.c.worst then UB else Node.addMax r.1.inf UB) d n) = C at hC ⊢
    have hok : OOK T L { r.2 with cache := C } := ⟨hC, h4.arch⟩
    exact ⟨h1, hok.archive hb d⟩

theorem Cheap.similarity (H : Cheap p T L) {s : St} (hs : OOK T L s) {b : Branch} (hb : T = sel b T) (d n : Nat) :
    OOK T L (Tol.useSimilarity p.c s T b d n).2 := by
  have loop : ∀ (es : List (Data × Branch)), (∀ x ∈ es, x.1 = sel x.2 T) → ∀ lb C, CAll T (QO T L) C →
      CAll T (QO T L) (Tol.simLoop p.c T b d n es lb C).2.2 := by
    intro es hes
    induction es with
    | nil => exact fun _ _ h => h
    | cons x es ih =>
      intro lb C hC
      obtain ⟨D', b'⟩ := x
      have hD' : D' = sel b' T := hes (D', b') (List.mem_cons_self ..)
      have hv' : ViewOf T D' := by rw [hD']; exact sel_view b' T
      have hv : ViewOf T T := List.Sublist.refl T
      have hes' := fun x hx => hes x (List.mem_cons_of_mem _ hx)
      unfold Tol.simLoop
      split
      · exact ih hes' lb C hC
      · split
        · exact ih hes' lb C hC
        · dsimp only
          split
          · rename_i h0
            have hl : ∀ i ∈ D' ++ T, i.label < p.c.P.nL := by
              intro i hi
              rcases List.mem_append.1 hi with h | h
              · exact H.labels i (hv'.subset h)
              · exact H.labels i h
            have hc := (difference_counts p.c.P.nL D' T).1
            have e1 : (computeDifference p.c.P.nL D' T).1 = [] := List.length_eq_zero_iff.1 (by omega)
            have e2 : (computeDifference p.c.P.nL D' T).2 = [] := List.length_eq_zero_iff.1 (by omega)
            have hp := difference_apply p.c.P.nL D' T (hv'.sorted H.sorted) H.sorted hl (hv'.consistent hv H.sorted)
            rw [e1, e2, List.append_nil, List.append_nil] at hp
            have heq : D' = T := sorted_ext (hv'.sorted H.sorted) H.sorted fun i => hp.symm.mem_iff
            have hC' := Tol.callTransfer hC p.c.cc (src := b') (dst := b) (by rw [← hD', ← hb]; exact heq)
            split
            · exact hC'
            · exact ih hes' _ _ hC'
          · exact ih hes' _ _ hC
  unfold Tol.useSimilarity
  split
  · exact hs
  · have h1 := loop (Tbl.get s.arch d []) (hs.arch d) (Node.value 0) s.cache hs.cache
    dsimp only
    split
    · exact ⟨h1, hs.arch⟩
    · split
      · exact ⟨h1, hs.arch⟩
      · split
        · exact ⟨upd_only H.sorted h1 hb _ _ _, hs.arch⟩
        · exact ⟨h1, hs.arch⟩

theorem Cheap.subTree (H : Cheap p T L) {rec : Rec} {b : Branch} (hb : T = sel b T) {UB : Node} (hub : UB.sol ≤ L) (d n : Nat) {s : St}
    (hs : OOK T L s) : Only p L (Pw.subTree p rec T b UB d n s).1 ∧ OOK T L (Pw.subTree p rec T b UB d n s).2 := by
  unfold Pw.subTree
  split
  · exact ⟨.inr rfl, hs.next⟩
  · dsimp only
    generalize reduceBudget p UB d n = dn
    have hs' := hs.next
    generalize s.next = s1 at hs' ⊢
    split
    · exact ⟨(H.solveLeaf_only UB hub).1, hs'⟩
    · split
      · rename_i he
        exact ⟨.inl (hs'.hit hb he).2, hs'⟩
      · split
        · have h2 := H.similarity hs' hb dn.1 dn.2
          generalize Tol.useSimilarity p.c s1 T b dn.1 dn.2 = sim at h2 ⊢
          split
          · rename_i hc
            exact ⟨.inl (h2.hit hb hc.2).2, h2⟩
          · split
            · exact ⟨.inr rfl, h2⟩
            · split
              · refine ⟨?_, h2⟩
                dsimp only
                by_cases h : 10000 * L ≤ 10001 * (Node.empty p.c.worst).sol
                · rw [(H.solveLeaf _).1 h]; exact .inl rfl
                · rw [(H.solveLeaf _).2 h]; exact .inr rfl
              · exact H.generalCase hb hub _ _ h2
        · exact H.generalCase hb hub _ _ hs'

theorem Cheap.solveSub (H : Cheap p T L) (fuel : Nat) {UB : Node} (hub : UB.sol ≤ L) (d n : Nat) {s : St} (hs : OOK T L s) :
    Only p L (Pw.solveSub p fuel T [] UB d n s).1 ∧ OOK T L (Pw.solveSub p fuel T [] UB d n s).2 := by
  cases fuel <;> exact H.subTree (sel_nil T).symm hub d n hs

/-- What holds between calls from the top. -/
structure TopOnly (p : Task) (T : Data) (L : Int) (r : Run) : Prop where
  res : Only p L r.result
  ub : r.gUB.sol ≤ L
  st : OOK T L r.st

theorem TopOnly.next {r : Run} (h : TopOnly p T L r) : TopOnly p T L { r with st := r.st.next } := ⟨h.res, h.ub, h.st.next⟩

theorem Cheap.run (H : Cheap p T L) {r : Run} (hr : TopOnly p T L r) (fuel d n : Nat) (b : Bool) (k : Nat) (mdf : Int) :
    TopOnly p T L ⟨Node.addMin r.result (Pw.solveSub p fuel T [] r.gUB d n r.st).1,
      tighten p.c b (Node.addMin r.result (Pw.solveSub p fuel T [] r.gUB d n r.st).1) (Node.addMin r.gUB (Pw.solveSub p fuel T [] r.gUB d n r.st).1), k,
      { (Pw.solveSub p fuel T [] r.gUB d n r.st).2 with mdf := mdf }⟩ ∧
    (L < p.c.worst → r.result = Node.leaf 0 L → Node.addMin r.result (Pw.solveSub p fuel T [] r.gUB d n r.st).1 = Node.leaf 0 L) := by
  obtain ⟨h1, h2⟩ := H.solveSub fuel hr.ub d n hr.st
  generalize Pw.solveSub p fuel T [] r.gUB d n r.st = x at h1 h2 ⊢
  have hres := hr.res.addMin h1
  refine ⟨⟨hres, ?_, ⟨h2.cache, h2.arch⟩⟩, fun hL he => ?_⟩
  · have hg : (Node.addMin r.gUB x.1).sol ≤ L := Int.le_trans (addMin_le_left _ _) hr.ub
    have hmd := H.md
    dsimp only
    unfold tighten
    split
    · exact hg
    · rename_i hne
      rcases hres with h | h
      · rw [h]
        dsimp only
        simp only [Node.leaf]
        split <;> omega
      · rw [h] at hne; exact absurd rfl hne
  · rw [he]
    rcases h1 with h | h <;> rw [h]
    · unfold Node.addMin; split <;> rfl
    · unfold Node.addMin
      rw [if_neg (by simp only [Node.empty, Node.leaf]; omega)]

theorem Cheap.depthRuns (H : Cheap p T L) (t : Top) (ds : List Nat) (r : Run) (hr : TopOnly p T L r) :
    TopOnly p T L (Pw.depthRuns p t T ds r) ∧ (L < p.c.worst → r.result = Node.leaf 0 L → (Pw.depthRuns p t T ds r).result = Node.leaf 0 L) := by
  induction ds generalizing r with
  | nil => exact ⟨hr, fun _ h => h⟩
  | cons d ds ih =>
    obtain ⟨h1, h2⟩ := H.run hr t.maxDepth d (min t.maxNodes (2 ^ d - 1)) false d d
    change TopOnly p T L (Pw.depthRun p t T r d) at h1
    change _ → _ → (Pw.depthRun p t T r d).result = _ at h2
    unfold Pw.depthRuns
    dsimp only
    split
    · exact ⟨h1.next, h2⟩
    · obtain ⟨h3, h4⟩ := ih _ h1.next
      exact ⟨h3, fun hL h => h4 hL (h2 hL h)⟩

theorem Cheap.sizeRuns (H : Cheap p T L) (t : Top) (ns : List Nat) (r : Run) (hr : TopOnly p T L r) :
    TopOnly p T L (Pw.sizeRuns p t T ns r) ∧ (L < p.c.worst → r.result = Node.leaf 0 L → (Pw.sizeRuns p t T ns r).result = Node.leaf 0 L) := by
  induction ns generalizing r with
  | nil => exact ⟨hr, fun _ h => h⟩
  | cons n ns ih =>
    unfold Pw.sizeRuns
    split
    · exact ⟨hr.next, fun _ h => h⟩
    · obtain ⟨h1, h2⟩ := H.run hr.next t.maxDepth (min t.maxDepth n) n true (min t.maxDepth n) (Nat.log2 (n + 1))
      change TopOnly p T L (Pw.sizeRun p t T { r with st := r.st.next } n) at h1
      change _ → _ → (Pw.sizeRun p t T { r with st := r.st.next } n).result = _ at h2
      dsimp only
      split
      · exact ⟨h1.next, h2⟩
      · obtain ⟨h3, h4⟩ := ih _ h1.next
        exact ⟨h3, fun hL h => h4 hL (h2 hL h)⟩

theorem Cheap.solve (H : Cheap p T L) (t : Top) :
    Only p L (Pw.solve p t T).1.result ∧
    (L < p.c.worst → 10000 * L ≤ 10001 * min p.c.worst t.ub → (Pw.solve p t T).1.result = Node.leaf 0 L) := by
  unfold Pw.solve
  dsimp only
  have hst : Node.addMin (Node.empty p.c.worst) (Node.value t.ub) = startUB p.c t := rfl
  rw [hst]
  have hub := (startUB_sol (c := p.c) t).1
  have h0 : TopOnly p T L ⟨(Pw.solveLeaf p T (startUB p.c t)).1, (Pw.solveLeaf p T (startUB p.c t)).2, t.maxDepth, St.init⟩ := by
    refine ⟨?_, ?_, ⟨CAll.init, fun d x hx => by simp [St.init, Tbl.get] at hx⟩⟩
    all_goals
      by_cases h : 10000 * L ≤ 10001 * (startUB p.c t).sol
    · rw [(H.solveLeaf _).1 h]; exact .inl rfl
    · rw [(H.solveLeaf _).2 h]; exact .inr rfl
    · rw [(H.solveLeaf _).1 h]; exact addMin_le_right _ _
    · rw [(H.solveLeaf _).2 h]; have := H.pos; dsimp only; omega
  have h1 : 10000 * L ≤ 10001 * min p.c.worst t.ub → (Pw.solveLeaf p T (startUB p.c t)).1 = Node.leaf 0 L := by
    intro h
    rw [← hub] at h
    rw [(H.solveLeaf _).1 h]
  split
  · obtain ⟨h3, h4⟩ := H.sizeRuns t (List.range' 1 t.maxNodes) _ h0
    exact ⟨h3.res, fun hL h => h4 hL (h1 h)⟩
  · obtain ⟨h3, h4⟩ := H.depthRuns t (List.range' (min 2 (min t.maxDepth t.maxNodes))
      (min t.maxDepth t.maxNodes + 1 - min 2 (min t.maxDepth t.maxNodes))) _ h0
    exact ⟨h3.res, fun hL h => h4 hL (h1 h)⟩

end
end Streed.Pw
