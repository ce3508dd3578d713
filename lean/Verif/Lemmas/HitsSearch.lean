import Verif.Lemmas.Hits

/-! The invariant of `Verif/Lemmas/Hits.lean` through the search. -/

namespace Streed

/-- What a call leaves. -/
structure HP (c : Cfg) (T : Data) (D : Data) (C0 : Cache) (r : Node × St) : Prop where
  hi : HI c T r.2.cache
  trios : Trios c T r.2.cache
  keep : Keep c.worst C0 r.2.cache
  child : r.1.isEmpty = false → D.length < T.length → CH c r.2.cache D r.1.numNodes r.1.sol
  root : r.1.isEmpty = false → RootOK c r.2.cache D r.1

/-- Recursive calls for proper parts of the data. -/
def RecH (c : Cfg) (T : Data) (rec : Rec) (m : Nat) : Prop :=
  ∀ D b UB d n s, d ≤ m → d ≤ 2 → d ≤ n → D = sel b T → D.length < T.length → n + 1 ≤ 2 ^ d → UB.sol ≤ c.worst →
    SOK c T s → HI c T s.cache → Trios c T s.cache → HP c T D s.cache (rec D b UB d n s)

/-- The loops. -/
structure LH (c : Cfg) (T : Data) (D : Data) (C0 : Cache) (v : Loc) (s : St) : Prop where
  hi : HI c T s.cache
  trios : Trios c T s.cache
  keep : Keep c.worst C0 s.cache
  sols : v.sols.isEmpty = false → RootOK c s.cache D v.sols

theorem small_budget {d n : Nat} (h1 : 1 ≤ d) (h2 : d ≤ 2) (h3 : d ≤ n) (h4 : n + 1 ≤ 2 ^ d) :
    (d = 1 ∧ n = 1) ∨ (d = 2 ∧ n = 2) ∨ (d = 2 ∧ n = 3) := by
  have : d = 1 ∨ d = 2 := by omega
  rcases this with rfl | rfl
  · left; omega
  · right; omega

section
variable {c : Cfg} {T : Data} (G : Base c T) (hbr : c.useBr = false) (hds : c.useDs = true)
include G

theorem one_small {D : Data} (hv : ViewOf T D) (hm : c.mls ≤ D.length) : (oneNode c.tc (statsOf c.P D)).sol < c.worst := by
  have h1 := oneNode_le_leaf c.P c.mls c.worst D 0 G.labels
  have h2 : leafCost c.P D 0 < c.worst := G.small D hv (.leaf 0) ⟨G.labels, hm⟩
  have htc : tcOf c.P c.mls c.worst = c.tc := rfl
  rw [htc] at h1
  omega

/-- Answers of the cache can be looked up again. -/
theorem ch_of_ans {C : Cache} (hi : HI c T C) (ht : Trios c T C) {D : Data} {b : Branch} (hD : D = sel b T)
    (hlt : D.length < T.length) {d n : Nat} (h1 : 1 ≤ d) (h2 : d ≤ 2) (h3 : d ≤ n) (h4 : n + 1 ≤ 2 ^ d)
    (hne : (C.ans c.worst D d n).isEmpty = false) (hs : Sound c.P c.mls c.worst d n D (C.ans c.worst D d n)) :
    CH c C D (C.ans c.worst D d n).numNodes (C.ans c.worst D d n).sol := by
  have hv : ViewOf T D := by rw [hD]; exact sel_view b T
  obtain ⟨hr, hn⟩ := hs.real hne
  have hsm := small_budget h1 h2 h3 h4
  refine ⟨by omega, ?_⟩
  by_cases h0 : (C.ans c.worst D d n).numNodes = 0
  · exact .inl ⟨h0, fun _ => leaf_best hr h0⟩
  · right
    refine ⟨by omega, ?_⟩
    have hm : c.mls ≤ D.length := by
      obtain ⟨t, _, _, hl, _⟩ := hr
      exact hl.length
    cases hu : c.useTerm with
    | true =>
      have htr := ht hu b (by rw [← hD]; exact hlt)
      rw [← hD] at htr
      have := trio_hit htr hm (one_small G hv hm) hsm hne (by omega) hn
      rw [this]
      exact ⟨hne, fun _ => ⟨rfl, Int.le_refl _⟩⟩
    | false =>
      have := hi.fill D d n h3 hne (by omega)
      have e : min d (C.ans c.worst D d n).numNodes = min 2 (C.ans c.worst D d n).numNodes := by omega
      rw [e] at this
      exact ⟨this, fun h => by simp at h⟩

include hbr hds in
/-- The depth-two solver. -/
theorem solveTerminal_h {D : Data} {b : Branch} (hD : D = sel b T) {UB : Node} {d n : Nat} {s : St} (h1 : 1 ≤ d) (h2 : d ≤ 2)
    (h3 : d ≤ n) (h4 : n + 1 ≤ 2 ^ d) (hmiss : (s.cache.ans c.worst D d n).isEmpty = true) (hu : c.useTerm = true)
    (hi : HI c T s.cache) (ht : Trios c T s.cache) : HP c T D s.cache (solveTerminal c D b UB d n s) := by
  have hv : ViewOf T D := by rw [hD]; exact sel_view b T
  have hsm := small_budget h1 h2 h3 h4
  have hts := terminal_sound c.P c.mls c.worst D b n
  have htc : tcOf c.P c.mls c.worst = c.tc := rfl
  rw [htc] at hts
  have hshape : c.mls ≤ D.length → ∀ b', (terminal c.tc (statsOf c.P D) b' 3).one = oneNode c.tc (statsOf c.P D) ∧
      (terminal c.tc (statsOf c.P D) b' 3).two.sol < c.worst ∧ (terminal c.tc (statsOf c.P D) b' 3).three.sol < c.worst := by
    intro hm b'
    have := terminal_shape c.tc (statsOf c.P D) b' (by simp only [statsOf, Cfg.tc]; omega) (one_small G hv hm)
    exact ⟨this.1, this.2.1, this.2.2.1⟩
  have hall : D.length < c.mls → terminal c.tc (statsOf c.P D) b n = ⟨Node.empty c.worst, Node.empty c.worst, Node.empty c.worst⟩ := by
    intro hm
    unfold terminal
    rw [if_pos (by simp only [statsOf, Cfg.tc]; omega)]
    rfl
  have hn1 : n = 1 → c.mls ≤ D.length → terminal c.tc (statsOf c.P D) b n =
      ⟨oneNode c.tc (statsOf c.P D), Node.empty c.worst, Node.empty c.worst⟩ := by
    intro hn hm
    unfold terminal
    rw [if_neg (by simp only [statsOf, Cfg.tc]; omega), hn]
    rfl
  have hn3 : n ≠ 1 → terminal c.tc (statsOf c.P D) b n = terminal c.tc (statsOf c.P D) b 3 := terminal_three _ _ _ _
  unfold solveTerminal
  dsimp only
  generalize hr : terminal c.tc (statsOf c.P D) b n = r at hts hall hn1 hn3
  obtain ⟨t1, t2, t3⟩ := hts
  have a1 := storeTerminal_ans hbr hds hi.one D b UB r.one 1 1
  have i1 := storeTerminal_hi hds hi D b UB r.one 1 1 (by decide)
  generalize storeTerminal c D b UB r.one 1 1 s.cache = C1 at a1 i1
  obtain ⟨o1, k1, u1, v1⟩ := a1
  have a2 := storeTerminal_ans hbr hds o1 D b UB r.two 2 2
  have i2 := storeTerminal_hi hds i1 D b UB r.two 2 2 (by decide)
  generalize storeTerminal c D b UB r.two 2 2 C1 = C2 at a2 i2
  obtain ⟨o2, k2, u2, v2⟩ := a2
  have a3 := storeTerminal_ans hbr hds o2 D b UB r.three 2 3
  have i3 := storeTerminal_hi hds i2 D b UB r.three 2 3 (by decide)
  generalize storeTerminal c D b UB r.three 2 3 C2 = C3 at a3 i3
  obtain ⟨o3, k3, u3, v3⟩ := a3
  have hkeep : Keep c.worst s.cache C3 := (k1.trans k2).trans k3
  have n23 : C2.ans c.worst D 2 3 = s.cache.ans c.worst D 2 3 := by
    rw [u2 D 2 3 (by decide) (.inr (.inl (by decide))), u1 D 2 3 (by decide) (.inr (.inl (by decide)))]
  have n22 : C1.ans c.worst D 2 2 = s.cache.ans c.worst D 2 2 := u1 D 2 2 (by decide) (.inr (.inl (by decide)))
  have ne1 : c.mls ≤ D.length → (oneNode c.tc (statsOf c.P D)).isEmpty = false := fun hm => by
    have h := hshape hm b
    have hs1 := (terminal_sound c.P c.mls c.worst D b 3).1
    rw [htc, h.1] at hs1
    exact (G.ne_iff hv hs1).2 (one_small G hv hm)
  have ne23 : c.mls ≤ D.length → ∀ b', (terminal c.tc (statsOf c.P D) b' 3).two.isEmpty = false ∧
      (terminal c.tc (statsOf c.P D) b' 3).three.isEmpty = false := fun hm b' => by
    have h := hshape hm b'
    have hs1 := terminal_sound c.P c.mls c.worst D b' 3
    rw [htc] at hs1
    exact ⟨(G.ne_iff hv hs1.2.1).2 h.2.1, (G.ne_iff hv hs1.2.2).2 h.2.2⟩
  have hmnum : ∀ {d n : Nat} {v : Node}, Sound c.P c.mls c.worst d n D v → v.isEmpty = false → v.numNodes ≤ n :=
    fun h he => (h.real he).2
  -- the value of the call
  generalize hvv : (if n = 1 then r.one else if n = 2 then r.two else r.three) = v
  -- what holds for a dataset with the three answers
  have main : Trio c s.cache D → Trio c C3 D ∧ (v.isEmpty = false → C3.ans c.worst D d n = v) := by
    intro htr
    rcases Nat.lt_or_ge D.length c.mls with hm | hm
    · have hr0 := hall hm
      have e1 : r.one.isEmpty = true := by rw [hr0]; rfl
      have e2 : r.two.isEmpty = true := by rw [hr0]; rfl
      have e3 : r.three.isEmpty = true := by rw [hr0]; rfl
      have same : ∀ d' n', d' ≤ n' → C3.ans c.worst D d' n' = s.cache.ans c.worst D d' n' := by
        intro d' n' hdn
        rw [u3 D d' n' hdn (.inr (.inr (.inr e3))), u2 D d' n' hdn (.inr (.inr (.inr e2))), u1 D d' n' hdn (.inr (.inr (.inr e1)))]
      refine ⟨?_, fun h => ?_⟩
      · unfold Trio at htr ⊢
        rw [same 1 1 (by decide), same 2 2 (by decide), same 2 3 (by decide)]
        exact htr
      · rw [← hvv] at h
        split at h
        · rw [e1] at h; simp at h
        · split at h
          · rw [e2] at h; simp at h
          · rw [e3] at h; simp at h
    · have hne1 := ne1 hm
      by_cases hn : n = 1
      · have hd : d = 1 := by omega
        have hr1 := hn1 hn hm
        have e1 : r.one = oneNode c.tc (statsOf c.P D) := by rw [hr1]
        have e2 : r.two.isEmpty = true := by rw [hr1]; rfl
        have e3 : r.three.isEmpty = true := by rw [hr1]; rfl
        rw [hn, hd] at hmiss
        have g11 : C3.ans c.worst D 1 1 = oneNode c.tc (statsOf c.P D) := by
          rw [u3 D 1 1 (by decide) (.inr (.inr (.inr e3))), u2 D 1 1 (by decide) (.inr (.inr (.inr e2)))]
          rw [v1 hmiss (by decide) (by rw [e1]; exact hne1) (hmnum t1 (by rw [e1]; exact hne1)), e1]
        have hno : ¬ ((s.cache.ans c.worst D 2 2).isEmpty = false ∨ (s.cache.ans c.worst D 2 3).isEmpty = false) := by
          intro h
          obtain ⟨b', x1, _, _⟩ := htr.2 h
          rw [x1, (hshape hm b').1, hne1] at hmiss
          simp at hmiss
        have g22 : C3.ans c.worst D 2 2 = s.cache.ans c.worst D 2 2 := by
          rw [u3 D 2 2 (by decide) (.inr (.inr (.inr e3))), u2 D 2 2 (by decide) (.inr (.inr (.inr e2))), n22]
        have g23 : C3.ans c.worst D 2 3 = s.cache.ans c.worst D 2 3 := by
          rw [u3 D 2 3 (by decide) (.inr (.inr (.inr e3))), n23]
        refine ⟨⟨fun _ => g11, fun h => ?_⟩, fun _ => ?_⟩
        · rw [g22, g23] at h
          exact absurd h hno
        · rw [← hvv, if_pos hn, hn, hd, g11, e1]
      · have hd : d = 2 := by omega
        have hr3 := hn3 hn
        have hn23 : n = 2 ∨ n = 3 := by omega
        have e1 : r.one = oneNode c.tc (statsOf c.P D) := by rw [hr3]; exact (hshape hm b).1
        have e2 : r.two.isEmpty = false := by rw [hr3]; exact (ne23 hm b).1
        have e3 : r.three.isEmpty = false := by rw [hr3]; exact (ne23 hm b).2
        have hno : ¬ ((s.cache.ans c.worst D 2 2).isEmpty = false ∨ (s.cache.ans c.worst D 2 3).isEmpty = false) := by
          intro h
          obtain ⟨b', _, x2, x3⟩ := htr.2 h
          rw [hd] at hmiss
          rcases hn23 with e | e
          · rw [e, x2, (ne23 hm b').1] at hmiss; simp at hmiss
          · rw [e, x3, (ne23 hm b').2] at hmiss; simp at hmiss
        simp only [not_or, Bool.not_eq_false] at hno
        have g11 : C1.ans c.worst D 1 1 = oneNode c.tc (statsOf c.P D) := by
          cases he : (s.cache.ans c.worst D 1 1).isEmpty with
          | true => rw [v1 he (by decide) (by rw [e1]; exact hne1) (hmnum t1 (by rw [e1]; exact hne1)), e1]
          | false => rw [k1 D 1 1 (by decide) he]; exact htr.1 he
        have g22 : C2.ans c.worst D 2 2 = r.two := v2 (by rw [n22]; exact hno.1) (by decide) e2 (hmnum t2 e2)
        have g23 : C3.ans c.worst D 2 3 = r.three := v3 (by rw [n23]; exact hno.2) (by decide) e3 (hmnum t3 e3)
        have f11 : C3.ans c.worst D 1 1 = oneNode c.tc (statsOf c.P D) := by
          rw [(k2.trans k3) D 1 1 (by decide) (by rw [g11]; exact hne1), g11]
        have f22 : C3.ans c.worst D 2 2 = r.two := by
          rw [k3 D 2 2 (by decide) (by rw [g22]; exact e2), g22]
        refine ⟨⟨fun _ => f11, fun _ => ⟨b, ?_, ?_, ?_⟩⟩, fun _ => ?_⟩
        · rw [f11, ← hr3, e1]
        · rw [f22, hr3]
        · rw [g23, hr3]
        · rw [← hvv, if_neg hn, hd]
          rcases hn23 with e | e
          · rw [e, if_pos rfl]; exact f22
          · rw [e, if_neg (by decide)]; exact g23
  have hsv : Sound c.P c.mls c.worst d n D v := by
    rw [← hvv]
    split
    · rename_i h; rw [h]; exact t1.mono h1 (Nat.le_refl _)
    · rename_i h
      have h2 : 2 ≤ d := by omega
      split
      · rename_i h3; rw [h3]; exact t2.mono h2 (Nat.le_refl _)
      · exact t3.mono h2 (by omega)
  have htr3 : Trios c T C3 := by
    intro _ b' hb'
    have h0 := ht hu b' hb'
    by_cases hk : dataKey (sel b' T) = dataKey D
    · have := dataKey_inj G.sorted (sel_view b' T) hv hk
      rw [this] at h0 ⊢
      exact (main h0).1
    · have same : ∀ d' n', d' ≤ n' → C3.ans c.worst (sel b' T) d' n' = s.cache.ans c.worst (sel b' T) d' n' := by
        intro d' n' hdn
        rw [u3 _ d' n' hdn (.inl hk), u2 _ d' n' hdn (.inl hk), u1 _ d' n' hdn (.inl hk)]
      unfold Trio at h0 ⊢
      rw [same 1 1 (by decide), same 2 2 (by decide), same 2 3 (by decide)]
      exact h0
  have hcache : ∀ (x : Node), HP c T D s.cache (x, { s with cache := C3 }) →
      HP c T D s.cache (x, updateArchive c { s with cache := C3 } D b d) := by
    intro x h
    have e := updateArchive_same (c := c) { s with cache := C3 } D b d
    exact ⟨by rw [e]; exact h.hi, by rw [e]; exact h.trios, by rw [e]; exact h.keep, by rw [e]; exact h.child, by rw [e]; exact h.root⟩
  apply hcache
  refine ⟨i3, htr3, hkeep, ?_, ?_⟩
  · dsimp only
    split
    · intro h; simp [Node.empty, Node.isEmpty] at h
    · intro hne hlt
      have htr := ht hu b (by rw [← hD]; exact hlt)
      rw [← hD] at htr
      have hans := (main htr).2 hne
      have := ch_of_ans G i3 htr3 hD hlt h1 h2 h3 h4 (by rw [hans]; exact hne) (by rw [hans]; exact hsv)
      rw [hans] at this
      exact this
  · dsimp only
    split
    · intro h; simp [Node.empty, Node.isEmpty] at h
    · intro hne
      have hnum := hmnum hsv hne
      by_cases hn : n = 3
      · right; left
        rw [hn] at hvv
        simp only [show ¬ (3 : Nat) = 1 by decide, show ¬ (3 : Nat) = 2 by decide, if_false] at hvv
        have hd : d = 2 := by omega
        rw [hn, hd] at hmiss
        rw [← hvv] at hne ⊢
        exact v3 (by rw [n23]; exact hmiss) (by decide) hne (hmnum t3 hne)
      · left; omega

theorem sizeStep_h {rec : Rec} {D : Data} {d n f ls : Nat} {L R : Side} {sw : Bool} {v : Loc} {s : St} {C0 : Cache}
    (hrec : RecS c T rec (d - 1)) (hrecH : RecH c T rec (d - 1)) (hd : d ≤ 3) (hL : L.D = sel L.b T) (hR : R.D = sel R.b T)
    (hlL : L.D.length < T.length) (hlR : R.D.length < T.length)
    (hside : (sw = false ∧ L.D = without f D ∧ R.D = having f D) ∨ (sw = true ∧ L.D = having f D ∧ R.D = without f D))
    (hp1 : ls + 1 ≤ 2 ^ (min (d - 1) ls)) (hp2 : n - ls - 1 + 1 ≤ 2 ^ (min (d - 1) (n - ls - 1)))
    (hs : SOK c T s) (hub : v.UB.sol ≤ c.worst) (hv : LH c T D C0 v s) :
    LH c T D C0 (sizeStep c rec f L R sw d n ls v s).2.1 (sizeStep c rec f L R sw d n ls v s).2.2 := by
  have hvL : ViewOf T L.D := by rw [hL]; exact sel_view _ T
  have infOK : ∀ {s'} (x : Node), LH c T D C0 v s' → LH c T D C0 { v with inf := Node.addMin v.inf x } s' :=
    fun x h => ⟨h.hi, h.trios, h.keep, h.sols⟩
  unfold sizeStep
  dsimp only
  have hlb := computeLRLB_sound G hs (f := f) (L := L) hR (min (d - 1) ls) ls (min (d - 1) (n - ls - 1)) (n - ls - 1)
  generalize computeLRLB c s f L.D L.b (min (d - 1) ls) ls R.D R.b (min (d - 1) (n - ls - 1)) (n - ls - 1) = lbs at hlb
  split
  · exact infOK _ hv
  · split
    · exact hv
    · have pL := hrec L.D L.b (subtractUB c v.UB lbs.2.2 v.sols) (min (d - 1) ls) ls s (Nat.min_le_left _ _) hL hp1
        (subtractUB_le G hub hlb) hs
      have qL := hrecH L.D L.b (subtractUB c v.UB lbs.2.2 v.sols) (min (d - 1) ls) ls s (Nat.min_le_left _ _) (by omega)
        (Nat.min_le_right _ _) hL hlL hp1 (subtractUB_le G hub hlb) hs hv.hi hv.trios
      generalize rec L.D L.b (subtractUB c v.UB lbs.2.2 v.sols) (min (d - 1) ls) ls s = lr at pL qL
      have v1 : LH c T D C0 v lr.2.next := ⟨qL.hi, qL.trios, hv.keep.trans qL.keep, fun h => (hv.sols h).keep h qL.keep⟩
      split
      · exact v1
      · split
        · exact infOK _ v1
        · rename_i hne
          have hne : lr.1.isEmpty = false := by simpa using hne
          have pR := hrec R.D R.b (subtractUB c v.UB lr.1 v.sols) (min (d - 1) (n - ls - 1)) (n - ls - 1) lr.2.next
            (Nat.min_le_left _ _) hR hp2 (subtractUB_le G hub (G.sound_nonneg hvL pL.sound)) pL.st.next
          have qR := hrecH R.D R.b (subtractUB c v.UB lr.1 v.sols) (min (d - 1) (n - ls - 1)) (n - ls - 1) lr.2.next
            (Nat.min_le_left _ _) (by omega) (Nat.min_le_right _ _) hR hlR hp2
            (subtractUB_le G hub (G.sound_nonneg hvL pL.sound)) pL.st.next v1.hi v1.trios
          generalize rec R.D R.b (subtractUB c v.UB lr.1 v.sols) (min (d - 1) (n - ls - 1)) (n - ls - 1) lr.2.next = rr at pR qR
          have v2 : LH c T D C0 v rr.2.next := ⟨qR.hi, qR.trios, v1.keep.trans qR.keep, fun h => (v1.sols h).keep h qR.keep⟩
          split
          · exact v2
          · split
            · exact infOK _ v2
            · rename_i hne'
              have hne' : rr.1.isEmpty = false := by simpa using hne'
              have cL : CH c rr.2.cache L.D lr.1.numNodes lr.1.sol := (qL.child hne hlL).keep qR.keep
              have cR : CH c rr.2.cache R.D rr.1.numNodes rr.1.sol := qR.child hne' hlR
              have hq : RootOK c rr.2.cache D (if sw = true then Node.combine f rr.1 lr.1 c.P.bc else Node.combine f lr.1 rr.1 c.P.bc) := by
                right; right
                rcases hside with ⟨rfl, e1, e2⟩ | ⟨rfl, e1, e2⟩
                · rw [e1] at cL; rw [e2] at cR
                  exact ⟨f, lr.1.sol, rr.1.sol, rfl, cL, cR, rfl⟩
                · rw [e1] at cL; rw [e2] at cR
                  exact ⟨f, rr.1.sol, lr.1.sol, rfl, cR, cL, rfl⟩
              generalize (if sw = true then Node.combine f rr.1 lr.1 c.P.bc else Node.combine f lr.1 rr.1 c.P.bc) = nn at hq
              split
              · exact infOK _ v2
              · refine ⟨v2.hi, v2.trios, v2.keep, ?_⟩
                dsimp only
                split
                · exact fun _ => hq
                · exact v2.sols

theorem sizeLoop_h {rec : Rec} {D : Data} {d n f : Nat} {L R : Side} {sw : Bool} {C0 : Cache}
    (hrec : RecS c T rec (d - 1)) (hrecH : RecH c T rec (d - 1)) (hd : d ≤ 3) (hL : L.D = sel L.b T) (hR : R.D = sel R.b T)
    (hlL : L.D.length < T.length) (hlR : R.D.length < T.length)
    (hside : (sw = false ∧ L.D = without f D ∧ R.D = having f D) ∨ (sw = true ∧ L.D = having f D ∧ R.D = without f D))
    (comb : ∀ a b, Real c.P c.mls (d - 1) L.D a → Real c.P c.mls (d - 1) R.D b →
      Real c.P c.mls d D (if sw then Node.combine f b a c.P.bc else Node.combine f a b c.P.bc)) (l : List Nat)
    (hl : ∀ ls ∈ l, ls + 1 ≤ n ∧ ls + 1 ≤ 2 ^ (min (d - 1) ls) ∧ n - ls - 1 + 1 ≤ 2 ^ (min (d - 1) (n - ls - 1)))
    (v : Loc) (s : St) (hs : SOK c T s) (hv : LocS c D d n v) (hh : LH c T D C0 v s) :
    LH c T D C0 (sizeLoop c rec f L R sw d n l v s).1 (sizeLoop c rec f L R sw d n l v s).2 := by
  induction l generalizing v s with
  | nil => exact hh
  | cons ls l ih =>
    obtain ⟨a1, a4, a5⟩ := hl ls (List.mem_cons_self ..)
    have h1 := sizeStep_sound G hrec hL hR comb a1 a4 a5 hs hv
    have h2 := sizeStep_h G hrec hrecH hd hL hR hlL hlR hside a4 a5 hs hv.ub hh
    unfold sizeLoop
    generalize sizeStep c rec f L R sw d n ls v s = r at h1 h2
    obtain ⟨s1, l1, _⟩ := h1
    dsimp only
    split
    · exact h2
    · exact ih (fun x hx => hl x (List.mem_cons_of_mem _ hx)) r.2.1 r.2.2 s1 l1 h2

theorem featLoop_h {rec : Rec} {D : Data} {b : Branch} {d n : Nat} {blb : Node} {C0 : Cache} (hmls : 1 ≤ c.mls)
    (hrec : RecS c T rec (d - 1)) (hrecH : RecH c T rec (d - 1)) (hD : D = sel b T) (hd : 1 ≤ d) (hd3 : d ≤ 3) (hn : 1 ≤ n)
    (hp : n + 1 ≤ 2 ^ d)
    (fs : List Nat) (hfs : ∀ f ∈ fs, f < c.P.nF) (v : Loc) (s : St) (hs : SOK c T s) (hv : LocS c D d n v) (hh : LH c T D C0 v s) :
    LH c T D C0 (featLoop c rec D b d n blb fs v s).1 (featLoop c rec D b d n blb fs v s).2 := by
  have hv1 : ViewOf T D := by rw [hD]; exact sel_view b T
  induction fs generalizing v s with
  | nil => exact hh
  | cons f fs ih =>
    have hfs' : ∀ g ∈ fs, g < c.P.nF := fun g hg => hfs g (List.mem_cons_of_mem _ hg)
    have hf := hfs f (List.mem_cons_self ..)
    have hhn : LH c T D C0 v s.next := ⟨hh.hi, hh.trios, hh.keep, hh.sols⟩
    unfold featLoop
    split
    · exact hhn
    · dsimp only
      split
      · exact hhn
      · split
        · exact hhn
        · split
          · exact ih hfs' v s.next hs.next hv hhn
          · rename_i hskip
            simp only [Bool.or_eq_true, Bool.not_eq_true', not_or, Bool.not_eq_true, Bool.not_eq_false] at hskip
            have hmay := hskip.1.2
            split
            · exact hhn
            · split
              · exact ih hfs' v s.next hs.next hv hhn
              · rename_i hleaf
                have e0 : without f D = sel (b.child f false) T := by rw [sel_child, ← hD, side_false]
                have e1 : having f D = sel (b.child f true) T := by rw [sel_child, ← hD, side_true]
                have hsum := length_split f D
                have hlen := hv1.length_le
                have l0 : (without f D).length < T.length := by omega
                have l1 : (having f D).length < T.length := by omega
                obtain ⟨e, rfl⟩ : ∃ e, d = e + 1 := ⟨d - 1, by omega⟩
                have hsz : ∀ ls ∈ sizes (e + 1) n, ls + 1 ≤ n ∧ ls + 1 ≤ 2 ^ (min (e + 1 - 1) ls) ∧
                    n - ls - 1 + 1 ≤ 2 ^ (min (e + 1 - 1) (n - ls - 1)) := by
                  intro ls hls
                  have := sizes_ok (c := { c with useTerm := false }) hd hn hp (.inl rfl) ls hls
                  exact ⟨this.1, this.2.2.2⟩
                have h1 : ∀ r, r = (if (without f D).length < (having f D).length then
                    sizeLoop c rec f ⟨having f D, b.child f true⟩ ⟨without f D, b.child f false⟩ true (e + 1) n (sizes (e + 1) n) v s.next
                  else sizeLoop c rec f ⟨without f D, b.child f false⟩ ⟨having f D, b.child f true⟩ false (e + 1) n (sizes (e + 1) n) v s.next) →
                    SOK c T r.2 ∧ LocS c D (e + 1) n r.1 ∧ LH c T D C0 r.1 r.2 := by
                  intro r hr
                  rw [hr]
                  split
                  · have q := sizeLoop_sound G (f := f) (sw := true) (L := ⟨having f D, b.child f true⟩) (R := ⟨without f D, b.child f false⟩) hrec e1 e0 (fun x y hx hy => Real.combine hf hmay hy hx) _ hsz v s.next hs.next hv
                    exact ⟨q.1, q.2.1, sizeLoop_h G (f := f) (sw := true) (L := ⟨having f D, b.child f true⟩) (R := ⟨without f D, b.child f false⟩) hrec hrecH hd3 e1 e0 l1 l0 (.inr ⟨rfl, rfl, rfl⟩)
                      (fun x y hx hy => Real.combine hf hmay hy hx) _ hsz v s.next hs.next hv hhn⟩
                  · have q := sizeLoop_sound G (f := f) (sw := false) (L := ⟨without f D, b.child f false⟩) (R := ⟨having f D, b.child f true⟩) hrec e0 e1 (fun x y hx hy => Real.combine hf hmay hx hy) _ hsz v s.next hs.next hv
                    exact ⟨q.1, q.2.1, sizeLoop_h G (f := f) (sw := false) (L := ⟨without f D, b.child f false⟩) (R := ⟨having f D, b.child f true⟩) hrec hrecH hd3 e0 e1 l0 l1 (.inl ⟨rfl, rfl, rfl⟩)
                      (fun x y hx hy => Real.combine hf hmay hx hy) _ hsz v s.next hs.next hv hhn⟩
                have h1 := h1 _ rfl
                generalize (if (without f D).length < (having f D).length then
                    sizeLoop c rec f ⟨having f D, b.child f true⟩ ⟨without f D, b.child f false⟩ true (e + 1) n (sizes (e + 1) n) v s.next
                  else sizeLoop c rec f ⟨without f D, b.child f false⟩ ⟨having f D, b.child f true⟩ false (e + 1) n (sizes (e + 1) n) v s.next)
                  = r at h1
                obtain ⟨s1, l1, x1⟩ := h1
                exact ih hfs' r.1 r.2 s1 l1 x1

omit G in
theorem lowerCached_num {s : St} (hs : SOK c T s) {D : Data} {b : Branch} (hD : D = sel b T) (n m : Nat) (hm : m ≤ 2)
    {l : Nat} {w : Node} (h : lowerCached c s D b n m = some (l, w)) (hne : w.isEmpty = false) : w.numNodes ≤ 2 := by
  induction m with
  | zero => simp [lowerCached] at h
  | succ m ih =>
    unfold lowerCached at h
    dsimp only at h
    split at h
    · simp only [Option.some.injEq, Prod.mk.injEq] at h
      obtain ⟨rfl, rfl⟩ := h
      have := ((hs.hit (c := c) hD (m + 1) (min n (2 ^ m))).real hne).2
      have h2 : 2 ^ m ≤ 2 ^ 1 := Nat.pow_le_pow_right (by decide) (by omega)
      omega
    · exact ih (by omega) h

theorem leaf_num {D : Data} (hD : ViewOf T D) {UB : Node} (hub : UB.sol ≤ c.worst) (h : (solveLeaf c D UB).1.isEmpty = false) :
    (solveLeaf c D UB).1.numNodes = 0 ∧ Real c.P c.mls 0 D (solveLeaf c D UB).1 := by
  have := ((solveLeaf_sound G hD UB hub 0 0).1.real h)
  exact ⟨by omega, this.1⟩

/-- The result of a leaf. -/
theorem leaf_h {D : Data} (hD : ViewOf T D) {UB : Node} (hub : UB.sol ≤ c.worst) {s : St} {C0 : Cache} (hi : HI c T s.cache)
    (ht : Trios c T s.cache) (hk : Keep c.worst C0 s.cache) : HP c T D C0 ((solveLeaf c D UB).1, s) := by
  refine ⟨hi, ht, hk, fun h _ => ?_, fun h => ?_⟩
  · obtain ⟨h0, hr⟩ := leaf_num G hD hub h
    exact ⟨by dsimp only; omega, .inl ⟨h0, fun _ => leaf_best hr h0⟩⟩
  · left
    have := (leaf_num G hD hub h).1
    dsimp only; omega

theorem start_h {D : Data} {b : Branch} {d n : Nat} {s : St} (hs : SOK c T s) (hD : D = sel b T) (hd : d ≤ 3)
    (UB : Node) (hub : UB.sol ≤ c.worst) (h : (startLoc c D b UB d n s).sols.isEmpty = false) :
    (startLoc c D b UB d n s).sols.numNodes ≤ 2 := by
  have hv1 : ViewOf T D := by rw [hD]; exact sel_view b T
  have hl := fun h => (leaf_num G hv1 hub h).1
  unfold startLoc at h ⊢
  generalize solveLeaf c D UB = lf at hl h
  dsimp only at h ⊢
  cases hlow : lowerCached c s D b n (d - 1) with
  | none => rw [hlow] at h; have := hl h; dsimp only; omega
  | some p =>
    obtain ⟨l, w⟩ := p
    rw [hlow] at h
    dsimp only at h ⊢
    split at h
    · rename_i hc
      rw [if_pos hc]
      have := hl h; dsimp only; omega
    · rename_i hc
      rw [if_neg hc]
      dsimp only at h ⊢
      unfold Node.addMin at h ⊢
      split at h
      · rename_i hlt
        rw [if_pos hlt]
        exact lowerCached_num hs hD n (d - 1) (by omega) hlow h
      · rename_i hlt
        rw [if_neg hlt]
        have := hl h; omega

include hds in
theorem generalCase_h {rec : Rec} {D : Data} {b : Branch} {d n : Nat} {UB : Node} {s : St} (hmls : 1 ≤ c.mls)
    (hrec : RecS c T rec (d - 1)) (hrecH : RecH c T rec (d - 1)) (hD : D = sel b T) (hd : 1 ≤ d) (hd3 : d ≤ 3) (hdn : d ≤ n)
    (hp : n + 1 ≤ 2 ^ d) (hwhole : c.useTerm = true ∨ 3 ≤ d → D = T)
    (hub : UB.sol ≤ c.worst) (hs : SOK c T s) (hi : HI c T s.cache) (ht : Trios c T s.cache) :
    HP c T D s.cache (generalCase c rec D b UB d n s) := by
  have hv1 : ViewOf T D := by rw [hD]; exact sel_view b T
  unfold generalCase
  dsimp only
  split
  · exact leaf_h G hv1 hub hi ht (.refl _ _)
  · have h1 := (start_sound G (d := d) (n := n) hs hD UB hub).1
    have h2 := start_h G (d := d) (n := n) hs hD hd3 UB hub
    generalize startLoc c D b UB d n s = v0 at h1 h2
    have hf := featLoop_sound G (blb := computeLB c s D b d n) hrec hD hd (by omega) hp (c.order D) (G.order D) v0 s hs h1
    have hh := featLoop_h G (blb := computeLB c s D b d n) (C0 := s.cache) hmls hrec hrecH hD hd hd3 (by omega) hp (c.order D)
      (G.order D) v0 s hs h1 ⟨hi, ht, .refl _ _, fun h => .inl (h2 h)⟩
    generalize featLoop c rec D b d n (computeLB c s D b d n) (c.order D) v0 s = r at hf hh
    obtain ⟨s1, l1, _⟩ := hf
    have hcache : ∀ C, HP c T D s.cache (r.1.sols, { r.2 with cache := C }) →
        HP c T D s.cache (r.1.sols, updateArchive c { r.2 with cache := C } D b d) := by
      intro C h
      have e := updateArchive_same (c := c) { r.2 with cache := C } D b d
      exact ⟨by rw [e]; exact h.hi, by rw [e]; exact h.trios, by rw [e]; exact h.keep, by rw [e]; exact h.child, by rw [e]; exact h.root⟩
    apply hcache
    split
    · rename_i hne
      have hk := store_keep hds hh.hi.one D b hne d n
      have hroot : dataKey T = dataKey D → 3 ≤ d → RootOK c r.2.cache T r.1.sols := by
        intro _ h3
        have := hh.sols hne
        rw [hwhole (.inr h3)] at this
        exact this
      refine ⟨hh.hi.store hds D b hne d n hroot, ?_, hh.keep.trans hk, fun _ hlt => ?_, fun _ => (hh.sols hne).keep hne hk⟩
      · cases hu : c.useTerm with
        | true =>
          have e := hwhole (.inl hu)
          subst e
          exact hh.trios.store hh.hi.one hds b hne d n
        | false => intro h; rw [hu] at h; simp at h
      · have hno : ¬ (c.useTerm = true ∨ 3 ≤ d) := by
          intro h
          have := hwhole h
          rw [this] at hlt; omega
        have hnum := (l1.sols.real hne).2
        have hn3 : n ≤ 3 := by
          have : 2 ^ d ≤ 2 ^ 2 := Nat.pow_le_pow_right (by decide) (by omega)
          omega
        have hd1 : d = 1 → n = 1 := by rintro rfl; omega
        refine ⟨by dsimp only; omega, ?_⟩
        dsimp only
        by_cases h0 : r.1.sols.numNodes = 0
        · exact .inl ⟨h0, fun h => absurd (.inl h) hno⟩
        · refine .inr ⟨by omega, ?_, fun h => absurd (.inl h) hno⟩
          have ha := (storeOpt_ans (cc := c.cc) hds hh.hi.one D b hne d n).2 D (min 2 r.1.sols.numNodes) r.1.sols.numNodes
            (Nat.min_le_right _ _)
          cases he : (r.2.cache.ans c.worst D (min 2 r.1.sols.numNodes) r.1.sols.numNodes).isEmpty with
          | true =>
            have := ha.trans (if_pos ⟨rfl, he, Nat.le_refl _, hnum, by omega, by omega⟩)
            exact (congrArg Node.isEmpty this).trans hne
          | false =>
            have := hk D (min 2 r.1.sols.numNodes) r.1.sols.numNodes (Nat.min_le_right _ _) he
            exact (congrArg Node.isEmpty this).trans he
    · rename_i hemp
      have hsame := updateLB_same (c := c) hds r.2.cache D b (if r.1.inf.sol = c.worst then UB else Node.addMax r.1.inf UB) d n
      exact ⟨hh.hi.same hsame, hh.trios.same hh.hi.one hsame, hh.keep.trans (hsame.keep hh.hi.one), fun h => absurd h hemp,
        fun h => absurd h hemp⟩

omit G in
theorem reduceBudget_order (UB : Node) {d n : Nat} (h : d ≤ n) : (reduceBudget c UB d n).1 ≤ (reduceBudget c UB d n).2 := by
  unfold reduceBudget
  split
  · exact h
  · dsimp only
    split
    · split
      · have : min d (max 0 UB.sol / c.P.bc).toNat < 2 ^ min d (max 0 UB.sol / c.P.bc).toNat := Nat.lt_two_pow_self
        dsimp only; omega
      · exact h
    · exact h

include hbr hds in
theorem subTree_h {rec : Rec} {D : Data} {b : Branch} {UB : Node} {d n : Nat} {s : St} (hmls : 1 ≤ c.mls)
    (hrec : 1 ≤ d → RecS c T rec (d - 1)) (hrecH : 1 ≤ d → RecH c T rec (d - 1)) (hD : D = sel b T) (hd3 : d ≤ 3) (hdn : d ≤ n)
    (hwhole : 3 ≤ d → D = T) (hp : n + 1 ≤ 2 ^ d) (hub : UB.sol ≤ c.worst) (hs : SOK c T s) (hi : HI c T s.cache)
    (ht : Trios c T s.cache) : HP c T D s.cache (subTree c rec D b UB d n s) := by
  have hv1 : ViewOf T D := by rw [hD]; exact sel_view b T
  unfold subTree
  split
  · exact ⟨hi, ht, .refl _ _, fun h => by simp [Node.empty, Node.isEmpty] at h, fun h => by simp [Node.empty, Node.isEmpty] at h⟩
  · obtain ⟨b1, b2, b3⟩ := reduceBudget_fits (c := c) UB d n hp
    have b4 := reduceBudget_order (c := c) UB hdn
    dsimp only
    generalize (reduceBudget c UB d n).1 = d' at *
    generalize (reduceBudget c UB d n).2 = n' at *
    have sn := hs.next
    have hi1 : HI c T s.next.cache := hi
    have ht1 : Trios c T s.next.cache := ht
    have hk1 : Keep c.worst s.cache s.next.cache := .refl _ _
    generalize s.next = s1 at sn hi1 ht1 hk1
    split
    · exact leaf_h G hv1 hub hi1 ht1 hk1
    · rename_i hz
      have hret : ∀ (s' : St), s'.cache.retrieveOpt c.cc D b d' n' = s'.cache.ans c.worst D d' n' :=
        fun s' => retrieveOpt_ans (cc := c.cc) hbr hds s'.cache D b d' n'
      -- a cached answer
      have hhit : ∀ s', SOK c T s' → HI c T s'.cache → Trios c T s'.cache → Keep c.worst s.cache s'.cache →
          (s'.cache.ans c.worst D d' n').isEmpty = false → HP c T D s.cache (s'.cache.ans c.worst D d' n', s') := by
        intro s' hs' hi' ht' hk' hne
        have hsd := hs'.hit (c := c) hD d' n'
        rw [hret s'] at hsd
        refine ⟨hi', ht', hk', fun _ hlt => ?_, fun _ => ?_⟩
        · have h2 : d' ≤ 2 := by
            by_contra hc
            have := hwhole (by omega)
            rw [this] at hlt; omega
          exact ch_of_ans G hi' ht' hD hlt (by omega) h2 b4 b3 hne hsd
        · by_cases h3 : d' = 3
          · have e := hwhole (by omega)
            rw [e, h3] at hne ⊢
            exact hi'.root n' (by omega) hne
          · have hnum := (hsd.real hne).2
            rcases small_budget (by omega) (by omega) b4 b3 with h | h | h
            · left; dsimp only; omega
            · left; dsimp only; omega
            · right; left; rw [h.1, h.2]
      rw [hret]
      split
      · rename_i hne
        exact hhit s1 sn hi1 ht1 hk1 hne
      · rename_i hmiss
        have hmiss : (s1.cache.ans c.worst D d' n').isEmpty = true := by simpa using hmiss
        have hgo : ∀ s', SOK c T s' → HI c T s'.cache → Trios c T s'.cache → Keep c.worst s.cache s'.cache →
            (s'.cache.ans c.worst D d' n').isEmpty = true →
            HP c T D s.cache (if c.useTerm = true ∧ d' ≤ 2 then solveTerminal c D b UB d' n' s'
            else generalCase c rec D b UB d' n' s') := by
          intro s' hs' hi' ht' hk' hm'
          have lift : ∀ {r}, HP c T D s'.cache r → HP c T D s.cache r := fun h =>
            ⟨h.hi, h.trios, hk'.trans h.keep, h.child, h.root⟩
          apply lift
          split
          · rename_i hc
            exact solveTerminal_h G hbr hds hD (by omega) hc.2 b4 b3 hm' hc.1 hi' ht'
          · rename_i hc
            refine generalCase_h G hds hmls (fun D b UB e m s he => hrec (by omega) D b UB e m s (by omega))
              (fun D b UB e m s he => hrecH (by omega) D b UB e m s (by omega)) hD (by omega) (by omega) b4 b3 ?_ hub hs' hi' ht'
            intro h
            refine hwhole ?_
            by_contra hcc
            rcases h with h | h
            · exact hc ⟨h, by omega⟩
            · omega
        split
        · have hsim := useSimilarity_sound G sn hD d' n'
          have hsame := useSimilarity_same hbr hds s1 D b d' n'
          generalize useSimilarity c s1 D b d' n' = sim at hsim hsame
          have i2 := hi1.same hsame
          have t2 := ht1.same hi1.one hsame
          have k2 := hk1.trans (hsame.keep hi1.one)
          have m2 : (sim.2.cache.ans c.worst D d' n').isEmpty = true := by rw [hsame.ans hi1.one]; exact hmiss
          split
          · rename_i hh
            rw [hret, m2] at hh; simp at hh
          · split
            · exact ⟨i2, t2, k2, fun h => by simp [Node.empty, Node.isEmpty] at h, fun h => by simp [Node.empty, Node.isEmpty] at h⟩
            · split
              · exact leaf_h G hv1 (Int.le_refl _) i2 t2 k2
              · exact hgo _ hsim i2 t2 k2 m2
        · exact hgo _ sn hi1 ht1 hk1 hmiss

include hbr hds in
/-- Calls for proper parts of the data. -/
theorem solveSub_h (hmls : 1 ≤ c.mls) (fuel : Nat) : RecH c T (solveSub c fuel) fuel := by
  induction fuel with
  | zero =>
    intro D b UB d n s hd hd2 hdn hD hlt hp hub hs hi ht
    exact subTree_h G hbr hds hmls (fun h => by omega) (fun h => by omega) hD (by omega) hdn (fun h => by omega) hp hub hs hi ht
  | succ m ih =>
    intro D b UB d n s hd hd2 hdn hD hlt hp hub hs hi ht
    exact subTree_h G hbr hds hmls (fun _ D' b' UB' d' n' s' h1 => solveSub_sound G m D' b' UB' d' n' s' (by omega))
      (fun _ D' b' UB' d' n' s' h1 => ih D' b' UB' d' n' s' (by omega)) hD (by omega) hdn (fun h => by omega) hp hub hs hi ht

include hbr hds in
/-- Calls for the whole data. -/
theorem solveRoot_h (hmls : 1 ≤ c.mls) (fuel : Nat) {UB : Node} {d n : Nat} {s : St} (hd : d ≤ fuel) (hd3 : d ≤ 3) (hdn : d ≤ n)
    (hp : n + 1 ≤ 2 ^ d) (hub : UB.sol ≤ c.worst) (hs : SOK c T s) (hi : HI c T s.cache) (ht : Trios c T s.cache) :
    HP c T T s.cache (solveSub c fuel T [] UB d n s) := by
  cases fuel with
  | zero =>
    exact subTree_h G hbr hds hmls (fun h => by omega) (fun h => by omega) (sel_nil T).symm hd3 hdn (fun _ => rfl) hp hub hs hi ht
  | succ m =>
    exact subTree_h G hbr hds hmls (fun _ D' b' UB' d' n' s' h1 => solveSub_sound G m D' b' UB' d' n' s' (by omega))
      (fun _ D' b' UB' d' n' s' h1 => solveSub_h G hbr hds hmls m D' b' UB' d' n' s' (by omega)) (sel_nil T).symm hd3 hdn
      (fun _ => rfl) hp hub hs hi ht

end
end Streed
