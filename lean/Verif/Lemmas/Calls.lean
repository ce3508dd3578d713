import Verif.Lemmas.Optimal

/-! The states in which the search calls itself: its outcome depends only on what the recursive call does in states whose
caches hold facts. -/

namespace Streed

/-- Two recursive calls agree on all subproblems, in all states whose caches hold facts. -/
def RecEq (c : Cfg) (T : Data) (rec rec' : Rec) (m : Nat) : Prop :=
  ∀ D b UB d n s, UB.isEmpty = true → d ≤ m → D = sel b T → c.mls ≤ D.length → BudOK c d n → n + 1 ≤ 2 ^ d → StOK c T s →
    rec' D b UB d n s = rec D b UB d n s

section
variable {c : Cfg} {T : Data} (G : Good c T)

theorem sizeStep_calls {rec rec' : Rec} {D : Data} {d n f ls : Nat} {L R : Side} {sw : Bool} {v : Loc} {s : St}
    (hrec : RecOK c T rec (d - 1)) (he : RecEq c T rec rec' (d - 1)) (hsp : Split c T D d f L R sw)
    (hb1 : BudOK c (min (d - 1) ls) ls) (hb2 : BudOK c (min (d - 1) (n - ls - 1)) (n - ls - 1))
    (hp1 : ls + 1 ≤ 2 ^ (min (d - 1) ls)) (hp2 : n - ls - 1 + 1 ≤ 2 ^ (min (d - 1) (n - ls - 1))) (hs : StOK c T s) :
    sizeStep c rec' f L R sw d n ls v s = sizeStep c rec f L R sw d n ls v s := by
  have hub : ∀ o, (subtractUB c v.UB o v.sols).isEmpty = true := by
    intro o; unfold subtractUB; split <;> rfl
  unfold sizeStep
  dsimp only
  generalize computeLRLB c s f L.D L.b (min (d - 1) ls) ls R.D R.b (min (d - 1) (n - ls - 1)) (n - ls - 1) = lbs
  rw [he L.D L.b (subtractUB c v.UB lbs.2.2 v.sols) (min (d - 1) ls) ls s (hub _) (Nat.min_le_left _ _) hsp.hL hsp.mL hb1 hp1 hs]
  have pL := hrec L.D L.b (subtractUB c v.UB lbs.2.2 v.sols) (min (d - 1) ls) ls s (Nat.min_le_left _ _) hsp.hL hsp.mL
    hb1 hp1 hs
  generalize rec L.D L.b (subtractUB c v.UB lbs.2.2 v.sols) (min (d - 1) ls) ls s = lr at pL ⊢
  have sL := (pL.st fun _ _ _ => hub _).next
  rw [he R.D R.b (subtractUB c v.UB lr.1 v.sols) (min (d - 1) (n - ls - 1)) (n - ls - 1) lr.2.next
    (hub _) (Nat.min_le_left _ _) hsp.hR hsp.mR hb2 hp2 sL]

include G in
theorem sizeLoop_calls {rec rec' : Rec} {D : Data} {d n f : Nat} {L R : Side} {sw : Bool} {UB0 : Node}
    (hrec : RecOK c T rec (d - 1)) (he : RecEq c T rec rec' (d - 1)) (hsp : Split c T D d f L R sw) (l : List Nat)
    (hl : ∀ ls ∈ l, ls + 1 ≤ n ∧ BudOK c (min (d - 1) ls) ls ∧ BudOK c (min (d - 1) (n - ls - 1)) (n - ls - 1) ∧
      ls + 1 ≤ 2 ^ (min (d - 1) ls) ∧ n - ls - 1 + 1 ≤ 2 ^ (min (d - 1) (n - ls - 1)))
    (v : Loc) (s : St) (hs : StOK c T s) (hv : LocOK c D d n UB0 v) :
    sizeLoop c rec' f L R sw d n l v s = sizeLoop c rec f L R sw d n l v s := by
  induction l generalizing v s with
  | nil => rfl
  | cons ls l ih =>
    obtain ⟨a1, a2, a3, a4, a5⟩ := hl ls (List.mem_cons_self ..)
    have h1 := sizeStep_spec G hrec hsp a1 a2 a3 a4 a5 hs hv
    unfold sizeLoop
    rw [sizeStep_calls hrec he hsp a2 a3 a4 a5 hs]
    generalize sizeStep c rec f L R sw d n ls v s = r at h1
    dsimp only
    rw [ih (fun x hx => hl x (List.mem_cons_of_mem _ hx)) r.2.1 r.2.2 h1.2.1 h1.2.2.1]

include G in
theorem feature_calls {rec rec' : Rec} {D : Data} {b : Branch} {d n f : Nat} {UB0 : Node}
    (hrec : RecOK c T rec (d - 1)) (he : RecEq c T rec rec' (d - 1)) (hD : D = sel b T) (hd : 1 ≤ d) (hn : 1 ≤ n)
    (hp : n + 1 ≤ 2 ^ d) (hb : BudOK c d n) (hf : f < c.P.nF) (hmay : c.P.may f = true) (hm0 : c.mls ≤ (without f D).length)
    (hm1 : c.mls ≤ (having f D).length) (v : Loc) (s : St) (hs : StOK c T s) (hv : LocOK c D d n UB0 v) :
    (if (without f D).length < (having f D).length then
        sizeLoop c rec' f ⟨having f D, b.child f true⟩ ⟨without f D, b.child f false⟩ true d n (sizes d n) v s
      else sizeLoop c rec' f ⟨without f D, b.child f false⟩ ⟨having f D, b.child f true⟩ false d n (sizes d n) v s) =
    (if (without f D).length < (having f D).length then
        sizeLoop c rec f ⟨having f D, b.child f true⟩ ⟨without f D, b.child f false⟩ true d n (sizes d n) v s
      else sizeLoop c rec f ⟨without f D, b.child f false⟩ ⟨having f D, b.child f true⟩ false d n (sizes d n) v s) := by
  have hv1 : ViewOf T D := by rw [hD]; exact sel_view b T
  have e0 : without f D = sel (b.child f false) T := by rw [sel_child, ← hD, side_false]
  have e1 : having f D = sel (b.child f true) T := by rw [sel_child, ← hD, side_true]
  have hsm : ∀ tL tR : Tree, tL.Legal c.P c.mls (without f D) → tR.Legal c.P c.mls (having f D) →
      c.P.bc + (tL.cost c.P (without f D) + tR.cost c.P (having f D)) < c.worst := by
    intro tL tR h0 h1
    have := G.small D hv1 (.node f tL tR) ⟨hf, hmay, h0, h1⟩
    simp only [Tree.cost] at this; omega
  obtain ⟨e, rfl⟩ : ∃ e, d = e + 1 := ⟨d - 1, by omega⟩
  have spR : Split c T D (e + 1) f ⟨having f D, b.child f true⟩ ⟨without f D, b.child f false⟩ true :=
    ⟨e1, e0, hm1, hm0, fun k => by have := leafCost_split c.P f D k; simp only; omega,
      fun x y hx hy => Real.combine hf hmay hy hx, hv1,
      fun tL tR h0 h1 => by have := hsm tR tL h1 h0; simp only; omega⟩
  have spL : Split c T D (e + 1) f ⟨without f D, b.child f false⟩ ⟨having f D, b.child f true⟩ false :=
    ⟨e0, e1, hm0, hm1, fun k => (leafCost_split c.P f D k).symm,
      fun x y hx hy => Real.combine hf hmay hx hy, hv1, hsm⟩
  split
  · exact sizeLoop_calls G hrec he spR (sizes (e + 1) n) (sizes_ok hd hn hp hb) v s hs hv
  · exact sizeLoop_calls G hrec he spL (sizes (e + 1) n) (sizes_ok hd hn hp hb) v s hs hv

include G in
theorem featLoop_calls {rec rec' : Rec} {D : Data} {b : Branch} {d n : Nat} {UB0 blb : Node}
    (hrec : RecOK c T rec (d - 1)) (he : RecEq c T rec rec' (d - 1)) (hD : D = sel b T) (hd : 1 ≤ d) (hn : 1 ≤ n)
    (hp : n + 1 ≤ 2 ^ d) (hb : BudOK c d n) (fs : List Nat) (hfs : ∀ f ∈ fs, f < c.P.nF) (v : Loc) (s : St)
    (hs : StOK c T s) (hv : LocOK c D d n UB0 v) :
    featLoop c rec' D b d n blb fs v s = featLoop c rec D b d n blb fs v s := by
  induction fs generalizing v s with
  | nil => rfl
  | cons f fs ih =>
    have ih := ih fun g hg => hfs g (List.mem_cons_of_mem _ hg)
    unfold featLoop
    dsimp only
    rw [ih v s.next hs.next hv]
    by_cases h1 : c.ok s = false
    · rw [if_pos h1, if_pos h1]
    rw [if_neg h1, if_neg h1]
    by_cases h2 : c.useLB = true ∧ blb.sol = v.sols.sol
    · rw [if_pos h2, if_pos h2]
    rw [if_neg h2, if_neg h2]
    by_cases h3 : c.useLB = true ∧ c.useUB = true ∧ v.UB.sol < blb.sol
    · rw [if_pos h3, if_pos h3]
    rw [if_neg h3, if_neg h3]
    by_cases h4 : (b.has f || !c.P.may f || c.redundant f) = true
    · rw [if_pos h4, if_pos h4]
    rw [if_neg h4, if_neg h4]
    by_cases h5 : c.sparse = true ∧ c.useUB = true ∧ v.UB.sol < c.P.bc
    · rw [if_pos h5, if_pos h5]
    rw [if_neg h5, if_neg h5]
    by_cases h6 : (without f D).length < c.mls ∨ (having f D).length < c.mls
    · rw [if_pos h6, if_pos h6]
    rw [if_neg h6, if_neg h6]
    have hmay : c.P.may f = true := by
      simp only [Bool.or_eq_true, Bool.not_eq_true', not_or, Bool.not_eq_true, Bool.not_eq_false] at h4
      exact h4.1.2
    have hf := hfs f (List.mem_cons_self ..)
    rw [feature_calls G hrec he hD hd hn hp hb hf hmay (by omega) (by omega) v s.next hs.next hv]
    have hx := feature_spec G hrec hD hd hn hp hb hf hmay (by omega) (by omega) v s.next hs.next hv
    exact ih _ _ hx.2.1 hx.2.2.1

include G in
theorem generalCase_calls {rec rec' : Rec} {D : Data} {b : Branch} {d n : Nat} {UB : Node} {s : St}
    (hrec : RecOK c T rec (d - 1)) (he : RecEq c T rec rec' (d - 1)) (hD : D = sel b T) (hm : c.mls ≤ D.length) (hd : 1 ≤ d)
    (hn : 1 ≤ n) (hp : n + 1 ≤ 2 ^ d) (hb : BudOK c d n) (hs : StOK c T s) :
    generalCase c rec' D b UB d n s = generalCase c rec D b UB d n s := by
  unfold generalCase
  dsimp only
  have l0 := (start_spec G (d := d) (n := n) hs hD hm UB).1
  rw [featLoop_calls G hrec he hD hd hn hp hb (c.order D) (fun f hf => (G.order D f).1 hf) _ s hs l0]

include G in
theorem subTree_calls {rec rec' : Rec} {D : Data} {b : Branch} {d n : Nat} {UB : Node} {s : St}
    (hrec : 1 ≤ d → RecOK c T rec (d - 1)) (he : 1 ≤ d → RecEq c T rec rec' (d - 1)) (hD : D = sel b T) (hm : c.mls ≤ D.length)
    (hp : n + 1 ≤ 2 ^ d) (hb : BudOK c d n) (hs : StOK c T s) :
    subTree c rec' D b UB d n s = subTree c rec D b UB d n s := by
  unfold subTree
  dsimp only
  obtain ⟨r1, r2, r3, r4, r5⟩ := reduceBudget_bud (UB := UB) hp hb
  generalize reduceBudget c UB d n = dn at *
  have go : ∀ s' : St, StOK c T s' → ¬ (dn.1 = 0 ∨ dn.2 = 0) →
      generalCase c rec' D b UB dn.1 dn.2 s' = generalCase c rec D b UB dn.1 dn.2 s' := by
    intro s' hs' h0
    refine generalCase_calls G (fun D' b' UB' d' n' s' hd' => ?_) (fun D' b' UB' d' n' s' hu' hd' => ?_)
      hD hm (by omega) (by omega) r3 r4 hs'
    · exact hrec (by omega) D' b' UB' d' n' s' (by omega)
    · exact he (by omega) D' b' UB' d' n' s' hu' (by omega)
  by_cases h1 : c.ok s = false
  · rw [if_pos h1, if_pos h1]
  rw [if_neg h1, if_neg h1]
  by_cases h0 : dn.1 = 0 ∨ dn.2 = 0
  · rw [if_pos h0, if_pos h0]
  rw [if_neg h0, if_neg h0]
  rw [go s.next hs.next h0]
  by_cases hlb : c.useLB = true
  · rw [go _ (useSimilarity_spec G hs.next hD dn.1 dn.2 r4 hlb).1 h0]
  · rw [if_neg hlb, if_neg hlb]

end
end Streed
