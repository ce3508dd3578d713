import Verif.Model.FeatureVec
import Verif.Lemmas.Counts
import Verif.Props.Counts
import Mathlib.Tactic.Ring

/-!
# C33, C34: an instance's feature vector

C33: after any sequence of flips and disables of existing features nothing undefined happens, the bit
representation holds the values one expects, and the list representation is the increasing list of
the features whose bit is set. C34: after the pair list is computed it holds exactly the slots of
the pairs of present features, each once.
-/

namespace Streed

/-! ### Specification -/

/-- What an operation does to the feature values. -/
def FVOp.spec (vals : List Bool) : FVOp → List Bool
  | .flip f => vals.set f (!(vals.getD f false))
  | .disable f => vals.set f false
  | .pairs => vals

/-- The feature an operation uses exists. -/
def FVOp.ok (n : Nat) : FVOp → Prop
  | .flip f => f < n
  | .disable f => f < n
  | .pairs => True

/-- The list representation describes the same set as the bits, in increasing order. -/
def FV.Consistent (v : FV) : Prop :=
  v.list = (List.range v.present.length).filter fun f => v.present.getD f false

/-! ### Proofs -/

theorem FVOp.spec_length (o : FVOp) (vals : List Bool) : (o.spec vals).length = vals.length := by
  cases o <;> simp [FVOp.spec]

private theorem scan_eq (i : Nat) (bs : List Bool) :
    FV.scan i bs = ((List.range bs.length).filter fun f => bs.getD f false).map (i + ·) := by
  induction bs generalizing i with
  | nil => simp [FV.scan]
  | cons b bs ih =>
    have h : FV.scan (i + 1) bs =
        (((List.range bs.length).map Nat.succ).filter fun f => (b :: bs).getD f false).map (i + ·) := by
      rw [ih, List.filter_map, List.map_map]
      congr 1
      · funext x; simp; omega
    rw [FV.scan, List.length_cons, List.range_succ_eq_map, List.filter_cons, h]
    cases b <;> simp

private theorem filter_set (n f : Nat) (hf : f < n) (p : Nat → Bool) (x : Bool) :
    (List.range n).filter (fun g => if g = f then x else p g) =
      (List.range f).filter p ++ ((if x then [f] else []) ++ (List.range' (f + 1) (n - f - 1)).filter p) := by
  have e : List.range n = List.range f ++ (f :: List.range' (f + 1) (n - f - 1)) := by
    rw [List.range_eq_range', List.range_eq_range']
    have := @List.range'_append_1 0 f (n - f)
    rw [show f + (n - f) = n by omega] at this
    rw [← this]
    congr 1
    rw [show n - f = (n - f - 1) + 1 by omega, List.range'_succ]
    simp
  rw [e, List.filter_append, List.filter_cons]
  have h1 : (List.range f).filter (fun g => if g = f then x else p g) = (List.range f).filter p := by
    apply List.filter_congr
    intro g hg
    rw [if_neg (by have := List.mem_range.1 hg; omega)]
  have h2 : (List.range' (f + 1) (n - f - 1)).filter (fun g => if g = f then x else p g) =
      (List.range' (f + 1) (n - f - 1)).filter p := by
    apply List.filter_congr
    intro g hg
    rw [if_neg (by have := (List.mem_range'_1.1 hg).1; omega)]
  rw [h1, h2]
  cases x <;> simp

private theorem getD_set (l : List Bool) (f : Nat) (hf : f < l.length) (x : Bool) (g : Nat) :
    (l.set f x).getD g false = if g = f then x else l.getD g false := by
  simp only [List.getD_eq_getElem?_getD, List.getElem?_set]
  by_cases h : g = f
  · subst h; simp [hf]
  · rw [if_neg h, if_neg (Ne.symm h)]

private theorem split_list (l : List Bool) (f : Nat) (hf : f < l.length) (x : Bool) :
    (List.range (l.set f x).length).filter (fun g => (l.set f x).getD g false) =
      (List.range f).filter (fun g => l.getD g false) ++ ((if x then [f] else []) ++
        (List.range' (f + 1) (l.length - f - 1)).filter (fun g => l.getD g false)) := by
  rw [List.length_set, ← filter_set l.length f hf]
  apply List.filter_congr
  intro g _
  exact getD_set l f hf x g

private theorem self_set (l : List Bool) (f : Nat) (hf : f < l.length) :
    l.set f (l.getD f false) = l := by
  rw [List.getD_eq_getElem?_getD, List.getElem?_eq_getElem hf]
  exact List.set_getElem_self hf

private theorem insertRev_spec (f : Nat) (a b : List Nat) (ha : ∀ x ∈ a, x < f) (hb : ∀ x ∈ b, f < x) :
    (FV.insertRev f (a ++ b).reverse).reverse = a ++ f :: b := by
  rw [List.reverse_append]
  have key : ∀ c : List Nat, (∀ x ∈ c, f < x) → FV.insertRev f (c ++ a.reverse) = c ++ f :: a.reverse := by
    intro c hc
    induction c with
    | nil =>
      cases h : a.reverse with
      | nil => rfl
      | cons x xs =>
        have : x < f := ha x (by rw [← List.mem_reverse, h]; simp)
        simp [FV.insertRev, this]
    | cons x c ih =>
      have : f < x := hc x (by simp)
      rw [List.cons_append, FV.insertRev, if_neg (by omega), ih (fun y hy => hc y (by simp [hy]))]
      rfl
  rw [key b.reverse (fun x hx => hb x (by simpa using hx))]
  simp

private theorem removeOne_spec (f : Nat) (a b : List Nat) (ha : ∀ x ∈ a, x < f) (hb : ∀ x ∈ b, f < x) :
    FV.removeOne f (a ++ f :: b) = a ++ b := by
  have h : (a ++ f :: b).filter (· != f) = a ++ b := by
    rw [List.filter_append, List.filter_cons]
    simp only [bne_self_eq_false, Bool.false_eq_true, if_false]
    rw [List.filter_eq_self.2 (fun x hx => by have := ha x hx; simp; omega),
      List.filter_eq_self.2 (fun x hx => by have := hb x hx; simp; omega)]
  unfold FV.removeOne
  simp only [h]
  rw [List.take_append_of_le_length (by simp), List.take_of_length_le (by simp)]

private theorem below (l : List Bool) (f : Nat) :
    ∀ x ∈ (List.range f).filter (fun g => l.getD g false), x < f :=
  fun _ hx => List.mem_range.1 (List.mem_filter.1 hx).1

private theorem above (l : List Bool) (f n : Nat) :
    ∀ x ∈ (List.range' (f + 1) n).filter (fun g => l.getD g false), f < x :=
  fun _ hx => by have := (List.mem_range'_1.1 (List.mem_filter.1 hx).1).1; omega

theorem FV.make_consistent (vals : List Bool) : (FV.make vals).Consistent := by
  unfold FV.Consistent FV.make
  simp only [scan_eq]
  simp

/-- Flipping an existing feature of a consistent vector. -/
theorem FV.flip_spec (v : FV) (hv : v.Consistent) (f : Nat) (hf : f < v.present.length) :
    ∃ w, v.flip f = some w ∧ w.Consistent ∧ w.present = (FVOp.flip f).spec v.present ∧
      w.pairs = v.pairs := by
  have hself := split_list v.present f hf (v.present.getD f false)
  rw [self_set _ _ hf] at hself
  have hg : v.present[f]? = some (v.present.getD f false) := by
    rw [List.getD_eq_getElem?_getD, List.getElem?_eq_getElem hf]; rfl
  unfold FV.Consistent at hv
  rw [hself] at hv
  have hsp : (FVOp.flip f).spec v.present = v.present.set f (!v.present.getD f false) := rfl
  rw [hsp]
  unfold FV.flip
  rw [hg]
  cases hx : v.present.getD f false
  · have hlen : v.list.length < v.present.length := by
      have h2 := split_list v.present f hf true
      have h3 := congrArg List.length h2
      have h4 := List.length_filter_le (fun g => (v.present.set f true).getD g false)
        (List.range (v.present.set f true).length)
      rw [hv, hx]
      simp only [Bool.false_eq_true, if_false, if_true, List.length_append, List.length_cons,
        List.length_nil] at h3 ⊢
      rw [h3, List.length_range, List.length_set] at h4
      omega
    refine ⟨_, if_pos hlen, ?_, rfl, rfl⟩
    unfold FV.Consistent
    simp only
    rw [split_list _ _ hf, hv, hx]
    simp only [Bool.false_eq_true, if_false, List.nil_append, if_true]
    rw [insertRev_spec f _ _ (below _ _) (above _ _ _)]
    rfl
  · refine ⟨_, rfl, ?_, rfl, rfl⟩
    unfold FV.Consistent
    simp only
    rw [split_list _ _ hf, hv, hx]
    simp only [Bool.false_eq_true, if_false, List.nil_append, if_true, List.cons_append]
    rw [removeOne_spec f _ _ (below _ _) (above _ _ _)]

private theorem pairsOf_length (l : List Nat) : 2 * (pairsOf l).length = l.length * (l.length + 1) := by
  induction l with
  | nil => rfl
  | cons f fs ih =>
    simp only [pairsOf, List.length_append, List.length_map, List.length_cons]
    ring_nf at ih ⊢
    omega

theorem FV.computePairs_spec (v : FV) : v.computePairs = some { v with
    pairs := (pairsOf v.list).map fun p => symIndex v.present.length p.1 p.2 } := by
  have h := pairsOf_length v.list
  have hl : ((pairsOf v.list).map fun p => symIndex v.present.length p.1 p.2).length =
      v.list.length * (v.list.length + 1) / 2 := by
    rw [List.length_map]; omega
  unfold FV.computePairs
  simp only [hl, Nat.le_refl, if_true]
  congr 2
  rw [List.drop_of_length_le (by simp), List.append_nil]

theorem FV.step_spec (v : FV) (hv : v.Consistent) (o : FVOp) (ho : o.ok v.present.length) :
    ∃ w, v.step o = some w ∧ w.Consistent ∧ w.present = o.spec v.present := by
  cases o with
  | flip f =>
    obtain ⟨w, h1, h2, h3, _⟩ := FV.flip_spec v hv f ho
    exact ⟨w, h1, h2, h3⟩
  | disable f =>
    have hf : f < v.present.length := ho
    have hg : v.present[f]? = some (v.present.getD f false) := by
      rw [List.getD_eq_getElem?_getD, List.getElem?_eq_getElem hf]; rfl
    have hsp : (FVOp.disable f).spec v.present = v.present.set f false := rfl
    rw [hsp]
    unfold FV.step FV.disable
    simp only [hg]
    cases hx : v.present.getD f false
    · refine ⟨v, rfl, hv, ?_⟩
      have := self_set v.present f hf
      rw [hx] at this
      exact this.symm
    · obtain ⟨w, h1, h2, h3, _⟩ := FV.flip_spec v hv f ho
      refine ⟨w, h1, h2, ?_⟩
      rw [h3]; show v.present.set f (!v.present.getD f false) = _; rw [hx]; rfl
  | pairs => exact ⟨_, FV.computePairs_spec v, hv, rfl⟩

theorem FV.run_spec (v : FV) (hv : v.Consistent) (os : List FVOp)
    (ho : ∀ o ∈ os, o.ok v.present.length) :
    ∃ w, v.run os = some w ∧ w.Consistent ∧ w.present = os.foldl FVOp.spec v.present := by
  induction os generalizing v with
  | nil => exact ⟨v, rfl, hv, rfl⟩
  | cons o os ih =>
    obtain ⟨w, h1, h2, h3⟩ := FV.step_spec v hv o (ho o (by simp))
    obtain ⟨w', h4, h5, h6⟩ := ih w h2 (fun o' h' => by
      rw [h3, FVOp.spec_length]; exact ho o' (by simp [h']))
    exact ⟨w', by rw [FV.run, h1]; exact h4, h5, by rw [h6, h3]; rfl⟩

/-- C33: for any initial values and any sequence of flips, disables and pair computations on existing
features, nothing undefined happens, the bits are the expected values, and the list is the
increasing list of the features whose bit is set. -/
theorem feature_vector_consistent (vals : List Bool) (os : List FVOp)
    (ho : ∀ o ∈ os, o.ok vals.length) :
    ∃ w, (FV.make vals).run os = some w ∧ w.present = os.foldl FVOp.spec vals ∧
      w.list = (List.range vals.length).filter fun f => (os.foldl FVOp.spec vals).getD f false := by
  obtain ⟨w, h1, h2, h3⟩ := FV.run_spec (FV.make vals) (FV.make_consistent vals) os ho
  refine ⟨w, h1, h3, ?_⟩
  have hl : ∀ (os : List FVOp) (vs : List Bool), (os.foldl FVOp.spec vs).length = vs.length := by
    intro os
    induction os with
    | nil => intro _; rfl
    | cons o os ih => intro vs; rw [List.foldl_cons, ih, FVOp.spec_length]
  unfold FV.Consistent at h2
  rw [h2, h3]
  show List.filter _ (List.range (os.foldl FVOp.spec vals).length) = _
  rw [hl]
  rfl

/-- C33: flipping the same feature twice restores the object. -/
theorem flip_twice (vals : List Bool) (os : List FVOp) (ho : ∀ o ∈ os, o.ok vals.length) (f : Nat)
    (hf : f < vals.length) :
    (FV.make vals).run (os ++ [.flip f, .flip f]) = (FV.make vals).run os := by
  obtain ⟨w, h1, h2, h3⟩ := FV.run_spec (FV.make vals) (FV.make_consistent vals) os ho
  have hl : ∀ (os : List FVOp) (vs : List Bool), (os.foldl FVOp.spec vs).length = vs.length := by
    intro os
    induction os with
    | nil => intro _; rfl
    | cons o os ih => intro vs; rw [List.foldl_cons, ih, FVOp.spec_length]
  have hw : w.present.length = vals.length := by rw [h3, hl]; rfl
  have happ : ∀ (os' : List FVOp) (v : FV), v.run (os' ++ [.flip f, .flip f]) =
      (v.run os').bind fun u => u.run [.flip f, .flip f] := by
    intro os'
    induction os' with
    | nil => intro v; rfl
    | cons o os' ih =>
      intro v
      rw [List.cons_append, FV.run, FV.run]
      cases v.step o with
      | none => rfl
      | some u => exact ih u
  rw [happ, h1]
  obtain ⟨w1, a1, a2, a3, a4⟩ := FV.flip_spec w h2 f (by omega)
  have hf1 : f < w1.present.length := by rw [a3, FVOp.spec_length]; omega
  obtain ⟨w2, b1, b2, b3, b4⟩ := FV.flip_spec w1 a2 f hf1
  have hp : w2.present = w.present := by
    rw [b3, a3]
    show (w.present.set f (!w.present.getD f false)).set f
      (!(w.present.set f (!w.present.getD f false)).getD f false) = w.present
    rw [getD_set _ _ (by omega)]
    simp only [if_true, Bool.not_not, List.set_set]
    exact self_set _ _ (by omega)
  have hlst : w2.list = w.list := by
    unfold FV.Consistent at b2 h2
    rw [b2, h2, hp]
  show FV.run w [.flip f, .flip f] = some w
  simp only [FV.run, FV.step, a1, b1]
  rw [show w2 = ⟨w2.present, w2.list, w2.pairs⟩ from rfl, hp, hlst, b4, a4]

/-- C34: after any sequence of operations followed by the pair computation, the pair list holds the slot
of a pair of features exactly when both are present, and no slot twice. -/
theorem pair_list_complete (vals : List Bool) (os : List FVOp) (ho : ∀ o ∈ os, o.ok vals.length) :
    ∃ w, (FV.make vals).run (os ++ [.pairs]) = some w ∧ w.pairs.Nodup ∧
      (∀ f g, f ≤ g → g < vals.length → (symIndex vals.length f g ∈ w.pairs ↔
        (os.foldl FVOp.spec vals).getD f false = true ∧
        (os.foldl FVOp.spec vals).getD g false = true)) ∧
      ∀ x ∈ w.pairs, ∃ f g, f ≤ g ∧ g < vals.length ∧ x = symIndex vals.length f g := by
  obtain ⟨u, h1, h2, h3⟩ := feature_vector_consistent vals os ho
  obtain ⟨w, h4, h5, h6⟩ := feature_vector_consistent vals (os ++ [.pairs]) (by
    intro o h
    rcases List.mem_append.1 h with h | h
    · exact ho o h
    · rw [List.mem_singleton.1 h]; trivial)
  have happ : ∀ (os' : List FVOp) (v : FV), v.run (os' ++ [.pairs]) =
      (v.run os').bind FV.computePairs := by
    intro os'
    induction os' with
    | nil => intro v; simp [FV.run, FV.step, FV.computePairs_spec]
    | cons o os' ih =>
      intro v
      rw [List.cons_append, FV.run, FV.run]
      cases v.step o with
      | none => rfl
      | some u => exact ih u
  have hl : u.present.length = vals.length := by
    have hl : ∀ (os : List FVOp) (vs : List Bool), (os.foldl FVOp.spec vs).length = vs.length := by
      intro os
      induction os with
      | nil => intro _; rfl
      | cons o os ih => intro vs; rw [List.foldl_cons, ih, FVOp.spec_length]
    rw [h2, hl]
  have e := happ os (FV.make vals)
  rw [h4, h1] at e
  have e' : some w = FV.computePairs u := e
  rw [FV.computePairs_spec] at e'
  injection e' with e'
  have hp : w.pairs = (pairsOf u.list).map fun p => symIndex vals.length p.1 p.2 := by
    rw [e', hl]
  have hs : u.list.Pairwise (· < ·) := by
    rw [h3]
    exact List.Pairwise.filter _ List.pairwise_lt_range
  have hm : ∀ f, f ∈ u.list ↔ f < vals.length ∧ (os.foldl FVOp.spec vals).getD f false = true := by
    intro f; rw [h3, List.mem_filter, List.mem_range]
  refine ⟨w, h4, ?_, ?_, ?_⟩
  · rw [hp]
    apply nodup_map_on _ _ (nodup_pairsOf _ hs)
    · rintro ⟨a, b⟩ ha ⟨a', b'⟩ ha' he
      have ha := (mem_pairsOf _ hs _ _).1 ha
      have ha' := (mem_pairsOf _ hs _ _).1 ha'
      have := symIndex_inj vals.length a b a' b' ha.2.2 ((hm b).1 ha.2.1).1 ha'.2.2
        ((hm b').1 ha'.2.1).1 he
      rw [this.1, this.2]
  · intro f g hfg hg
    rw [hp, List.mem_map]
    constructor
    · rintro ⟨⟨a, b⟩, hab, he⟩
      have hab := (mem_pairsOf _ hs _ _).1 hab
      have := symIndex_inj vals.length a b f g hab.2.2 ((hm b).1 hab.2.1).1 hfg hg he
      rw [← this.1, ← this.2]
      exact ⟨((hm a).1 hab.1).2, ((hm b).1 hab.2.1).2⟩
    · rintro ⟨h7, h8⟩
      exact ⟨(f, g), (mem_pairsOf _ hs _ _).2 ⟨(hm f).2 ⟨by omega, h7⟩, (hm g).2 ⟨hg, h8⟩, hfg⟩, rfl⟩
  · intro x hx
    rw [hp, List.mem_map] at hx
    obtain ⟨⟨a, b⟩, hab, rfl⟩ := hx
    have hab := (mem_pairsOf _ hs _ _).1 hab
    exact ⟨a, b, hab.2.2, ((hm b).1 hab.2.1).1, rfl⟩

/-- A non-trivial run: four features, three flips, a disable, then the pairs. -/
example : (FV.make [true, false, true, false]).run
    [.flip 1, .flip 3, .flip 2, .disable 0, .disable 2, .pairs] =
    some ⟨[false, true, false, true], [1, 3], [4, 6, 9]⟩ := by decide

example : ∀ o ∈ [FVOp.flip 1, .flip 3, .flip 2, .disable 0, .disable 2, .pairs], o.ok 4 := by
  simp [FVOp.ok]

end Streed
