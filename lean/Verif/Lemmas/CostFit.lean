import Verif.Lemmas.CostOptimal
import Verif.Lemmas.Preprocess
import Verif.Lemmas.Fit
import Verif.Model.CostFit
import Verif.Props.CostSensitive
import Verif.Props.Paths
import Mathlib.Tactic.Linarith
import Mathlib.Tactic.Positivity
import Mathlib.Tactic.FieldSimp
import Mathlib.Data.Rat.Lemmas

/-! From the cost tables to the conditions of the search, and back to the raw data. -/

namespace Streed
namespace Ctx

/-! ### Prices that depend on the tested features only -/

/-- The same features are tested on both paths. -/
def SameFeats (b b' : Branch) : Prop := ∀ f, (∃ x ∈ b, x / 2 = f) ↔ ∃ x ∈ b', x / 2 = f

/-- Prices look at the tested features, not at the outcomes. -/
def FeatOnly (τ : Prices) : Prop := ∀ b b', SameFeats b b' → ∀ g, τ b g = τ b' g

theorem code_half (f : Nat) (x : Bool) : code f x / 2 = f := by unfold code; split <;> omega

theorem mem_child (b : Branch) (f : Nat) (x : Bool) (y : Nat) : y ∈ b.child f x ↔ y = code f x ∨ y ∈ b := by
  unfold Branch.child
  rw [(insertCode_perm (code f x) b).mem_iff, List.mem_cons]

theorem SameFeats.child {b b' : Branch} (h : SameFeats b b') (f : Nat) (x y : Bool) :
    SameFeats (b.child f x) (b'.child f y) := by
  intro g
  simp only [mem_child]
  constructor
  · rintro ⟨z, rfl | hz, hg⟩
    · exact ⟨code f y, .inl rfl, by rw [code_half] at hg ⊢; exact hg⟩
    · obtain ⟨z', h1, h2⟩ := (h g).1 ⟨z, hz, hg⟩
      exact ⟨z', .inr h1, h2⟩
  · rintro ⟨z, rfl | hz, hg⟩
    · exact ⟨code f x, .inl rfl, by rw [code_half] at hg ⊢; exact hg⟩
    · obtain ⟨z', h1, h2⟩ := (h g).2 ⟨z, hz, hg⟩
      exact ⟨z', .inr h1, h2⟩

theorem FeatOnly.side {τ : Prices} (h : FeatOnly τ) : SideFree τ := fun _ f g =>
  h _ _ (SameFeats.child (fun _ => Iff.rfl) f true false) g

section
variable {P : Problem} {τ : Prices} {mls : Nat} {T : Data} (hP : FeatureFree P) (hτ : FeatOnly τ)
include hP hτ

/-- Every legal tree on the raw data has a twin on the preprocessed data if only nearly constant features are dropped. -/
theorem prep_forward (hnd : ∀ f, f < P.nF → isRedundant P mls T f = true → nearConstant P mls T f = true) (t : Tree) (D : Data)
    (hD : D.Sublist T) (b b' : Branch) (hb : SameFeats b b') (ht : t.Legal P mls D) :
    ∃ t' : Tree, t'.Legal P mls (D.map (prepInst (flipped P T) (isRedundant P mls T))) ∧ t'.depth = t.depth ∧ t'.nodes = t.nodes ∧
      cost P τ b t' (D.map (prepInst (flipped P T) (isRedundant P mls T))) = cost P τ b' t D := by
  induction t generalizing D b b' with
  | leaf k => exact ⟨.leaf k, ⟨ht.1, by rw [List.length_map]; exact ht.2⟩, rfl, rfl, leafCost_prep hP _ _ D k⟩
  | node f l r ihl ihr =>
    obtain ⟨hf, hm, hl, hr⟩ := ht
    -- the feature is not nearly constant
    have hnc : nearConstant P mls T f = false := by
      have h1 := hl.length
      have h2 := hr.length
      have h3 : (without f D).length ≤ (without f T).length := (hD.filter _).length_le
      have h4 : (having f D).length ≤ (having f T).length := (hD.filter _).length_le
      have h5 := length_split f T
      unfold nearConstant
      rw [posCount_eq]
      simp; intro _; omega
    have hred : isRedundant P mls T f = false := by
      cases h : isRedundant P mls T f with
      | false => rfl
      | true => rw [hnd f hf h] at hnc; simp at hnc
    have hsame : ∀ i ∈ D, (prepInst (flipped P T) (isRedundant P mls T) i).feat f = Bool.xor (i.feat f) (flipped P T f) :=
      fun i _ => by simp [prepInst, hred]
    have hpr := hτ b b' hb f
    cases hfl : flipped P T f with
    | false =>
      have e0 : without f (D.map (prepInst (flipped P T) (isRedundant P mls T))) =
          (without f D).map (prepInst (flipped P T) (isRedundant P mls T)) := by
        rw [← side_false, ← side_false]
        exact side_prep _ _ _ _ _ _ _ fun i hi => by rw [hsame i hi, hfl]; simp
      have e1 : having f (D.map (prepInst (flipped P T) (isRedundant P mls T))) =
          (having f D).map (prepInst (flipped P T) (isRedundant P mls T)) := by
        rw [← side_true, ← side_true]
        exact side_prep _ _ _ _ _ _ _ fun i hi => by rw [hsame i hi, hfl]; simp
      obtain ⟨l', a1, a2, a3, a4⟩ := ihl (without f D) ((without_sublist f D).trans hD) _ _ (hb.child f false false) hl
      obtain ⟨r', b1, b2, b3, b4⟩ := ihr (having f D) ((having_sublist f D).trans hD) _ _ (hb.child f true true) hr
      refine ⟨.node f l' r', ⟨hf, hm, by rw [e0]; exact a1, by rw [e1]; exact b1⟩, ?_, ?_, ?_⟩
      · simp only [Tree.depth, a2, b2]
      · simp only [Tree.nodes, a3, b3]
      · simp only [cost, e0, e1, a4, b4, hpr, List.length_map]
    | true =>
      have e0 : without f (D.map (prepInst (flipped P T) (isRedundant P mls T))) =
          (having f D).map (prepInst (flipped P T) (isRedundant P mls T)) := by
        rw [← side_false, ← side_true]
        exact side_prep _ _ _ _ _ _ _ fun i hi => by rw [hsame i hi, hfl]; cases i.feat f <;> rfl
      have e1 : having f (D.map (prepInst (flipped P T) (isRedundant P mls T))) =
          (without f D).map (prepInst (flipped P T) (isRedundant P mls T)) := by
        rw [← side_false, ← side_true]
        exact side_prep _ _ _ _ _ _ _ fun i hi => by rw [hsame i hi, hfl]; cases i.feat f <;> rfl
      obtain ⟨l', a1, a2, a3, a4⟩ := ihl (without f D) ((without_sublist f D).trans hD) _ _ (hb.child f true false) hl
      obtain ⟨r', b1, b2, b3, b4⟩ := ihr (having f D) ((having_sublist f D).trans hD) _ _ (hb.child f false true) hr
      refine ⟨.node f r' l', ⟨hf, hm, by rw [e0]; exact b1, by rw [e1]; exact a1⟩, ?_, ?_, ?_⟩
      · simp only [Tree.depth, a2, b2]; omega
      · simp only [Tree.nodes, a3, b3]; omega
      · simp only [cost, e0, e1, a4, b4, hpr, List.length_map]; omega

/-- A legal tree on preprocessed data, with its flips undone, is legal on the raw data and costs the same. -/
theorem prep_backward (hmls : 1 ≤ mls) (fl red : Nat → Bool) (t : Tree) (D : Data) (b b' : Branch) (hb : SameFeats b b')
    (ht : t.Legal P mls (D.map (prepInst fl red))) :
    (unflip fl t).Legal P mls D ∧ cost P τ b' (unflip fl t) D = cost P τ b t (D.map (prepInst fl red)) := by
  induction t generalizing D b b' with
  | leaf k =>
    refine ⟨⟨ht.1, ?_⟩, (leafCost_prep hP _ _ D k).symm⟩
    have := ht.2; rwa [List.length_map] at this
  | node f l r ihl ihr =>
    obtain ⟨hf, hm, hl, hr⟩ := ht
    have hred : red f = false := by
      cases h : red f with
      | false => rfl
      | true =>
        have h1 := hr.length
        have h2 : having f (D.map (prepInst fl red)) = [] := by
          unfold having
          apply List.filter_eq_nil_iff.2
          intro i hi
          obtain ⟨j, _, rfl⟩ := List.mem_map.1 hi
          simp [prepInst, h]
        rw [h2] at h1; simp at h1; omega
    have hpr := hτ b b' hb f
    unfold unflip
    cases hfl : fl f with
    | false =>
      have e0 : without f (D.map (prepInst fl red)) = (without f D).map (prepInst fl red) := by
        rw [← side_false, ← side_false]
        exact side_prep _ _ _ _ _ _ _ fun i hi => by simp [prepInst, hred, hfl]
      have e1 : having f (D.map (prepInst fl red)) = (having f D).map (prepInst fl red) := by
        rw [← side_true, ← side_true]
        exact side_prep _ _ _ _ _ _ _ fun i hi => by simp [prepInst, hred, hfl]
      rw [e0] at hl; rw [e1] at hr
      obtain ⟨a1, a2⟩ := ihl _ _ _ (hb.child f false false) hl
      obtain ⟨b1, b2⟩ := ihr _ _ _ (hb.child f true true) hr
      refine ⟨⟨hf, hm, a1, b1⟩, ?_⟩
      simp only [Bool.false_eq_true, if_false, cost, e0, e1, a2, b2, hpr, List.length_map]
    | true =>
      have e0 : without f (D.map (prepInst fl red)) = (having f D).map (prepInst fl red) := by
        rw [← side_false, ← side_true]
        exact side_prep _ _ _ _ _ _ _ fun i hi => by simp only [prepInst, hred, hfl]; cases i.feat f <;> rfl
      have e1 : having f (D.map (prepInst fl red)) = (without f D).map (prepInst fl red) := by
        rw [← side_false, ← side_true]
        exact side_prep _ _ _ _ _ _ _ fun i hi => by simp only [prepInst, hred, hfl]; cases i.feat f <;> rfl
      rw [e0] at hl; rw [e1] at hr
      obtain ⟨a1, a2⟩ := ihl _ _ _ (hb.child f false true) hl
      obtain ⟨b1, b2⟩ := ihr _ _ _ (hb.child f true false) hr
      refine ⟨⟨hf, hm, b1, a1⟩, ?_⟩
      simp only [if_true, cost, e0, e1, a2, b2, hpr, List.length_map]; omega

end

/-! ### When paths to the same data agree -/

theorem reach_zero {c : Cfg} {T : Data} {b : Branch} (h : Reach c T 0 b) : b = [] := by
  cases h; rfl

theorem reach_one {c : Cfg} {T : Data} {b : Branch} (h : Reach c T 1 b) : ∃ f x, b = Branch.child [] f x ∧ f < c.P.nF ∧
    c.P.may f = true ∧ c.redundant f = false ∧ c.mls ≤ (without f T).length ∧ c.mls ≤ (having f T).length := by
  cases h with
  | child h hf hm hr hb h0 h1 x =>
    rename_i f
    have := reach_zero h
    subst this
    rw [sel_nil] at h0 h1
    exact ⟨f, x, rfl, hf, hm, hr, h0, h1⟩

theorem Same.refl (c : Cfg) (τ : Prices) (D : Data) (b : Branch) : Same c τ D b b := fun _ _ _ => rfl

/-- Up to depth three the depth-two solver sees the data of the root and of its children only. -/
theorem stable_three {c : Cfg} {T : Data} {τ : Prices} {m : Nat} (hm : m ≤ 3) (hmls : 1 ≤ c.mls)
    (hd : ∀ f g, f < c.P.nF → g < c.P.nF → f ≠ g → c.redundant f = false → c.redundant g = false →
      ∀ y, ¬ ∀ i ∈ T, i.feat f = Bool.xor (i.feat g) y) : Stable c τ T m := by
  intro k k' b b' hr hr' hk hk' hs hl
  have key : ∀ {b : Branch} {f : Nat} {x : Bool}, b = Branch.child [] f x → sel b T = side f x T := by
    intro b f x h; rw [h, sel_child, sel_nil]
  -- a child of the root does not have all the data
  have proper : ∀ {f : Nat} {x : Bool}, c.mls ≤ (without f T).length → c.mls ≤ (having f T).length → T ≠ side f x T := by
    intro f x h0 h1 h
    have h2 := length_split f T
    have h3 : T.length = (side f x T).length := by rw [← h]
    cases x
    · rw [side_false] at h3; omega
    · rw [side_true] at h3; omega
  have hk1 : k = 0 ∨ k = 1 := by omega
  have hk1' : k' = 0 ∨ k' = 1 := by omega
  rcases hk1 with rfl | rfl
  · have := reach_zero hr
    subst this
    rcases hk1' with rfl | rfl
    · have := reach_zero hr'
      subst this
      exact Same.refl _ _ _ _
    · obtain ⟨f, x, e, _, _, _, h0, h1⟩ := reach_one hr'
      rw [sel_nil, key e] at hs
      exact absurd hs (proper h0 h1)
  · obtain ⟨f, x, e, hf, _, hrf, h0, h1⟩ := reach_one hr
    rcases hk1' with rfl | rfl
    · have := reach_zero hr'
      subst this
      rw [sel_nil, key e] at hs
      exact absurd hs.symm (proper h0 h1)
    · obtain ⟨g, y, e', hg, _, hrg, h0', h1'⟩ := reach_one hr'
      rw [key e, key e'] at hs
      rw [key e] at hl
      have iff : ∀ i ∈ T, (i.feat f = x) ↔ (i.feat g = y) := by
        intro i hi
        have h1 : i ∈ side f x T ↔ i ∈ side g y T := by rw [hs]
        unfold side at h1
        simp only [List.mem_filter, hi, true_and, beq_iff_eq] at h1
        exact h1
      by_cases hfg : f = g
      · subst hfg
        by_cases hxy : x = y
        · subst hxy; rw [e, e']; exact Same.refl _ _ _ _
        · exfalso
          cases hsd : side f x T with
          | nil => rw [hsd] at hl; simp at hl; omega
          | cons i l =>
            have hi : i ∈ side f x T := by rw [hsd]; exact List.mem_cons_self ..
            have hi' := hi
            unfold side at hi'
            simp only [List.mem_filter, beq_iff_eq] at hi'
            have := (iff i hi'.1).1 hi'.2
            exact hxy (hi'.2.symm.trans this)
      · exfalso
        refine hd f g hf hg hfg hrf hrg (Bool.xor x y) fun i hi => ?_
        have := iff i hi
        cases h1 : i.feat f <;> cases h2 : i.feat g <;> cases x <;> cases y <;> simp_all

/-- Prices that do not depend on the path, except for features already tested. -/
def Flat (τ : Prices) : Prop := ∃ p : Nat → Int, ∀ b f, Branch.has b f = false → τ b f = p f

/-- The cost with path-independent prices. -/
def flatCost (P : Problem) (p : Nat → Int) : Tree → Data → Int
  | .leaf k, D => leafCost P D k
  | .node f l r, D => D.length * p f + (flatCost P p l (without f D) + flatCost P p r (having f D))

theorem stable_flat {c : Cfg} {T : Data} {τ : Prices} {m : Nat} (hmls : 1 ≤ c.mls) (hf : Flat τ) : Stable c τ T m := by
  obtain ⟨p, hp⟩ := hf
  have key : ∀ (t : Tree) (b : Branch), t.Legal c.P c.mls (sel b T) → cost c.P τ b t (sel b T) = flatCost c.P p t (sel b T) := by
    intro t
    induction t with
    | leaf k => intro b _; rfl
    | node f l r ihl ihr =>
      intro b ⟨hf, hm, hl, hr⟩
      have e0 : without f (sel b T) = sel (b.child f false) T := by rw [sel_child, side_false]
      have e1 : having f (sel b T) = sel (b.child f true) T := by rw [sel_child, side_true]
      have hb : b.has f = false := by
        cases h : b.has f with
        | false => rfl
        | true =>
          have l0 := hl.length
          have l1 := hr.length
          rcases sel_pathOK b T f h with h | h
          · rw [h] at l0; simp at l0; omega
          · rw [h] at l1; simp at l1; omega
      simp only [cost, flatCost, hp b f hb]
      rw [e0] at hl ⊢; rw [e1] at hr ⊢
      rw [ihl _ hl, ihr _ hr]
  intro k k' b b' _ _ _ _ hs _ t _ ht
  rw [key t b ht, hs]
  rw [hs] at ht
  rw [key t b' ht]

/-! ### Sizes -/

theorem cost_le {P : Problem} {τ : Prices} {x y : Rat} (hy : 0 ≤ y) (hτ : ∀ b f, (τ b f : Rat) ≤ y) (t : Tree) (b : Branch)
    (D : Data) (hx : ∀ i ∈ D, ∀ k, (P.cost i k : Rat) ≤ x) :
    (cost P τ b t D : Rat) ≤ D.length * (x + t.depth * y) := by
  induction t generalizing b D with
  | leaf k =>
    simp only [cost, Tree.depth, Nat.cast_zero, zero_mul, add_zero]
    unfold leafCost
    induction D with
    | nil => simp
    | cons i D ih =>
      have h1 := hx i (by simp) k
      have h2 := ih fun j hj => hx j (by simp [hj])
      simp only [List.map_cons, List.sum_cons, List.length_cons]
      push_cast
      linarith
  | node f l r ihl ihr =>
    have h1 := ihl (b.child f false) (without f D) fun i hi => hx i (mem_without.1 hi).1
    have h2 := ihr (b.child f true) (having f D) fun i hi => hx i (mem_having.1 hi).1
    have h3 := length_split f D
    have h4 := hτ b f
    simp only [cost, Tree.depth]
    push_cast
    have m1 : (l.depth : Rat) ≤ max (l.depth : Rat) (r.depth : Rat) := le_max_left _ _
    have m2 : (r.depth : Rat) ≤ max (l.depth : Rat) (r.depth : Rat) := le_max_right _ _
    generalize max (l.depth : Rat) (r.depth : Rat) = M at m1 m2 ⊢
    have e : (D.length : Rat) = (without f D).length + (having f D).length := by rw [← h3]; push_cast; ring
    have n0 : (0 : Rat) ≤ (without f D).length := Nat.cast_nonneg _
    have n1 : (0 : Rat) ≤ (having f D).length := Nat.cast_nonneg _
    have n2 : (0 : Rat) ≤ D.length := Nat.cast_nonneg _
    have p1 : ((without f D).length : Rat) * (x + l.depth * y) ≤ (without f D).length * (x + M * y) := by gcongr
    have p2 : ((having f D).length : Rat) * (x + r.depth * y) ≤ (having f D).length * (x + M * y) := by gcongr
    have p3 : (D.length : Rat) * τ b f ≤ D.length * y := by gcongr
    have : (D.length : Rat) * (x + (1 + M) * y) = D.length * y + ((without f D).length * (x + M * y) + (having f D).length * (x + M * y)) := by
      rw [e]; ring
    have e2 : (x + (M + 1) * y) = (x + (1 + M) * y) := by ring
    linarith

end Ctx

/-! ### Cost tables -/

/-- All costs are multiples of `1 / q`. -/
def Costs.Whole (C : Costs) (q : Nat) : Prop :=
  (∀ i j, (q * C.matrix i j).den = 1) ∧ ∀ a ∈ C.attrs, (q * a.cost).den = 1 ∧ (q * a.disc).den = 1

/-- No cost is negative. -/
def Costs.Nonneg (C : Costs) : Prop := (∀ i j, 0 ≤ C.matrix i j) ∧ ∀ a ∈ C.attrs, 0 ≤ a.cost ∧ 0 ≤ a.disc

/-- `M` and `B` bound the costs of a prediction and of a test. -/
def Costs.Within (C : Costs) (M B : Rat) : Prop := (∀ i j, C.matrix i j ≤ M) ∧ ∀ a ∈ C.attrs, a.cost ≤ B ∧ a.disc ≤ B

namespace Ctx

theorem branchCost_ind (C : Costs) (Q : Rat → Prop) (h0 : Q 0) (ha : ∀ a ∈ C.attrs, Q a.cost ∧ Q a.disc) (b : Branch) (f : Nat) :
    Q (C.branchCost b f) := by
  have fold : ∀ (g : AttrCost → Rat) (A : List AttrCost) (x : Rat), Q x → (∀ a ∈ A, Q (g a)) →
      Q (A.foldl (fun x a => if a.lo ≤ f ∧ f ≤ a.hi then g a else x) x) := by
    intro g A
    induction A with
    | nil => intro x hx _; exact hx
    | cons a A ih =>
      intro x hx hA
      rw [List.foldl_cons]
      refine ih _ ?_ fun b hb => hA b (List.mem_cons_of_mem _ hb)
      split
      · exact hA a (List.mem_cons_self ..)
      · exact hx
  unfold Costs.branchCost
  split
  · exact h0
  · split
    · exact fold (·.disc) C.attrs 0 h0 fun a h => (ha a h).2
    · exact fold (·.cost) C.attrs 0 h0 fun a h => (ha a h).1

theorem prices_featOnly (C : Costs) (q : Nat) : FeatOnly (C.prices q) := by
  intro b b' h g
  have e : ∀ p : Nat → Bool, b.any (fun x => p (x / 2)) = b'.any (fun x => p (x / 2)) := by
    intro p
    rw [Bool.eq_iff_iff, List.any_eq_true, List.any_eq_true]
    constructor
    · rintro ⟨x, hx, hp⟩
      obtain ⟨x', h1, h2⟩ := (h (x / 2)).1 ⟨x, hx, rfl⟩
      exact ⟨x', h1, by rw [h2]; exact hp⟩
    · rintro ⟨x, hx, hp⟩
      obtain ⟨x', h1, h2⟩ := (h (x / 2)).2 ⟨x, hx, rfl⟩
      exact ⟨x', h1, by rw [h2]; exact hp⟩
  unfold Costs.prices Costs.branchCost
  rw [e (fun y => C.sameBin y g), e (fun y => C.sameGroup y g)]

theorem num_of_den {x : Rat} (h : x.den = 1) : (x.num : Rat) = x := Rat.coe_int_num_of_den_eq_one h

theorem prices_eq {C : Costs} {q : Nat} (h : C.Whole q) (b : Branch) (f : Nat) : (C.prices q b f : Rat) = q * C.branchCost b f := by
  refine num_of_den (branchCost_ind C (fun x => ((q : Rat) * x).den = 1) ?_ (fun a ha => h.2 a ha) b f)
  simp

theorem problem_cost_eq {C : Costs} {q nF nL : Nat} (h : C.Whole q) (i : Inst) (k : Nat) :
    ((C.problem q nF nL).cost i k : Rat) = q * C.matrix i.label k := num_of_den (h.1 _ _)

theorem problem_free (C : Costs) (q nF nL : Nat) : FeatureFree (C.problem q nF nL) := fun _ _ _ => rfl

/-- The integer cost is the value of the tree in units of `1 / q`. -/
theorem cost_eval {C : Costs} {q nF nL : Nat} (h : C.Whole q) (hz : ∀ k, C.matrix k k = 0) (t : Tree) (b : Branch) (D : Data)
    (hD : ∀ i ∈ D, i.label < nL) : (cost (C.problem q nF nL) (C.prices q) b t D : Rat) = q * C.eval nL t b D := by
  induction t generalizing b D with
  | leaf k =>
    simp only [cost, Costs.eval, costs_leaf C nL D hD k (hz k)]
    clear hD
    unfold leafCost
    induction D with
    | nil => simp
    | cons i D ih =>
      simp only [List.map_cons, List.sum_cons]
      push_cast
      rw [ih, problem_cost_eq h]; ring
  | node f l r ihl ihr =>
    simp only [cost, Costs.eval]
    push_cast
    rw [ihl _ _ fun i hi => hD i (mem_without.1 hi).1, ihr _ _ fun i hi => hD i (mem_having.1 hi).1, prices_eq h]
    ring

/-- One binary feature per attribute and no two attributes in one group: prices do not depend on the path. -/
theorem prices_flat (C : Costs) (q : Nat) (h1 : ∀ a ∈ C.attrs, a.lo = a.hi) (h2 : C.attrs.Pairwise fun a b => a.group ≠ b.group) :
    Flat (C.prices q) := by
  have hgrp : ∀ f g, C.sameGroup f g = false := by
    have hn : C.entries.Pairwise fun e e' => e.1 ≠ e'.1 := by
      unfold Costs.entries
      generalize C.attrs = A at h1 h2
      induction A with
      | nil => simp
      | cons a A ih =>
        have h2' := List.pairwise_cons.1 h2
        rw [List.flatMap_cons, List.pairwise_append]
        refine ⟨?_, ih (fun b hb => h1 b (List.mem_cons_of_mem _ hb)) h2'.2, ?_⟩
        · have : a.hi + 1 - a.lo = 1 := by have := h1 a (List.mem_cons_self ..); omega
          rw [this]; simp
        · intro e he e' he'
          obtain ⟨f, _, rfl⟩ := List.mem_map.1 he
          obtain ⟨b, hb, he'⟩ := List.mem_flatMap.1 he'
          obtain ⟨f', _, rfl⟩ := List.mem_map.1 he'
          exact h2'.1 b hb
    have hp : ∀ f g (es : List (Nat × Nat)), es.Pairwise (fun e e' => e.1 ≠ e'.1) → Costs.pairIn f g es = false := by
      intro f g es
      induction es with
      | nil => intro _; rfl
      | cons e es ih =>
        intro h
        have h' := List.pairwise_cons.1 h
        unfold Costs.pairIn
        rw [ih h'.2, Bool.or_false]
        have : (es.any fun e' => decide (e'.1 = e.1) && decide (e'.2 = f)) = false := by
          rw [List.any_eq_false]
          intro e' he' hc
          simp only [Bool.and_eq_true, decide_eq_true_eq] at hc
          exact h'.1 e' he' hc.1.symm
        rw [this, Bool.and_false]
    intro f g
    unfold Costs.sameGroup
    rw [hp f g _ hn, hp g f _ hn]; rfl
  refine ⟨fun f => (q * C.featCost f).num, fun b f hb => ?_⟩
  unfold Costs.prices Costs.branchCost
  have n1 : b.any (fun x => C.sameBin (x / 2) f) = false := by
    rw [List.any_eq_false]
    intro x hx hc
    unfold Costs.sameBin at hc
    obtain ⟨a, ha, hc⟩ := List.any_eq_true.1 hc
    simp only [Bool.and_eq_true, decide_eq_true_eq] at hc
    have := h1 a ha
    have hxf : x / 2 = f := by omega
    unfold Branch.has at hb
    rw [List.any_eq_false] at hb
    refine hb x hx ?_
    unfold code
    simp only [Bool.or_eq_true, beq_iff_eq, if_true, Bool.false_eq_true, if_false]
    omega
  have n2 : b.any (fun x => C.sameGroup (x / 2) f) = false := by
    rw [List.any_eq_false]; intro x _; rw [hgrp]; simp
  rw [n1, n2]; rfl

/-- Redundant features are those that cannot be tested, if no two features tell the same instances apart. -/
def NoTwins (nF mls : Nat) (T : Data) : Prop := ∀ f g, f < nF → g < nF → f ≠ g → mls ≤ (without f T).length →
  mls ≤ (having f T).length → ∀ y, ¬ ∀ i ∈ T, i.feat f = Bool.xor (i.feat g) y

theorem twins_redundant {P : Problem} {mls : Nat} {T : Data} (hmay : ∀ f, P.may f = true) (h : NoTwins P.nF mls T) (f : Nat)
    (hf : f < P.nF) (hr : isRedundant P mls T f = true) : nearConstant P mls T f = true := by
  rcases (redundant_spec P mls T).2 f hr with h1 | ⟨g, hg, hgr, hs⟩
  · exact h1
  · by_contra hn
    have hfg : f ≠ g := by rintro rfl; rw [hr] at hgr; simp at hgr
    have hl := length_split f T
    unfold nearConstant at hn
    rw [posCount_eq, hmay] at hn
    simp only [Bool.true_and, Bool.or_eq_true, decide_eq_true_eq, not_or, not_lt] at hn
    refine h f g hf hg hfg (by omega) (by omega) (Bool.xor (flipped P T f) (flipped P T g)) fun i hi => ?_
    unfold sameFeature at hs
    have h1 := List.all_eq_true.1 hs (flipInst (flipped P T) i) (List.mem_map_of_mem hi)
    simp only [flipInst, beq_iff_eq] at h1
    revert h1
    cases i.feat f <;> cases i.feat g <;> cases flipped P T f <;> cases flipped P T g <;> simp

/-- What a fit reports, given the conditions on the search. -/
theorem fit_spec {C : Costs} {q nF nL mls : Nat} {o : Options} {t : Top} {T : Data} (hw : C.Whole q) (hz : ∀ k, C.matrix k k = 0)
    (hn : C.Nonneg) (hq : 1 ≤ q) {M B : Rat} (hMB : C.Within M B) (hB : 0 ≤ B) (hsize : T.length * (M + t.maxDepth * B) < int32Max)
    (hnL : 0 < nL) (hmls : 1 ≤ mls) (hlab : ∀ i ∈ T, i.label < nL) (hid : IdSorted T) (hlen : mls ≤ T.length)
    (htw : NoTwins nF mls T) (hord : ∀ D f, f ∈ o.order D ↔ f < nF) (hclk : Monotone o.clock)
    (hsim : o.simLB = false) (hds : o.useDs = false)
    (hterm : o.useTerm = true → mls = 1 ∧ o.useUB = true ∧ t.maxNodes + 1 = 2 ^ t.maxDepth ∧ (t.allTrees = true → t.maxNodes ≤ 1))
    (hlb : o.useLB = true → o.useTerm = true ∧ t.maxDepth ≤ 3)
    (hst : o.useTerm = true → t.maxDepth ≤ 3 ∨ Flat (C.prices q))
    (hfit : t.maxNodes + 1 ≤ 2 ^ t.maxDepth) (hub : (int32Max * q : Int) ≤ t.ub) :
    ((fitCostSensitive C q nF nL mls o t T).1.result.isEmpty = false →
      ∃ x, Allowed (C.problem q nF nL) mls t.maxDepth t.maxNodes T x ∧
        ((fitCostSensitive C q nF nL mls o t T).1.result.sol : Rat) = q * C.eval nL x [] T) ∧
    ((fitCostSensitive C q nF nL mls o t T).2 = true → (fitCostSensitive C q nF nL mls o t T).1.result.isEmpty = false ∧
      ∀ x, Allowed (C.problem q nF nL) mls t.maxDepth t.maxNodes T x →
        ((fitCostSensitive C q nF nL mls o t T).1.result.sol : Rat) ≤ q * C.eval nL x [] T) := by
  have hP := problem_free C q nF nL
  have hτ := prices_featOnly C q
  have hmay : ∀ f, (C.problem q nF nL).may f = true := fun _ => rfl
  have hnd := twins_redundant (mls := mls) (T := T) hmay htw
  have hq0 : (0 : Rat) < q := by exact_mod_cast hq
  generalize hS : preprocess (C.problem q nF nL) mls T = S
  have hlenS : S.length = T.length := by rw [← hS]; unfold preprocess; rw [List.length_map]
  have prepI : ∀ i ∈ S, ∃ j ∈ T, i = prepInst (flipped (C.problem q nF nL) T) (isRedundant (C.problem q nF nL) mls T) j := by
    intro i hi
    rw [← hS] at hi
    obtain ⟨j, hj, rfl⟩ := List.mem_map.1 hi
    exact ⟨j, hj, rfl⟩
  have cnn : ∀ i k, 0 ≤ (C.problem q nF nL).cost i k := by
    intro i k
    have h1 := problem_cost_eq (nF := nF) (nL := nL) hw i k
    have h2 : (0 : Rat) ≤ q * C.matrix i.label k := mul_nonneg hq0.le (hn.1 _ _)
    rw [← h1] at h2; exact_mod_cast h2
  have pnn : ∀ b f, 0 ≤ C.prices q b f := by
    intro b f
    have h1 := prices_eq hw b f
    have h2 : (0 : Rat) ≤ q * C.branchCost b f :=
      mul_nonneg hq0.le (branchCost_ind C (fun x => 0 ≤ x) le_rfl (fun a ha => hn.2 a ha) b f)
    rw [← h1] at h2; exact_mod_cast h2
  have small : ∀ b (D : Data), D.Sublist S ∨ D.Sublist T → ∀ x : Tree, x.depth ≤ t.maxDepth →
      cost (C.problem q nF nL) (C.prices q) b x D < int32Max * q := by
    intro b D hD x hx
    have h1 := cost_le (P := C.problem q nF nL) (τ := C.prices q) (x := q * M) (y := q * B) (by positivity)
      (fun b f => by
        rw [prices_eq hw]
        have := branchCost_ind C (fun x => x ≤ B) hB (fun a ha => hMB.2 a ha) b f
        gcongr) x b D
      (fun i _ k => by rw [problem_cost_eq hw]; have := hMB.1 i.label k; gcongr)
    have h2 : D.length ≤ T.length := by
      rcases hD with h | h
      · rw [← hlenS]; exact h.length_le
      · exact h.length_le
    have hM0 : 0 ≤ M := (hn.1 0 0).trans (hMB.1 0 0)
    have h3 : (D.length : Rat) * (q * M + x.depth * (q * B)) ≤ q * (T.length * (M + t.maxDepth * B)) := by
      have e1 : (D.length : Rat) ≤ T.length := by exact_mod_cast h2
      have e2 : (x.depth : Rat) ≤ t.maxDepth := by exact_mod_cast hx
      have e3 : (0 : Rat) ≤ x.depth := Nat.cast_nonneg _
      have : (D.length : Rat) * (q * M + x.depth * (q * B)) = q * (D.length * (M + x.depth * B)) := by ring
      rw [this]
      gcongr
    have h4 : (cost (C.problem q nF nL) (C.prices q) b x D : Rat) < (int32Max : Rat) * q := by
      have : (q : Rat) * (T.length * (M + t.maxDepth * B)) < q * int32Max := by gcongr
      linarith
    exact_mod_cast h4
  have G : Good (costCfg C q nF nL mls o (isRedundant (C.problem q nF nL) mls T)) (C.prices q) S t.maxDepth :=
    { labels := hnL
      nonneg := fun i _ k => cnn i k
      prices := pnn
      side := hτ.side
      small := fun b x hx _ => small b _ (.inl (sel_view b S)) x hx
      mls := hmls
      term := fun h => ⟨(hterm h).1, (hterm h).2.1⟩
      lb := hlb
      sparse := rfl
      sim := hsim
      ds := hds
      custom := fun _ => le_rfl
      md := ⟨le_rfl, zero_le_one⟩
      sorted := by rw [← hS]; exact preprocess_sorted hid
      inRange := fun i hi => by
        obtain ⟨j, hj, rfl⟩ := prepI i hi
        exact hlab j hj
      order := hord
      redundant := fun f hf => by
        right
        apply List.filter_eq_nil_iff.2
        intro i hi
        obtain ⟨j, _, rfl⟩ := prepI i hi
        have : isRedundant (C.problem q nF nL) mls T f = true := hf
        simp [prepInst, this]
      stable := fun h => by
        rcases hst h with h3 | h3
        · refine stable_three h3 hmls fun f g hf hg hfg hrf hrg y hall => ?_
          have hrf : isRedundant (C.problem q nF nL) mls T f = false := hrf
          have hrg : isRedundant (C.problem q nF nL) mls T g = false := hrg
          have hncf : nearConstant (C.problem q nF nL) mls T f = false := by
            cases hh : nearConstant (C.problem q nF nL) mls T f with
            | false => rfl
            | true => rw [(redundant_spec (C.problem q nF nL) mls T).1 f hf hh] at hrf; simp at hrf
          have hl := length_split f T
          unfold nearConstant at hncf
          rw [posCount_eq, hmay] at hncf
          simp only [Bool.true_and, Bool.or_eq_false_iff, decide_eq_false_iff_not, not_lt] at hncf
          refine htw f g hf hg hfg (by omega) (by omega)
            (Bool.xor (Bool.xor (flipped (C.problem q nF nL) T f) (flipped (C.problem q nF nL) T g)) y) fun i hi => ?_
          have hi' : prepInst (flipped (C.problem q nF nL) T) (isRedundant (C.problem q nF nL) mls T) i ∈ S := by
            rw [← hS]; exact List.mem_map_of_mem hi
          have := hall _ hi'
          simp only [prepInst, hrf, hrg] at this
          revert this
          cases i.feat f <;> cases i.feat g <;> cases flipped (C.problem q nF nL) T f <;>
            cases flipped (C.problem q nF nL) T g <;> cases y <;> simp
        · exact stable_flat hmls h3 }
  have hspec := solve_spec G (by rw [hlenS]; exact hlen) hclk hfit
    (fun h => ⟨(hterm h).2.2.1, (hterm h).2.2.2⟩)
  have hun : fitCostSensitive C q nF nL mls o t T =
      solve (costCfg C q nF nL mls o (isRedundant (C.problem q nF nL) mls T)) (C.prices q) t S := by
    unfold fitCostSensitive; rw [hS]
  rw [hun]
  obtain ⟨hrun, hset⟩ := hspec
  have hreal := hrun.real
  have hset : (solve (costCfg C q nF nL mls o (isRedundant (C.problem q nF nL) mls T)) (C.prices q) t S).2 = true → _ :=
    fun h => (hset h).2
  generalize (solve (costCfg C q nF nL mls o (isRedundant (C.problem q nF nL) mls T)) (C.prices q) t S).2 = ok at hset
  generalize (solve (costCfg C q nF nL mls o (isRedundant (C.problem q nF nL) mls T)) (C.prices q) t S).1.result = v at hset hreal
  constructor
  · intro hne
    obtain ⟨⟨y, hy1, hy2, hy3, hy4⟩, hnn⟩ := hreal hne
    rw [← hS] at hy3 hy4
    obtain ⟨h1, h2⟩ := prep_backward hP hτ hmls _ _ y T [] [] (fun _ => Iff.rfl) hy3
    refine ⟨_, ⟨?_, ?_, h1⟩, ?_⟩
    · rw [unflip_depth]; exact hy2
    · rw [unflip_nodes, hy1.nodes]; exact hnn
    · rw [← cost_eval (nF := nF) hw hz _ [] T hlab, h2]
      exact_mod_cast hy4.symm
  intro hok
  have hset := hset hok
  refine ⟨?_, fun x hx => ?_⟩
  · refine (hset (.leaf 0) ⟨Nat.zero_le _, Nat.zero_le _, hnL, by rw [hlenS]; exact hlen⟩ ?_).1
    have := small [] S (.inl (List.Sublist.refl S)) (.leaf 0) (Nat.zero_le _)
    exact (this.le.trans hub)
  · obtain ⟨x', h1, h2, h3, h4⟩ := prep_forward hP hτ hnd x T (List.Sublist.refl T) [] [] (fun _ => Iff.rfl) hx.2.2
    have e : T.map (prepInst (flipped (C.problem q nF nL) T) (isRedundant (C.problem q nF nL) mls T)) = S := hS
    rw [e] at h1 h4
    have hs := small [] S (.inl (List.Sublist.refl S)) x' (by rw [h2]; exact hx.1)
    have := (hset x' ⟨by rw [h2]; exact hx.1, by rw [h3]; exact hx.2.1, h1⟩ (hs.le.trans hub)).2
    rw [← cost_eval (nF := nF) hw hz x [] T hlab]
    have h5 : v.sol ≤ cost (C.problem q nF nL) (C.prices q) [] x T := by rw [← h4]; exact this
    exact_mod_cast h5

end Ctx
end Streed
