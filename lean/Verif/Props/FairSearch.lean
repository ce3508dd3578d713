import Verif.Model.FairSearch
import Verif.Props.Pareto
import Verif.Props.Fairness

/-!
# C60: the search under a fairness constraint

With demographic parity or equality of opportunity the search looks for the most accurate tree whose discrimination is within a
limit, without testing the sensitive feature 0. Without bounds and without the depth-two solver it finds one
(`parity_search_optimal_partial`, `opportunity_search_optimal_partial`), for every caching setting, feature order, node limit and
minimum leaf size, if the group sizes are small enough for the tolerance of the comparisons (`1e-4`) not to matter.

It fails for the default options: `parity_search_not_optimal` and `opportunity_search_not_optimal`. The extreme points used when
an upper bound is subtracted (group_fairness.h:156-158) take 1 for the largest group score, but the scores go up to 2: subtrees with
larger scores are cut off.
-/

namespace Streed

open TaskLemmas

/-- The tree does not test feature `f`. -/
def Tree.Avoids (f : Nat) : Tree → Prop
  | .leaf _ => True
  | .node g l r => g ≠ f ∧ l.Avoids f ∧ r.Avoids f

instance Tree.decAvoids (f : Nat) : (t : Tree) → Decidable (t.Avoids f)
  | .leaf _ => isTrue trivial
  | .node g l r => by
    have := Tree.decAvoids f l
    have := Tree.decAvoids f r
    unfold Tree.Avoids
    infer_instance

/-- Candidates: within the limits, not testing the sensitive feature, with discrimination `disc` within its limit. -/
def FairWithin (disc : Tree → Data → Rat) (limit : Rat) (nF mls d n : Nat) (T : Data) (t : Tree) : Prop :=
  Within nF mls d n T t ∧ t.Avoids 0 ∧ disc t T ≤ limit

/-- C60: the search ends with one value; it is that of a candidate, and no candidate misclassifies fewer instances. -/
def FairBest (disc : Tree → Data → Rat) (limit : Rat) (nF mls d n : Nat) (T : Data) (r : List (PNode FairSol)) : Prop :=
  ∃ m t, r = [m] ∧ FairWithin disc limit nF mls d n T t ∧ m.sol.mis = misclassified t T ∧ m.size = t.nodes ∧
    ∀ t', FairWithin disc limit nF mls d n T t' → misclassified t T ≤ misclassified t' T

/-- Demographic parity: the difference of the positive rates of the two groups. -/
def parityGap (t : Tree) (T : Data) : Rat := |posRate t false T - posRate t true T|

/-- Equality of opportunity: the difference of the true-positive rates of the two groups. -/
def opportunityGap (t : Tree) (T : Data) : Rat := |truePosRate t false T - truePosRate t true T|

/-- The search under demographic parity. -/
def paritySearch (nF : Nat) (o : ParetoOptions) (limit : Rat) (d n : Nat) (allTrees : Bool) (T : Data) : List (PNode FairSol) :=
  (pSolve (o.cfg (parityTask nF limit T)) d n allTrees T).result.sols

/-- The search under equality of opportunity. -/
def opportunitySearch (nF : Nat) (o : ParetoOptions) (limit : Rat) (d n : Nat) (allTrees : Bool) (T : Data) : List (PNode FairSol) :=
  (pSolve (o.cfg (opportunityTask nF limit T)) d n allTrees T).result.sols

/-! ### Values on a grid -/

/-- A value whose scores are multiples of `1 / L`. -/
structure OnGrid (L : Nat) (s : FairSol) : Prop where
  root : s.root = false
  mis : 0 ≤ s.mis
  g0 : ∃ z : Nat, s.g0 = (z : Rat) / L
  g1 : ∃ z : Nat, s.g1 = (z : Rat) / L

private theorem grid_le {L : Nat} (hL : 0 < L) (hs : L < 10000) {x y : Rat} (hx : ∃ z : Nat, x = (z : Rat) / L)
    (hy : ∃ z : Nat, y = (z : Rat) / L) : x ≤ y + fairEps ↔ x ≤ y := by
  obtain ⟨a, rfl⟩ := hx
  obtain ⟨b, rfl⟩ := hy
  have q : (0 : Rat) < L := by exact_mod_cast hL
  have q' : (L : Rat) < 10000 := by exact_mod_cast hs
  constructor
  · intro h
    rw [div_le_div_iff_of_pos_right q]
    by_contra hc
    have hc : b < a := by exact_mod_cast not_le.1 hc
    have hc : (b : Rat) + 1 ≤ a := by exact_mod_cast hc
    have h1 : ((b : Rat) + 1) / L ≤ (a : Rat) / L := (div_le_div_iff_of_pos_right q).2 hc
    have h2 : fairEps < 1 / (L : Rat) := by
      unfold fairEps
      exact one_div_lt_one_div_of_lt q q'
    rw [add_div] at h1
    linarith
  · intro h
    have : (0 : Rat) ≤ fairEps := by unfold fairEps; norm_num
    linarith

private theorem grid_dom {L : Nat} (hL : 0 < L) (hs : L < 10000) {a b : FairSol} (ha : OnGrid L a) (hb : OnGrid L b) :
    fairDom a b = true ↔ a.mis ≤ b.mis ∧ a.g0 ≤ b.g0 ∧ a.g1 ≤ b.g1 := by
  unfold fairDom
  rw [ha.root, hb.root]
  simp only [Bool.false_and, Bool.false_eq_true, if_false, Bool.and_eq_true, decide_eq_true_eq]
  rw [grid_le hL hs ha.g0 hb.g0, grid_le hL hs ha.g1 hb.g1, and_assoc]

theorem grid_key {L : Nat} (hL : 0 < L) (hs : L < 10000) {a b : FairSol} (ha : OnGrid L a) (hb : OnGrid L b)
    (h : fairOps.key a b = true) : a = b := by
  simp only [fairOps, fairEq, Bool.and_eq_true, decide_eq_true_eq, abs_le] at h
  obtain ⟨⟨⟨⟨⟨h1, h2⟩, h3⟩, h4⟩, _⟩, _⟩ := h
  have e0 : a.g0 = b.g0 := le_antisymm ((grid_le hL hs ha.g0 hb.g0).1 (by linarith [h2.1]))
    ((grid_le hL hs hb.g0 ha.g0).1 (by linarith [h2.2]))
  have e1 : a.g1 = b.g1 := le_antisymm ((grid_le hL hs ha.g1 hb.g1).1 (by linarith [h3.1]))
    ((grid_le hL hs hb.g1 ha.g1).1 (by linarith [h3.2]))
  cases a; cases b
  simp only at *
  subst e0 e1 h4 h1
  rfl

private theorem grid_add {L : Nat} {a b : FairSol} (ha : OnGrid L a) (hb : OnGrid L b) : OnGrid L (fairAdd a b) := by
  obtain ⟨x0, e0⟩ := ha.g0
  obtain ⟨x1, e1⟩ := ha.g1
  obtain ⟨y0, f0⟩ := hb.g0
  obtain ⟨y1, f1⟩ := hb.g1
  exact ⟨rfl, add_nonneg ha.mis hb.mis, ⟨x0 + y0, by simp only [fairAdd, e0, f0]; push_cast; ring⟩,
    ⟨x1 + y1, by simp only [fairAdd, e1, f1]; push_cast; ring⟩⟩

private theorem grid_nonneg {L : Nat} {a : FairSol} (ha : OnGrid L a) : 0 ≤ a.g0 ∧ 0 ≤ a.g1 := by
  obtain ⟨x0, e0⟩ := ha.g0
  obtain ⟨x1, e1⟩ := ha.g1
  rw [e0, e1]
  constructor <;> positivity

private theorem legal_fair (nF size : Nat) (limit : Rat) (leaf : Data → Nat → FairSol) (worst : Nat → FairSol) (mls : Nat)
    (t : Tree) (D : Data) :
    t.Legal (fairTask nF size limit leaf worst).prob mls D ↔ t.Legal (accuracy nF 2) mls D ∧ t.Avoids 0 := by
  induction t generalizing D with
  | leaf k => simp [Tree.Legal, Tree.Avoids, PTask.prob, fairTask, accuracy]
  | node f l r ihl ihr =>
    simp only [Tree.Legal, Tree.Avoids, ihl, ihr]
    have e : (fairTask nF size limit leaf worst).prob.may f = true ↔ f ≠ 0 := by
      simp [PTask.prob, fairTask, fairMay, Nat.pos_iff_ne_zero]
    have e2 : (accuracy nF 2).may f = true := rfl
    have e3 : (fairTask nF size limit leaf worst).prob.nF = (accuracy nF 2).nF := rfl
    rw [e, e3]
    simp only [e2]
    tauto

private theorem legal_over' {nF mls : Nat} {t : Tree} {D : Data} (h : t.Legal (accuracy nF 2) mls D) : t.Over nF 2 := by
  induction t generalizing D with
  | leaf k => exact h.1
  | node f l r ihl ihr => exact ⟨h.1, ihl h.2.2.1, ihr h.2.2.2⟩

private theorem eval_fair (nF size : Nat) (limit : Rat) (leaf : Data → Nat → FairSol) (worst : Nat → FairSol) (t : Tree) (D : Data) :
    (fairTask nF size limit leaf worst).eval t D = evalTree fairAdd leaf t D := by
  induction t generalizing D with
  | leaf k => rfl
  | node f l r ihl ihr => rw [PTask.eval, ihl, ihr]; rfl

/-- What both tasks share: scores on a grid, at most 1 in a leaf, and of constant sum. -/
structure FairLeaf (nF : Nat) (limit : Rat) (T : Data) (L : Nat) (leaf : Data → Nat → FairSol) (disc : Tree → Data → Rat) : Prop where
  grid : ∀ D k, OnGrid L (leaf D k)
  cap : ∀ D k, ViewOf T D → (leaf D k).g0 ≤ 1 ∧ (leaf D k).g1 ≤ 1
  mis : ∀ t : Tree, t.Over nF 2 → (evalTree fairAdd leaf t T).mis = misclassified t T
  exact : ∀ t : Tree, t.Over nF 2 → (fairAccepts limit (evalTree fairAdd leaf t T) = true ↔ disc t T ≤ limit)
  sum : ∃ W : Data → Rat, (∀ f D, W (without f D) + W (having f D) = W D) ∧ ∀ D k, (leaf D k).g0 + (leaf D k).g1 = W D
  pos : 0 < L
  small : L < 10000

section
variable {nF : Nat} {o : ParetoOptions} {limit : Rat} {T : Data} {L : Nat} {leaf : Data → Nat → FairSol} {worst : Nat → FairSol}
  {disc : Tree → Data → Rat}

theorem fair_grid (hf : FairLeaf nF limit T L leaf disc) {D : Data} {s : FairSol}
    (h : PVal (o.cfg (fairTask nF T.length limit leaf worst)) D s) : OnGrid L s := by
  obtain ⟨t, -, rfl⟩ := h
  rw [show (o.cfg (fairTask nF T.length limit leaf worst)).T = fairTask nF T.length limit leaf worst from rfl, eval_fair]
  induction t generalizing D with
  | leaf k => exact hf.grid D k
  | node f l r ihl ihr => exact grid_add ihl ihr

theorem fair_eq (hf : FairLeaf nF limit T L leaf disc) {D : Data} {a b : FairSol}
    (ha : PVal (o.cfg (fairTask nF T.length limit leaf worst)) D a) (hb : PVal (o.cfg (fairTask nF T.length limit leaf worst)) D b) :
    fairEq a b = true ↔ a = b := by
  constructor
  · intro h
    simp only [fairEq, Bool.and_eq_true, decide_eq_true_eq, abs_le] at h
    obtain ⟨⟨⟨h1, h2⟩, h3⟩, h4⟩ := h
    have ga := fair_grid hf ha
    have gb := fair_grid hf hb
    have e0 : a.g0 = b.g0 := le_antisymm ((grid_le hf.pos hf.small ga.g0 gb.g0).1 (by linarith [h2.2]))
      ((grid_le hf.pos hf.small gb.g0 ga.g0).1 (by linarith [h2.1]))
    have e1 : a.g1 = b.g1 := le_antisymm ((grid_le hf.pos hf.small ga.g1 gb.g1).1 (by linarith [h3.2]))
      ((grid_le hf.pos hf.small gb.g1 ga.g1).1 (by linarith [h3.1]))
    cases a; cases b
    simp only at *
    subst e0 e1 h4 h1
    rfl
  · rintro rfl
    simp only [fairEq, sub_self, Bool.and_eq_true, decide_eq_true_eq, abs_zero]
    have : (0 : Rat) ≤ fairEps := by unfold fairEps; norm_num
    simp [this]

theorem fair_dom (hf : FairLeaf nF limit T L leaf disc) {D D' : Data} {a b : FairSol}
    (ha : PVal (o.cfg (fairTask nF T.length limit leaf worst)) D a) (hb : PVal (o.cfg (fairTask nF T.length limit leaf worst)) D' b) :
    fairDom a b = true ↔ a.mis ≤ b.mis ∧ a.g0 ≤ b.g0 ∧ a.g1 ≤ b.g1 :=
  grid_dom hf.pos hf.small (fair_grid hf ha) (fair_grid hf hb)

/-- The sum of the two scores does not depend on the tree. -/
theorem fair_sum (hf : FairLeaf nF limit T L leaf disc) : ∃ W : Data → Rat, ∀ (t : Tree) (D : Data),
    (evalTree fairAdd leaf t D).g0 + (evalTree fairAdd leaf t D).g1 = W D := by
  obtain ⟨W, h1, h2⟩ := hf.sum
  refine ⟨W, fun t => ?_⟩
  induction t with
  | leaf k => exact fun D => h2 D k
  | node f l r ihl ihr =>
    intro D
    rw [← h1 f D, ← ihl, ← ihr]
    simp only [evalTree, fairAdd]
    ring

/-- Fair values at the root are compared by their misclassifications. -/
theorem fair_score (hT : 0 < T.length) {a b : FairSol} (ha : fairAccepts limit a = true) (hb : fairAccepts limit b = true) :
    fairDomD0 limit T.length a b = true ↔ a.mis ≤ b.mis := by
  have hT0 : (0 : Rat) < (T.length : Rat) := by exact_mod_cast hT
  simp only [fairDomD0, fairScore, ha, hb, if_true, decide_eq_true_eq]
  rw [div_le_div_iff_of_pos_right hT0]
  constructor
  · intro h
    have h : ((T.length : Int) - b.mis : Int) ≤ ((T.length : Int) - a.mis : Int) := by exact_mod_cast h
    omega
  · intro h
    have h : ((T.length : Int) - b.mis : Int) ≤ ((T.length : Int) - a.mis : Int) := by omega
    exact_mod_cast h

/-- Without bounds and depth-two solver the search under a fairness constraint is as it should be. -/
theorem fair_pgood (hf : FairLeaf nF limit T L leaf disc) (hlim : 0 ≤ limit) (hids : IdSorted T)
    (hord : ∀ D f, f ∈ o.order D ↔ f < nF) (hm : 1 ≤ o.mls) (hT : 0 < T.length)
    (hlb : o.useLB = false) (hub : o.useUB = false) (hterm : o.useTerm = false) :
    PGood (o.cfg (fairTask nF T.length limit leaf worst)) T := by
  have grid : ∀ D s, PVal (o.cfg (fairTask nF T.length limit leaf worst)) D s → OnGrid L s := fun _ _ h => fair_grid hf h
  have hcap := hf.cap
  have hL := hf.pos
  have hs := hf.small
  have score : ∀ a b, fairAccepts limit a = true → fairAccepts limit b = true →
      (fairDomD0 limit T.length a b = true ↔ a.mis ≤ b.mis) := fun _ _ => fair_score hT
  generalize hc : o.cfg (fairTask nF T.length limit leaf worst) = c at grid ⊢
  have hcT : c.T = fairTask nF T.length limit leaf worst := by rw [← hc]; rfl
  have hcm : c.mls = o.mls := by rw [← hc]; rfl
  have hdom : ∀ a b, c.T.o.dom a b = fairDom a b := by intro a b; rw [hcT]; rfl
  have hok : ∀ a, c.T.ok a = fairAccepts limit a := by intro a; rw [hcT]; rfl
  have hd0 : ∀ a b, c.T.domD0 a b = fairDomD0 limit T.length a b := by intro a b; rw [hcT]; rfl
  have hkey : c.T.o.key = fairOps.key := by rw [hcT]; rfl
  have acc : ∀ a : FairSol, fairAccepts limit a = true ↔ a.g0 ≤ limit + 1 ∧ a.g1 ≤ limit + 1 := by
    intro a
    simp only [fairAccepts, decide_eq_true_eq, sub_le_iff_le_add, max_le_iff]
  refine ⟨?_, ?_, ?_, ?_, ?_, ?_, ?_, ?_, by rw [hcT]; exact Nat.zero_lt_two, by rw [hcm]; exact hm, by rw [← hc]; exact hub,
    by rw [← hc]; exact hlb, by rw [← hc]; exact hterm, by rw [← hc]; exact hord, by rw [← hc]; exact fun _ => rfl, hids⟩
  · intro D _
    refine ⟨?_, ?_, ?_⟩
    · intro a ha
      rw [hdom, grid_dom hL hs (grid D a ha) (grid D a ha)]
      exact ⟨le_refl _, le_refl _, le_refl _⟩
    · intro a b e ha hb he h1 h2
      rw [hdom, grid_dom hL hs (grid D a ha) (grid D b hb)] at h1
      rw [hdom, grid_dom hL hs (grid D b hb) (grid D e he)] at h2
      rw [hdom, grid_dom hL hs (grid D a ha) (grid D e he)]
      exact ⟨le_trans h1.1 h2.1, le_trans h1.2.1 h2.2.1, le_trans h1.2.2 h2.2.2⟩
    · intro a b ha hb h
      rw [hkey] at h
      have e := grid_key hL hs (grid D a ha) (grid D b hb) h
      subst e
      rw [hdom, grid_dom hL hs (grid D a ha) (grid D a ha)]
      exact ⟨le_refl _, le_refl _, le_refl _⟩
  · refine ⟨?_, ?_, ?_⟩
    · intro a _
      rw [hd0]; simp [fairDomD0]
    · intro a b e _ _ _ h1 h2
      rw [hd0] at *
      simp only [fairDomD0, decide_eq_true_eq] at *
      exact le_trans h2 h1
    · intro a b ha hb h
      rw [hkey] at h
      have e := grid_key hL hs (grid T a ha) (grid T b hb) h
      subst e
      rw [hd0]; simp [fairDomD0]
  · intro D f a a' b b' _ ha ha' hb hb' h1 h2
    rw [hdom, grid_dom hL hs (grid _ _ ha) (grid _ _ ha')] at h1
    rw [hdom, grid_dom hL hs (grid _ _ hb) (grid _ _ hb')] at h2
    rw [hcT]
    refine (grid_dom hL hs (grid_add (grid _ _ ha) (grid _ _ hb)) (grid_add (grid _ _ ha') (grid _ _ hb'))).2 ?_
    exact ⟨add_le_add h1.1 h2.1, add_le_add h1.2.1 h2.2.1, add_le_add h1.2.2 h2.2.2⟩
  · intro D a b _ ha hb h
    have hr := (grid D a ha).root
    rw [hcT] at h
    simp only [fairTask, fairOps, fairEq, Bool.and_eq_true, decide_eq_true_eq] at h
    rw [hr] at h
    exact absurd h.2 (by simp)
  · intro a b ha hb oa ob h
    rw [hok] at oa ob
    rw [hd0, score a b oa ob]
    rw [hdom, grid_dom hL hs (grid _ _ ha) (grid _ _ hb)] at h
    exact h.1
  · intro D f a b _ ha hb h
    rw [hok, acc] at *
    rw [hcT] at h
    have na := grid_nonneg (grid _ _ ha)
    have nb := grid_nonneg (grid _ _ hb)
    simp only [fairTask, fairAdd] at h
    rw [hok, acc]
    refine ⟨⟨?_, ?_⟩, ⟨?_, ?_⟩⟩ <;> linarith [h.1, h.2, na.1, na.2, nb.1, nb.2]
  · intro D a b _ ha hb h ob
    rw [hdom, grid_dom hL hs (grid _ _ ha) (grid _ _ hb)] at h
    rw [hok, acc] at *
    exact ⟨le_trans h.2.1 ob.1, le_trans h.2.2 ob.2⟩
  · intro D k hv _
    rw [hok, acc, hcT]
    have := hcap D k hv
    simp only [fairTask]
    constructor <;> linarith [this.1, this.2]

theorem fair_total : ∀ a b, (o.cfg (fairTask nF T.length limit leaf worst)).T.domD0 a b = true ∨
    (o.cfg (fairTask nF T.length limit leaf worst)).T.domD0 b a = true := by
  intro a b
  simp only [ParetoOptions.cfg, fairTask, fairDomD0, decide_eq_true_eq]
  exact le_total _ _

theorem fair_legal (t : Tree) (D : Data) : t.Legal (o.cfg (fairTask nF T.length limit leaf worst)).T.prob o.mls D ↔
    t.Legal (accuracy nF 2) o.mls D ∧ t.Avoids 0 := legal_fair _ _ _ _ _ _ t D

theorem fair_eval (t : Tree) (D : Data) :
    (o.cfg (fairTask nF T.length limit leaf worst)).T.eval t D = evalTree fairAdd leaf t D := eval_fair _ _ _ _ _ t D

theorem fair_over {mls : Nat} {t : Tree} {D : Data} (h : t.Legal (accuracy nF 2) mls D) : t.Over nF 2 := legal_over' h

theorem fair_search {d n : Nat} (allTrees : Bool) (hf : FairLeaf nF limit T L leaf disc) (hlim : 0 ≤ limit) (hids : IdSorted T)
    (hord : ∀ D f, f ∈ o.order D ↔ f < nF) (hm : 1 ≤ o.mls) (hsz : o.mls ≤ T.length) (hn : n + 1 ≤ 2 ^ d)
    (hlb : o.useLB = false) (hub : o.useUB = false) (hterm : o.useTerm = false) :
    FairBest disc limit nF o.mls d n T (pSolve (o.cfg (fairTask nF T.length limit leaf worst)) d n allTrees T).result.sols := by
  have hT : 0 < T.length := by omega
  obtain ⟨m, e, ⟨t, h1, h2, h3, h4⟩, hb⟩ := pSolve_best (fair_pgood (worst := worst) hf hlim hids hord hm hT hlb hub hterm)
    (fun a b _ _ => fair_total a b) hsz d n hn allTrees
  have hl := (fair_legal t T).1 h1.2.2
  have ho := legal_over' hl.1
  rw [fair_eval] at h2
  have em : m.sol.mis = misclassified t T := by rw [← h2]; exact hf.mis t ho
  refine ⟨m, t, e, ⟨⟨h1.1, h1.2.1, hl.1⟩, hl.2, ?_⟩, em, h3.symm, ?_⟩
  · rw [← hf.exact t ho, h2]; exact h4
  · intro t' ht'
    have ho' := legal_over' ht'.1.2.2
    have oa : fairAccepts limit (evalTree fairAdd leaf t' T) = true := (hf.exact t' ho').2 ht'.2.2
    have h := hb t' ⟨ht'.1.1, ht'.1.2.1, (fair_legal t' T).2 ⟨ht'.1.2.2, ht'.2.1⟩⟩ (by rw [fair_eval]; exact oa)
    rw [fair_eval] at h
    have h := (fair_score hT h4 oa).1 h
    rw [em, hf.mis t' ho'] at h
    exact_mod_cast h

end

private theorem frac_grid {n L : Nat} (hn : 0 < n) (hd : n ∣ L) (hL : 0 < L) (x : Nat) : ∃ z : Nat, (x : Rat) / n = (z : Rat) / L := by
  obtain ⟨k, rfl⟩ := hd
  have hk : 0 < k := Nat.pos_of_mul_pos_left hL
  have q : (n : Rat) ≠ 0 := by exact_mod_cast hn.ne'
  have q' : (k : Rat) ≠ 0 := by exact_mod_cast hk.ne'
  exact ⟨x * k, by push_cast; field_simp⟩

private theorem group_le {T D : Data} (x : Bool) (h : D.Sublist T) : groupSize x D ≤ groupSize x T := by
  rw [groupSize_countP, groupSize_countP]
  exact h.countP_le

private theorem frac_le {a n : Nat} (hn : 0 < n) (h : a ≤ n) : (a : Rat) / n ≤ 1 := by
  rw [div_le_one (by exact_mod_cast hn)]
  exact_mod_cast h

/-- Training data with both groups present and group sizes within the tolerance; `m0`, `m1` are the sizes that count. -/
structure FairInput (m0 m1 : Nat) (T : Data) : Prop where
  labels : ∀ i ∈ T, i.label < 2
  pos0 : 0 < m0
  pos1 : 0 < m1
  small : Nat.lcm m0 m1 < 10000
  ids : IdSorted T

private theorem group_split (x : Bool) (f : Nat) (D : Data) : groupSize x (without f D) + groupSize x (having f D) = groupSize x D := by
  rw [groupSize_countP, groupSize_countP, groupSize_countP]
  unfold without having
  rw [List.countP_filter, List.countP_filter]
  induction D with
  | nil => rfl
  | cons i D ih =>
    simp only [List.countP_cons]
    cases i.feat f <;> cases i.feat 0 == x <;> simp <;> omega

theorem parity_leaf {nF : Nat} {limit : Rat} {T : Data}
    (hT : FairInput (T.countP fun i => i.feat 0 == false) (T.countP fun i => i.feat 0 == true) T) :
    FairLeaf nF limit T (Nat.lcm (groupSize false T) (groupSize true T)) (gfLeaf (gfGroups T)) parityGap := by
  have p0 := hT.pos0
  have p1 := hT.pos1
  have sm := hT.small
  rw [← groupSize_countP] at p0 p1 sm
  rw [← groupSize_countP] at sm
  have hL : 0 < Nat.lcm (groupSize false T) (groupSize true T) := Nat.lcm_pos p0 p1
  have e : ∀ D : Data, ((D.length : Int) - (groupSize false D : Int)) = (groupSize true D : Int) := by
    intro D; have := group_compl D; omega
  refine ⟨?_, ?_, ?_, ?_, ?_, hL, sm⟩
  · intro D k
    have a := frac_grid p0 (Nat.dvd_lcm_left _ (groupSize true T)) hL (groupSize false D)
    have b := frac_grid p1 (Nat.dvd_lcm_right (groupSize false T) _) hL (groupSize true D)
    by_cases hk : k = 0
    · simp only [gfLeaf, hk, ne_eq, not_true_eq_false, if_false, e, gfGroups, Int.cast_natCast]
      exact ⟨rfl, by simp, b, a⟩
    · simp only [gfLeaf, hk, ne_eq, not_false_eq_true, if_true, e, gfGroups, Int.cast_natCast]
      exact ⟨rfl, by simp, a, b⟩
  · intro D k hv
    have a := frac_le p0 (group_le false hv)
    have b := frac_le p1 (group_le true hv)
    by_cases hk : k = 0
    · simp only [gfLeaf, hk, ne_eq, not_true_eq_false, if_false, e, gfGroups, Int.cast_natCast]
      exact ⟨b, a⟩
    · simp only [gfLeaf, hk, ne_eq, not_false_eq_true, if_true, e, gfGroups, Int.cast_natCast]
      exact ⟨a, b⟩
  · intro t ht
    exact fair_mis_tree _ (by intro D k; by_cases hk : k = 0 <;> simp [gfLeaf, hk]) t ht T hT.labels
  · intro t ht
    exact parity_exact t ht T limit (by have := hT.pos0; rw [List.countP_pos_iff] at this; simpa using this)
      (by have := hT.pos1; rw [List.countP_pos_iff] at this; simpa using this)
  · refine ⟨fun D => (groupSize false D : Rat) / groupSize false T + (groupSize true D : Rat) / groupSize true T, ?_, ?_⟩
    · intro f D
      simp only
      rw [← group_split false f D, ← group_split true f D]
      push_cast
      ring
    · intro D k
      by_cases hk : k = 0
      · simp only [gfLeaf, hk, ne_eq, not_true_eq_false, if_false, e, gfGroups, Int.cast_natCast]
        ring
      · simp only [gfLeaf, hk, ne_eq, not_false_eq_true, if_true, e, gfGroups, Int.cast_natCast]

/-- C60 for demographic parity, proved for searches without bounds and without the depth-two solver, and for group sizes whose
least common multiple is below 10000. Missing: the default options, for which it is false (`parity_search_not_optimal`). -/
theorem parity_search_optimal_partial {nF : Nat} {o : ParetoOptions} {limit : Rat} {d n : Nat} (allTrees : Bool) {T : Data}
    (hT : FairInput (T.countP fun i => i.feat 0 == false) (T.countP fun i => i.feat 0 == true) T) (hlim : 0 ≤ limit)
    (hord : ∀ D f, f ∈ o.order D ↔ f < nF) (hm : 1 ≤ o.mls) (hsz : o.mls ≤ T.length) (hn : n + 1 ≤ 2 ^ d)
    (hlb : o.useLB = false) (hub : o.useUB = false) (hterm : o.useTerm = false) :
    FairBest parityGap limit nF o.mls d n T (paritySearch nF o limit d n allTrees T) :=
  fair_search allTrees (parity_leaf hT) hlim hT.ids hord hm hsz hn hlb hub hterm

theorem opportunity_leaf {nF : Nat} {limit : Rat} {T : Data}
    (hT : FairInput (T.countP fun i => i.feat 0 == false && i.label == 1) (T.countP fun i => i.feat 0 == true && i.label == 1) T) :
    FairLeaf nF limit T (Nat.lcm (groupSize false (positives T)) (groupSize true (positives T))) (eoLeaf (eoGroups T)) opportunityGap := by
  have gp : ∀ (x : Bool) (D : Data), groupSize x (positives D) = D.countP fun i => i.feat 0 == x && i.label == 1 := by
    intro x D
    rw [groupSize_countP]
    unfold positives
    rw [List.countP_filter]
    congr 1
  have p0 := hT.pos0
  have p1 := hT.pos1
  have sm := hT.small
  rw [← gp] at p0 p1 sm
  rw [← gp] at sm
  have hL : 0 < Nat.lcm (groupSize false (positives T)) (groupSize true (positives T)) := Nat.lcm_pos p0 p1
  have e : ∀ D : Data, ((numLabel D 1 : Int) - (groupSize false (positives D) : Int)) = (groupSize true (positives D) : Int) := by
    intro D
    have := group_compl (positives D)
    rw [show (positives D).length = numLabel D 1 from rfl] at this
    omega
  have sub : ∀ {D : Data}, D.Sublist T → (positives D).Sublist (positives T) := fun h => h.filter _
  refine ⟨?_, ?_, ?_, ?_, ?_, hL, sm⟩
  · intro D k
    have a := frac_grid p0 (Nat.dvd_lcm_left _ (groupSize true (positives T))) hL (groupSize false (positives D))
    have b := frac_grid p1 (Nat.dvd_lcm_right (groupSize false (positives T)) _) hL (groupSize true (positives D))
    by_cases hk : k = 0
    · simp only [eoLeaf, hk, ne_eq, not_true_eq_false, if_false, e, eoGroups, Int.cast_natCast]
      exact ⟨rfl, by simp, b, a⟩
    · simp only [eoLeaf, hk, ne_eq, not_false_eq_true, if_true, e, eoGroups, Int.cast_natCast]
      exact ⟨rfl, by simp, a, b⟩
  · intro D k hv
    have a := frac_le p0 (group_le false (sub hv))
    have b := frac_le p1 (group_le true (sub hv))
    by_cases hk : k = 0
    · simp only [eoLeaf, hk, ne_eq, not_true_eq_false, if_false, e, eoGroups, Int.cast_natCast]
      exact ⟨b, a⟩
    · simp only [eoLeaf, hk, ne_eq, not_false_eq_true, if_true, e, eoGroups, Int.cast_natCast]
      exact ⟨a, b⟩
  · intro t ht
    exact fair_mis_tree _ (by intro D k; by_cases hk : k = 0 <;> simp [eoLeaf, hk]) t ht T hT.labels
  · intro t ht
    exact opportunity_exact t ht T limit (by have := hT.pos0; rw [List.countP_pos_iff] at this; simpa using this)
      (by have := hT.pos1; rw [List.countP_pos_iff] at this; simpa using this)
  · refine ⟨fun D => (groupSize false (positives D) : Rat) / groupSize false (positives T) +
      (groupSize true (positives D) : Rat) / groupSize true (positives T), ?_, ?_⟩
    · intro f D
      have q : ∀ x, groupSize x (positives (without f D)) + groupSize x (positives (having f D)) = groupSize x (positives D) := by
        intro x
        rw [← group_split x f (positives D)]
        unfold positives without having
        simp only [List.filter_filter, Bool.and_comm]
      simp only
      rw [← q false, ← q true]
      push_cast
      ring
    · intro D k
      by_cases hk : k = 0
      · simp only [eoLeaf, hk, ne_eq, not_true_eq_false, if_false, e, eoGroups, Int.cast_natCast]
        ring
      · simp only [eoLeaf, hk, ne_eq, not_false_eq_true, if_true, e, eoGroups, Int.cast_natCast]

/-- C60 for equality of opportunity, proved for searches without bounds and without the depth-two solver, and for numbers of
positives in the groups whose least common multiple is below 10000. Missing: the default options, for which it is false
(`opportunity_search_not_optimal`). -/
theorem opportunity_search_optimal_partial {nF : Nat} {o : ParetoOptions} {limit : Rat} {d n : Nat} (allTrees : Bool) {T : Data}
    (hT : FairInput (T.countP fun i => i.feat 0 == false && i.label == 1) (T.countP fun i => i.feat 0 == true && i.label == 1) T)
    (hlim : 0 ≤ limit) (hord : ∀ D f, f ∈ o.order D ↔ f < nF) (hm : 1 ≤ o.mls) (hsz : o.mls ≤ T.length) (hn : n + 1 ≤ 2 ^ d)
    (hlb : o.useLB = false) (hub : o.useUB = false) (hterm : o.useTerm = false) :
    FairBest opportunityGap limit nF o.mls d n T (opportunitySearch nF o limit d n allTrees T) :=
  fair_search allTrees (opportunity_leaf hT) hlim hT.ids hord hm hsz hn hlb hub hterm

/-- A value that is not the best refutes C60. -/
theorem not_fair_best {disc : Tree → Data → Rat} {limit : Rat} {nF mls d n : Nat} {T : Data} {r : List (PNode FairSol)}
    {s : FairSol} {k : Nat} (t' : Tree) (hr : r = [⟨s, k⟩]) (h1 : Within nF mls d n T t') (h2 : t'.Avoids 0) (h3 : disc t' T ≤ limit)
    (hlt : (misclassified t' T : Int) < s.mis) : ¬ FairBest disc limit nF mls d n T r := by
  rintro ⟨m, t, e, _, h4, _, h5⟩
  rw [hr] at e
  have e := List.head_eq_of_cons_eq e
  subst e
  simp only at h4
  have h6 := h5 t' ⟨h1, h2, h3⟩
  omega

/-- Six instances with four features. -/
def parityRows : Data := rowsOf [(5, 0), (5, 0), (0, 1), (7, 1), (7, 1), (12, 1)]

/-- Seven instances with four features. -/
def opportunityRows : Data := rowsOf [(6, 1), (0, 1), (10, 1), (10, 1), (3, 0), (1, 1), (1, 1)]

set_option maxRecDepth 100000 in
/-- C60 fails for demographic parity with the default options and limit 1/2 at depth 3: the search ends with one
misclassification, but a tree within the limits has none and discrimination 1/2. -/
theorem parity_search_not_optimal :
    ∃ T : Data, FairInput (T.countP fun i => i.feat 0 == false) (T.countP fun i => i.feat 0 == true) T ∧
      ¬ FairBest parityGap (1 / 2) 4 1 3 7 T (paritySearch 4 (paretoDefault 4) (1 / 2) 3 7 false T) :=
  ⟨parityRows, ⟨by decide, by decide, by decide, by decide, by unfold IdSorted; decide⟩,
    not_fair_best (s := ⟨1, 1, 1, false⟩) (k := 2) (.node 1 (.node 2 (.leaf 1) (.node 3 (.leaf 0) (.leaf 1))) (.leaf 1))
      (by decide +kernel) (by decide +kernel) (by decide) (by decide +kernel) (by decide +kernel)⟩

set_option maxRecDepth 100000 in
/-- C60 fails for equality of opportunity with the default options and limit 0 at depth 3: the search ends with a leaf and one
misclassification, but a tree within the limits makes no mistake. -/
theorem opportunity_search_not_optimal :
    ∃ T : Data, FairInput (T.countP fun i => i.feat 0 == false && i.label == 1)
        (T.countP fun i => i.feat 0 == true && i.label == 1) T ∧
      ¬ FairBest opportunityGap 0 4 1 3 7 T (opportunitySearch 4 (paretoDefault 4) 0 3 7 false T) :=
  ⟨opportunityRows, ⟨by decide, by decide, by decide, by decide, by unfold IdSorted; decide⟩,
    not_fair_best (s := ⟨1, 1, 1, false⟩) (k := 0) (.node 1 (.leaf 1) (.node 2 (.node 3 (.leaf 0) (.leaf 1)) (.leaf 1)))
      (by decide +kernel) (by decide +kernel) (by decide) (by decide +kernel) (by decide +kernel)⟩

/-- The cause: with an empty upper bound, subtracting a solution gives a bound that cuts off a value with group scores above 1, although
scores go up to 2. -/
theorem fair_extremes_wrong : ∃ s : FairSol, fairAccepts 1 s = true ∧
    (Front.subtractUBs fairOps fairSub fairExtremes maxFront Front.empty ⟨[⟨⟨0, 0, 0, false⟩, 0⟩], []⟩).map
      (fun U => U.strictDominates fairOps s) = some true :=
  ⟨⟨0, 3 / 2, 1 / 2, false⟩, by decide +kernel, by decide +kernel⟩

/-- The hypotheses of the two theorems are met by the data of the counterexamples; without bounds the search finds the better trees. -/
example : FairInput (parityRows.countP fun i => i.feat 0 == false) (parityRows.countP fun i => i.feat 0 == true) parityRows ∧
    (paritySearch 4 { paretoDefault 4 with useLB := false, useUB := false, useTerm := false, order := fun _ => List.range 4 }
      (1 / 2) 3 7 false parityRows).map (fun m => (m.sol.mis, m.size)) = [(0, 3)] :=
  ⟨⟨by decide, by decide, by decide, by decide, by unfold IdSorted; decide⟩, by decide +kernel⟩

example : FairInput (opportunityRows.countP fun i => i.feat 0 == false && i.label == 1)
      (opportunityRows.countP fun i => i.feat 0 == true && i.label == 1) opportunityRows ∧
    (opportunitySearch 4 { paretoDefault 4 with useLB := false, useUB := false, useTerm := false, order := fun _ => List.range 4 }
      0 3 7 false opportunityRows).map (fun m => (m.sol.mis, m.size)) = [(0, 3)] :=
  ⟨⟨by decide, by decide, by decide, by decide, by unfold IdSorted; decide⟩, by decide +kernel⟩

end Streed
