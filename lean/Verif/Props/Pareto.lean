import Verif.Lemmas.Pareto
import Verif.Props.Tasks
import Verif.Props.Queue
import Verif.Props.Preprocess

/-!
# C59: the search for the best F1-score

The search for partially ordered tasks keeps fronts of (false negatives, false positives) and compares scores only at the
root. Without bounds and without the depth-two solver the result is the best F1-score of all trees within the limits
(`f1_search_optimal_partial`), for every caching setting, feature order, node limit and minimum leaf size.

It fails for the default options: `f1_search_not_optimal`. The upper bound is tested with the quantifiers the wrong way
round (solver.cpp:588, optimization_utils.h:252-262): a whole front is dropped if each member of the bound is better than
*some* of its members. `f1_general_not_optimal`: it fails in the same way without the depth-two solver, where fronts cut
off by one upper bound are stored as complete. `f1_node_limit_not_optimal` and `f1_leaf_size_not_optimal`: node limits and
minimum leaf sizes.
-/

namespace Streed

/-- The F1-score of a tree: `2 TP / (2 TP + FP + FN)`. -/
def f1Of (t : Tree) (D : Data) : Rat :=
  2 * (truePositives t D : Rat) / (2 * truePositives t D + falsePositives t D + falseNegatives t D)

/-- The trees within the limits: depth, branching nodes, instances per leaf; binary labels and `nF` features. -/
def Within (nF mls d n : Nat) (D : Data) (t : Tree) : Prop := Allowed (accuracy nF 2) mls d n D t

instance (nF mls d n : Nat) (D : Data) (t : Tree) : Decidable (Within nF mls d n D t) := by
  unfold Within; infer_instance

/-- Options of the search. -/
structure ParetoOptions where
  mls : Nat
  useLB : Bool
  useUB : Bool
  subUB : Bool
  simLB : Bool
  useTerm : Bool
  useBr : Bool
  useDs : Bool
  order : Data → List Nat

/-- The default options: features in the order of their Gini scores. -/
def paretoDefault (nF : Nat) : ParetoOptions := ⟨1, true, true, true, true, true, false, true, giniOrder nF 2⟩

/-- The search for a task; no feature is found redundant beforehand. -/
def ParetoOptions.cfg {S : Type} (o : ParetoOptions) (T : PTask S) : PCfg S where
  T := T
  mls := o.mls
  useLB := o.useLB
  useUB := o.useUB
  subUB := o.subUB
  simLB := o.simLB
  useTerm := o.useTerm
  useBr := o.useBr
  useDs := o.useDs
  order := o.order
  redundant := fun _ => false

/-- The search for the F1 task on training data `T`. -/
def f1Cfg (nF : Nat) (o : ParetoOptions) (T : Data) : PCfg F1Sol := o.cfg (f1Task nF (numLabel T 1))

/-- The values the search ends with. -/
def f1Search (nF : Nat) (o : ParetoOptions) (d n : Nat) (allTrees : Bool) (T : Data) : List (PNode F1Sol) :=
  (pSolve (f1Cfg nF o T) d n allTrees T).result.sols

/-- Training data: binary labels, at least one positive instance, ids increasing. -/
structure F1Input (T : Data) : Prop where
  labels : ∀ i ∈ T, i.label < 2
  pos : 0 < numLabel T 1
  ids : IdSorted T

/-- C59: the search ends with one value; it is that of a tree within the limits, and no tree within the limits has a better
F1-score. -/
def F1Best (nF mls d n : Nat) (T : Data) (r : List (PNode F1Sol)) : Prop :=
  ∃ m t, r = [m] ∧ Within nF mls d n T t ∧ m.sol = ⟨falseNegatives t T, falsePositives t T⟩ ∧ m.size = t.nodes ∧
    ∀ t', Within nF mls d n T t' → f1Of t' T ≤ f1Of t T

/-- A score with a default. -/
private def score (pos : Nat) (s : F1Sol) : Rat := (f1Score pos s).getD 0

private theorem legal_iff (nF pos : Nat) (mls : Nat) (t : Tree) (D : Data) :
    t.Legal (f1Task nF pos).prob mls D ↔ t.Legal (accuracy nF 2) mls D := by
  induction t generalizing D with
  | leaf k => rfl
  | node f l r ihl ihr => simp only [Tree.Legal, ihl, ihr]; rfl

private theorem legal_over {nF mls : Nat} {t : Tree} {D : Data} (h : t.Legal (accuracy nF 2) mls D) : t.Over nF 2 := by
  induction t generalizing D with
  | leaf k => exact h.1
  | node f l r ihl ihr => exact ⟨h.1, ihl h.2.2.1, ihr h.2.2.2⟩

private theorem score_tree {nF : Nat} (t : Tree) (ht : t.Over nF 2) {T : Data} (hT : F1Input T) :
    score (numLabel T 1) (evalTree f1Add f1LeafCosts t T) = f1Of t T := by
  have h := tp_eq t ht T
  obtain ⟨s, h1, _, _, h2⟩ := f1_score t ht T hT.labels (by have := hT.pos; omega)
  rw [score, h1, Option.getD_some, h2, f1Of]

theorem f1_eval (nF pos : Nat) (t : Tree) (D : Data) : (f1Task nF pos).eval t D = evalTree f1Add f1LeafCosts t D := by
  induction t generalizing D with
  | leaf k => rfl
  | node f l r ihl ihr => rw [PTask.eval, ihl, ihr]; rfl

theorem f1_legal (nF : Nat) (o : ParetoOptions) (T : Data) (t : Tree) (D : Data) :
    t.Legal (f1Cfg nF o T).T.prob (f1Cfg nF o T).mls D ↔ t.Legal (accuracy nF 2) o.mls D := legal_iff nF _ _ t D

/-- The value of a tree on the data. -/
theorem f1_value {nF : Nat} {o : ParetoOptions} {T D : Data} (hT : F1Input T) (hD : ViewOf T D) {t : Tree}
    (ht : t.Legal (f1Cfg nF o T).T.prob (f1Cfg nF o T).mls D) :
    (f1Cfg nF o T).T.eval t D = ⟨falseNegatives t D, falsePositives t D⟩ := by
  have ht := legal_over ((f1_legal nF o T t D).1 ht)
  exact (f1_eval nF _ t D).trans (f1_tree t ht D fun i hi => hT.labels i (hD.subset hi))

/-- Values at the root are compared by their scores. -/
theorem f1_agree {nF : Nat} {o : ParetoOptions} {T : Data} (hT : F1Input T) {t t' : Tree}
    (ht : t.Legal (f1Cfg nF o T).T.prob (f1Cfg nF o T).mls T) (ht' : t'.Legal (f1Cfg nF o T).T.prob (f1Cfg nF o T).mls T) :
    (f1Cfg nF o T).T.domD0 ((f1Cfg nF o T).T.eval t T) ((f1Cfg nF o T).T.eval t' T) = decide (f1Of t' T ≤ f1Of t T) := by
  have o1 := legal_over ((f1_legal nF o T t T).1 ht)
  have o2 := legal_over ((f1_legal nF o T t' T).1 ht')
  have q1 := tp_eq t o1 T
  have q2 := tp_eq t' o2 T
  obtain ⟨s1, h1, _, _, h2⟩ := f1_score t o1 T hT.labels (by have := hT.pos; omega)
  obtain ⟨s2, h3, _, _, h4⟩ := f1_score t' o2 T hT.labels (by have := hT.pos; omega)
  rw [show (f1Cfg nF o T).T = f1Task nF (numLabel T 1) from rfl, f1_eval, f1_eval]
  simp only [f1Task, f1DomD0, h1, h3]
  rw [h2, h4]
  rfl

/-- Without bounds and depth-two solver the search for the F1 task is as it should be. -/
theorem f1_pgood {nF : Nat} {o : ParetoOptions} {T : Data} (hT : F1Input T) (hord : ∀ D f, f ∈ o.order D ↔ f < nF) (hm : 1 ≤ o.mls)
    (hlb : o.useLB = false) (hub : o.useUB = false) (hterm : o.useTerm = false) : PGood (f1Cfg nF o T) T := by
  refine ⟨?_, ?_, ?_, ?_, ?_, fun _ _ _ _ _ _ _ _ => ⟨rfl, rfl⟩, fun _ _ _ _ _ _ _ _ => rfl, fun _ _ _ _ => rfl,
    Nat.zero_lt_two, hm, hub, hlb, hterm, hord, fun _ => rfl, hT.ids⟩
  · intro D _
    exact ⟨fun a _ => f1_goodOrder.refl a, fun a b c _ _ _ => f1_goodOrder.trans a b c, fun a b _ _ => f1_goodOrder.key a b⟩
  · constructor
    · rintro a ⟨t, ht, rfl⟩; rw [f1_agree hT ht ht]; simp
    · rintro a b c ⟨t1, h1, rfl⟩ ⟨t2, h2, rfl⟩ ⟨t3, h3, rfl⟩ h4 h5
      rw [f1_agree hT h1 h2] at h4
      rw [f1_agree hT h2 h3] at h5
      rw [f1_agree hT h1 h3]
      simp only [decide_eq_true_eq] at *
      exact le_trans h5 h4
    · rintro a b ⟨t, ht, rfl⟩ _ h
      have h : _ = b := of_decide_eq_true h
      subst h
      rw [f1_agree hT ht ht]
      simp
  · intro D f a a' b b' _ _ _ _ _ h1 h2
    simp only [f1Cfg, ParetoOptions.cfg, f1Task, f1Ops, f1Add, Bool.and_eq_true, decide_eq_true_eq] at *
    omega
  · intro D a b hD ha hb h
    have h : (⟨0, 0⟩ : F1Sol) = a := of_decide_eq_true h
    subst h
    obtain ⟨t, ht, rfl⟩ := hb
    rw [f1_value hT hD ht]
    simp only [f1Cfg, ParetoOptions.cfg, f1Task, f1Ops, Bool.and_eq_true, decide_eq_true_eq]
    omega
  · rintro a b ⟨t, ht, rfl⟩ ⟨t', ht', rfl⟩ _ _ h
    rw [f1_value hT (List.Sublist.refl T) ht, f1_value hT (List.Sublist.refl T) ht'] at h ⊢
    have e1 := tp_eq t (legal_over ((f1_legal nF o T t T).1 ht)) T
    have e2 := tp_eq t' (legal_over ((f1_legal nF o T t' T).1 ht')) T
    obtain ⟨sa, ea⟩ := f1_defined (numLabel T 1) hT.pos ⟨falseNegatives t T, falsePositives t T⟩ (by simp only; omega)
      (by simp only; omega) (by simp only; omega)
    obtain ⟨sb, eb⟩ := f1_defined (numLabel T 1) hT.pos ⟨falseNegatives t' T, falsePositives t' T⟩ (by simp only; omega)
      (by simp only; omega) (by simp only; omega)
    have := f1_mono _ _ _ sa sb h (by simp only; omega) (by simp only; omega) (by simp only; omega) ea eb
    simp only [f1Cfg, ParetoOptions.cfg, f1Task, f1DomD0, ea, eb, decide_eq_true_eq]
    exact this

theorem f1_total {nF : Nat} {o : ParetoOptions} {T : Data} (hT : F1Input T) :
    ∀ a b, PVal (f1Cfg nF o T) T a → PVal (f1Cfg nF o T) T b →
      (f1Cfg nF o T).T.domD0 a b = true ∨ (f1Cfg nF o T).T.domD0 b a = true := by
  rintro a b ⟨t, ht, rfl⟩ ⟨t', ht', rfl⟩
  rw [f1_agree hT ht ht', f1_agree hT ht' ht]
  simp only [decide_eq_true_eq]
  exact le_total _ _

/-- C59, proved for searches without bounds and without the depth-two solver. Missing: the default options, for which it is
false (`f1_search_not_optimal`). -/
theorem f1_search_optimal_partial {nF : Nat} {o : ParetoOptions} {d n : Nat} (allTrees : Bool) {T : Data} (hT : F1Input T)
    (hord : ∀ D f, f ∈ o.order D ↔ f < nF) (hm : 1 ≤ o.mls) (hsz : o.mls ≤ T.length) (hn : n + 1 ≤ 2 ^ d)
    (hlb : o.useLB = false) (hub : o.useUB = false) (hterm : o.useTerm = false) :
    F1Best nF o.mls d n T (f1Search nF o d n allTrees T) := by
  have leg := f1_legal nF o T
  obtain ⟨m, e, ⟨t, h1, h2, h3, _⟩, hb⟩ := pSolve_best (f1_pgood hT hord hm hlb hub hterm) (f1_total hT) hsz d n hn allTrees
  refine ⟨m, t, e, ⟨h1.1, h1.2.1, (leg t T).1 h1.2.2⟩, ?_, h3.symm, ?_⟩
  · rw [← h2, f1_value hT (List.Sublist.refl T) h1.2.2]
  · intro t' ht'
    have ht2 := (leg t' T).2 ht'.2.2
    have h := hb t' ⟨ht'.1, ht'.2.1, ht2⟩ rfl
    rw [← h2, f1_agree hT h1.2.2 ht2] at h
    exact of_decide_eq_true h

/-- A value that is not the best refutes C59. -/
theorem not_best {nF mls d n : Nat} {T : Data} {r : List (PNode F1Sol)} {s : F1Sol} {k : Nat} (t' : Tree) (hT : F1Input T)
    (hr : r = [⟨s, k⟩]) (ht : Within nF mls d n T t') (hlt : score (numLabel T 1) s < f1Of t' T) : ¬ F1Best nF mls d n T r := by
  rintro ⟨m, t, e, ht1, h2, _, h4⟩
  rw [hr] at e
  have e := List.head_eq_of_cons_eq e
  subst e
  simp only at h2
  have h5 := h4 t' ht
  rw [← score_tree t (legal_over ht1.2.2) hT, f1_tree t (legal_over ht1.2.2) T hT.labels, ← h2] at h5
  exact absurd hlt (not_lt.2 h5)

/-- Instances from bit masks and labels. -/
def rowsOf (rows : List (Nat × Nat)) : Data := rows.zipIdx.map fun p => ⟨p.2, fun f => p.1.1.testBit f, p.1.2⟩

/-- Twenty-one instances with five features. -/
def f1Rows : Data := rowsOf [(13, 1), (13, 1), (15, 0), (15, 0), (15, 0), (16, 1), (16, 1), (24, 1), (30, 0), (30, 0), (30, 0),
  (30, 0), (31, 1), (31, 1), (31, 1), (11, 1), (11, 1), (18, 0), (22, 1), (22, 1), (22, 1)]

set_option maxRecDepth 100000 in
/-- C59 fails for the default options at depth 3: the search ends with 2 false negatives (F1-score 22/24), but a tree of the same
depth has one false negative and one false positive (24/26). -/
theorem f1_search_not_optimal : ∃ T : Data, F1Input T ∧ ¬ F1Best 5 1 3 7 T (f1Search 5 (paretoDefault 5) 3 7 false T) := by
  have hT : F1Input f1Rows := ⟨by decide, by decide, by unfold IdSorted; decide⟩
  exact ⟨f1Rows, hT, not_best (s := ⟨2, 0⟩) (k := 6)
    (.node 4 (.node 1 (.leaf 1) (.node 2 (.leaf 1) (.leaf 0))) (.node 0 (.node 3 (.leaf 1) (.leaf 0)) (.leaf 1)))
    hT (by decide +kernel) (by decide +kernel) (by decide +kernel)⟩

set_option maxRecDepth 100000 in
/-- C59 also fails without the depth-two solver, with features in the given order. -/
theorem f1_general_not_optimal : ∃ T : Data, F1Input T ∧ ¬ F1Best 4 1 3 7 T
    (f1Search 4 { paretoDefault 4 with useTerm := false, order := fun _ => List.range 4 } 3 7 false T) := by
  let T : Data := rowsOf [(11, 1), (8, 1), (12, 0), (9, 1), (14, 0), (6, 0), (14, 1), (6, 0), (15, 0)]
  have hT : F1Input T := ⟨by decide, by decide, by unfold IdSorted; decide⟩
  exact ⟨T, hT, not_best (s := ⟨1, 0⟩) (k := 3)
    (.node 0 (.node 1 (.node 2 (.leaf 1) (.leaf 0)) (.node 3 (.leaf 0) (.leaf 1))) (.node 1 (.leaf 1) (.node 2 (.leaf 1) (.leaf 0))))
    hT (by decide +kernel) (by decide +kernel) (by decide +kernel)⟩

/-- C59 fails with a limit of two nodes: the depth-two solver stops before it has seen all pairs of features. -/
theorem f1_node_limit_not_optimal : ∃ T : Data, F1Input T ∧ ¬ F1Best 3 1 2 2 T
    (f1Search 3 (paretoDefault 3) 2 2 false T) := by
  let T : Data := rowsOf [(0, 1), (4, 0), (4, 0), (3, 0), (1, 1)]
  have hT : F1Input T := ⟨by decide, by decide, by unfold IdSorted; decide⟩
  exact ⟨T, hT, not_best (s := ⟨0, 1⟩) (k := 2) (.node 1 (.node 2 (.leaf 1) (.leaf 0)) (.leaf 0))
    hT (by decide +kernel) (by decide +kernel) (by decide +kernel)⟩

set_option maxRecDepth 100000 in
/-- C59 fails with a minimum leaf size of two. -/
theorem f1_leaf_size_not_optimal : ∃ T : Data, F1Input T ∧ ¬ F1Best 4 2 3 7 T
    (f1Search 4 { paretoDefault 4 with mls := 2 } 3 7 false T) := by
  let T : Data := rowsOf [(11, 1), (2, 1), (5, 0), (7, 1), (14, 0), (12, 1), (5, 0), (7, 0), (8, 0), (15, 0)]
  have hT : F1Input T := ⟨by decide, by decide, by unfold IdSorted; decide⟩
  exact ⟨T, hT, not_best (s := ⟨1, 1⟩) (k := 3)
    (.node 1 (.node 0 (.leaf 1) (.leaf 0)) (.node 2 (.leaf 1) (.node 3 (.leaf 1) (.leaf 0))))
    hT (by decide +kernel) (by decide +kernel) (by decide +kernel)⟩

/-- The hypotheses of `f1_search_optimal_partial` are met: the data of `f1_search_not_optimal`, without bounds. The value is the
one that the default options miss. -/
example : F1Input f1Rows ∧ 1 ≤ f1Rows.length ∧ 7 + 1 ≤ 2 ^ 3 ∧
    f1Search 5 { paretoDefault 5 with useLB := false, useUB := false, useTerm := false, order := fun _ => List.range 5 } 3 7 false f1Rows =
      [⟨⟨1, 1⟩, 5⟩] :=
  ⟨⟨by decide, by decide, by unfold IdSorted; decide⟩, by decide, by decide, by decide +kernel⟩

end Streed
