import Verif.Lemmas.ParetoTree
import Verif.Props.FairSearch

/-!
# C55, C59–C61: the trees returned for F1-scores and fairness constraints

The search ends with values; the trees are constructed afterwards by looking for pairs of children that give the value of a node
(`pReturned`, Model/ParetoTree.lean). Without bounds and without the depth-two solver the returned tree is a best one
(`f1_tree_optimal_partial`, `parity_tree_optimal_partial`, `opportunity_tree_optimal_partial`), if caching is off or the number of
nodes is not limited further than by the depth.

For every option, the values found are those of trees within the limits (`f1_search_sound`, `parity_search_sound`,
`opportunity_search_sound`). But the trees returned need not have these values: under the default options some leaves have the
label `INT32_MAX` (`parity_tree_label_wrong`, `opportunity_tree_label_wrong`), because no pair of children with the value is found
and the failed search is not noticed.

C55: a returned tree does not test the sensitive feature if the depth-two solver is off (`fair_tree_avoids_partial`). With it, the
default, it may: `parity_tree_tests_sensitive`, `opportunity_tree_tests_sensitive`.
-/

namespace Streed

open TaskLemmas

/-- The trees returned for the F1 task. `none` stands for undefined behaviour. -/
def f1Trees (nF : Nat) (o : ParetoOptions) (d n : Nat) (allTrees : Bool) (T : Data) : List (Option Tree) :=
  pReturned (o.cfg (f1Task nF (numLabel T 1)).tagged) ⟨int32Max, int32Max⟩ d n allTrees T

/-- The trees returned under demographic parity. -/
def parityTrees (nF : Nat) (o : ParetoOptions) (limit : Rat) (d n : Nat) (allTrees : Bool) (T : Data) : List (Option Tree) :=
  pReturned (o.cfg (parityTask nF limit T).tagged) ⟨intMax, intMax, intMax, false⟩ d n allTrees T

/-- The trees returned under equality of opportunity. -/
def opportunityTrees (nF : Nat) (o : ParetoOptions) (limit : Rat) (d n : Nat) (allTrees : Bool) (T : Data) : List (Option Tree) :=
  pReturned (o.cfg (opportunityTask nF limit T).tagged) ⟨intMax, intMax, intMax, false⟩ d n allTrees T

/-- C61 for the F1-score: one tree is returned; it is within the limits, and none within the limits has a better F1-score. -/
def F1TreeBest (nF mls d n : Nat) (T : Data) (r : List (Option Tree)) : Prop :=
  ∃ t, r = [some t] ∧ Within nF mls d n T t ∧ ∀ t', Within nF mls d n T t' → f1Of t' T ≤ f1Of t T

/-- C61 for a fairness constraint: one tree is returned; it is a candidate, and no candidate misclassifies fewer instances. -/
def FairTreeBest (disc : Tree → Data → Rat) (limit : Rat) (nF mls d n : Nat) (T : Data) (r : List (Option Tree)) : Prop :=
  ∃ t, r = [some t] ∧ FairWithin disc limit nF mls d n T t ∧
    ∀ t', FairWithin disc limit nF mls d n T t' → misclassified t T ≤ misclassified t' T

/-! ### The F1-score -/

/-- A tree that is better in one component and not worse in the other has a better score. -/
private theorem f1_tight {tp fp fn tp' fp' fn' : Nat} (h : tp + fn = tp' + fn') (hp : 0 < tp) (h1 : fn' ≤ fn) (h2 : fp' ≤ fp)
    (hs : 2 * (tp' : Rat) / (2 * tp' + fp' + fn') ≤ 2 * (tp : Rat) / (2 * tp + fp + fn)) : fn' = fn ∧ fp' = fp := by
  have q : (0 : Rat) < tp := by exact_mod_cast hp
  have q' : (0 : Rat) < tp' := by exact_mod_cast (by omega : 0 < tp')
  rw [div_le_div_iff₀ (by positivity) (by positivity)] at hs
  have hs : 2 * tp' * (2 * tp + fp + fn) ≤ 2 * tp * (2 * tp' + fp' + fn') := by exact_mod_cast hs
  have h3 : tp' * (fp + fn) ≤ tp * (fp' + fn') := by nlinarith
  have h4 : tp * (fp + fn) ≤ tp' * (fp + fn) := Nat.mul_le_mul_right _ (by omega)
  have h5 : fp + fn ≤ fp' + fn' := Nat.le_of_mul_le_mul_left (Nat.le_trans h4 h3) hp
  omega

private theorem tp_const (T : Data) : truePositives (.leaf 1) T = numLabel T 1 := by
  have h := tp_eq (nF := 0) (.leaf 1) (show 1 < 2 by decide) T
  have : falseNegatives (.leaf 1) T = 0 := by
    simp [falseNegatives, Tree.predict]
  omega

/-- C61 for the F1-score, proved for searches without bounds and without the depth-two solver, with caching off or the node limit
not binding. Missing: the default options, for which it is false (`f1_search_not_optimal`), and a binding node limit with caching. -/
theorem f1_tree_optimal_partial {nF : Nat} {o : ParetoOptions} {d n : Nat} (allTrees : Bool) {T : Data} (hT : F1Input T)
    (hord : ∀ D f, f ∈ o.order D ↔ f < nF) (hm : 1 ≤ o.mls) (hsz : o.mls ≤ T.length) (hn : n + 1 ≤ 2 ^ d)
    (hlb : o.useLB = false) (hub : o.useUB = false) (hterm : o.useTerm = false)
    (hmode : (o.useBr = false ∧ o.useDs = false) ∨ n + 1 = 2 ^ d) :
    F1TreeBest nF o.mls d n T (f1Trees nF o d n allTrees T) := by
  have leg := f1_legal nF o T
  have ref := List.Sublist.refl T
  have hmode' : ((f1Cfg nF o T).useBr || (f1Cfg nF o T).useDs) = false ∨ n + 1 = 2 ^ d := by
    rcases hmode with h | h
    · left; simp only [f1Cfg, ParetoOptions.cfg, h.1, h.2]; rfl
    · exact .inr h
  obtain ⟨t, h1, h2, _, h4⟩ := returned_best (f1_pgood hT hord hm hlb hub hterm)
    (fun D a b _ _ _ => ⟨fun h => of_decide_eq_true h, fun h => decide_eq_true h⟩) (fun _ _ _ => rfl)
    (fun f D a a' b _ _ _ _ h => by
      simp only [f1Cfg, ParetoOptions.cfg, f1Task, f1Add, F1Sol.mk.injEq] at h
      cases a; cases a'
      simp only [F1Sol.mk.injEq] at *
      omega)
    (fun f D a b b' _ _ _ _ h => by
      simp only [f1Cfg, ParetoOptions.cfg, f1Task, f1Add, F1Sol.mk.injEq] at h
      cases b; cases b'
      simp only [F1Sol.mk.injEq] at *
      omega)
    (f1_total hT) hsz ⟨int32Max, int32Max⟩ d n hn allTrees hmode'
    (by
      rintro v ⟨t0, a1, rfl, _⟩ a3 t b1 _ b3
      have hleaf : Allowed (f1Cfg nF o T).T.prob (f1Cfg nF o T).mls d n T (.leaf 1) :=
        ⟨Nat.zero_le _, Nat.zero_le _, (show 1 < 2 by decide), hsz⟩
      have c1 := a3 _ hleaf rfl
      have c2 := a3 t b1 rfl
      rw [f1_agree hT a1.2.2 hleaf.2.2, decide_eq_true_eq] at c1
      rw [f1_agree hT a1.2.2 b1.2.2, decide_eq_true_eq] at c2
      rw [f1_value hT ref a1.2.2, f1_value hT ref b1.2.2] at b3 ⊢
      have e0 := tp_eq t0 (fair_over ((leg t0 T).1 a1.2.2)) T
      have e1 := tp_eq t (fair_over ((leg t T).1 b1.2.2)) T
      have hp : 0 < truePositives t0 T := by
        by_contra hc
        have hc : truePositives t0 T = 0 := by omega
        have hpos : (0 : Rat) < numLabel T 1 := by exact_mod_cast hT.pos
        have z : f1Of t0 T = 0 := by unfold f1Of; rw [hc]; simp
        have y : 0 < f1Of (.leaf 1) T := by
          unfold f1Of
          rw [tp_const]
          positivity
        rw [z] at c1
        exact absurd y (not_lt.2 c1)
      simp only [f1Cfg, ParetoOptions.cfg, f1Task, f1Ops, Bool.and_eq_true, decide_eq_true_eq] at b3
      have h := f1_tight (tp := truePositives t0 T) (fp := falsePositives t0 T) (fn := falseNegatives t0 T)
        (tp' := truePositives t T) (fp' := falsePositives t T) (fn' := falseNegatives t T) (by omega) hp (by omega) (by omega) c2
      rw [h.1, h.2])
  refine ⟨t, h1, ⟨h2.1, h2.2.1, (leg t T).1 h2.2.2⟩, ?_⟩
  intro t' ht'
  have ht2 := (leg t' T).2 ht'.2.2
  have h := h4 t' ⟨ht'.1, ht'.2.1, ht2⟩ rfl
  rw [f1_agree hT h2.2.2 ht2] at h
  exact of_decide_eq_true h

/-! ### Fairness -/

private theorem fair_tree {nF : Nat} {o : ParetoOptions} {limit : Rat} {T : Data} {L : Nat} {leaf : Data → Nat → FairSol}
    {worst : Nat → FairSol} {disc : Tree → Data → Rat} {d n : Nat} (allTrees : Bool) (w : FairSol)
    (hf : FairLeaf nF limit T L leaf disc) (hlim : 0 ≤ limit) (hids : IdSorted T)
    (hord : ∀ D f, f ∈ o.order D ↔ f < nF) (hm : 1 ≤ o.mls) (hsz : o.mls ≤ T.length) (hn : n + 1 ≤ 2 ^ d)
    (hlb : o.useLB = false) (hub : o.useUB = false) (hterm : o.useTerm = false)
    (hmode : (o.useBr = false ∧ o.useDs = false) ∨ n + 1 = 2 ^ d) :
    FairTreeBest disc limit nF o.mls d n T (pReturned (o.cfg (fairTask nF T.length limit leaf worst).tagged) w d n allTrees T) := by
  have hT : 0 < T.length := by omega
  have hmode' : ((o.cfg (fairTask nF T.length limit leaf worst)).useBr || (o.cfg (fairTask nF T.length limit leaf worst)).useDs) = false ∨
      n + 1 = 2 ^ d := by
    rcases hmode with h | h
    · left; simp only [ParetoOptions.cfg, h.1, h.2]; rfl
    · exact .inr h
  obtain ⟨W, hW⟩ := fair_sum hf
  obtain ⟨t, h1, h2, h3, h4⟩ := returned_best (fair_pgood (worst := worst) hf hlim hids hord hm hT hlb hub hterm)
    (fun D a b _ ha hb => fair_eq hf ha hb) (fun _ _ _ => rfl)
    (fun f D a a' b _ h1 h2 _ h => by
      have g1 := (fair_grid hf h1).root
      have g2 := (fair_grid hf h2).root
      simp only [ParetoOptions.cfg, fairTask, fairAdd, FairSol.mk.injEq] at h
      cases a; cases a'
      simp only [FairSol.mk.injEq] at *
      refine ⟨by omega, by linarith [h.2.1], by linarith [h.2.2.1], by rw [g1, g2]⟩)
    (fun f D a b b' _ _ h1 h2 h => by
      have g1 := (fair_grid hf h1).root
      have g2 := (fair_grid hf h2).root
      simp only [ParetoOptions.cfg, fairTask, fairAdd, FairSol.mk.injEq] at h
      cases b; cases b'
      simp only [FairSol.mk.injEq] at *
      refine ⟨by omega, by linarith [h.2.1], by linarith [h.2.2.1], by rw [g1, g2]⟩)
    (fun a b _ _ => fair_total a b) hsz w d n hn allTrees hmode'
    (by
      rintro v ⟨t0, a1, rfl, a2⟩ a3 t b1 b2 b3
      have c := a3 t b1 b2
      have v0 : PVal (o.cfg (fairTask nF T.length limit leaf worst)) T _ := ⟨t0, a1.2.2, rfl⟩
      have v1 : PVal (o.cfg (fairTask nF T.length limit leaf worst)) T _ := ⟨t, b1.2.2, rfl⟩
      have c := (fair_score hT a2 b2).1 c
      obtain ⟨c1, c2, c3⟩ := (fair_dom hf v1 v0).1 b3
      have r0 := (fair_grid hf v0).root
      have r1 := (fair_grid hf v1).root
      rw [fair_eval] at *
      rw [fair_eval] at *
      have s0 := hW t0 T
      have s1 := hW t T
      generalize evalTree fairAdd leaf t T = a at *
      generalize evalTree fairAdd leaf t0 T = b at *
      cases a; cases b
      simp only [FairSol.mk.injEq] at *
      refine ⟨by omega, by linarith, by linarith, by rw [r0, r1]⟩)
  have hl := (fair_legal t T).1 h2.2.2
  have ho := fair_over hl.1
  rw [fair_eval] at h3
  refine ⟨t, h1, ⟨⟨h2.1, h2.2.1, hl.1⟩, hl.2, (hf.exact t ho).1 h3⟩, ?_⟩
  intro t' ht'
  have ho' := fair_over ht'.1.2.2
  have oa : fairAccepts limit (evalTree fairAdd leaf t' T) = true := (hf.exact t' ho').2 ht'.2.2
  have h := h4 t' ⟨ht'.1.1, ht'.1.2.1, (fair_legal t' T).2 ⟨ht'.1.2.2, ht'.2.1⟩⟩ (by rw [fair_eval]; exact oa)
  rw [fair_eval, fair_eval] at h
  have h := (fair_score hT h3 oa).1 h
  rw [hf.mis t ho, hf.mis t' ho'] at h
  exact_mod_cast h

/-- C61 for demographic parity, proved for searches without bounds and without the depth-two solver, with caching off or the node
limit not binding, and for group sizes whose least common multiple is below 10000. Missing: the default options, for which it is
false (`parity_tree_label_wrong`), and a binding node limit with caching. -/
theorem parity_tree_optimal_partial {nF : Nat} {o : ParetoOptions} {limit : Rat} {d n : Nat} (allTrees : Bool) {T : Data}
    (hT : FairInput (T.countP fun i => i.feat 0 == false) (T.countP fun i => i.feat 0 == true) T) (hlim : 0 ≤ limit)
    (hord : ∀ D f, f ∈ o.order D ↔ f < nF) (hm : 1 ≤ o.mls) (hsz : o.mls ≤ T.length) (hn : n + 1 ≤ 2 ^ d)
    (hlb : o.useLB = false) (hub : o.useUB = false) (hterm : o.useTerm = false)
    (hmode : (o.useBr = false ∧ o.useDs = false) ∨ n + 1 = 2 ^ d) :
    FairTreeBest parityGap limit nF o.mls d n T (parityTrees nF o limit d n allTrees T) :=
  fair_tree allTrees _ (parity_leaf hT) hlim hT.ids hord hm hsz hn hlb hub hterm hmode

/-- C61 for equality of opportunity, proved for searches without bounds and without the depth-two solver, with caching off or the
node limit not binding, and for numbers of positives in the groups whose least common multiple is below 10000. Missing: the default
options, for which it is false (`opportunity_tree_label_wrong`), and a binding node limit with caching. -/
theorem opportunity_tree_optimal_partial {nF : Nat} {o : ParetoOptions} {limit : Rat} {d n : Nat} (allTrees : Bool) {T : Data}
    (hT : FairInput (T.countP fun i => i.feat 0 == false && i.label == 1) (T.countP fun i => i.feat 0 == true && i.label == 1) T)
    (hlim : 0 ≤ limit) (hord : ∀ D f, f ∈ o.order D ↔ f < nF) (hm : 1 ≤ o.mls) (hsz : o.mls ≤ T.length) (hn : n + 1 ≤ 2 ^ d)
    (hlb : o.useLB = false) (hub : o.useUB = false) (hterm : o.useTerm = false)
    (hmode : (o.useBr = false ∧ o.useDs = false) ∨ n + 1 = 2 ^ d) :
    FairTreeBest opportunityGap limit nF o.mls d n T (opportunityTrees nF o limit d n allTrees T) :=
  fair_tree allTrees _ (opportunity_leaf hT) hlim hT.ids hord hm hsz hn hlb hub hterm hmode

/-! ### The values are those of trees, for every option -/

/-- A value that stands for a tree is that of a tree within the limits. -/
theorem f1_real {nF : Nat} {o : ParetoOptions} {d n : Nat} {T : Data} (hlab : ∀ i ∈ T, i.label < 2) {m : PNode F1Sol}
    (hm : PReal (f1Cfg nF o T) T d n m) : ∃ t, Within nF o.mls d n T t ∧
      m.sol = ⟨falseNegatives t T, falsePositives t T⟩ ∧ m.size = t.nodes := by
  obtain ⟨t, h1, h2, h3, _⟩ := hm
  have hl := (f1_legal nF o T t T).1 h1.2.2
  refine ⟨t, ⟨h1.1, h1.2.1, hl⟩, ?_, h3.symm⟩
  rw [← h2]
  exact (f1_eval nF _ t T).trans (f1_tree t (fair_over hl) T hlab)

/-- C59, the part that holds for every option: each value found is that of a tree within the limits. -/
theorem f1_search_sound {nF : Nat} {o : ParetoOptions} {d n : Nat} (allTrees : Bool) {T : Data} (hlab : ∀ i ∈ T, i.label < 2)
    (hids : IdSorted T) (hord : ∀ D f, f ∈ o.order D → f < nF) (hn : n + 1 ≤ 2 ^ d) :
    ∀ m ∈ f1Search nF o d n allTrees T, ∃ t, Within nF o.mls d n T t ∧
      m.sol = ⟨falseNegatives t T, falsePositives t T⟩ ∧ m.size = t.nodes := by
  have G : PSound (f1Cfg nF o T) T := ⟨hord, hids, hlab, fun _ _ => rfl⟩
  exact fun m hm => f1_real hlab ((pSolve_sound G d n hn allTrees).2 m hm)

/-- What soundness needs holds for the fairness tasks. -/
theorem fair_psound {nF : Nat} {o : ParetoOptions} {limit : Rat} {T : Data} {leaf : Data → Nat → FairSol} {worst : Nat → FairSol}
    (hlab : ∀ i ∈ T, i.label < 2) (hids : IdSorted T) (hord : ∀ D f, f ∈ o.order D → f < nF) :
    PSound (o.cfg (fairTask nF T.length limit leaf worst)) T :=
  ⟨hord, hids, hlab, fun h => by simp [ParetoOptions.cfg, fairTask] at h⟩

private theorem fair_real {nF : Nat} {o : ParetoOptions} {limit : Rat} {T : Data} {leaf : Data → Nat → FairSol}
    {worst : Nat → FairSol} {disc : Tree → Data → Rat} {d n : Nat}
    (hmis : ∀ t : Tree, t.Over nF 2 → (evalTree fairAdd leaf t T).mis = misclassified t T)
    (hex : ∀ t : Tree, t.Over nF 2 → (fairAccepts limit (evalTree fairAdd leaf t T) = true ↔ disc t T ≤ limit))
    {m : PNode FairSol} (hm : PReal (o.cfg (fairTask nF T.length limit leaf worst)) T d n m) :
    ∃ t, FairWithin disc limit nF o.mls d n T t ∧ m.sol.mis = misclassified t T ∧ m.size = t.nodes := by
  obtain ⟨t, h1, h2, h3, h4⟩ := hm
  have hl := (fair_legal t T).1 h1.2.2
  have ho := fair_over hl.1
  rw [fair_eval] at h2
  refine ⟨t, ⟨⟨h1.1, h1.2.1, hl.1⟩, hl.2, ?_⟩, ?_, h3.symm⟩
  · rw [← hex t ho, h2]; exact h4
  · rw [← h2, hmis t ho]

/-- A value that stands for a tree is that of a candidate under demographic parity. -/
theorem parity_real {nF : Nat} {o : ParetoOptions} {limit : Rat} {d n : Nat} {T : Data}
    (hlab : ∀ i ∈ T, i.label < 2) (h0 : ∃ i ∈ T, i.feat 0 = false) (h1 : ∃ i ∈ T, i.feat 0 = true)
    {m : PNode FairSol} (hm : PReal (o.cfg (parityTask nF limit T)) T d n m) :
    ∃ t, FairWithin parityGap limit nF o.mls d n T t ∧ m.sol.mis = misclassified t T ∧ m.size = t.nodes :=
  fair_real (fun t ht => fair_mis_tree _ (by intro D k; by_cases hk : k = 0 <;> simp [gfLeaf, hk]) t ht T hlab)
    (fun t ht => parity_exact t ht T limit h0 h1) hm

/-- A value that stands for a tree is that of a candidate under equality of opportunity. -/
theorem opportunity_real {nF : Nat} {o : ParetoOptions} {limit : Rat} {d n : Nat} {T : Data}
    (hlab : ∀ i ∈ T, i.label < 2) (h0 : ∃ i ∈ T, i.feat 0 = false ∧ i.label = 1) (h1 : ∃ i ∈ T, i.feat 0 = true ∧ i.label = 1)
    {m : PNode FairSol} (hm : PReal (o.cfg (opportunityTask nF limit T)) T d n m) :
    ∃ t, FairWithin opportunityGap limit nF o.mls d n T t ∧ m.sol.mis = misclassified t T ∧ m.size = t.nodes :=
  fair_real (fun t ht => fair_mis_tree _ (by intro D k; by_cases hk : k = 0 <;> simp [eoLeaf, hk]) t ht T hlab)
    (fun t ht => opportunity_exact t ht T limit h0 h1) hm

/-- C60, the part that holds for every option: each value found is that of a fair tree within the limits that does not test the
sensitive feature. -/
theorem parity_search_sound {nF : Nat} {o : ParetoOptions} {limit : Rat} {d n : Nat} (allTrees : Bool) {T : Data}
    (hlab : ∀ i ∈ T, i.label < 2) (hids : IdSorted T) (h0 : ∃ i ∈ T, i.feat 0 = false) (h1 : ∃ i ∈ T, i.feat 0 = true)
    (hord : ∀ D f, f ∈ o.order D → f < nF) (hn : n + 1 ≤ 2 ^ d) :
    ∀ m ∈ paritySearch nF o limit d n allTrees T,
      ∃ t, FairWithin parityGap limit nF o.mls d n T t ∧ m.sol.mis = misclassified t T ∧ m.size = t.nodes :=
  fun m hm => parity_real hlab h0 h1 ((pSolve_sound (fair_psound hlab hids hord) d n hn allTrees).2 m hm)

/-- The same for equality of opportunity. -/
theorem opportunity_search_sound {nF : Nat} {o : ParetoOptions} {limit : Rat} {d n : Nat} (allTrees : Bool) {T : Data}
    (hlab : ∀ i ∈ T, i.label < 2) (hids : IdSorted T) (h0 : ∃ i ∈ T, i.feat 0 = false ∧ i.label = 1)
    (h1 : ∃ i ∈ T, i.feat 0 = true ∧ i.label = 1)
    (hord : ∀ D f, f ∈ o.order D → f < nF) (hn : n + 1 ≤ 2 ^ d) :
    ∀ m ∈ opportunitySearch nF o limit d n allTrees T,
      ∃ t, FairWithin opportunityGap limit nF o.mls d n T t ∧ m.sol.mis = misclassified t T ∧ m.size = t.nodes :=
  fun m hm => opportunity_real hlab h0 h1 ((pSolve_sound (fair_psound hlab hids hord) d n hn allTrees).2 m hm)

/-! ### C55: the sensitive feature -/

theorem avoids_of_only {p : Nat → Bool} (hp : p 0 = false) {t : Tree} (h : t.Only p) : t.Avoids 0 := by
  induction t with
  | leaf k => trivial
  | node f l r ihl ihr =>
    refine ⟨?_, ihl h.2.1, ihr h.2.2⟩
    rintro rfl
    rw [h.1] at hp
    exact absurd hp (by simp)

/-- C55, proved without the depth-two solver, for all other options: no returned tree tests the sensitive feature. Missing: the
depth-two solver, with which it is false (`parity_tree_tests_sensitive`, `opportunity_tree_tests_sensitive`). -/
theorem fair_tree_avoids_partial {nF : Nat} {o : ParetoOptions} {limit : Rat} {d n : Nat} (allTrees : Bool) {T : Data}
    (hlab : ∀ i ∈ T, i.label < 2) (hids : IdSorted T) (hord : ∀ D f, f ∈ o.order D → f < nF) (hn : n + 1 ≤ 2 ^ d)
    (hterm : o.useTerm = false) :
    (∀ t, some t ∈ parityTrees nF o limit d n allTrees T → t.Avoids 0) ∧
      ∀ t, some t ∈ opportunityTrees nF o limit d n allTrees T → t.Avoids 0 := by
  have G : ∀ leaf worst, PSound (o.cfg (fairTask nF T.length limit leaf worst).tagged) T :=
    fun leaf worst => ⟨hord, hids, hlab, fun h => by simp [ParetoOptions.cfg, fairTask, PTask.tagged] at h⟩
  exact ⟨fun t ht => avoids_of_only rfl (returned_only (G _ _) rfl hterm _ d n hn allTrees t ht),
    fun t ht => avoids_of_only rfl (returned_only (G _ _) rfl hterm _ d n hn allTrees t ht)⟩

/-- Four instances with three features. -/
def sensitiveRows : Data := rowsOf [(0, 0), (5, 1), (6, 0), (3, 0)]

set_option maxRecDepth 100000 in
/-- C55 fails for the default options: under demographic parity the returned tree of depth two tests the sensitive feature, because
the depth-two solver does not ask which features it may use when it constructs the tree (terminal_solver.cpp:420-421). -/
theorem parity_tree_tests_sensitive : ∃ T : Data,
    FairInput (T.countP fun i => i.feat 0 == false) (T.countP fun i => i.feat 0 == true) T ∧
      ∃ t, parityTrees 3 (paretoDefault 3) 1 2 3 false T = [some t] ∧ ¬ t.Avoids 0 :=
  ⟨sensitiveRows, ⟨by decide, by decide, by decide, by decide, by unfold IdSorted; decide⟩,
    .node 1 (.node 0 (.leaf 0) (.leaf 1)) (.leaf 0), by decide +kernel, by decide⟩

set_option maxRecDepth 100000 in
/-- C55 fails in the same way under equality of opportunity. -/
theorem opportunity_tree_tests_sensitive : ∃ T : Data, (∀ i ∈ T, i.label < 2) ∧ IdSorted T ∧
      ∃ t, opportunityTrees 3 (paretoDefault 3) 1 2 3 false T = [some t] ∧ ¬ t.Avoids 0 :=
  ⟨sensitiveRows, by decide, by unfold IdSorted; decide,
    .node 1 (.node 0 (.leaf 0) (.leaf 1)) (.leaf 0), by decide +kernel, by decide⟩

/-! ### C61 fails for the default options -/

/-- All leaves have one of two labels. -/
def Tree.Binary : Tree → Prop
  | .leaf k => k < 2
  | .node _ l r => l.Binary ∧ r.Binary

instance Tree.decBinary : (t : Tree) → Decidable t.Binary
  | .leaf k => inferInstanceAs (Decidable (k < 2))
  | .node _ l r => by
    have := Tree.decBinary l
    have := Tree.decBinary r
    unfold Tree.Binary
    infer_instance

private theorem binary_of_over {nF : Nat} {t : Tree} (h : t.Over nF 2) : t.Binary := by
  induction t with
  | leaf k => exact h
  | node f l r ihl ihr => exact ⟨ihl h.2.1, ihr h.2.2⟩

private theorem not_fair_tree {disc : Tree → Data → Rat} {limit : Rat} {nF mls d n : Nat} {T : Data} {r : List (Option Tree)}
    (h : (r.head?.getD none).elim false (fun t => decide t.Binary) = false) : ¬ FairTreeBest disc limit nF mls d n T r := by
  rintro ⟨t, rfl, ht, _⟩
  have hb : t.Binary := binary_of_over (fair_over ht.1.2.2)
  simp [hb] at h

/-- Seven instances with three features. -/
def parityLabelRows : Data := rowsOf [(6, 1), (6, 1), (5, 0), (5, 0), (0, 1), (1, 1), (6, 0)]

/-- Six instances with three features. -/
def opportunityLabelRows : Data := rowsOf [(7, 0), (0, 1), (2, 0), (4, 0), (7, 1), (4, 1)]

set_option maxRecDepth 100000 in
/-- C61 fails for demographic parity with the default options: both leaves of the returned tree have the label `INT32_MAX`. The search
ends with the value of a tree of depth two; the construction starts at depth three and looks for it in fronts cut off by the bound that
this value gave. -/
theorem parity_tree_label_wrong : ∃ T : Data,
    FairInput (T.countP fun i => i.feat 0 == false) (T.countP fun i => i.feat 0 == true) T ∧
      parityTrees 3 (paretoDefault 3) (1 / 5) 3 7 false T = [some (.node 1 (.leaf int32Max) (.leaf int32Max))] ∧
      ¬ FairTreeBest parityGap (1 / 5) 3 1 3 7 T (parityTrees 3 (paretoDefault 3) (1 / 5) 3 7 false T) :=
  ⟨parityLabelRows, ⟨by decide, by decide, by decide, by decide, by unfold IdSorted; decide⟩, by decide +kernel,
    not_fair_tree (by decide +kernel)⟩

set_option maxRecDepth 100000 in
/-- C61 fails for equality of opportunity in the same way. -/
theorem opportunity_tree_label_wrong : ∃ T : Data,
    FairInput (T.countP fun i => i.feat 0 == false && i.label == 1) (T.countP fun i => i.feat 0 == true && i.label == 1) T ∧
      opportunityTrees 3 (paretoDefault 3) (1 / 5) 3 7 false T = [some (.node 1 (.leaf int32Max) (.leaf int32Max))] ∧
      ¬ FairTreeBest opportunityGap (1 / 5) 3 1 3 7 T (opportunityTrees 3 (paretoDefault 3) (1 / 5) 3 7 false T) :=
  ⟨opportunityLabelRows, ⟨by decide, by decide, by decide, by decide, by unfold IdSorted; decide⟩, by decide +kernel,
    not_fair_tree (by decide +kernel)⟩

set_option maxRecDepth 100000 in
/-- The same happens without the depth-two solver. -/
theorem parity_tree_label_wrong_general : ∃ T : Data,
    FairInput (T.countP fun i => i.feat 0 == false) (T.countP fun i => i.feat 0 == true) T ∧
      parityTrees 3 { paretoDefault 3 with useTerm := false } (1 / 5) 3 7 false T =
        [some (.node 1 (.leaf 0) (.node 2 (.leaf int32Max) (.leaf int32Max)))] :=
  ⟨rowsOf [(6, 1), (3, 1), (0, 0), (0, 0), (1, 0), (1, 0), (2, 1), (2, 1), (6, 1), (6, 1)],
    ⟨by decide, by decide, by decide, by decide, by unfold IdSorted; decide⟩, by decide +kernel⟩

set_option maxRecDepth 100000 in
/-- And for the F1-score without the depth-two solver, when all numbers of nodes are tried. -/
theorem f1_tree_label_wrong : ∃ T : Data, F1Input T ∧
    f1Trees 3 { paretoDefault 3 with useTerm := false } 3 5 true T = [some (.node 1 (.leaf int32Max) (.leaf int32Max))] :=
  ⟨rowsOf [(5, 0), (5, 0), (7, 0), (7, 0), (7, 0), (7, 0), (2, 1), (2, 1), (4, 1), (4, 1), (0, 1), (0, 1), (6, 0), (3, 0), (3, 0),
    (5, 1), (5, 1)], ⟨by decide, by decide, by unfold IdSorted; decide⟩, by decide +kernel⟩

/-! ### The hypotheses are met -/

/-- Without bounds and depth-two solver the data of the counterexamples give trees with labels 0 and 1. -/
example : f1Trees 5 { paretoDefault 5 with useLB := false, useUB := false, useTerm := false, order := fun _ => List.range 5 } 3 7 false f1Rows =
    [some (.node 4 (.node 1 (.leaf 1) (.node 2 (.leaf 1) (.leaf 0))) (.node 0 (.node 3 (.leaf 1) (.leaf 0)) (.leaf 1)))] := by
  decide +kernel

example : FairInput (parityLabelRows.countP fun i => i.feat 0 == false) (parityLabelRows.countP fun i => i.feat 0 == true) parityLabelRows ∧
    ((parityTrees 3 { paretoDefault 3 with useLB := false, useUB := false, useTerm := false, order := fun _ => List.range 3 }
      (1 / 5) 3 7 false parityLabelRows).head?.getD none).elim false (fun t => decide (t.Binary ∧ t.Avoids 0)) = true :=
  ⟨⟨by decide, by decide, by decide, by decide, by unfold IdSorted; decide⟩, by decide +kernel⟩

example : FairInput (opportunityRows.countP fun i => i.feat 0 == false && i.label == 1)
      (opportunityRows.countP fun i => i.feat 0 == true && i.label == 1) opportunityRows ∧
    opportunityTrees 4 { paretoDefault 4 with useLB := false, useUB := false, useTerm := false, order := fun _ => List.range 4 } 0 3 7 false
      opportunityRows = [some (.node 1 (.leaf 1) (.node 2 (.node 3 (.leaf 0) (.leaf 1)) (.leaf 1)))] :=
  ⟨⟨by decide, by decide, by decide, by decide, by unfold IdSorted; decide⟩, by decide +kernel⟩

/-- The hypotheses of the theorems for every option: the default options, on data with both groups. -/
example : (∃ i ∈ sensitiveRows, i.feat 0 = false) ∧ (∃ i ∈ sensitiveRows, i.feat 0 = true) ∧ (∀ i ∈ sensitiveRows, i.label < 2) ∧
    (paritySearch 3 (paretoDefault 3) 1 2 3 false sensitiveRows).map (fun m => (m.sol.mis, m.size)) = [(0, 2)] := by
  decide +kernel

end Streed
