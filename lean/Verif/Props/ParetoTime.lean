import Verif.Lemmas.ParetoTime
import Verif.Props.ParetoTree
import Verif.Props.Timeout

/-!
# C91: F1-score and fairness fits under a time limit

For every moment at which the limit passes: the values found are those of trees within the limits (`timed_f1_sound`,
`timed_parity_sound`, `timed_opportunity_sound`); a result reported as proven optimal is that of the run without limit, values and
trees (`timed_proven`, `timed_proven_trees`); the search stops soon (`timed_stops`). What fails is the construction of the trees:
fronts that are incomplete because the time ran out are stored as optimal, and the construction takes them for complete. It does not
find the children of the node, and returns leaves with the label `INT32_MAX` (`timed_f1_label_wrong`,
`timed_f1_label_wrong_plain`, `timed_opportunity_label_wrong`).
-/

namespace Streed

/-- The values that the search for a task ends with under the clock `clk`, and whether they are reported as proven optimal. -/
def timedSearch {S : Type} (o : ParetoOptions) (K : PTask S) (clk : Nat → Bool) (d n : Nat) (allTrees : Bool) (T : Data) :
    List (PNode S) × Bool :=
  ((tSolve (o.cfg K) clk d n allTrees T).1.run.result.sols, (tSolve (o.cfg K) clk d n allTrees T).2)

/-- The trees returned for a task under the clock `clk`, and whether they are reported as proven optimal; `w` is the worst value. -/
def timedTrees {S : Type} (o : ParetoOptions) (K : PTask S) (w : S) (clk : Nat → Bool) (d n : Nat) (allTrees : Bool) (T : Data) :
    List (Option Tree) × Bool :=
  (tReturned (o.cfg K.tagged) clk w d n allTrees T, (tSolve (o.cfg K.tagged) clk d n allTrees T).2)

/-- The number of time checks of the search, including the last. -/
def timedChecks {S : Type} (o : ParetoOptions) (K : PTask S) (clk : Nat → Bool) (d n : Nat) (allTrees : Bool) (T : Data) : Nat :=
  (tSolve (o.cfg K) clk d n allTrees T).1.tick + 1

/-- C91 for the F1-score: whenever the limit passes, each value found is that of a tree within the limits. -/
theorem timed_f1_sound {nF : Nat} {o : ParetoOptions} (clk : Nat → Bool) {d n : Nat} (allTrees : Bool) {T : Data}
    (hlab : ∀ i ∈ T, i.label < 2) (hids : IdSorted T) (hord : ∀ D f, f ∈ o.order D → f < nF) (hn : n + 1 ≤ 2 ^ d) :
    ∀ m ∈ (timedSearch o (f1Task nF (numLabel T 1)) clk d n allTrees T).1, ∃ t, Within nF o.mls d n T t ∧
      m.sol = ⟨falseNegatives t T, falsePositives t T⟩ ∧ m.size = t.nodes := by
  have G : PSound (f1Cfg nF o T) T := ⟨hord, hids, hlab, fun _ _ => rfl⟩
  exact fun m hm => f1_real hlab ((tSolve_sound G clk d n hn allTrees).2 m hm)

/-- C91 for demographic parity: whenever the limit passes, each value found is that of a fair tree within the limits that does not
test the sensitive feature. -/
theorem timed_parity_sound {nF : Nat} {o : ParetoOptions} {limit : Rat} (clk : Nat → Bool) {d n : Nat} (allTrees : Bool) {T : Data}
    (hlab : ∀ i ∈ T, i.label < 2) (hids : IdSorted T) (h0 : ∃ i ∈ T, i.feat 0 = false) (h1 : ∃ i ∈ T, i.feat 0 = true)
    (hord : ∀ D f, f ∈ o.order D → f < nF) (hn : n + 1 ≤ 2 ^ d) :
    ∀ m ∈ (timedSearch o (parityTask nF limit T) clk d n allTrees T).1,
      ∃ t, FairWithin parityGap limit nF o.mls d n T t ∧ m.sol.mis = misclassified t T ∧ m.size = t.nodes :=
  fun m hm => parity_real hlab h0 h1 ((tSolve_sound (fair_psound hlab hids hord) clk d n hn allTrees).2 m hm)

/-- The same for equality of opportunity. -/
theorem timed_opportunity_sound {nF : Nat} {o : ParetoOptions} {limit : Rat} (clk : Nat → Bool) {d n : Nat} (allTrees : Bool)
    {T : Data} (hlab : ∀ i ∈ T, i.label < 2) (hids : IdSorted T) (h0 : ∃ i ∈ T, i.feat 0 = false ∧ i.label = 1)
    (h1 : ∃ i ∈ T, i.feat 0 = true ∧ i.label = 1) (hord : ∀ D f, f ∈ o.order D → f < nF) (hn : n + 1 ≤ 2 ^ d) :
    ∀ m ∈ (timedSearch o (opportunityTask nF limit T) clk d n allTrees T).1,
      ∃ t, FairWithin opportunityGap limit nF o.mls d n T t ∧ m.sol.mis = misclassified t T ∧ m.size = t.nodes :=
  fun m hm => opportunity_real hlab h0 h1 ((tSolve_sound (fair_psound hlab hids hord) clk d n hn allTrees).2 m hm)

private theorem fine_of_last {clk : Nat → Bool} (hclk : Monotone clk) {k : Nat} (h : clk k = true) : InTime clk 0 k :=
  fun i _ hi => hclk i k (by omega) h

/-- C91, for every partially ordered task and all options: if the result is reported as proven optimal, no check failed and the
values are those of the run without limit. -/
theorem timed_proven {S : Type} (o : ParetoOptions) (K : PTask S) {clk : Nat → Bool} (hclk : Monotone clk) (d n : Nat)
    (allTrees : Bool) (T : Data) (h : (timedSearch o K clk d n allTrees T).2 = true) :
    (∀ i < timedChecks o K clk d n allTrees T, clk i = true) ∧
      (timedSearch o K clk d n allTrees T).1 = (pSolve (o.cfg K) d n allTrees T).result.sols := by
  refine ⟨fun i hi => hclk i (tSolve (o.cfg K) clk d n allTrees T).1.tick (Nat.le_of_lt_succ hi) h, ?_⟩
  unfold timedSearch
  simp only
  rw [(tSolve_sim d n allTrees T (fine_of_last hclk h)).1]

/-- Conversely, if one of the checks fails the result is not reported as proven optimal. -/
theorem timed_out_not_proven {S : Type} (o : ParetoOptions) (K : PTask S) {clk : Nat → Bool} (hclk : Monotone clk) (d n : Nat)
    (allTrees : Bool) (T : Data) {i : Nat} (hi : i < timedChecks o K clk d n allTrees T) (hf : clk i = false) :
    (timedSearch o K clk d n allTrees T).2 = false := by
  cases h : (timedSearch o K clk d n allTrees T).2 with
  | false => rfl
  | true => rw [(timed_proven o K hclk d n allTrees T h).1 i hi] at hf; cases hf

/-- A run in which no check fails is reported as proven optimal. -/
theorem timed_in_time {S : Type} (o : ParetoOptions) (K : PTask S) {clk : Nat → Bool} (d n : Nat) (allTrees : Bool) (T : Data)
    (h : ∀ i < timedChecks o K clk d n allTrees T, clk i = true) : (timedSearch o K clk d n allTrees T).2 = true :=
  h (tSolve (o.cfg K) clk d n allTrees T).1.tick (Nat.lt_succ_self _)

/-- C91, for every partially ordered task and all options: if the result is reported as proven optimal, the trees are those of the
run without limit. -/
theorem timed_proven_trees {S : Type} (o : ParetoOptions) (K : PTask S) (w : S) {clk : Nat → Bool} (hclk : Monotone clk) (d n : Nat)
    (allTrees : Bool) (T : Data) (h : (timedTrees o K w clk d n allTrees T).2 = true) :
    (timedTrees o K w clk d n allTrees T).1 = pReturned (o.cfg K.tagged) w d n allTrees T := by
  obtain ⟨e1, e2⟩ := tSolve_sim (c := o.cfg K.tagged) d n allTrees T (fine_of_last hclk h)
  unfold timedTrees tReturned pReturned
  simp only
  rw [e1, e2]

/-- C91: if the limit has passed before the `k`-th check, the search ends after at most `2 · max_depth + 5` further checks, whatever
the data, the number of features and the node limit. -/
theorem timed_stops {S : Type} (o : ParetoOptions) (K : PTask S) {clk : Nat → Bool} (d n : Nat) (allTrees : Bool) (T : Data) {k : Nat}
    (hk : ∀ i, k ≤ i → clk i = false) : timedChecks o K clk d n allTrees T ≤ k + 2 * d + 5 := by
  have := tSolve_stop (c := o.cfg K) hk d n allTrees T
  unfold timedChecks
  omega

/-- C55 under a time limit, without the depth-two solver: no returned tree tests the sensitive feature. Missing: the depth-two
solver, with which it is false without any limit (`parity_tree_tests_sensitive`). -/
theorem timed_fair_avoids_partial {nF : Nat} {o : ParetoOptions} {limit : Rat} (w : FairSol) (clk : Nat → Bool) {d n : Nat}
    (allTrees : Bool) {T : Data} (hlab : ∀ i ∈ T, i.label < 2) (hids : IdSorted T) (hord : ∀ D f, f ∈ o.order D → f < nF)
    (hn : n + 1 ≤ 2 ^ d) (hterm : o.useTerm = false) :
    (∀ t, some t ∈ (timedTrees o (parityTask nF limit T) w clk d n allTrees T).1 → t.Avoids 0) ∧
      ∀ t, some t ∈ (timedTrees o (opportunityTask nF limit T) w clk d n allTrees T).1 → t.Avoids 0 := by
  have G : ∀ leaf worst, PSound (o.cfg (fairTask nF T.length limit leaf worst).tagged) T :=
    fun leaf worst => ⟨hord, hids, hlab, fun h => by simp [ParetoOptions.cfg, fairTask, PTask.tagged] at h⟩
  have key : ∀ leaf worst, ∀ t, some t ∈ (timedTrees o (fairTask nF T.length limit leaf worst) w clk d n allTrees T).1 →
      t.Avoids 0 := by
    intro leaf worst t ht
    obtain ⟨h1, h2⟩ := tSolve_sound (G leaf worst) clk d n hn allTrees
    exact avoids_of_only rfl (constructAll_only (G leaf worst) rfl hterm w _ _ _ (fun m hm => ⟨d, n, h2 m hm⟩) _ h1 t ht)
  exact ⟨key _ _, key _ _⟩

/-- Four instances with three features, of which the last two tell the positive one. -/
def timedRows : Data := rowsOf [(6, 0), (7, 1), (3, 0), (5, 0)]

/-- The clock that stops after `k` checks. -/
def stopAfter (k : Nat) : Nat → Bool := fun i => decide (i < k)

theorem stopAfter_monotone (k : Nat) : Monotone (stopAfter k) := by
  intro i j hij h
  simp only [stopAfter, decide_eq_true_eq] at h ⊢
  omega

set_option maxRecDepth 100000 in
/-- C91 fails for the returned trees: with the default options the F1 fit of depth three returns a tree with labels 0 and 1 if there
is time, and one whose two leaves have the label `INT32_MAX` if the limit passes after the fifth check. -/
theorem timed_f1_label_wrong : ∃ T : Data, F1Input T ∧
    timedTrees (paretoDefault 3) (f1Task 3 (numLabel T 1)) ⟨int32Max, int32Max⟩ (stopAfter 1000) 3 7 false T =
      ([some (.node 0 (.leaf 0) (.node 1 (.leaf 0) (.node 2 (.leaf 0) (.leaf 1))))], true) ∧
    timedTrees (paretoDefault 3) (f1Task 3 (numLabel T 1)) ⟨int32Max, int32Max⟩ (stopAfter 5) 3 7 false T =
      ([some (.node 0 (.leaf int32Max) (.leaf int32Max))], false) :=
  ⟨timedRows, ⟨by decide, by decide, by unfold IdSorted; decide⟩, by decide +kernel, by decide +kernel⟩

set_option maxRecDepth 100000 in
/-- This also happens without bounds and without the depth-two solver, where the trees of a run without limit are optimal
(`f1_tree_optimal_partial`): the incomplete front of a child is in the cache. -/
theorem timed_f1_label_wrong_plain : ∃ T : Data, F1Input T ∧
    timedTrees { paretoDefault 3 with useLB := false, useUB := false, useTerm := false, order := fun _ => List.range 3 }
      (f1Task 3 (numLabel T 1)) ⟨int32Max, int32Max⟩ (stopAfter 63) 3 7 false T =
      ([some (.node 0 (.leaf 0) (.node 1 (.leaf int32Max) (.leaf int32Max)))], false) :=
  ⟨timedRows, ⟨by decide, by decide, by unfold IdSorted; decide⟩, by decide +kernel⟩

set_option maxRecDepth 100000 in
/-- And under equality of opportunity with the default options. -/
theorem timed_opportunity_label_wrong : ∃ T : Data,
    FairInput (T.countP fun i => i.feat 0 == false && i.label == 1) (T.countP fun i => i.feat 0 == true && i.label == 1) T ∧
      timedTrees (paretoDefault 4) (opportunityTask 4 (1 / 2) T) ⟨intMax, intMax, intMax, false⟩ (stopAfter 9) 3 7 false T =
        ([some (.node 1 (.leaf int32Max) (.leaf int32Max))], false) :=
  ⟨rowsOf [(14, 1), (6, 0), (10, 0), (0, 0), (13, 1), (6, 0), (9, 1)],
    ⟨by decide, by decide, by decide, by decide, by unfold IdSorted; decide⟩, by decide +kernel⟩

/-! ### The hypotheses are met -/

set_option maxRecDepth 100000 in
/-- Runs that time out at three moments: the first has found the leaves only, the others better values. -/
example : (timedSearch (paretoDefault 3) (f1Task 3 (numLabel timedRows 1)) (stopAfter 0) 3 7 false timedRows).1.map (·.sol) =
      [⟨0, 3⟩] ∧
    ((timedSearch (paretoDefault 3) (f1Task 3 (numLabel timedRows 1)) (stopAfter 5) 3 7 false timedRows).1.map (·.sol)) =
      [⟨0, 1⟩] ∧
    ((timedSearch (paretoDefault 3) (f1Task 3 (numLabel timedRows 1)) (stopAfter 1000) 3 7 false timedRows).1.map (·.sol)) =
      [⟨0, 0⟩] := by decide +kernel

set_option maxRecDepth 100000 in
/-- The number of checks without limit, and with one that passes after the third check. -/
example : let o : ParetoOptions := { paretoDefault 3 with useLB := false, useUB := false, useTerm := false, order := fun _ => List.range 3 }
    timedChecks o (f1Task 3 (numLabel timedRows 1)) (stopAfter 1000) 3 7 false timedRows = 74 ∧
    timedChecks o (f1Task 3 (numLabel timedRows 1)) (stopAfter 3) 3 7 false timedRows ≤ 8 := by decide +kernel

example : (∀ i ∈ timedRows, i.label < 2) ∧ IdSorted timedRows ∧ (∃ i ∈ timedRows, i.feat 0 = false) ∧
    (∃ i ∈ timedRows, i.feat 0 = true) ∧ Monotone (stopAfter 5) ∧ ∀ i, 5 ≤ i → stopAfter 5 i = false :=
  ⟨by decide, by unfold IdSorted; decide, by decide, by decide, stopAfter_monotone 5, fun i hi => by simp [stopAfter]; omega⟩

set_option maxRecDepth 100000 in
/-- Under demographic parity a run without bounds that times out early has found a leaf with two misclassifications, a longer one a
tree with none. -/
example : let o : ParetoOptions := { paretoDefault 4 with useLB := false, useUB := false, useTerm := false, order := fun _ => List.range 4 }
    (timedSearch o (parityTask 4 (1 / 2) parityRows) (stopAfter 10) 3 7 false parityRows).1.map (fun m => (m.sol.mis, m.size)) =
      [(2, 0)] ∧
    (timedSearch o (parityTask 4 (1 / 2) parityRows) (stopAfter 100) 3 7 false parityRows).1.map (fun m => (m.sol.mis, m.size)) =
      [(0, 3)] := by decide +kernel

end Streed
