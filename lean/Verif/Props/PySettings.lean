import Verif.Model.PySettings
import Verif.Props.Params

/-!
# C99: settings that an estimator accepts do not end the process

A user gives settings to an estimator and calls `fit`.  The claim: settings outside the documented
ranges raise an exception, and settings inside reach the solver as they were given; in no case does the
Python process end.

The claim fails for exactly two kinds of settings: a time limit above the largest 32-bit integer, and a
limit on the number of branching nodes below what the depth allows, together with a price per node, for
the four tasks that have a price.  The regressors have a price by default.
-/

namespace Streed

/-- The documented ranges, for the settings all estimators have; `t`, `c` and `u` are the time limit,
the price per node and the upper bound. -/
structure PySettings.InRange (s : PySettings) (t c u : Rat) : Prop where
  task : s.task ∈ pyTasks
  depth : 0 ≤ s.maxDepth ∧ s.maxDepth ≤ 20
  nodes : ∀ n, s.maxNodes = some n → 0 ≤ n ∧ n ≤ 1048575
  leaf : 1 ≤ s.minLeaf
  time : s.timeLimit = .fin t ∧ 0 < t
  price : s.costComplexity = .fin c ∧ 0 ≤ c ∧ c ≤ 1
  ordering : s.ordering = "in-order" ∨ s.ordering = "gini"
  upper : s.upperBound = .fin u ∧ 0 ≤ u
  seed : -1 ≤ s.seed

/-- The documented ranges of the settings of one class. -/
def OwnSettings.InRange : OwnSettings → Prop
  | .classifier _ => True
  | .regressor b _ => b = "equivalent" ∨ b = "kmeans"
  | .linear l r _ => (∃ q, l = .fin q ∧ 0 ≤ q ∧ q ≤ 1000000000000) ∧
      ∃ q, r = .fin q ∧ 0 ≤ q ∧ q ≤ 1000000000000
  | .fair d => ∃ q, d = .fin q ∧ 0 ≤ q ∧ q ≤ 1
  | .policy t => t = "DR" ∨ t = "DM" ∨ t = "IPW"
  | .plain => True

/-- The integers of the settings that are passed on fit the integers of the solver. -/
def PySettings.Fits (s : PySettings) : Prop :=
  s.minLeaf ≤ 2147483647 ∧ s.seed ≤ 2147483647 ∧
    ∀ l r k, s.own = .linear l r k → 5 * (k : Int) ≤ 2147483647

theorem inReal_closed {lo : Rat} {hi : Option Rat} {v : Dbl} :
    inReal lo true hi v = true ↔ ∃ q, v = .fin q ∧ lo ≤ q ∧ ∀ h, hi = some h → q ≤ h := by
  cases v with
  | fin q =>
    cases hi <;> simp [inReal, Rat.le_iff_lt_or_eq]
  | _ => simp [inReal]

theorem inReal_open {lo : Rat} {v : Dbl} :
    inReal lo false none v = true ↔ ∃ q, v = .fin q ∧ lo < q := by
  cases v <;> simp [inReal]

theorem own_accepted_iff (o : OwnSettings) : o.accepted = true ↔ o.InRange := by
  cases o <;> simp [OwnSettings.accepted, OwnSettings.InRange, inReal_closed]

/-- scikit-learn accepts exactly the settings in the documented ranges. -/
theorem accepted_iff (s : PySettings) :
    s.accepted = true ↔ (∃ t c u, s.InRange t c u) ∧ s.own.InRange := by
  unfold PySettings.accepted
  simp only [Bool.and_eq_true, decide_eq_true_eq, own_accepted_iff, inReal_closed, inReal_open,
    List.contains_iff_mem, Option.some.injEq, List.mem_cons, List.not_mem_nil, or_false]
  constructor
  · rintro ⟨⟨⟨⟨⟨⟨⟨⟨⟨h1, h2⟩, h3⟩, h4⟩, t, ht, ht0⟩, c, hc, hc0, hc1⟩, h7⟩, u, hu, hu0, _⟩, h9⟩, h10⟩
    refine ⟨⟨t, c, u, h1, h2, ?_, h4, ⟨ht, ht0⟩, ⟨hc, hc0, hc1 1 rfl⟩, h7, ⟨hu, hu0⟩, h9⟩, h10⟩
    intro n hn
    rw [hn] at h3
    simpa using h3
  · rintro ⟨⟨t, c, u, h⟩, h10⟩
    refine ⟨⟨⟨⟨⟨⟨⟨⟨⟨h.task, h.depth⟩, ?_⟩, h.leaf⟩, t, h.time⟩, c, h.price.1, h.price.2.1, ?_⟩,
      h.ordering⟩, u, h.upper.1, h.upper.2, by simp⟩, h.seed⟩, h10⟩
    · split
      · rfl
      next n hn => simpa using h.nodes n hn
    · rintro _ rfl
      exact h.price.2.2

/-- Settings outside the documented ranges raise an exception. -/
theorem refused_raises (s : PySettings) (h : ¬ ((∃ t c u, s.InRange t c u) ∧ s.own.InRange)) :
    s.fit = .raised := by
  rw [← accepted_iff] at h
  simp [PySettings.fit, h]

theorem pyRun_eq : ∀ (ops : List SetOp) (h : Handler), (∀ o ∈ ops, o.fitsInt = true) →
    (∀ h', h.run ops = .ok h' → pyRun h ops = .ready h') ∧ (h.run ops = .stop → pyRun h ops = .ended)
  | [], h, _ => by simp [Handler.run, pyRun]
  | o :: ops, h, hf => by
    have h1 := hf o (List.mem_cons_self ..)
    rw [show pyRun h (o :: ops) = if o.fitsInt then
      match SetOp.apply h o with
      | .ok h' => pyRun h' ops
      | _ => .ended
      else .raised from rfl, if_pos h1]
    rw [show h.run (o :: ops) = (SetOp.apply h o).bind fun h' => h'.run ops from rfl]
    cases SetOp.apply h o with
    | ok h' => exact pyRun_eq ops h' (fun o ho => hf o (List.mem_cons_of_mem _ ho))
    | stop => simp [Outcome.bind]
    | undef => simp [Outcome.bind]

theorem pyRun_ready : ∀ (ops : List SetOp) (h h' : Handler), pyRun h ops = .ready h' →
    h.run ops = .ok h' ∧ ∀ o ∈ ops, o.fitsInt = true
  | [], h, h', hr => by cases hr; exact ⟨rfl, by simp⟩
  | o :: ops, h, h', hr => by
    rw [show pyRun h (o :: ops) = if o.fitsInt then
      match SetOp.apply h o with
      | .ok h' => pyRun h' ops
      | _ => .ended
      else .raised from rfl] at hr
    split at hr
    next hf =>
      split at hr
      next h1 he =>
        obtain ⟨h2, h3⟩ := pyRun_ready ops h1 h' hr
        refine ⟨by rw [show h.run (o :: ops) = (SetOp.apply h o).bind fun h' => h'.run ops from rfl, he]; exact h2, ?_⟩
        intro o' ho'
        rcases List.mem_cons.1 ho' with rfl | ho'
        · exact hf
        · exact h3 o' ho'
      · cases hr
    · cases hr

theorem nodes_range (s : PySettings) {t c u : Rat} (hs : s.InRange t c u) :
    0 ≤ s.nodes ∧ s.nodes ≤ 2 ^ s.maxDepth.toNat - 1 ∧ s.nodes ≤ 2147483647 := by
  have h1 : (1 : Int) ≤ 2 ^ s.maxDepth.toNat := by
    have := Nat.one_le_two_pow (n := s.maxDepth.toNat)
    exact_mod_cast this
  have h2 : (2 : Int) ^ s.maxDepth.toNat ≤ 2 ^ 20 := by
    have := Nat.pow_le_pow_right (n := 2) (by decide) (show s.maxDepth.toNat ≤ 20 by have := hs.depth; omega)
    exact_mod_cast this
  have h3 : (2 : Int) ^ 20 = 1048576 := by decide
  unfold PySettings.nodes
  dsimp only
  split
  · omega
  next n hn =>
    have := hs.nodes n hn
    split <;> omega

/-- The number of branching nodes that is passed on differs from what the depth allows only if a
smaller number was given. -/
theorem nodes_ne_iff (s : PySettings) :
    s.nodes ≠ 2 ^ s.maxDepth.toNat - 1 ↔ ∃ n, s.maxNodes = some n ∧ n < 2 ^ s.maxDepth.toNat - 1 := by
  unfold PySettings.nodes
  dsimp only
  cases s.maxNodes with
  | none => simp
  | some n =>
    simp only [Option.some.injEq, exists_eq_left']
    split <;> omega

theorem ops_fit (s : PySettings) {t c u : Rat} (hs : s.InRange t c u) (hf : s.Fits) :
    ∀ o ∈ s.ops, o.fitsInt = true := by
  obtain ⟨f1, f2, f3⟩ := hf
  have hn := nodes_range s hs
  have hd := hs.depth
  have hl := hs.leaf
  have h9 := hs.seed
  have i1 : SetOp.fitsInt (.int "max-depth" s.maxDepth) = true := by simp [SetOp.fitsInt]; omega
  have i2 : SetOp.fitsInt (.int "max-num-nodes" s.nodes) = true := by simp [SetOp.fitsInt]; omega
  have i3 : SetOp.fitsInt (.int "min-leaf-node-size" s.minLeaf) = true := by
    simp [SetOp.fitsInt]; omega
  have i4 : SetOp.fitsInt (.int "random-seed" s.seed) = true := by simp [SetOp.fitsInt]; omega
  unfold PySettings.ops
  intro o ho
  replace ho := List.mem_append.1 ho
  rcases ho with ho | ho
  · revert o
    simp only [List.forall_mem_cons, i1, i2, i3, i4, List.not_mem_nil, true_and]
    exact ⟨rfl, rfl, rfl, rfl, rfl, rfl, rfl, rfl, rfl, rfl, rfl, rfl, rfl, rfl, fun _ h => h.elim⟩
  · cases hw : s.own with
    | linear l r k =>
      rw [hw] at ho
      simp only [OwnSettings.ops, List.mem_append, List.mem_cons, List.not_mem_nil, or_false] at ho
      rcases ho with (rfl | rfl) | ho
      · rfl
      · rfl
      · split at ho
        · rw [List.mem_singleton.1 ho]
          have := f3 l r k hw
          simp [SetOp.fitsInt]
          omega
        · cases ho
    | classifier b => rw [hw] at ho; simp [OwnSettings.ops] at ho; subst ho; rfl
    | regressor a b => rw [hw] at ho; simp [OwnSettings.ops] at ho; rcases ho with rfl | rfl <;> rfl
    | fair d => rw [hw] at ho; simp [OwnSettings.ops] at ho; subst ho; rfl
    | policy b => rw [hw] at ho; simp [OwnSettings.ops] at ho; subst ho; rfl
    | plain => rw [hw] at ho; cases ho

/-- The largest double. -/
def largestUpper : Rat := (2 ^ 53 - 1) * 2 ^ 971

theorem ops_valid (s : PySettings) {t c u : Rat} (hs : s.InRange t c u) (ho : s.own.InRange)
    (hf : s.Fits) (hu : u ≤ largestUpper) (ht : t ≤ 2147483647) : ∀ o ∈ s.ops, o.Valid := by
  obtain ⟨f1, f2, f3⟩ := hf
  have hn := nodes_range s hs
  have hd := hs.depth
  have hl := hs.leaf
  have h9 := hs.seed
  have bl : ∀ (n : String) (d b : Bool), (n, d) ∈ boolTable → SetOp.Valid (.bool n b) :=
    fun n d b h => ⟨d, h⟩
  have v1 : SetOp.Valid (.str "task" s.task) :=
    ⟨_, _, List.mem_cons_self .., by
      rintro _ ⟨⟩
      have := hs.task
      simp only [pyTasks, List.mem_cons, List.not_mem_nil, or_false] at this ⊢
      grind⟩
  have v2 : SetOp.Valid (.int "max-depth" s.maxDepth) := ⟨3, 0, 20, by decide, hd⟩
  have v3 : SetOp.Valid (.int "max-num-nodes" s.nodes) :=
    ⟨7, 0, 2147483647, by decide, hn.1, hn.2.2⟩
  have v4 : SetOp.Valid (.int "min-leaf-node-size" s.minLeaf) := ⟨1, 1, 2147483647, by decide, hl, f1⟩
  have v5 : SetOp.Valid (.flt "time" s.timeLimit) :=
    ⟨3600, 0, 2147483647, t, by decide, hs.time.1, Rat.le_of_lt hs.time.2, ht⟩
  have v6 : SetOp.Valid (.flt "cost-complexity" (if s.priced then s.costComplexity else .fin 0)) := by
    split
    · exact ⟨0, 0, 1, c, by decide, hs.price⟩
    · exact ⟨0, 0, 1, 0, by decide, rfl, by decide, by decide⟩
  have v7 : SetOp.Valid (.str "feature-ordering" s.ordering) :=
    ⟨"in-order", some ["in-order", "gini"], by decide, by
      rintro _ ⟨⟩
      have := hs.ordering
      simpa using this⟩
  have v8 : SetOp.Valid (.int "random-seed" s.seed) := ⟨4, -1, 2147483647, by decide, h9, f2⟩
  have v9 : SetOp.Valid (.flt "upper-bound" s.upperBound) :=
    ⟨2147483647, 0, _, u, by simp [fltTable]; rfl, hs.upper.1, hs.upper.2, hu⟩
  unfold PySettings.ops
  intro o hm
  replace hm := List.mem_append.1 hm
  rcases hm with hm | hm
  · revert o
    simp only [List.forall_mem_cons, List.not_mem_nil, v1, v2, v3, v4, v5, v6, v7, v8, v9, true_and]
    exact ⟨bl _ _ _ (show ("hyper-tune", false) ∈ boolTable by decide),
      bl _ _ _ (show ("all-trees", false) ∈ boolTable by decide),
      bl _ _ _ (show ("verbose", true) ∈ boolTable by decide),
      bl _ _ _ (show ("use-branch-caching", false) ∈ boolTable by decide),
      bl _ _ _ (show ("use-dataset-caching", true) ∈ boolTable by decide),
      bl _ _ _ (show ("use-terminal-solver", true) ∈ boolTable by decide),
      bl _ _ _ (show ("use-similarity-lower-bound", true) ∈ boolTable by decide),
      bl _ _ _ (show ("use-upper-bound", true) ∈ boolTable by decide),
      bl _ _ _ (show ("use-lower-bound", true) ∈ boolTable by decide), fun _ h => h.elim⟩
  · cases hw : s.own with
    | linear l r k =>
      rw [hw] at hm ho
      obtain ⟨ho1, ho2⟩ := ho
      simp only [OwnSettings.ops, List.mem_append, List.mem_cons, List.not_mem_nil, or_false] at hm
      rcases hm with (rfl | rfl) | hm
      · obtain ⟨q, h1, h2, h3⟩ := ho1
        exact ⟨0, 0, 1000000000000, q, by decide, h1, h2, h3⟩
      · obtain ⟨q, h1, h2, h3⟩ := ho2
        exact ⟨0, 0, 1000000000000, q, by decide, h1, h2, h3⟩
      · split at hm
        · rw [List.mem_singleton.1 hm]
          have := f3 l r k hw
          exact ⟨1, 1, 2147483647, by decide, by omega, this⟩
        · cases hm
    | classifier b =>
      rw [hw] at hm; simp [OwnSettings.ops] at hm; subst hm; exact ⟨true, by decide⟩
    | regressor a b =>
      rw [hw] at hm ho; simp [OwnSettings.ops] at hm
      rcases hm with rfl | rfl
      · refine ⟨"equivalent", some ["equivalent", "kmeans", ""], by decide, ?_⟩
        rintro _ ⟨⟩
        rcases ho with rfl | rfl <;> decide
      · exact ⟨true, by decide⟩
    | fair d =>
      rw [hw] at hm ho; simp [OwnSettings.ops] at hm; subst hm
      obtain ⟨q, h1, h2, h3⟩ := ho
      exact ⟨1, 0, 1, q, by decide, h1, h2, h3⟩
    | policy b =>
      rw [hw] at hm ho; simp [OwnSettings.ops] at hm; subst hm
      refine ⟨"DM", some ["DM", "IPW", "DR", ""], by decide, ?_⟩
      rintro _ ⟨⟩
      rcases ho with rfl | rfl | rfl <;> decide
    | plain => rw [hw] at hm; cases hm

theorem ops_no_nan (s : PySettings) {t c u : Rat} (hs : s.InRange t c u) (ho : s.own.InRange) :
    ∀ n, SetOp.flt n .nan ∉ s.ops := by
  intro n hm
  unfold PySettings.ops at hm
  rcases List.mem_append.1 hm with hm | hm
  · simp only [List.mem_cons, SetOp.flt.injEq, reduceCtorEq, false_or, List.not_mem_nil, or_false] at hm
    rcases hm with ⟨_, h⟩ | ⟨_, h⟩ | ⟨_, h⟩
    · rw [hs.time.1] at h; cases h
    · rw [hs.price.1] at h; split at h <;> cases h
    · rw [hs.upper.1] at h; cases h
  · cases hw : s.own with
    | linear l r k =>
      rw [hw] at hm ho
      obtain ⟨⟨q, rfl, _⟩, q', rfl, _⟩ := ho
      simp only [OwnSettings.ops, List.mem_append, List.mem_cons, SetOp.flt.injEq, reduceCtorEq,
        and_false, List.not_mem_nil, or_false, false_or] at hm
      split at hm <;> simp at hm
    | fair d =>
      rw [hw] at hm ho
      obtain ⟨q, rfl, _⟩ := ho
      simp [OwnSettings.ops] at hm
    | _ => rw [hw] at hm; simp [OwnSettings.ops] at hm

/-- The price per node that is passed on. -/
def PySettings.pricePassed (s : PySettings) : Dbl := if s.priced then s.costComplexity else .fin 0

/-- The smallest leaf that is passed on: five rows per variable for lines. -/
def PySettings.leafPassed (s : PySettings) : Int :=
  match s.own with
  | .linear _ _ k => max s.minLeaf (5 * (k : Int))
  | _ => s.minLeaf

/-- What the solver finds in the handler: every setting as it was given, the number of branching nodes
cut to what the depth allows, no price for a task without one, and for lines at least five rows per
variable in a leaf. -/
structure PySettings.Passed (s : PySettings) (h : Handler) : Prop where
  task : h.getStr "task" = .ok s.task
  depth : h.getInt "max-depth" = .ok s.maxDepth
  nodes : h.getInt "max-num-nodes" = .ok (match s.maxNodes with
    | none => 2 ^ s.maxDepth.toNat - 1
    | some n => min n (2 ^ s.maxDepth.toNat - 1))
  leaf : h.getInt "min-leaf-node-size" = .ok s.leafPassed
  time : h.getFlt "time" = .ok s.timeLimit
  price : h.getFlt "cost-complexity" = .ok s.pricePassed
  ordering : h.getStr "feature-ordering" = .ok s.ordering
  seed : h.getInt "random-seed" = .ok s.seed
  upper : h.getFlt "upper-bound" = .ok s.upperBound
  tune : h.getBool "hyper-tune" = .ok s.hyperTune
  all : h.getBool "all-trees" = .ok s.allTrees
  verbose : h.getBool "verbose" = .ok s.verbose
  branch : h.getBool "use-branch-caching" = .ok s.branchCaching
  dataset : h.getBool "use-dataset-caching" = .ok s.datasetCaching
  terminal : h.getBool "use-terminal-solver" = .ok s.terminalSolver
  similarity : h.getBool "use-similarity-lower-bound" = .ok s.similarity
  useUpper : h.getBool "use-upper-bound" = .ok s.useUpper
  useLower : h.getBool "use-lower-bound" = .ok s.useLower
  limit : ∀ d, s.own = .fair d → h.getFlt "discrimination-limit" = .ok d
  lasso : ∀ l r k, s.own = .linear l r k → h.getFlt "lasso-penalty" = .ok l ∧
    h.getFlt "ridge-penalty" = .ok r
  teacher : ∀ t, s.own = .policy t → h.getStr "ppg-teacher-method" = .ok t
  bound : ∀ b t, s.own = .regressor b t → h.getStr "regression-bound" = .ok b ∧
    h.getBool "use-task-lower-bound" = .ok t
  taskLower : ∀ t, s.own = .classifier t → h.getBool "use-task-lower-bound" = .ok t

/-- The settings for which `CheckParameters` ends the process: fewer branching nodes than the depth
allows, and a price per node. -/
def PySettings.Conflict (s : PySettings) (c : Rat) : Prop :=
  s.priced = true ∧ (∃ n, s.maxNodes = some n ∧ n < 2 ^ s.maxDepth.toNat - 1) ∧ 1 / 1000000 ≤ c

theorem check_iff (h : Handler) (d n : Int) (q : Rat) (hd : h.getInt "max-depth" = .ok d)
    (hn : h.getInt "max-num-nodes" = .ok n) (hc : h.getFlt "cost-complexity" = .ok (.fin q))
    (hle : n ≤ 2 ^ d.toNat - 1) :
    (n ≠ 2 ^ d.toNat - 1 ∧ 1 / 1000000 ≤ q → h.check = .stop) ∧
    (¬ (n ≠ 2 ^ d.toNat - 1 ∧ 1 / 1000000 ≤ q) → h.check = .ok ()) := by
  have e : (Dbl.fin q = .fin (1 / 1000000) ∨ Dbl.gt (.fin q) (.fin (1 / 1000000)) = true) ↔
      1 / 1000000 ≤ q := by
    simp only [Dbl.gt, decide_eq_true_eq, Dbl.fin.injEq, Rat.le_iff_lt_or_eq]
    constructor
    · rintro (h | h)
      · exact .inr h.symm
      · exact .inl h
    · rintro (h | h)
      · exact .inr h
      · exact .inl h.symm
  have hx : h.check = if n > 2 ^ d.toNat - 1 then .stop
      else if n ≠ 2 ^ d.toNat - 1 ∧
        (Dbl.fin q = .fin (1 / 1000000) ∨ Dbl.gt (.fin q) (.fin (1 / 1000000)) = true) then .stop
      else .ok () := by
    unfold Handler.check
    rw [hd, hn, hc]
    rfl
  rw [hx, if_neg (by omega)]
  exact ⟨fun h => if_pos ⟨h.1, e.2 h.2⟩, fun h => if_neg fun h' => h ⟨h'.1, e.1 h'.2⟩⟩

theorem run_passed (s : PySettings) {t c u : Rat} (hs : s.InRange t c u) (h : Handler)
    (hr : declared.run s.ops = .ok h) : s.Passed h := by
  have I := fun n d lo hi hm => (int_value s.ops h hr n d lo hi hm).1
  have S := fun n d a hm => (str_value s.ops h hr n d a hm).1
  have B := fun n d hm => bool_value s.ops h hr n d hm
  have F : ∀ n d lo hi, (n, d, lo, hi) ∈ fltTable → h.getFlt n = .ok (lastFlt n (.fin d) s.ops) :=
    fun n d lo hi hm =>
      getFlt_of_cur (run_curFlt n s.ops hr (.fin d) (by simp [Handler.curFlt, declared_flt hm]))
  have hb : ∀ n, (n = "hyper-tune" ∨ n = "all-trees" ∨ n = "verbose" ∨ n = "use-branch-caching" ∨
      n = "use-dataset-caching" ∨ n = "use-terminal-solver" ∨ n = "use-similarity-lower-bound" ∨
      n = "use-upper-bound" ∨ n = "use-lower-bound") → ∀ d,
      lastBool n d (s.own.ops s.minLeaf) = d := by
    intro n hn d
    cases s.own <;> rcases hn with rfl | rfl | rfl | rfl | rfl | rfl | rfl | rfl | rfl <;>
      simp [OwnSettings.ops, lastBool] <;> split <;> simp [lastBool]
  have hi : ∀ n, n ≠ "min-leaf-node-size" → ∀ d, lastInt n d (s.own.ops s.minLeaf) = d := by
    intro n hn d
    cases s.own <;> simp [OwnSettings.ops, lastInt]
    split <;> simp [lastInt, Ne.symm hn]
  have hst : ∀ n, n = "task" ∨ n = "feature-ordering" → ∀ d, lastStr n d (s.own.ops s.minLeaf) = d := by
    intro n hn d
    cases s.own <;> rcases hn with rfl | rfl <;> simp [OwnSettings.ops, lastStr] <;> split <;>
      simp [lastStr]
  have hfl : ∀ n, n = "time" ∨ n = "cost-complexity" ∨ n = "upper-bound" → ∀ d,
      lastFlt n d (s.own.ops s.minLeaf) = d := by
    intro n hn d
    cases s.own <;> rcases hn with rfl | rfl | rfl <;> simp [OwnSettings.ops, lastFlt] <;> split <;>
      simp [lastFlt]
  have hm := nodes_range s hs
  refine
    { task := (S "task" _ _ (List.mem_cons_self ..)).trans ?_
      depth := (I "max-depth" 3 0 20 (by decide)).trans ?_
      nodes := (I "max-num-nodes" 7 0 2147483647 (by decide)).trans ?_
      leaf := (I "min-leaf-node-size" 1 1 2147483647 (by decide)).trans ?_
      time := (F "time" 3600 0 2147483647 (by decide)).trans ?_
      price := (F "cost-complexity" 0 0 1 (by decide)).trans ?_
      ordering := (S "feature-ordering" "in-order" (some ["in-order", "gini"]) (by decide)).trans ?_
      seed := (I "random-seed" 4 (-1) 2147483647 (by decide)).trans ?_
      upper := (F "upper-bound" 2147483647 0 ((2 ^ 53 - 1) * 2 ^ 971) (by simp [fltTable])).trans ?_
      tune := (B "hyper-tune" false (by decide)).trans ?_
      all := (B "all-trees" false (by decide)).trans ?_
      verbose := (B "verbose" true (by decide)).trans ?_
      branch := (B "use-branch-caching" false (by decide)).trans ?_
      dataset := (B "use-dataset-caching" true (by decide)).trans ?_
      terminal := (B "use-terminal-solver" true (by decide)).trans ?_
      similarity := (B "use-similarity-lower-bound" true (by decide)).trans ?_
      useUpper := (B "use-upper-bound" true (by decide)).trans ?_
      useLower := (B "use-lower-bound" true (by decide)).trans ?_
      limit := fun d hd => (F "discrimination-limit" 1 0 1 (by decide)).trans ?_
      lasso := fun l r k hk => ⟨(F "lasso-penalty" 0 0 1000000000000 (by decide)).trans ?_,
        (F "ridge-penalty" 0 0 1000000000000 (by decide)).trans ?_⟩
      teacher := fun t ht =>
        (S "ppg-teacher-method" "DM" (some ["DM", "IPW", "DR", ""]) (by decide)).trans ?_
      bound := fun b t hb =>
        ⟨(S "regression-bound" "equivalent" (some ["equivalent", "kmeans", ""]) (by decide)).trans ?_,
          (B "use-task-lower-bound" true (by decide)).trans ?_⟩
      taskLower := fun t ht => (B "use-task-lower-bound" true (by decide)).trans ?_ }
  · simp [PySettings.ops, lastStr, hst]
  · simp [PySettings.ops, lastInt, hi]
  · simp only [PySettings.ops, lastInt, List.cons_append, List.nil_append, String.reduceEq, if_true,
      if_false, hi _ (show "max-num-nodes" ≠ "min-leaf-node-size" by decide)]
    unfold PySettings.nodes
    dsimp only
    cases s.maxNodes with
    | none => rfl
    | some n =>
      dsimp only
      congr 1
      split <;> omega
  · simp only [PySettings.ops, lastInt, List.cons_append, List.nil_append, String.reduceEq, if_true,
      if_false]
    unfold PySettings.leafPassed
    cases s.own with
    | linear l r k =>
      simp only [OwnSettings.ops]
      congr 1
      split
      · simp [lastInt]; omega
      · simp [lastInt]; omega
    | _ => simp [OwnSettings.ops, lastInt]
  · simp [PySettings.ops, lastFlt, hfl]
  · simp [PySettings.ops, lastFlt, hfl, PySettings.pricePassed]
  · simp [PySettings.ops, lastStr, hst]
  · simp [PySettings.ops, lastInt, hi]
  · simp [PySettings.ops, lastFlt, hfl]
  all_goals try (simp [PySettings.ops, lastBool, hb]; done)
  · simp [PySettings.ops, lastFlt, hd, OwnSettings.ops]
  · simp [PySettings.ops, lastFlt, hk, OwnSettings.ops]
    split <;> simp [lastFlt]
  · simp [PySettings.ops, lastFlt, hk, OwnSettings.ops]
    split <;> simp [lastFlt]
  · simp [PySettings.ops, lastStr, ht, OwnSettings.ops]
  · simp [PySettings.ops, lastStr, hb, OwnSettings.ops]
  · simp [PySettings.ops, lastBool, hb, OwnSettings.ops]
  · simp [PySettings.ops, lastBool, ht, OwnSettings.ops]

/-- The outcome of `fit` for settings in the documented ranges whose integers fit, exactly: the process
ends when the time limit is above the largest 32-bit integer or when fewer branching nodes than the
depth allows are combined with a price per node; otherwise the solver is made with the settings as they
were given. -/
theorem settings_outcome_partial (s : PySettings) (t c u : Rat) (hs : s.InRange t c u)
    (ho : s.own.InRange) (hf : s.Fits) (hu : u ≤ largestUpper) :
    (2147483647 < t ∨ s.Conflict c → s.fit = .ended) ∧
    (¬ (2147483647 < t ∨ s.Conflict c) → ∃ h, s.fit = .ready h ∧ s.Passed h) := by
  have ha := (accepted_iff s).2 ⟨⟨t, c, u, hs⟩, ho⟩
  have hn := ops_no_nan s hs ho
  have hp := pyRun_eq s.ops declared (ops_fit s hs hf)
  by_cases ht : 2147483647 < t
  · have hst := settings_rejected_partial s.ops hn (.flt "time" s.timeLimit) (by simp [PySettings.ops])
      (by
        rintro ⟨d, lo, hi, q, hm, hq, _, h2⟩
        rw [hs.time.1] at hq
        cases hq
        have : hi = 2147483647 := by
          simp [fltTable] at hm
          exact hm.2.2
        rw [this] at h2
        exact absurd h2 (Rat.not_le.2 ht))
    refine ⟨fun _ => ?_, fun h => absurd (.inl ht) h⟩
    simp [PySettings.fit, ha, hp.2 hst]
  · obtain ⟨h, hr⟩ := (settings_checked_partial s.ops hn).2
      (ops_valid s hs ho hf hu (Rat.not_lt.1 ht))
    have hpass := run_passed s hs h hr
    have hrun := hp.1 h hr
    have hfit : s.fit = match h.check with
      | .ok _ => .ready h
      | _ => .ended := by
      simp only [PySettings.fit, ha, hrun, if_true]
      rfl
    have hnn : h.getInt "max-num-nodes" = .ok s.nodes := by
      rw [(int_value s.ops h hr "max-num-nodes" 7 0 2147483647 (by decide)).1]
      have hi : ∀ d, lastInt "max-num-nodes" d (s.own.ops s.minLeaf) = d := by
        intro d
        cases s.own <;> simp [OwnSettings.ops, lastInt]
        split <;> simp [lastInt]
      simp [PySettings.ops, lastInt, hi]
    have hle := (nodes_range s hs).2.1
    cases hpr : s.priced with
    | false =>
      have hcc : h.getFlt "cost-complexity" = .ok (.fin 0) := by
        rw [hpass.price, PySettings.pricePassed, hpr]
        rfl
      have hck := (check_iff h s.maxDepth s.nodes 0 hpass.depth hnn hcc hle).2
        (fun hx => absurd hx.2 (by decide +kernel))
      refine ⟨?_, fun _ => ⟨h, by rw [hfit, hck], hpass⟩⟩
      rintro (hx | hx)
      · exact absurd hx ht
      · exact absurd hx.1 (by simp [hpr])
    | true =>
      have hcc : h.getFlt "cost-complexity" = .ok (.fin c) := by
        rw [hpass.price, PySettings.pricePassed, hpr, hs.price.1]
        rfl
      have hck := check_iff h s.maxDepth s.nodes c hpass.depth hnn hcc hle
      rw [nodes_ne_iff] at hck
      constructor
      · rintro (hx | hx)
        · exact absurd hx ht
        · rw [hfit, hck.1 ⟨hx.2.1, hx.2.2⟩]
      · intro hx
        refine ⟨h, ?_, hpass⟩
        rw [hfit, hck.2 (fun hy => hx (.inr ⟨hpr, hy.1, hy.2⟩))]

/-- Whatever the settings are, a solver that is made has the settings that were given, and they are in
the documented ranges. -/
theorem ready_passed (s : PySettings) (h : Handler) (hr : s.fit = .ready h) :
    (∃ t c u, s.InRange t c u) ∧ s.own.InRange ∧ s.Passed h := by
  unfold PySettings.fit at hr
  split at hr
  next ha =>
    obtain ⟨⟨t, c, u, hs⟩, ho⟩ := (accepted_iff s).1 ha
    refine ⟨⟨t, c, u, hs⟩, ho, ?_⟩
    split at hr
    next h' he =>
      obtain ⟨h1, _⟩ := pyRun_ready _ _ _ he
      split at hr
      · cases hr
        exact run_passed s hs h h1
      · cases hr
    next r hne => exact absurd hr (hne h)
  · cases hr

/-- The full claim. -/
def SettingsNeverEnd : Prop := ∀ s : PySettings, s.fit ≠ .ended

/-- A regressor as it is made by default, with at most `n` branching nodes
(regression.py:18-39). -/
def defaultRegressor (n : Int) : PySettings where
  task := "cost-complex-regression"
  maxNodes := some n
  branchCaching := true
  datasetCaching := false
  own := .regressor "kmeans" true

/-- `STreeDRegressor(max_num_nodes=3)` ends the process in `fit`; so does every number below seven. -/
theorem regressor_ends (n : Int) (h0 : 0 ≤ n) (h7 : n < 7) : (defaultRegressor n).fit = .ended := by
  refine (settings_outcome_partial (defaultRegressor n) 600 (1 / 100) 2147483647 ?_ ?_ ?_ ?_).1 (.inr ?_)
  · exact ⟨show "cost-complex-regression" ∈ pyTasks by decide,
      show (0 : Int) ≤ 3 ∧ (3 : Int) ≤ 20 by decide, by rintro m ⟨⟩; omega,
      show (1 : Int) ≤ 1 by decide, ⟨rfl, by decide⟩,
      ⟨rfl, by decide +kernel, by decide +kernel⟩, .inl rfl, ⟨rfl, by decide⟩,
      show (-1 : Int) ≤ 27 by decide⟩
  · exact .inr rfl
  · exact ⟨show (1 : Int) ≤ 2147483647 by decide, show (27 : Int) ≤ 2147483647 by decide,
      by rintro l r k ⟨⟩⟩
  · decide +kernel
  · refine ⟨rfl, ⟨n, rfl, ?_⟩, by decide +kernel⟩
    show n < 2 ^ (3 : Int).toNat - 1
    simpa using h7

/-- A classifier with a time limit of `t` seconds. -/
def patientClassifier (t : Rat) : PySettings where
  task := "accuracy"
  timeLimit := .fin t
  own := .classifier true

/-- A time limit above the largest 32-bit integer ends the process. -/
theorem long_time_ends (t : Rat) (ht : 2147483647 < t) : (patientClassifier t).fit = .ended := by
  refine (settings_outcome_partial (patientClassifier t) t (1 / 100) 2147483647 ?_ ?_ ?_ ?_).1 (.inl ht)
  · exact ⟨show "accuracy" ∈ pyTasks by decide,
      show (0 : Int) ≤ 3 ∧ (3 : Int) ≤ 20 by decide, by rintro m ⟨⟩,
      show (1 : Int) ≤ 1 by decide, ⟨rfl, by grind⟩,
      ⟨rfl, by decide +kernel, by decide +kernel⟩, .inl rfl, ⟨rfl, by decide⟩,
      show (-1 : Int) ≤ 27 by decide⟩
  · trivial
  · exact ⟨show (1 : Int) ≤ 2147483647 by decide, show (27 : Int) ≤ 2147483647 by decide,
      by rintro l r k ⟨⟩⟩
  · decide +kernel

/-- The full claim is false. -/
theorem settings_end : ¬ SettingsNeverEnd := fun h => h _ (regressor_ends 3 (by decide) (by decide))

/-! ### Instances -/

/-- A fairness classifier of depth four with at most three branching nodes: the limit on the number of
nodes is passed on, for the task has no price. -/
example : (match PySettings.fit
      { task := "group-fairness", maxDepth := 4, maxNodes := some 3, minLeaf := 5
        own := .fair (.fin (1 / 20)) } with
    | .ready h => decide (h.getInt "max-num-nodes" = .ok 3 ∧
        h.getFlt "discrimination-limit" = .ok (.fin (1 / 20)) ∧
        h.getFlt "cost-complexity" = .ok (.fin 0))
    | _ => false) = true := by
  decide +kernel

/-- The linear regressor with two variables asks for ten rows in a leaf, and too many branching nodes
are cut to what the depth allows. -/
example : (match PySettings.fit
      { task := "piecewise-linear-regression", maxDepth := 2, maxNodes := some 100
        own := .linear (.fin 1) (.fin 0) 2 } with
    | .ready h => decide (h.getInt "max-num-nodes" = .ok 3 ∧
        h.getInt "min-leaf-node-size" = .ok 10)
    | _ => false) = true := by
  decide +kernel

/-- Settings out of range, and an integer that does not fit. -/
example : ({ task := "accuracy", maxDepth := 21 } : PySettings).fit = .raised ∧
    ({ task := "accuracy", timeLimit := .fin 0 } : PySettings).fit = .raised ∧
    ({ task := "accuracy", minLeaf := 2147483648 } : PySettings).fit = .raised ∧
    ({ task := "accuracy", costComplexity := .nan } : PySettings).fit = .raised := by
  decide +kernel

end Streed
