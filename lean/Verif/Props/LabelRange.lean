import Verif.Model.LabelRange
import Verif.Props.Tol
import Verif.Props.RealTree

/-!
# C97: every label with costs, and every treatment with predicted outcomes, can be predicted
-/

namespace Streed

/-! ### The labels of the view -/

theorem npArgmin_lt (c : Nat → Nat) {n : Nat} (h : 0 < n) : npArgmin c n < n := by
  induction n with
  | zero => omega
  | succ n ih =>
    unfold npArgmin
    split
    · omega
    · rcases Nat.eq_zero_or_pos n with rfl | hn
      · exact Nat.zero_lt_one
      · have := ih hn; omega

/-- The label given to a row is one of the cheapest. -/
theorem npArgmin_le (c : Nat → Nat) {n k : Nat} (h : k < n) : c (npArgmin c n) ≤ c k := by
  induction n with
  | zero => omega
  | succ n ih =>
    rw [show npArgmin c (n + 1) = if c n < c (npArgmin c n) then n else npArgmin c n from rfl]
    rcases Nat.lt_succ_iff_lt_or_eq.1 h with h | rfl
    · have := ih h
      split <;> omega
    · split <;> omega

/-- It is the first of them. -/
theorem npArgmin_first (c : Nat → Nat) {n k : Nat} (h : k < npArgmin c n) : c (npArgmin c n) < c k := by
  induction n with
  | zero => unfold npArgmin at h; omega
  | succ n ih =>
    rw [show npArgmin c (n + 1) = if c n < c (npArgmin c n) then n else npArgmin c n from rfl] at h ⊢
    split at h
    · rename_i h1
      rw [if_pos h1]
      exact lt_of_lt_of_le h1 (npArgmin_le c h)
    · rename_i h1
      rw [if_neg h1]
      exact ih h

theorem viewLabels_le {T : Data} {n : Nat} (h : ∀ i ∈ T, i.label < n) : viewLabels T ≤ n := by
  have key : ∀ (l : Data) (a : Nat), a ≤ n → (∀ i ∈ l, i.label < n) → l.foldl (fun m i => max m (i.label + 1)) a ≤ n := by
    intro l
    induction l with
    | nil => intro a ha _; exact ha
    | cons i l ih =>
      intro a ha hl
      have := hl i (by simp)
      exact ih _ (by show max a (i.label + 1) ≤ n; omega) fun x hx => hl x (List.mem_cons_of_mem _ hx)
  exact key T 0 (Nat.zero_le _) h

theorem lt_viewLabels {T : Data} {i : Inst} (h : i ∈ T) : i.label < viewLabels T := by
  have mono : ∀ (l : Data) (a : Nat), a ≤ l.foldl (fun m i => max m (i.label + 1)) a := by
    intro l
    induction l with
    | nil => intro a; exact le_refl _
    | cons q l ih => intro a; exact le_trans (le_max_left _ _) (ih _)
  have key : ∀ (l : Data) (a : Nat), i ∈ l → i.label + 1 ≤ l.foldl (fun m i => max m (i.label + 1)) a := by
    intro l
    induction l with
    | nil => intro a h; cases h
    | cons q l ih =>
      intro a h
      rcases List.mem_cons.1 h with rfl | h
      · exact le_trans (le_max_right _ _) (mono l _)
      · exact ih _ h
  exact key T 0 h

/-- The largest label occurs. -/
theorem viewLabels_attained {T : Data} (h : T ≠ []) : ∃ i ∈ T, i.label + 1 = viewLabels T := by
  by_contra hno
  have h1 : viewLabels T ≤ viewLabels T - 1 := viewLabels_le fun i hi => by
    have h2 := lt_viewLabels hi
    have h3 : i.label + 1 ≠ viewLabels T := fun e => hno ⟨i, hi, e⟩
    omega
  obtain ⟨i, T, rfl⟩ := List.exists_cons_of_ne_nil h
  have := lt_viewLabels (T := i :: T) (i := i) (by simp)
  omega

theorem costInstances_labels {K : Nat} (w : Nat → Nat → Nat) (T : Data) (hK : 0 < K) : ∀ i ∈ costInstances K w T, i.label < K := by
  intro i hi
  obtain ⟨j, _, rfl⟩ := List.mem_map.1 hi
  exact npArgmin_lt _ hK

/-- The labels considered in a call from Python: up to the largest one that is the first cheapest for some row. -/
theorem pyLabels_iff {K : Nat} (w : Nat → Nat → Nat) {T : Data} (k : Nat) :
    k < trainLabels pyExtraCols (costInstances K w T) ↔ ∃ i ∈ T, k ≤ npArgmin (w i.id) K := by
  have e : trainLabels pyExtraCols (costInstances K w T) = viewLabels (costInstances K w T) := if_neg (Nat.not_lt_zero _)
  rw [e]
  constructor
  · intro h
    have hne : costInstances K w T ≠ [] := by
      intro h0; rw [h0] at h; exact absurd h (Nat.not_lt_zero _)
    obtain ⟨i, hi, h1⟩ := viewLabels_attained hne
    obtain ⟨j, hj, rfl⟩ := List.mem_map.1 hi
    exact ⟨j, hj, by show k ≤ npArgmin (w j.id) K; have h1 : npArgmin (w j.id) K + 1 = _ := h1; omega⟩
  · rintro ⟨i, hi, h⟩
    have : npArgmin (w i.id) K < _ := lt_viewLabels (List.mem_map_of_mem (f := fun i : Inst => { i with label := npArgmin (w i.id) K }) hi)
    exact lt_of_le_of_lt h this

/-- All labels are considered exactly if the last one is cheaper than all others for some row. -/
theorem pyLabels_all {K : Nat} (w : Nat → Nat → Nat) {T : Data} (hK : 0 < K) :
    trainLabels pyExtraCols (costInstances K w T) = K ↔ ∃ i ∈ T, ∀ k < K - 1, w i.id (K - 1) < w i.id k := by
  have hle : trainLabels pyExtraCols (costInstances K w T) ≤ K := by
    show (if 0 > viewLabels _ then 0 else viewLabels _) ≤ K
    rw [if_neg (Nat.not_lt_zero _)]
    exact viewLabels_le (costInstances_labels w T hK)
  have h1 := pyLabels_iff (K := K) w (T := T) (K - 1)
  have h2 : ∀ i : Inst, K - 1 ≤ npArgmin (w i.id) K ↔ ∀ k < K - 1, w i.id (K - 1) < w i.id k := by
    intro i
    have h3 := npArgmin_lt (w i.id) hK
    constructor
    · intro h k hk
      have e : npArgmin (w i.id) K = K - 1 := by omega
      have := npArgmin_first (w i.id) (n := K) (k := k) (by omega)
      rwa [e] at this
    · intro h
      by_contra hlt
      have h4 := h (npArgmin (w i.id) K) (by omega)
      have h5 := npArgmin_le (w i.id) (n := K) (k := K - 1) (by omega)
      omega
  constructor
  · intro h
    obtain ⟨i, hi, h⟩ := h1.1 (by omega)
    exact ⟨i, hi, (h2 i).1 h⟩
  · rintro ⟨i, hi, h⟩
    have := h1.2 ⟨i, hi, (h2 i).2 h⟩
    omega

/-- With `num-extra-cols` set to the number of costs, as the documentation of the command line asks, all labels are considered. -/
theorem extraCols_all {K : Nat} (w : Nat → Nat → Nat) {T : Data} (hK : 0 < K) : trainLabels K (costInstances K w T) = K := by
  have := viewLabels_le (costInstances_labels w T hK)
  unfold trainLabels
  split <;> omega

/-! ### What the search finds -/

theorem instWorst_mono {n K : Nat} (w : Nat → Nat → Nat) (i : Inst) (h : n ≤ K) : instWorst n w i ≤ instWorst K w i := by
  have key : ∀ (l : List Nat) (a : Nat), a ≤ instWorst K w i → (∀ x ∈ l, x ≤ instWorst K w i) → l.foldl max a ≤ instWorst K w i := by
    intro l
    induction l with
    | nil => intro a ha _; exact ha
    | cons x l ih =>
      intro a ha hl
      exact ih _ (Nat.max_le.2 ⟨ha, hl x (by simp)⟩) fun y hy => hl y (List.mem_cons_of_mem _ hy)
  refine key _ 0 (Nat.zero_le _) fun x hx => ?_
  obtain ⟨k, hk, rfl⟩ := List.mem_map.1 hx
  exact le_instWorst w i (lt_of_lt_of_le (List.mem_range.1 hk) h)

theorem fineCosts_mono {n K : Nat} {w : Nat → Nat → Nat} {T : Data} (h : n ≤ K) (hc : FineCosts K w T) : FineCosts n w T := by
  unfold FineCosts at hc ⊢
  refine lt_of_le_of_lt ?_ hc
  clear hc
  induction T with
  | nil => exact le_refl _
  | cons i T ih =>
    simp only [List.map_cons, List.sum_cons]
    have := instWorst_mono w i h
    omega

theorem costInstances_worst (K n : Nat) (w : Nat → Nat → Nat) (T : Data) :
    ((costInstances K w T).map fun i => instWorst n w i).sum = (T.map fun i => instWorst n w i).sum := by
  unfold costInstances
  rw [List.map_map]
  rfl

theorem costInstances_cost (K : Nat) (w : Nat → Nat → Nat) (t : Tree) (T : Data) : totalCost w t (costInstances K w T) = totalCost w t T := by
  have hp : ∀ (i : Inst) (x : Tree), x.predict { i with label := npArgmin (w i.id) K } = x.predict i := by
    intro i x
    induction x with
    | leaf k => rfl
    | node f l r hl hr =>
      unfold Tree.predict
      rw [hl, hr]
  unfold totalCost costInstances
  rw [List.map_map]
  congr 1
  apply List.map_congr_left
  intro i _
  show w i.id (t.predict _) = _
  rw [hp]

theorem fitCostVectors_fine {n K nF u mls : Nat} {w : Nat → Nat → Nat} {o : Options} {T : Data} (h : Input n T) (hnK : n ≤ K) (hu : 0 < u)
    (hc : FineCosts n w T) (hmls : 1 ≤ mls) (hw : World nF o) (hterm : o.useTerm = true → mls = 1 ∧ o.useUB = true)
    (hsim : o.simLB = true → mls = 1) (hcopy : o.useBr = false ∨ o.simLB = false) :
    Fine { instCfg nF n u w mls o (isRedundant (instProblem nF n w) mls T) with simInst := some fun i => (instWorst K w i : Nat) }
      (preprocess (instProblem nF n w) mls T) := by
  have F := instCfg_fine (w := w) h hu hc hmls hw hterm hsim hcopy
  have G := F.good
  exact {
    good := {
      labels := G.labels
      bc := G.bc
      bcLB := G.bcLB
      nonneg := G.nonneg
      small := G.small
      mls := G.mls
      term := G.term
      sim := G.sim
      sparse := G.sparse
      custom := G.custom
      md := G.md
      sorted := G.sorted
      inRange := G.inRange
      order := G.order
      redundant := G.redundant
      worstPer := fun _ h => by cases h
      simInst := fun _ v hv i _ k hk => by
        simp only [Option.some.injEq] at hv
        rw [← hv]
        exact Int.ofNat_le.2 (le_instWorst w i (lt_of_lt_of_le hk hnK)) }
    clock := F.clock
    cost := F.cost
    worst := F.worst
    copy := F.copy }

/-- The rows of a call: cost vectors of length `K`, row numbers in order. -/
structure CostRows (K : Nat) (T : Data) : Prop where
  labels : 0 < K
  rows : T ≠ []
  sorted : IdSorted T
  size : T.length < int32Max

theorem costInstances_sorted {K : Nat} {w : Nat → Nat → Nat} {T : Data} (h : IdSorted T) : IdSorted (costInstances K w T) := by
  unfold IdSorted costInstances at *
  rw [List.pairwise_map]
  exact h

theorem trainLabels_le {K e : Nat} (w : Nat → Nat → Nat) (T : Data) (hK : 0 < K) (he : e ≤ K) : trainLabels e (costInstances K w T) ≤ K := by
  have := viewLabels_le (costInstances_labels w T hK)
  unfold trainLabels
  split <;> omega

theorem costInstances_input {K e : Nat} {w : Nat → Nat → Nat} {T : Data} (h : CostRows K T) :
    Input (trainLabels e (costInstances K w T)) (costInstances K w T) := by
  have hge : viewLabels (costInstances K w T) ≤ trainLabels e (costInstances K w T) := by
    unfold trainLabels
    split <;> omega
  refine ⟨?_, fun i hi => lt_of_lt_of_le (lt_viewLabels hi) hge, costInstances_sorted h.sorted, ?_⟩
  · obtain ⟨i, T', e⟩ := List.exists_cons_of_ne_nil h.rows
    have := lt_viewLabels (T := costInstances K w T) (i := { i with label := npArgmin (w i.id) K }) (by rw [e]; simp [costInstances])
    omega
  · unfold costInstances
    rw [List.length_map]
    exact h.size

/-- What a run that reports `is_optimal` finds: the least cost of trees whose labels are below the number of labels of the view. -/
theorem cost_vectors_found {nF K e u : Nat} {w : Nat → Nat → Nat} {o : Options} {T : Data} (d : Nat) (ub : Int) (hw : World nF o)
    (hr : CostRows K T) (he : e ≤ K) (hu : 0 < u) (hc : FineCosts K w T) (hub : (u * largestDouble : Nat) ≤ ub)
    (hterm : o.useTerm = true → o.useUB = true) (hcopy : o.useBr = false ∨ o.simLB = false)
    (hopt : (fitCostVectors e nF K u w 1 o ⟨d, 2 ^ d - 1, false, ub⟩ T).2 = true) :
    LeastCost nF (trainLabels e (costInstances K w T)) w d (2 ^ d - 1) T
      (fitCostVectors e nF K u w 1 o ⟨d, 2 ^ d - 1, false, ub⟩ T).1.result.sol := by
  have hp : 1 ≤ 2 ^ d := Nat.one_le_two_pow
  have hi := costInstances_input (e := e) (w := w) hr
  have hle := trainLabels_le w T hr.labels he
  have hlen : 1 ≤ (costInstances K w T).length := by
    unfold costInstances; rw [List.length_map]; exact List.length_pos_iff.2 hr.rows
  have hne : costInstances K w T ≠ [] := List.length_pos_iff.1 hlen
  have hc' : FineCosts (trainLabels e (costInstances K w T)) w (costInstances K w T) := by
    have := fineCosts_mono hle hc
    unfold FineCosts at this ⊢
    rw [costInstances_worst]
    exact this
  have F := fitCostVectors_fine (K := K) (mls := 1) (nF := nF) (o := o) hi hle hu hc' (Nat.le_refl _) hw (fun a => ⟨rfl, hterm a⟩)
    (fun _ => rfl) hcopy
  suffices hmain : LeastCost nF (trainLabels e (costInstances K w T)) w d (2 ^ d - 1) (costInstances K w T)
      (fitCostVectors e nF K u w 1 o ⟨d, 2 ^ d - 1, false, ub⟩ T).1.result.sol by
    unfold LeastCost at hmain ⊢
    simpa only [costInstances_cost] using hmain
  apply leastCost_of_isOpt hne
  unfold fitCostVectors at hopt ⊢
  dsimp only at hopt ⊢
  generalize hn : trainLabels e (costInstances K w T) = n at *
  generalize costInstances K w T = D at *
  have hT' : 1 ≤ (preprocess (instProblem nF n w) 1 D).length := by rw [preprocess_length]; exact hlen
  have h := search_exact F ⟨d, 2 ^ d - 1, false, ub⟩ hT' (by show 2 ^ d - 1 + 1 ≤ 2 ^ d; omega)
    (fun _ => ⟨by show 2 ^ d - 1 + 1 = 2 ^ d; omega, fun h => by simp at h⟩) hub hopt
  exact (preprocess_optimum (inst_featureFree nF n w) (fun _ _ => rfl) (Nat.le_refl _) D _ _ _).1 h

/-- C97 for cost vectors: if the last label is cheaper than all others for some row, a run from Python that reports `is_optimal` found the
least cost of all trees with all labels. Missing: data in which it is not, for which the claim is false (`unused_label_missed`). -/
theorem python_costs_optimal_partial {nF K u : Nat} {w : Nat → Nat → Nat} {o : Options} {T : Data} (d : Nat) (ub : Int) (hw : World nF o)
    (hr : CostRows K T) (hu : 0 < u) (hc : FineCosts K w T) (hub : (u * largestDouble : Nat) ≤ ub)
    (hterm : o.useTerm = true → o.useUB = true) (hcopy : o.useBr = false ∨ o.simLB = false)
    (hlast : ∃ i ∈ T, ∀ k < K - 1, w i.id (K - 1) < w i.id k)
    (hopt : (fitCostVectors pyExtraCols nF K u w 1 o ⟨d, 2 ^ d - 1, false, ub⟩ T).2 = true) :
    LeastCost nF K w d (2 ^ d - 1) T (fitCostVectors pyExtraCols nF K u w 1 o ⟨d, 2 ^ d - 1, false, ub⟩ T).1.result.sol := by
  have h := cost_vectors_found (e := pyExtraCols) d ub hw hr (Nat.zero_le _) hu hc hub hterm hcopy hopt
  rwa [(pyLabels_all w hr.labels).2 hlast] at h

/-- With the command line, where the number of costs is given, the claim holds for all data. -/
theorem file_costs_optimal {nF K u : Nat} {w : Nat → Nat → Nat} {o : Options} {T : Data} (d : Nat) (ub : Int) (hw : World nF o)
    (hr : CostRows K T) (hu : 0 < u) (hc : FineCosts K w T) (hub : (u * largestDouble : Nat) ≤ ub)
    (hterm : o.useTerm = true → o.useUB = true) (hcopy : o.useBr = false ∨ o.simLB = false)
    (hopt : (fitCostVectors K nF K u w 1 o ⟨d, 2 ^ d - 1, false, ub⟩ T).2 = true) :
    LeastCost nF K w d (2 ^ d - 1) T (fitCostVectors K nF K u w 1 o ⟨d, 2 ^ d - 1, false, ub⟩ T).1.result.sol := by
  have h := cost_vectors_found d ub hw hr (Nat.le_refl _) hu hc hub hterm hcopy hopt
  rwa [extraCols_all w hr.labels] at h

/-- The first label is free for the first row and dear for the second, the second the other way round; the third costs one for both. -/
def compromise : Nat → Nat → Nat := fun i k => if k = 2 then 1 else if k = i then 0 else 9

/-- Two rows that the feature does not tell apart. -/
def alikeRows : Data := [exInst 0 0 0, exInst 1 0 0]

set_option maxRecDepth 100000 in
/-- C97 and with it C65 fail from Python: the label that costs least in total is never tried, because it is the cheapest one for no row;
the run reports `is_optimal` with a cost of 9, while a leaf with that label costs 2. -/
theorem unused_label_missed : ∃ (w : Nat → Nat → Nat) (T : Data) (o : Options) (r : Run × Bool),
    r = fitCostVectors pyExtraCols 1 3 1 w 1 o ⟨1, 2 ^ 1 - 1, false, (1 * largestDouble : Nat)⟩ T ∧ World 1 o ∧ CostRows 3 T ∧ FineCosts 3 w T ∧
    r.2 = true ∧ r.1.result.isEmpty = false ∧ r.1.result.sol = 9 ∧ totalCost w (.leaf 2) T = 2 ∧
    ¬ LeastCost 1 3 w 1 (2 ^ 1 - 1) T r.1.result.sol := by
  have key : ∀ v : Int, v = 9 → ¬ LeastCost 1 3 compromise 1 (2 ^ 1 - 1) alikeRows v := by
    rintro v rfl h
    have := h.2 (.leaf 2) (show 2 < 3 by decide) (by decide) (by decide)
    rw [show totalCost compromise (.leaf 2) alikeRows = 2 by decide] at this
    omega
  have h5 : (fitCostVectors pyExtraCols 1 3 1 compromise 1 { defaultOptions 1 with simLB := false }
      ⟨1, 2 ^ 1 - 1, false, (1 * largestDouble : Nat)⟩ alikeRows).1.result.sol = 9 := by decide +kernel
  exact ⟨compromise, alikeRows, { defaultOptions 1 with simLB := false }, _, rfl, ⟨(defaultOptions_world 1).order, fun _ _ _ _ => rfl⟩,
    ⟨by decide, by decide, by unfold IdSorted; decide, by decide⟩, by unfold FineCosts; decide, by decide +kernel, by decide +kernel, h5,
    by decide, key _ h5⟩

/-! ### Treatments -/

/-- C97 fails for policies: a fitted policy never gives a treatment above the largest one that was given before, whatever its predicted
outcomes are. -/
theorem new_treatment_never_given {nF u mls : Nat} {ext : Nat → Treatment} {m : Teacher} {o : Options} {T : Data} (t : Top)
    (ho : ∀ D f, f ∈ o.order D → f < nF) (hT : T ≠ []) (hs : IdSorted T) (hsize : T.length < int32Max)
    (hU : PolicyUnits u (viewLabels (policyInstances ext T)) (fun i => ext i.id) m (policyInstances ext T))
    (hus : Usable m (fun i => ext i.id) (policyInstances ext T))
    (hc : ((policyInstances ext T).map fun i => instWorst (viewLabels (policyInstances ext T))
      (policyUnits u (costRows (fun i => ext i.id) m (viewLabels (policyInstances ext T)) (policyInstances ext T))) i).sum < u * int32Max)
    (hmls : 1 ≤ mls) (hfit : t.maxNodes + 1 ≤ 2 ^ t.maxDepth) (y : Option Fitted) (h : fitPolicyPy nF u ext m mls o t T = some y) :
    ∃ r, y = some r ∧ ∀ x, ∃ i ∈ T, r.tree.predict x ≤ (ext i.id).k := by
  have hne : policyInstances ext T ≠ [] := by
    intro e
    exact hT (List.map_eq_nil_iff.1 e)
  have hi : Input (viewLabels (policyInstances ext T)) (policyInstances ext T) := by
    obtain ⟨i, hi, e⟩ := viewLabels_attained hne
    refine ⟨by omega, fun j hj => lt_viewLabels hj, ?_, ?_⟩
    · unfold IdSorted policyInstances at *
      rw [List.pairwise_map]
      exact hs
    · unfold policyInstances
      rw [List.length_map]
      exact hsize
  obtain ⟨r, h1, _, _, h2, _⟩ := policy_returned t ho hi hU hus hc hmls hfit y h
  refine ⟨r, h1, fun x => ?_⟩
  have h3 := over_predict_lt h2 x
  obtain ⟨i, hi, e⟩ := viewLabels_attained hne
  obtain ⟨j, hj, rfl⟩ := List.mem_map.1 hi
  exact ⟨j, hj, by have e : (ext j.id).k + 1 = _ := e; omega⟩

/-- Treatments 0 and 1 were given and are predicted to do nothing; treatment 2 is predicted to help everybody. -/
def untried : Nat → Treatment := fun i => ⟨i, 0, 1 / 2, fun k => if k = 2 then 5 else if k = i then 1 else 0⟩

set_option maxRecDepth 100000 in
theorem new_treatment_missed : let T := alikeRows
    ∃ r, fitPolicyPy 1 1 untried .dm 1 (defaultOptions 1) ⟨1, 2 ^ 1 - 1, false, (1 * int32Max : Nat)⟩ T = some (some r) ∧
      policyValue .dm (fun i => untried i.id) r.tree T = 1 ∧ policyValue .dm (fun i => untried i.id) (.leaf 2) T = 10 ∧
      ¬ BestPolicy 1 3 1 .dm (fun i => untried i.id) T r.tree := by
  have h2 : policyValue .dm (fun i => untried i.id) (.leaf 2) alikeRows = 10 := by decide +kernel
  have key : ∃ r, fitPolicyPy 1 1 untried .dm 1 (defaultOptions 1) ⟨1, 2 ^ 1 - 1, false, (1 * int32Max : Nat)⟩ alikeRows = some (some r) ∧
      policyValue .dm (fun i => untried i.id) r.tree alikeRows = 1 := by
    have e : fitPolicyPy 1 1 untried .dm 1 (defaultOptions 1) ⟨1, 2 ^ 1 - 1, false, (1 * int32Max : Nat)⟩ alikeRows =
        some (some ⟨.leaf 0, 1⟩) := by decide +kernel
    exact ⟨_, e, by decide +kernel⟩
  obtain ⟨r, h, h1⟩ := key
  refine ⟨r, h, h1, h2, fun hb => ?_⟩
  have := hb.2 (.leaf 2) ⟨show 2 < 3 by decide, by decide⟩
  rw [h1, h2] at this
  exact absurd this (by decide)

/-! ### The hypotheses are met -/

set_option maxRecDepth 100000 in
/-- A third row for which the third label is cheapest: now it is found. -/
example : let T := [exInst 0 0 0, exInst 1 0 0, exInst 2 0 0]
    let w : Nat → Nat → Nat := fun i k => if i = 2 then (if k = 2 then 0 else 1) else compromise i k
    let o : Options := { defaultOptions 1 with simLB := false }
    World 1 o ∧ CostRows 3 T ∧ FineCosts 3 w T ∧ (∃ i ∈ T, ∀ k < 3 - 1, w i.id (3 - 1) < w i.id k) ∧
    (fitCostVectors pyExtraCols 1 3 1 w 1 o ⟨1, 2 ^ 1 - 1, false, (1 * largestDouble : Nat)⟩ T).2 = true ∧
    (fitCostVectors pyExtraCols 1 3 1 w 1 o ⟨1, 2 ^ 1 - 1, false, (1 * largestDouble : Nat)⟩ T).1.result.sol = 2 :=
  ⟨⟨(defaultOptions_world 1).order, fun _ _ _ _ => rfl⟩, ⟨by decide, by decide, by unfold IdSorted; decide, by decide⟩,
    by unfold FineCosts; decide, by decide, by decide +kernel, by decide +kernel⟩

/-- The rows without a suitable third label, with the command line. -/
example : (fitCostVectors 3 1 3 1 compromise 1 { defaultOptions 1 with simLB := false }
      ⟨1, 2 ^ 1 - 1, false, (1 * largestDouble : Nat)⟩ alikeRows).1.result.sol = 2 := by decide +kernel

set_option maxRecDepth 100000 in
example : let T := alikeRows
    (∀ D f, f ∈ (defaultOptions 1).order D → f < 1) ∧ IdSorted T ∧
    PolicyUnits 1 (viewLabels (policyInstances untried T)) (fun i => untried i.id) .dm (policyInstances untried T) ∧
    Usable .dm (fun i => untried i.id) (policyInstances untried T) ∧
    ((policyInstances untried T).map fun i => instWorst (viewLabels (policyInstances untried T))
      (policyUnits 1 (costRows (fun i => untried i.id) .dm (viewLabels (policyInstances untried T)) (policyInstances untried T))) i).sum
        < 1 * int32Max :=
  ⟨fun D f => ((defaultOptions_world 1).order D f).1, by unfold IdSorted; decide, ⟨by decide, by decide +kernel⟩, .inl rfl,
    by decide +kernel⟩

end Streed
