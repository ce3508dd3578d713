import Verif.Lemmas.RegGood

/-!
# C68: cost-complexity regression finds the best tree

`fitRegression` is preprocessing, sorting and merging by features, and the search on a fresh solver.
-/

namespace Streed

/-! ### The units -/

theorem common_denominator (L : List Rat) : ∃ q : Nat, 0 < q ∧ ∀ x ∈ L, ((q : Rat) * x).den = 1 := by
  induction L with
  | nil => exact ⟨1, Nat.one_pos, by simp⟩
  | cons y L ih =>
    obtain ⟨q, h1, h2⟩ := ih
    have whole : ∀ {z : Rat} {a : Nat}, z.den = 1 → ((a : Rat) * z).den = 1 := by
      intro z a hz
      rw [← num_of_den hz, show (a : Rat) * (z.num : Rat) = ((a * z.num : Int) : Rat) by push_cast; ring]
      exact Rat.den_intCast _
    refine ⟨y.den * q, Nat.mul_pos y.den_pos h1, fun x hx => ?_⟩
    rcases List.mem_cons.1 hx with rfl | hx
    · rw [Nat.cast_mul, mul_comm (x.den : Rat), mul_assoc]
      refine whole ?_
      rw [mul_comm, Rat.mul_den_eq_num]
      exact Rat.den_intCast _
    · rw [Nat.cast_mul, mul_assoc]
      exact whole (h2 x hx)

/-- There always are units in which all costs are whole numbers. -/
theorem units_exist (ccp : Rat) (tg : Nat → Rat) (T : Data) : ∃ q, Units q ccp tg T := by
  obtain ⟨q, h1, h2⟩ := common_denominator
    (regPrice ccp tg T :: T.flatMap fun i => (leafValues tg T).map fun v => (tg i.label - v) ^ 2)
  refine ⟨q, h1, fun i hi v hv => h2 _ (List.mem_cons_of_mem _ (List.mem_flatMap.2 ⟨i, hi, List.mem_map.2 ⟨v, hv, rfl⟩⟩)), ?_⟩
  exact h2 _ (by simp)

/-- The price of a branching node is `cost_complexity` times the squared error of the best single leaf. -/
theorem price_eq {ccp w : Rat} {tg : Nat → Rat} {T : Data} (hT : T ≠ []) (hw : BestLeaf tg T w) :
    regPrice ccp tg T = ccp * w := by
  have hl : (T.map fun i => tg i.label) ≠ [] := by simpa using hT
  have e : ∀ c, totalError tg T (.leaf c) = ((T.map fun i => tg i.label).map fun y => (y - c) ^ 2).sum := by
    intro c
    rw [List.map_map]; rfl
  obtain ⟨⟨c, hc⟩, h⟩ := hw
  have h1 := h (meanOf (T.map fun i => tg i.label))
  have h2 := sq_mean_best hl c
  rw [← e, ← e, hc] at h2
  have h3 : w = totalError tg T (.leaf (meanOf (T.map fun i => tg i.label))) := le_antisymm h1 h2
  have hn : (T.length : Rat) ≠ 0 := by exact_mod_cast (List.length_pos_of_ne_nil hT).ne'
  rw [h3, e, sum_map_sq, regPrice, meanOf, List.map_map]
  simp only [List.length_map]
  congr 1
  rw [show ((fun y : Rat => y * y) ∘ fun i : Inst => tg i.label) = fun i => tg i.label * tg i.label from rfl]
  field_simp
  ring

theorem bestLeaf_nonneg {w : Rat} {tg : Nat → Rat} {T : Data} (hw : BestLeaf tg T w) : 0 ≤ w := by
  obtain ⟨⟨c, rfl⟩, _⟩ := hw
  exact totalError_nonneg _ _ _

/-! ### Leaves -/

/-- **C68**, leaves: on every part of the merged training data, the cheapest label of the search costs what
`SolveLeafNode` returns for that part, and what the depth-two solver computes from its sums. -/
theorem regression_leaf_cost {nF q : Nat} {ccp : Rat} {tg : Nat → Rat} {T S D : Data} (hU : Units q ccp tg T)
    (hS : SortedByFeatures nF (preprocess (userProblem nF q ccp tg T) 1 T) S) (hD : D.Sublist (mergedData nF S)) (hne : D ≠ []) :
    ∃ label cost, ccrLeaf 1 (viewInsts tg (runsOf (assignGroups nF S)) D) = some (label, cost) ∧
      (∀ count, 0 < count → ccrCompute ((viewInsts tg (runsOf (assignGroups nF S)) D).foldl (fun s i => s.add (ccrD2 i 1))
        ⟨0, 0, 0⟩) count = some cost) ∧
      IsLeast {c : Rat | ∃ k, k < (leafValues tg T).length ∧
        c = leafCost (mergedProblem (userProblem nF q ccp tg T) (runsOf (assignGroups nF S))) D k} (q * cost) := by
  have hR := runs_groups nF S
  generalize hE : runsOf (assignGroups nF S) = R at *
  have hDM : ∀ i ∈ D, i ∈ R.map mergedInst := fun i hi => by
    have := hD.subset hi
    rwa [mergedData, hE] at this
  obtain ⟨hlab, -⟩ := view_labels hS hD
  rw [hE] at hlab
  have hlen : 1 ≤ (expand R D).length := (expand_length hR hDM).1 (List.length_pos_of_ne_nil hne)
  have hq : (0 : Rat) < q := by exact_mod_cast hU.pos
  -- the targets behind the view
  let ts : RInst → List Rat := fun i => (rowsWith R i.id).map fun e => tg e.inst.label
  have hts : (viewInsts tg R D).flatMap ts = (expand R D).map fun i => tg i.label := by
    unfold viewInsts expand
    rw [List.flatMap_map, List.map_flatMap]
    refine List.flatMap_congr fun i hi => ?_
    obtain ⟨r, hr, rfl⟩ := List.mem_map.1 (hDM i hi)
    rw [rowsWith_merged hR hr, List.map_map]
    show ((rowsWith R (mergedInst r).id).map fun e => tg e.inst.label) = _
    rw [rowsWith_merged hR hr]
    rfl
  have hst : ∀ i ∈ viewInsts tg R D, StandsFor i (ts i) := by
    intro i hi
    obtain ⟨j, hj, rfl⟩ := List.mem_map.1 hi
    obtain ⟨r, hr, rfl⟩ := List.mem_map.1 (hDM j hj)
    rw [rowsWith_merged hR hr]
    have := runInst_stands tg r
    show StandsFor (runInst tg r) ((rowsWith R (mergedInst r).id).map fun e => tg e.inst.label)
    rw [rowsWith_merged hR hr]
    exact this
  obtain ⟨label, cost, h1, h2, h3, -, h5⟩ := merged_leaf (viewInsts tg R D) ts hst 1 Nat.one_pos (by rw [hts, List.length_map]; exact hlen)
  rw [hts] at h2 h3
  have hsse : ∀ c, sse ((expand R D).map fun i => tg i.label) c = totalError tg (expand R D) (.leaf c) := by
    intro c
    rw [sse, List.map_map, totalError]
    refine congrArg _ (List.map_congr_left fun i _ => ?_)
    simp only [Function.comp_apply, RegTree.predict]
    ring
  refine ⟨label, cost, h1, h5, ?_, ?_⟩
  · have hl : ((expand R D).map fun i => tg i.label) ≠ [] := by
      intro h
      have := congrArg List.length h
      simp only [List.length_map, List.length_nil] at this
      omega
    have hsub : ((expand R D).map fun i => tg i.label).Subperm (T.map fun i => tg i.label) := by
      have a1 := expand_sublist (R := R) hD
      rw [mergedData, hE, expand_all hR, ← hE, merged_flatten, hE] at a1
      refine (a1.map _).subperm.trans (List.Perm.subperm ?_)
      have a2 := List.Perm.map (fun x : (Nat → Bool) × Nat => tg x.2) ((assignGroups_rows nF S).trans hS.sameRows)
      simp only [preprocess, List.map_map] at a2 ⊢
      exact a2
    obtain ⟨k, hk, e⟩ := List.getElem_of_mem (mean_mem hl hsub)
    refine ⟨k, hk, ?_⟩
    rw [leafCost_expand, user_leafCost hU hlab hk, List.getD_eq_getElem _ _ hk, e, ← hsse]
    congr 1
    refine le_antisymm (h3 _) ?_
    rw [h2, hsse, hsse]
    have := sq_mean_best hl label
    rw [List.map_map, List.map_map] at this
    exact this
  · rintro c ⟨k, hk, rfl⟩
    rw [leafCost_expand, user_leafCost hU hlab hk, ← hsse]
    exact mul_le_mul_of_nonneg_left (h3 _) hq.le

/-! ### The search -/

/-- **C68** without lower bounds: a run that reports `is_optimal` found the least squared error plus price of the nodes
over all regression trees of the given depth, where a node costs `cost_complexity` times the squared error of the best
single leaf. Missing: lower bounds, which are on by default (`regression_not_optimal`), the similarity bound, leaf sizes
above one, and the tolerance of comparisons. -/
theorem regression_search_partial {nF q : Nat} {ccp w B : Rat} {tg : Nat → Rat} {o : Options} {T S : Data} (d : Nat) (ub : Int)
    (hw : World nF o) (hT : T ≠ []) (hccp : 0 ≤ ccp) (hbest : BestLeaf tg T w) (hU : Units q ccp tg T)
    (hS : SortedByFeatures nF (preprocess (userProblem nF q ccp tg T) 1 T) S) (hF : Fits ccp tg T B)
    (hlb : o.useLB = false) (hsim : o.simLB = false) (huub : o.useUB = true) (hub : ((q * largestDouble : Nat) : Int) ≤ ub)
    (hopt : (fitRegression nF q ccp tg none o ⟨d, 2 ^ d - 1, false, ub⟩ T S).2 = true) :
    RegBest nF d (ccp * w) tg T ((fitRegression nF q ccp tg none o ⟨d, 2 ^ d - 1, false, ub⟩ T S).1.result.sol / q) := by
  have hp : 0 ≤ regPrice ccp tg T := by
    rw [price_eq hT hbest]
    exact mul_nonneg hccp (bestLeaf_nonneg hbest)
  have h2 : 1 ≤ 2 ^ d := Nat.one_le_two_pow
  have G := regCfg_good hU hp hS hF hT hw.order hlb huub hsim
  obtain ⟨h3, h4⟩ := solve_spec G ⟨d, 2 ^ d - 1, false, ub⟩ (merged_nonempty hT hS) hw.clock
    (by show 2 ^ d - 1 + 1 ≤ 2 ^ d; omega)
    (fun _ => ⟨by show 2 ^ d - 1 + 1 = 2 ^ d; omega, fun h => by simp at h⟩)
  rw [← price_eq (ccp := ccp) hT hbest]
  exact regBest_of_isOpt hU hp hT (regression_back hU hp hS hF hT (t := ⟨d, 2 ^ d - 1, false, ub⟩) hub h3.real (h4 hopt).2).2

/-- **C68** for depth at most two with the depth-two solver, upper bounding and the equivalent-points bound, whatever the
other options: the default options but for `regression_lower_bound`. -/
theorem regression_depth_two_partial {nF q : Nat} {ccp w B : Rat} {tg : Nat → Rat} {o : Options} {T S : Data} (d : Nat) (ub : Int)
    (hd : d ≤ 2) (hw : World nF o) (hT : T ≠ []) (hccp : 0 ≤ ccp) (hbest : BestLeaf tg T w) (hU : Units q ccp tg T)
    (hS : SortedByFeatures nF (preprocess (userProblem nF q ccp tg T) 1 T) S) (hF : Fits ccp tg T B)
    (hterm : o.useTerm = true) (huub : o.useUB = true) (hub : ((q * largestDouble : Nat) : Int) ≤ ub)
    (hopt : (fitRegression nF q ccp tg none o ⟨d, 2 ^ d - 1, false, ub⟩ T S).2 = true) :
    RegBest nF d (ccp * w) tg T ((fitRegression nF q ccp tg none o ⟨d, 2 ^ d - 1, false, ub⟩ T S).1.result.sol / q) := by
  have hp : 0 ≤ regPrice ccp tg T := by
    rw [price_eq hT hbest]
    exact mul_nonneg hccp (bestLeaf_nonneg hbest)
  have h2 : 1 ≤ 2 ^ d := Nat.one_le_two_pow
  have G := regCfg_good (o := { o with useLB := false, simLB := false }) hU hp hS hF hT hw.order rfl huub rfl
  obtain ⟨h3, h4⟩ := solve_shallow (c := fitCfg nF q ccp tg none o T S) G ⟨d, 2 ^ d - 1, false, ub⟩ hterm
    (merged_nonempty hT hS) hw.clock (fun f l r hx => by
      have h5 := merged_custom hU hS (List.Sublist.refl _) hx
      have h6 := user_bc (nF := nF) hU
      have h7 : (1 : Rat) * (q * regPrice ccp tg T) ≤ (Tree.node f l r).nodes * (q * regPrice ccp tg T) := by
        refine mul_le_mul_of_nonneg_right ?_ (mul_nonneg (Nat.cast_nonneg _) hp)
        have : 1 ≤ (Tree.node f l r).nodes := by simp only [Tree.nodes]; omega
        exact_mod_cast this
      have h8 : ((userProblem nF q ccp tg T).bc : Rat) + (regLB q tg (runsOf (assignGroups nF S)) (regPrice ccp tg T) none (mergedData nF S) : Rat) ≤
          ((Tree.node f l r).cost (mergedProblem (userProblem nF q ccp tg T) (runsOf (assignGroups nF S))) (mergedData nF S) : Rat) := by
        rw [h6]
        linarith
      exact_mod_cast h8) hd (by show 2 ^ d - 1 + 1 = 2 ^ d; omega) rfl
  rw [← price_eq (ccp := ccp) hT hbest]
  exact regBest_of_isOpt hU hp hT (regression_back hU hp hS hF hT (t := ⟨d, 2 ^ d - 1, false, ub⟩) hub h3.real (h4 hopt)).2

/-! ### The k-means bound, which is the default -/

/-- The user's reading of C68 for the default options and trees of depth one, where the k-means bound is asked for with one
node only. -/
def RegressionOptimal : Prop := ∀ (nF q : Nat) (ccp w B : Rat) (tg : Nat → Rat) (T S : Data), T ≠ [] → 0 ≤ ccp →
  BestLeaf tg T w → Units q ccp tg T → SortedByFeatures nF (preprocess (userProblem nF q ccp tg T) 1 T) S →
  Fits ccp tg T B →
  (fitRegressionTol nF q ccp tg (some 1) (defaultOptions nF) ⟨1, 1, false, (q * largestDouble : Nat)⟩ T S).2 = true →
  RegBest nF 1 (ccp * w) tg T
    ((fitRegressionTol nF q ccp tg (some 1) (defaultOptions nF) ⟨1, 1, false, (q * largestDouble : Nat)⟩ T S).1.result.sol / q)

/-- Four instances with one feature. -/
def regTargets (k : Nat) : Rat := [-50, 50, -38, 62].getD k 0

def regData : Data := [exInst 0 0 0, exInst 1 0 1, exInst 2 1 2, exInst 3 1 3]

/-- The data as the task sorts it. -/
def regSorted (nF q : Nat) (ccp : Rat) (tg : Nat → Rat) (T : Data) : Data :=
  (preprocess (userProblem nF q ccp tg T) 1 T).insertionSort (fun a b => featGt nF b a = false)

theorem bestLeaf_mean (tg : Nat → Rat) {T : Data} (hT : T ≠ []) :
    BestLeaf tg T (totalError tg T (.leaf (meanOf (T.map fun i => tg i.label)))) := by
  refine ⟨⟨_, rfl⟩, fun c => ?_⟩
  have := sq_mean_best (l := T.map fun i => tg i.label) (by simpa using hT) c
  rw [List.map_map, List.map_map] at this
  exact this

set_option maxRecDepth 100000 in
theorem regData_sorted : SortedByFeatures 1 (preprocess (userProblem 1 3600 (1 / 100) regTargets regData) 1 regData)
    (regSorted 1 3600 (1 / 100) regTargets regData) :=
  ⟨List.perm_insertionSort _ _, by decide +kernel⟩

theorem regData_units : Units 3600 (1 / 100) regTargets regData :=
  ⟨by decide, by decide +kernel, by decide +kernel⟩

theorem regData_fits : Fits (1 / 100) regTargets regData 12544 :=
  ⟨by decide +kernel, by decide +kernel⟩

/-- With the default options the search returns a single leaf with squared error 10144 and reports `is_optimal`, although
splitting costs 10000 plus the price 101.44 of a node. The k-means bound contains the price of the nodes, and
`ComputeLowerBound` of the solver adds it once more (solver.cpp:655-670), so that a split that gains less than two prices is
cut off. -/
theorem regression_not_optimal : ¬ RegressionOptimal := by
  intro h
  have h1 := (h 1 3600 (1 / 100) _ 12544 regTargets regData (regSorted 1 3600 (1 / 100) regTargets regData) (by decide)
    (by decide +kernel) (bestLeaf_mean regTargets (by decide)) regData_units regData_sorted regData_fits (by decide +kernel)).2
    (.node 0 (.leaf 0) (.leaf 12)) ⟨by decide, trivial, trivial⟩ (by decide)
  revert h1
  decide +kernel

/-! ### The hypotheses are met -/

/-- Five instances with two features; the first two are merged. -/
def regTargets2 (k : Nat) : Rat := [0, 2, 10, 30, 34].getD k 0

def regData2 : Data := [exInst 0 0 0, exInst 1 0 1, exInst 2 1 2, exInst 3 2 3, exInst 4 3 4]

set_option maxRecDepth 100000 in
theorem regData2_sorted : SortedByFeatures 2 (preprocess (userProblem 2 90000 (1 / 100) regTargets2 regData2) 1 regData2)
    (regSorted 2 90000 (1 / 100) regTargets2 regData2) :=
  ⟨List.perm_insertionSort _ _, by decide +kernel⟩

theorem regData2_ok : Units 90000 (1 / 100) regTargets2 regData2 ∧ Fits (1 / 100) regTargets2 regData2 1156 :=
  ⟨⟨by decide, by decide +kernel, by decide +kernel⟩, by decide +kernel, by decide +kernel⟩

set_option maxRecDepth 100000 in
/-- Default options at depth two: two branching nodes. -/
example : World 2 (defaultOptions 2) ∧ regData2 ≠ [] ∧ (mergedData 2 (regSorted 2 90000 (1 / 100) regTargets2 regData2)).length = 4 ∧
    (defaultOptions 2).useTerm = true ∧ (defaultOptions 2).useUB = true ∧
    (fitRegression 2 90000 (1 / 100) regTargets2 none (defaultOptions 2) ⟨2, 2 ^ 2 - 1, false, (90000 * largestDouble : Nat)⟩
      regData2 (regSorted 2 90000 (1 / 100) regTargets2 regData2)).2 = true ∧
    (fitRegression 2 90000 (1 / 100) regTargets2 none (defaultOptions 2) ⟨2, 2 ^ 2 - 1, false, (90000 * largestDouble : Nat)⟩
      regData2 (regSorted 2 90000 (1 / 100) regTargets2 regData2)).1.result.sol = 2708640 :=
  ⟨defaultOptions_world 2, by decide, by decide +kernel, rfl, rfl, by decide +kernel, by decide +kernel⟩

set_option maxRecDepth 100000 in
/-- Without lower bounds at depth three. -/
example : let o : Options := { defaultOptions 2 with useLB := false, simLB := false }
    World 2 o ∧ o.useUB = true ∧
    (fitRegression 2 90000 (1 / 100) regTargets2 none o ⟨3, 2 ^ 3 - 1, false, (90000 * largestDouble : Nat)⟩
      regData2 (regSorted 2 90000 (1 / 100) regTargets2 regData2)).2 = true ∧
    (fitRegression 2 90000 (1 / 100) regTargets2 none o ⟨3, 2 ^ 3 - 1, false, (90000 * largestDouble : Nat)⟩
      regData2 (regSorted 2 90000 (1 / 100) regTargets2 regData2)).1.result.sol = 2708640 :=
  ⟨⟨(defaultOptions_world 2).order, fun _ _ _ _ => rfl⟩, rfl, by decide +kernel, by decide +kernel⟩

end Streed
