import Verif.Lemmas.PwLine

/-!
# Regression with a line in every leaf

What `SimpleLinearRegression` returns: a tree within the limits with the cost it reports; without lower bounds a tree close to the
best one; with the default options a single line whenever that line is cheaper than three branching nodes, even if a split is better.

Costs are stored in units of `1 / q`. `Exact` says that `q` is fine enough; `exact_exists` that such a `q` exists.
-/

namespace Streed.Pw
open Apx (tol)

/-- The trees a user asks for: `rows i` are the rows merged into instance `i`, `T` the training data, `n` the number of continuous
features. A branching node costs `ccp` times the squared error of the best constant. -/
def trees (nF n mls : Nat) (ridge ccp : Rat) (rows : Nat → List LinRow) (T : Data) : Lines :=
  ⟨nF, price ccp rows T, mls, fun D => (bestLine n mls ridge rows T D).map (·.cost), fun D => (rowsOf rows D).length⟩

section
variable {nF n mls q : Nat} {ridge ccp : Rat} {Y : List Rat} {rows : Nat → List LinRow} {T : Data} {o : Options} {red : Nat → Bool}

theorem legal_iff (hn : 0 < n) (hmls : 1 ≤ mls) (hr : 0 ≤ ridge) (t : Tree) (D : Data) :
    (lines nF n mls q ridge ccp Y rows T o red).fitting.Legal t D ↔ (trees nF n mls ridge ccp rows T).Legal t D := by
  induction t generalizing D with
  | leaf k =>
    show mls ≤ (lines nF n mls q ridge ccp Y rows T o red).weight D ∧ ((lines nF n mls q ridge ccp Y rows T o red).leaf D).isSome = true ↔
      mls ≤ (rowsOf rows D).length
    rw [lines_weight, lines_leaf, Option.isSome_map]
    have h := (bestLine_spec (n := n) (mls := mls) (rows := rows) (T := T) hmls hr (D := D)).1
    exact ⟨fun h => h.1, fun h' => ⟨h', h.2 ⟨h', hn⟩⟩⟩
  | node f l r ihl ihr =>
    show f < nF ∧ _ ∧ _ ↔ f < nF ∧ _ ∧ _
    rw [ihl, ihr]

theorem cost_scaled (hx : Exact q (price ccp rows T) (bestLine n mls ridge rows T) T) (t : Tree) {D : Data} (hD : ViewOf T D) :
    ((lines nF n mls q ridge ccp Y rows T o red).fitting.cost t D : Rat) = q * (trees nF n mls ridge ccp rows T).cost t D := by
  induction t generalizing D with
  | leaf k =>
    show ((((bestLine n mls ridge rows T D).map fun l => (q * l.cost : Rat).floor).getD 0 : Int) : Rat) =
      q * ((bestLine n mls ridge rows T D).map (·.cost)).getD 0
    cases h : bestLine n mls ridge rows T D with
    | none => simp
    | some l => exact exact_floor (hx.2 D hD l h)
  | node f l r ihl ihr =>
    have h1 := ihl ((without_sublist f D).trans hD)
    have h2 := ihr ((having_sublist f D).trans hD)
    have h3 : (((lines nF n mls q ridge ccp Y rows T o red).fitting.bc : Int) : Rat) = q * price ccp rows T := exact_floor hx.1
    simp only [Fitting.cost, Lines.cost]
    push_cast
    rw [h1, h2, h3]
    show _ = (q : Rat) * (price ccp rows T + _)
    ring

/-- **The returned tree is within the limits and has the reported cost**, for all options and also when the time runs out: either there
is no tree, or its depth and number of branching nodes are within the limits, every leaf has enough rows, and its cost is the
reported one. -/
theorem line_sound (hn : 0 < n) (hmls : 1 ≤ mls) (hr : 0 ≤ ridge) (hx : Exact q (price ccp rows T) (bestLine n mls ridge rows T) T)
    (hs : IdSorted T) (hl : ∀ i ∈ T, i.label = 0) (ho : ∀ D f, f ∈ o.order D → f < nF)
    (t : Top) (hfit : t.maxNodes + 1 ≤ 2 ^ t.maxDepth) :
    let v := (solve (lines nF n mls q ridge ccp Y rows T o red) t T).1.result
    v.isEmpty = true ∨ ∃ x, Rep v x ∧ (trees nF n mls ridge ccp rows T).Allowed t.maxDepth t.maxNodes T x ∧
      (v.sol : Rat) = q * (trees nF n mls ridge ccp rows T).cost x T := by
  intro v
  rcases (solve_spec (lines_fair (n := n) (mls := mls) (q := q) (ridge := ridge) (ccp := ccp) (Y := Y) (rows := rows) (red := red)
    hs hl ho) t hfit).1 with h | ⟨⟨x, h1, h2, h3, h4⟩, h5⟩
  · left; show Node.isEmpty (solve _ t T).1.result = true
    rw [h]; rfl
  · right
    refine ⟨x, h1, ⟨h2, ?_, (legal_iff hn hmls hr x T).1 h3⟩, ?_⟩
    · have := h1.nodes; omega
    · rw [← cost_scaled (nF := nF) (Y := Y) (o := o) (red := red) hx x (List.Sublist.refl T), h4]

/-- **Without lower bounds the tree is close to the best one.** If the run finishes in time, every allowed tree within the given upper
bound costs at least the reported cost divided by `1.0001 ^ (nF + 1)`. Missing from the full claim: lower bounds (see
`line_default_not_optimal`), and the factor. -/
theorem line_near_optimal_partial (hn : 0 < n) (hmls : 1 ≤ mls) (hq : 0 < q) (hr : 0 ≤ ridge) (hc : 0 ≤ ccp)
    (hx : Exact q (price ccp rows T) (bestLine n mls ridge rows T) T)
    (hs : IdSorted T) (hl : ∀ i ∈ T, i.label = 0) (ho : ∀ D f, f ∈ o.order D ↔ f < nF) (hclk : Monotone o.clock)
    (hlb : o.useLB = false) (hub : o.useUB = true) (hred : ∀ f, red f = true → without f T = [] ∨ having f T = [])
    (hbig : tol ^ (nF + 1) * ((rowsOf rows T).length * ((ccp + 1) * sumSq rows T)) < largestDouble)
    (t : Top) (hfit : t.maxNodes + 1 ≤ 2 ^ t.maxDepth)
    (hfin : (solve (lines nF n mls q ridge ccp Y rows T o red) t T).2 = true)
    (x : Tree) (hxa : (trees nF n mls ridge ccp rows T).Allowed t.maxDepth t.maxNodes T x)
    (hxu : tol ^ (nF + 1) * (q * (trees nF n mls ridge ccp rows T).cost x T) ≤ t.ub) :
    let v := (solve (lines nF n mls q ridge ccp Y rows T o red) t T).1.result
    v.isEmpty = false ∧ (v.sol : Rat) ≤ tol ^ (nF + 1) * (q * (trees nF n mls ridge ccp rows T).cost x T) := by
  have h := (solve_spec (lines_fair (n := n) (mls := mls) (q := q) (ridge := ridge) (ccp := ccp) (Y := Y) (rows := rows) (red := red)
    hs hl fun D f => (ho D f).1) t hfit).2
    (lines_open hn hmls hq hr hc hlb hub (fun D f => (ho D f).2) hred hbig) hclk hfin x
    ⟨hxa.1, hxa.2.1, (legal_iff hn hmls hr x T).2 hxa.2.2⟩
  rw [cost_scaled hx x (List.Sublist.refl T)] at h
  exact h hxu

/-- **With the default bounds a single line ends the search.** If `1.0001` times the cost of the line on all rows is less than three
times the price of a branching node, no tree with a split is returned, whatever the data and the limits. -/
theorem line_single_leaf (hmls : 1 ≤ mls) (hq : 0 < q) (hr : 0 ≤ ridge) (hc : 0 ≤ ccp)
    (hx : Exact q (price ccp rows T) (bestLine n mls ridge rows T) T)
    (hs : IdSorted T) (hl : ∀ i ∈ T, i.label = 0) (hlb : o.useLB = true) (hub : o.useUB = true)
    (hrows : mls ≤ (rowsOf rows T).length) (hbig : ccp * sumSq rows T ≤ largestDouble) (L : Rat)
    (hL : (trees nF n mls ridge ccp rows T).fit T = some L) (hcheap : tol * L < 3 * price ccp rows T) (t : Top) :
    let v := (solve (lines nF n mls q ridge ccp Y rows T o red) t T).1.result
    (v.isEmpty = true ∨ Rep v (.leaf 0) ∧ (v.sol : Rat) = q * L) ∧
    (L < largestDouble → q * L ≤ tol * min ((q : Rat) * largestDouble) (t.ub : Rat) → v.isEmpty = false) := by
  intro v
  have hq' : (0 : Rat) < q := by exact_mod_cast hq
  obtain ⟨l, hbl, rfl⟩ := Option.map_eq_some_iff.1 hL
  obtain ⟨pr0, pr1⟩ := price_bounds (rows := rows) (T := T) hc
  have hl0 := ((bestLine_spec (n := n) (mls := mls) (rows := rows) (T := T) hmls hr (D := T)).2 l hbl).1
  have e1 : (((q * price ccp rows T).floor : Int) : Rat) = q * price ccp rows T := exact_floor hx.1
  have e2 : (((q * l.cost : Rat).floor : Int) : Rat) = q * l.cost := exact_floor (hx.2 T (List.Sublist.refl T) l hbl)
  have ht : tol = 10001 / 10000 := by unfold tol; norm_num
  have ew : (((lines nF n mls q ridge ccp Y rows T o red).c.worst : Int) : Rat) = q * largestDouble := by
    show (((q * largestDouble : Nat) : Int) : Rat) = _
    push_cast; rfl
  have H : Cheap (lines nF n mls q ridge ccp Y rows T o red) T (q * l.cost : Rat).floor := by
    refine ⟨hs, fun i hi => by rw [hl i hi]; exact Nat.one_pos, hlb, hub, le_refl _, hmls, rfl, ?_, ?_,
      (floor_bounds (mul_nonneg hq'.le hl0)).1, (floor_bounds (mul_nonneg hq'.le pr0)).1, ?_, ?_⟩
    · rw [lines_weight]; exact hrows
    · rw [lines_leaf, hbl]; rfl
    · rw [← Rat.intCast_le_intCast, lines_bc, e1, ew]
      exact mul_le_mul_of_nonneg_left (pr1.trans hbig) hq'.le
    · rw [← Rat.intCast_lt_intCast, lines_bc]
      push_cast
      rw [e1, e2]
      rw [ht] at hcheap
      have := mul_lt_mul_of_pos_left hcheap hq'
      linarith
  obtain ⟨h1, h2⟩ := H.solve t
  constructor
  · rcases h1 with h | h
    · right
      have h : v = Node.leaf 0 (q * l.cost : Rat).floor := h
      rw [h]
      exact ⟨⟨rfl, rfl⟩, e2⟩
    · left
      have h : v = _ := h
      rw [h]; rfl
  · intro h3 h4
    have h : v = Node.leaf 0 (q * l.cost : Rat).floor := by
      apply h2
      · rw [← Rat.intCast_lt_intCast, e2, ew]
        exact mul_lt_mul_of_pos_left h3 hq'
      · rw [← Rat.intCast_le_intCast]
        push_cast
        rw [e2, ew]
        rw [ht] at h4
        linarith
    rw [h]; rfl

end

/-- **There is a unit without rounding.** -/
theorem exact_exists (pr : Rat) (leaf : Data → Option LineLeaf) (T : Data) : ∃ q, 0 < q ∧ Exact q pr leaf T := by
  have hcl : ∀ L : List Rat, ∃ q : Nat, 0 < q ∧ ∀ x ∈ L, ∃ z : Int, (q : Rat) * x = z := by
    intro L
    induction L with
    | nil => exact ⟨1, Nat.one_pos, fun x hx => nomatch hx⟩
    | cons y L ih =>
      obtain ⟨q, h1, h2⟩ := ih
      refine ⟨y.den * q, Nat.mul_pos y.den_pos h1, fun x hx => ?_⟩
      rcases List.mem_cons.1 hx with rfl | hx
      · refine ⟨q * x.num, ?_⟩
        have := Rat.mul_den_eq_num x
        push_cast
        rw [← this]; ring
      · obtain ⟨z, hz⟩ := h2 x hx
        refine ⟨y.den * z, ?_⟩
        push_cast
        rw [← hz]; ring
  obtain ⟨q, h1, h2⟩ := hcl (pr :: T.sublists.map fun D => ((leaf D).map (·.cost)).getD 0)
  refine ⟨q, h1, h2 pr (List.mem_cons_self ..), fun D hD l hl => h2 _ (List.mem_cons_of_mem _ (List.mem_map.2 ⟨D, List.mem_sublists.2 hD, ?_⟩))⟩
  rw [hl]; rfl

/-! ### A step in a line -/

/-- Ten rows: `y = x` up to four, then `y = x + 2`. -/
def stepRow (i : Nat) : LinRow := ⟨fun _ => i, if i < 5 then i else i + 2⟩

/-- The rows with equal binary features are merged: five rows in each of two instances. -/
def stepRows (i : Nat) : List LinRow := (List.range' (5 * i) 5).map stepRow

/-- One binary feature, which tells the halves apart. -/
def stepData : Data := [⟨0, fun _ => false, 0⟩, ⟨1, fun _ => true, 0⟩]

/-- Default options. -/
def stepOpt : Options := ⟨true, true, true, true, false, false, true, fun _ => [0], fun _ => true⟩

/-- The run with price 1/100 and at least five rows per leaf, depth three. -/
def stepRun (o : Options) : Run × Bool :=
  solve (lines 1 1 5 1320 0 (1 / 100) ((List.range 10).map fun j => (stepRow j).y) stepRows stepData o fun _ => false)
    ⟨3, 7, false, (1320 * largestDouble : Nat)⟩ stepData

set_option maxRecDepth 100000 in
theorem step_exact : Exact 1320 (price (1 / 100) stepRows stepData) (bestLine 1 5 0 stepRows stepData) stepData := by
  refine ⟨⟨1881, by decide +kernel⟩, fun D hD l hl => ?_⟩
  have hD : D ∈ stepData.sublists := List.mem_sublists.2 hD
  have e : stepData.sublists = [[], [⟨0, fun _ => false, 0⟩], [⟨1, fun _ => true, 0⟩], stepData] := rfl
  rw [e] at hD
  have e0 : (bestLine 1 5 0 stepRows stepData []).map (·.cost) = none := by decide +kernel
  have e1 : (bestLine 1 5 0 stepRows stepData [⟨0, fun _ => false, 0⟩]).map (·.cost) = some 0 := by decide +kernel
  have e2 : (bestLine 1 5 0 stepRows stepData [⟨1, fun _ => true, 0⟩]).map (·.cost) = some 0 := by decide +kernel
  have e3 : (bestLine 1 5 0 stepRows stepData stepData).map (·.cost) = some (3200 / 1320) := by decide +kernel
  simp only [List.mem_cons, List.not_mem_nil, or_false] at hD
  rcases hD with rfl | rfl | rfl | rfl
  · rw [hl] at e0; cases e0
  · rw [hl] at e1; exact ⟨0, by rw [show l.cost = _ from Option.some.inj e1]; decide +kernel⟩
  · rw [hl] at e2; exact ⟨0, by rw [show l.cost = _ from Option.some.inj e2]; decide +kernel⟩
  · rw [hl] at e3; exact ⟨3200, by rw [show l.cost = _ from Option.some.inj e3]; decide +kernel⟩

set_option maxRecDepth 100000 in
/-- **The default options miss the best tree.** The run finishes and returns the line of cost 3200, an allowed split costs 1881. -/
theorem line_default_not_optimal :
    (stepRun stepOpt).2 = true ∧ (stepRun stepOpt).1.result = Node.leaf 0 3200 ∧
    (trees 1 1 5 0 (1 / 100) stepRows stepData).Allowed 3 7 stepData (.node 0 (.leaf 0) (.leaf 0)) ∧
    1320 * (trees 1 1 5 0 (1 / 100) stepRows stepData).cost (.node 0 (.leaf 0) (.leaf 0)) stepData = 1881 := by
  refine ⟨by decide +kernel, by decide +kernel, ⟨by decide, by decide, by decide, ?_, ?_⟩, by decide +kernel⟩
  · show 5 ≤ (rowsOf stepRows (without 0 stepData)).length; decide +kernel
  · show 5 ≤ (rowsOf stepRows (having 0 stepData)).length; decide +kernel

/-- Non-vacuity of `line_sound`. -/
example : (stepRun stepOpt).1.result.isEmpty = true ∨ ∃ x, Rep (stepRun stepOpt).1.result x ∧
    (trees 1 1 5 0 (1 / 100) stepRows stepData).Allowed 3 7 stepData x ∧
    ((stepRun stepOpt).1.result.sol : Rat) = (1320 : Nat) * (trees 1 1 5 0 (1 / 100) stepRows stepData).cost x stepData :=
  line_sound (by decide) (by decide) (by decide) step_exact (by unfold IdSorted; decide) (by decide)
    (fun D f h => by rw [List.mem_singleton.1 h]; decide) _ (by decide)

/-- Lower bounds off. -/
def stepOpen : Options := { stepOpt with useLB := false }

set_option maxRecDepth 100000 in
/-- Non-vacuity of `line_near_optimal_partial`: here the split is found. -/
example : ((stepRun stepOpen).1.result.isEmpty = false ∧ ((stepRun stepOpen).1.result.sol : Rat) ≤
      tol ^ (1 + 1) * ((1320 : Nat) * (trees 1 1 5 0 (1 / 100) stepRows stepData).cost (.node 0 (.leaf 0) (.leaf 0)) stepData)) ∧
    (stepRun stepOpen).1.result.sol = 1881 := by
  refine ⟨?_, by decide +kernel⟩
  have hc := line_default_not_optimal.2.2.2
  have hu : tol ^ (1 + 1) * ((1320 : Nat) * (trees 1 1 5 0 (1 / 100) stepRows stepData).cost (.node 0 (.leaf 0) (.leaf 0)) stepData) ≤
      (((1320 * largestDouble : Nat) : Int) : Rat) := by
    rw [show ((1320 : Nat) : Rat) = (1320 : Rat) from rfl, hc]
    decide +kernel
  exact line_near_optimal_partial (by decide) (by decide) (by decide) (by decide) (by decide +kernel) step_exact
    (by unfold IdSorted; decide) (by decide) (fun D f => by show f ∈ [0] ↔ f < 1; simp) (fun _ _ _ _ => rfl) rfl rfl
    (fun f h => Bool.noConfusion h) (by decide +kernel) ⟨3, 7, false, (1320 * largestDouble : Nat)⟩ (by decide) (by decide +kernel) _
    line_default_not_optimal.2.2.1 hu

set_option maxRecDepth 100000 in
/-- Non-vacuity of `line_single_leaf`. -/
example : (stepRun stepOpt).1.result.isEmpty = true ∨ Rep (stepRun stepOpt).1.result (.leaf 0) ∧
    ((stepRun stepOpt).1.result.sol : Rat) = (1320 : Nat) * (3200 / 1320 : Rat) :=
  (line_single_leaf (by decide) (by decide) (by decide) (by decide +kernel) step_exact (by unfold IdSorted; decide) (by decide) rfl rfl
    (by decide +kernel) (by decide +kernel) (3200 / 1320) (by decide +kernel) (by decide +kernel) _).1

/-! ### The similarity bound -/

/-- Rows of the instances below: two of them hold eight rows on a line each, the others one row each, three of them far away. -/
def simRows (i : Nat) : List LinRow :=
  (match i with
  | 0 => [4, 5, 6, 7, 8, 9, 10, 11].map fun j => (j, j)
  | 1 => [0, 1, 2, 3, 8, 9, 10, 11].map fun j => (j, 11 - j)
  | 2 => [(-500, 0)]
  | 3 => [(777, 4)]
  | 4 => [(900, 0)]
  | 5 => [(4, 0)]
  | _ => []).map fun (p : Int × Int) => ⟨fun _ => (p.1 : Rat), (p.2 : Rat)⟩

def simBits (a b c d : Bool) (f : Nat) : Bool := [a, b, c, d].getD f false

/-- Four binary features: no two are the same, and each is present in at most half of the twenty rows. -/
def simData : Data :=
  [⟨0, simBits false false true false, 0⟩, ⟨1, simBits false false false true, 0⟩, ⟨2, simBits false true false true, 0⟩,
   ⟨3, simBits true false false false, 0⟩, ⟨4, simBits true false false true, 0⟩, ⟨5, simBits false false false false, 0⟩]

/-- Default options; the features are tried in their order (regression.py:160). -/
def simOpt : Options := ⟨true, true, true, true, false, false, true, fun _ => [0, 1, 2, 3], fun _ => true⟩

/-- A common multiple of the denominators of the costs of all leaves, so that nothing is rounded. -/
def simUnit : Nat := 5000757440739827453724518118773153510129805676447630297881610304291937876317632616293761245760241998622159576967966778830154032534309669781992239582572350912315566372418994713040128527790594841059865857682708577687230321338182031272875

/-- The run without price for nodes and at least one row per leaf, depth three and four nodes. -/
def simRun (o : Options) : Run × Bool :=
  solve (lines 4 1 1 simUnit 0 0 ((rowsOf simRows simData).map (·.y)) simRows simData o fun _ => false)
    ⟨3, 4, false, (simUnit * largestDouble : Nat)⟩ simData

set_option maxRecDepth 100000 in
theorem sim_exact : Exact simUnit (price 0 simRows simData) (bestLine 1 1 0 simRows simData) simData := by
  refine ⟨⟨0, by decide +kernel⟩, fun D hD l hl => ?_⟩
  have h : ∀ D ∈ simData.sublists, ((bestLine 1 1 0 simRows simData D).all fun l => decide (((simUnit : Rat) * l.cost).den = 1)) = true := by
    decide +kernel
  have := h D (List.mem_sublists.2 hD)
  rw [hl] at this
  have h1 : ((simUnit : Rat) * l.cost).den = 1 := by simpa using this
  exact ⟨((simUnit : Rat) * l.cost).num, ((Rat.den_eq_one_iff _).1 h1).symm⟩

/-- A tree that fits every row. -/
def simTree : Tree := .node 0 (.node 3 (.node 2 (.leaf 0) (.leaf 0)) (.node 1 (.leaf 0) (.leaf 0))) (.leaf 0)

set_option maxRecDepth 100000 in
/-- **The similarity bound for lines is wrong.** It supposes that no line is further from a row than the smallest or the largest
target, but a line may leave that range. With default options and free nodes the run finishes with cost above 11, while an allowed
tree fits every row; without the similarity bound such a tree is found. -/
theorem line_similarity_not_optimal :
    (simRun simOpt).2 = true ∧ (11 * simUnit : Nat) < (simRun simOpt).1.result.sol ∧
    (trees 4 1 1 0 0 simRows simData).Allowed 3 4 simData simTree ∧
    (trees 4 1 1 0 0 simRows simData).cost simTree simData = 0 ∧
    (simRun { simOpt with simLB := false }).1.result.sol = 0 := by
  refine ⟨by decide +kernel, by decide +kernel, ⟨by decide, by decide, ?_⟩, by decide +kernel, by decide +kernel⟩
  refine ⟨by decide, ⟨by decide, ⟨by decide, ?_, ?_⟩, ⟨by decide, ?_, ?_⟩⟩, ?_⟩
  · show 1 ≤ (rowsOf simRows (without 2 (without 3 (without 0 simData)))).length; decide +kernel
  · show 1 ≤ (rowsOf simRows (having 2 (without 3 (without 0 simData)))).length; decide +kernel
  · show 1 ≤ (rowsOf simRows (without 1 (having 3 (without 0 simData)))).length; decide +kernel
  · show 1 ≤ (rowsOf simRows (having 1 (having 3 (without 0 simData)))).length; decide +kernel
  · show 1 ≤ (rowsOf simRows (having 0 simData)).length; decide +kernel

/-- What the run returns does represent an allowed tree, of the value it reports (`line_sound`). -/
example : (simRun simOpt).1.result.isEmpty = true ∨ ∃ x, Rep (simRun simOpt).1.result x ∧
    (trees 4 1 1 0 0 simRows simData).Allowed 3 4 simData x ∧
    ((simRun simOpt).1.result.sol : Rat) = (simUnit : Nat) * (trees 4 1 1 0 0 simRows simData).cost x simData :=
  line_sound (by decide) (by decide) (by decide) sim_exact (by unfold IdSorted; decide) (by decide)
    (fun D f h => by
      have h : f ∈ [0, 1, 2, 3] := h
      simp only [List.mem_cons, List.not_mem_nil, or_false] at h; omega) _ (by decide)

/-- Twenty rows on a line, and one row far away. -/
def farRows (i : Nat) : List LinRow :=
  if i = 0 then (List.range 20).map fun (j : Nat) => ⟨fun _ => (j : Rat), (j : Rat)⟩ else [⟨fun _ => 1002, 0⟩]

def farData : Data := [⟨0, fun _ => false, 0⟩, ⟨1, fun _ => true, 0⟩]

set_option maxRecDepth 100000 in
/-- Already for one leaf: the line of all rows costs more than the line without the last row and the largest cost that
`GetWorstPerLabel` allows for that row. -/
theorem line_similarity_not_bound :
    ∃ all some_ : LineLeaf, bestLine 1 1 0 farRows farData farData = some all ∧
      bestLine 1 1 0 farRows farData (without 0 farData) = some some_ ∧
      some_.cost + lineWorst (lineRange ((rowsOf farRows farData).map (·.y))) 0 + 300 < all.cost := by
  have h : ((bestLine 1 1 0 farRows farData farData).bind fun a => (bestLine 1 1 0 farRows farData (without 0 farData)).map fun b =>
      decide (b.cost + lineWorst (lineRange ((rowsOf farRows farData).map (·.y))) 0 + 300 < a.cost)) = some true := by decide +kernel
  obtain ⟨a, ha, h⟩ := Option.bind_eq_some_iff.1 h
  obtain ⟨b, hb, h⟩ := Option.map_eq_some_iff.1 h
  exact ⟨a, b, ha, hb, of_decide_eq_true h⟩

end Streed.Pw
