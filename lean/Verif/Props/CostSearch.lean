import Verif.Lemmas.CostFit

/-!
# C66: the cost-sensitive search

A cost-sensitive fit that is reported optimal should have the least total of misclassification and test costs among the
trees within its limits. Test costs depend on the tests made before: a second test of an attribute is free, and attributes of
one group share a discount. The properties below are stated with the per-instance costs of `Verif/Props/CostSensitive.lean`.
-/

namespace Streed

/-- What an instance pays: its misclassification cost plus the tests on its way. The sum over the data. -/
def Costs.total (C : Costs) (t : Tree) (D : Data) : Rat :=
  (D.map fun i => C.matrix i.label (t.predict i) + testsCost C.attrs [] (t.tests i)).sum

/-- Ordinary use of the classifier: a square cost matrix with zero diagonal and nonnegative costs with at most `1 / q` as unit,
attributes with disjoint features, no upper bound given, and totals that fit below the `INT32_MAX` used as infinity. -/
structure CostUse (C : Costs) (q nF nL mls : Nat) (o : Options) (t : Top) (T : Data) : Prop where
  unit : 1 ≤ q
  whole : C.Whole q
  zero : ∀ k, C.matrix k k = 0
  nonneg : C.Nonneg
  attrs : CostsOK C.attrs
  labels : 0 < nL
  inRange : ∀ i ∈ T, i.label < nL
  sorted : IdSorted T
  leaf : 1 ≤ mls
  enough : mls ≤ T.length
  order : ∀ D f, f ∈ o.order D ↔ f < nF
  clock : Monotone o.clock
  nodes : t.maxNodes + 1 ≤ 2 ^ t.maxDepth
  ub : (int32Max * q : Int) ≤ t.ub
  small : ∃ M B : Rat, C.Within M B ∧ 0 ≤ B ∧ T.length * (M + t.maxDepth * B) < int32Max

/-- The reported score is the total of an allowed tree. -/
def CostAttained (C : Costs) (q nF nL mls : Nat) (o : Options) (t : Top) (T : Data) : Prop :=
  (fitCostSensitive C q nF nL mls o t T).1.result.isEmpty = false →
    ∃ x, Allowed (C.problem q nF nL) mls t.maxDepth t.maxNodes T x ∧
      ((fitCostSensitive C q nF nL mls o t T).1.result.sol : Rat) / q = C.total x T

/-- If the run says it is optimal, there is a result and no allowed tree costs less. -/
def CostLeast (C : Costs) (q nF nL mls : Nat) (o : Options) (t : Top) (T : Data) : Prop :=
  (fitCostSensitive C q nF nL mls o t T).2 = true → (fitCostSensitive C q nF nL mls o t T).1.result.isEmpty = false ∧
    ∀ x, Allowed (C.problem q nF nL) mls t.maxDepth t.maxNodes T x →
      ((fitCostSensitive C q nF nL mls o t T).1.result.sol : Rat) / q ≤ C.total x T

/-- The reported score of a run reported optimal is the least total of the allowed trees. -/
def CostBest (C : Costs) (q nF nL mls : Nat) (o : Options) (t : Top) (T : Data) : Prop :=
  CostAttained C q nF nL mls o t T ∧ CostLeast C q nF nL mls o t T

private theorem best_of {C : Costs} {q nF nL mls : Nat} {o : Options} {t : Top} {T : Data} (h : CostUse C q nF nL mls o t T)
    (htw : Ctx.NoTwins nF mls T) (hsim : o.simLB = false) (hds : o.useDs = false)
    (hterm : o.useTerm = true → mls = 1 ∧ o.useUB = true ∧ t.maxNodes + 1 = 2 ^ t.maxDepth ∧ (t.allTrees = true → t.maxNodes ≤ 1))
    (hlb : o.useLB = true → o.useTerm = true ∧ t.maxDepth ≤ 3)
    (hst : o.useTerm = true → t.maxDepth ≤ 3 ∨ Ctx.Flat (C.prices q)) : CostBest C q nF nL mls o t T := by
  obtain ⟨M, B, hMB, hB, hsm⟩ := h.small
  have hq : (0 : Rat) < q := by exact_mod_cast h.unit
  obtain ⟨h1, h2⟩ := Ctx.fit_spec h.whole h.zero h.nonneg h.unit hMB hB hsm h.labels h.leaf h.inRange h.sorted h.enough htw
    h.order h.clock hsim hds hterm hlb hst h.nodes h.ub
  have e : ∀ x, C.eval nL x [] T = C.total x T := fun x => costs_tree C h.attrs nL h.zero x T h.inRange
  refine ⟨fun hne => ?_, fun hok => ⟨(h2 hok).1, fun x hx => ?_⟩⟩
  · obtain ⟨x, hx, hs⟩ := h1 hne
    refine ⟨x, hx, ?_⟩
    rw [hs, e]; field_simp
  · have := (h2 hok).2 x hx
    rw [e] at this
    rw [div_le_iff₀ hq]; linarith

/-- C66, proved for the default options up to the default depth limit: three, with one instance per leaf and no explicit node
limit, on data where no two features split the data in the same way. Branch caching may be on or off. Missing: data with
features that split alike, depths above three, dataset caching, the similarity bound. -/
theorem costs_search_partial {C : Costs} {q nF nL : Nat} {o : Options} {t : Top} {T : Data} (h : CostUse C q nF nL 1 o t T)
    (hd : t.maxDepth ≤ 3) (hn : t.maxNodes + 1 = 2 ^ t.maxDepth) (ha : t.allTrees = false)
    (htw : ∀ f g, f < nF → g < nF → f ≠ g → without f T ≠ [] → having f T ≠ [] →
      ¬ (∀ i ∈ T, i.feat f = i.feat g) ∧ ¬ ∀ i ∈ T, i.feat f = !i.feat g)
    (hsim : o.simLB = false) (hds : o.useDs = false) (hterm : o.useTerm = true) (hub : o.useUB = true) :
    CostBest C q nF nL 1 o t T := by
  refine best_of h (fun f g hf hg hfg h0 h1 y => ?_) hsim hds (fun _ => ⟨rfl, hub, hn, by simp [ha]⟩) (fun _ => ⟨hterm, hd⟩)
    (fun _ => .inl hd)
  have := htw f g hf hg hfg (by intro h; rw [h] at h0; simp at h0) (by intro h; rw [h] at h1; simp at h1)
  cases y
  · simpa using this.1
  · simpa using this.2

/-- C66 for every depth, node limit and leaf size without the special depth-two solver and without lower bounds. -/
theorem costs_search_plain_partial {C : Costs} {q nF nL mls : Nat} {o : Options} {t : Top} {T : Data}
    (h : CostUse C q nF nL mls o t T) (htw : Ctx.NoTwins nF mls T)
    (hsim : o.simLB = false) (hds : o.useDs = false) (hterm : o.useTerm = false) (hlb : o.useLB = false) :
    CostBest C q nF nL mls o t T :=
  best_of h htw hsim hds (by simp [hterm]) (by simp [hlb]) (by simp [hterm])

/-- C66 for every depth, with or without the special depth-two solver but without lower bounds, if every attribute is one binary feature
and no two attributes share a group. -/
theorem costs_search_flat_partial {C : Costs} {q nF nL : Nat} {o : Options} {t : Top} {T : Data} (h : CostUse C q nF nL 1 o t T)
    (hn : t.maxNodes + 1 = 2 ^ t.maxDepth) (ha : t.allTrees = false) (htw : Ctx.NoTwins nF 1 T)
    (h1 : ∀ a ∈ C.attrs, a.lo = a.hi) (h2 : C.attrs.Pairwise fun a b => a.group ≠ b.group)
    (hsim : o.simLB = false) (hds : o.useDs = false) (hub : o.useUB = true) (hlb : o.useLB = false) :
    CostBest C q nF nL 1 o t T :=
  best_of h htw hsim hds (fun _ => ⟨rfl, hub, hn, by simp [ha]⟩) (by simp [hlb]) (fun _ => .inr (Ctx.prices_flat C q h1 h2))

/-! ### Runs that return the wrong total -/

/-- Data from bit patterns (feature `f` is bit `f`) and labels. -/
def bitData (l : List (Nat × Nat)) : Data :=
  (List.range l.length).zipWith (fun i p => ⟨i, fun f => p.1.testBit f, p.2⟩) l

/-- Attribute `f` is feature `f`, with cost `p f`, discounted cost `d f` and group `g f`; a wrong prediction costs `w`. -/
def bitCosts (w : Nat) (p d g : List Nat) : Costs :=
  ⟨fun i j => if i = j then 0 else w,
    (List.range p.length).map fun f => ⟨p.getD f 0, d.getD f 0, g.getD f 0, f, f⟩⟩

/-- The defaults of the cost-sensitive classifier. -/
def costDefaults (nF : Nat) : Options := ⟨true, true, true, false, true, true, false, fun _ => List.range nF, fun _ => true⟩

private theorem bitCosts_attr {w : Nat} {p d g : List Nat} {a : AttrCost} (ha : a ∈ (bitCosts w p d g).attrs) :
    ∃ f, f < p.length ∧ a = ⟨p.getD f 0, d.getD f 0, g.getD f 0, f, f⟩ := by
  unfold bitCosts at ha
  obtain ⟨f, hf, rfl⟩ := List.mem_map.1 ha
  exact ⟨f, List.mem_range.1 hf, rfl⟩

private theorem use_bits {w nF d n : Nat} {p dc g : List Nat} {o : Options} {l : List (Nat × Nat)} {B : Nat}
    (hl : 1 ≤ l.length) (hlab : ∀ i ∈ bitData l, i.label < 2) (hid : (bitData l).Pairwise fun a b => a.id < b.id)
    (hord : ∀ D f, f ∈ o.order D ↔ f < nF) (hclk : Monotone o.clock)
    (hn : n + 1 ≤ 2 ^ d) (hB : ∀ f < p.length, p.getD f 0 ≤ B ∧ dc.getD f 0 ≤ B) (hs : l.length * (w + d * B) < 2147483647) :
    CostUse (bitCosts w p dc g) 1 nF 2 1 o ⟨d, n, false, 2147483647⟩ (bitData l) := by
  have hlen : (bitData l).length = l.length := by simp [bitData]
  refine ⟨le_rfl, ⟨fun i j => ?_, fun a ha => ?_⟩, fun k => if_pos rfl, ⟨fun i j => ?_, fun a ha => ?_⟩, ⟨fun a ha => ?_, ?_⟩, by decide,
    hlab, hid, le_rfl, by rw [hlen]; exact hl, hord, hclk, hn, by show (int32Max : Int) * (1 : Nat) ≤ 2147483647; decide, w, B, ⟨fun i j => ?_, fun a ha => ?_⟩, by positivity, ?_⟩
  · unfold bitCosts; dsimp only; split <;> simp
  · obtain ⟨f, _, rfl⟩ := bitCosts_attr ha
    simp
  · unfold bitCosts; dsimp only; split <;> simp
  · obtain ⟨f, _, rfl⟩ := bitCosts_attr ha
    simp
  · obtain ⟨f, _, rfl⟩ := bitCosts_attr ha
    exact le_rfl
  · unfold bitCosts
    dsimp only
    rw [List.pairwise_map]
    refine List.Pairwise.imp ?_ List.pairwise_lt_range
    intro a b hab f
    simp only [AttrCost.has, Bool.and_eq_true, decide_eq_true_eq]
    omega
  · unfold bitCosts; dsimp only; split <;> simp
  · obtain ⟨f, hf, rfl⟩ := bitCosts_attr ha
    have := hB f hf
    dsimp only
    exact ⟨by exact_mod_cast this.1, by exact_mod_cast this.2⟩
  · rw [hlen]
    unfold int32Max
    exact_mod_cast hs

private theorem order_range {nF : Nat} (f : Nat) : f ∈ List.range nF ↔ f < nF := List.mem_range

private theorem clock_true : Monotone fun _ : Nat => true := fun _ _ _ _ => rfl

/-- An explicit better tree refutes optimality. -/
private theorem not_least {C : Costs} {q nF nL mls : Nat} {o : Options} {t : Top} {T : Data} (x : Tree) (s : Int)
    (hs : ((fitCostSensitive C q nF nL mls o t T).2 && decide ((fitCostSensitive C q nF nL mls o t T).1.result.sol = s)) = true)
    (hx : (decide (x.depth ≤ t.maxDepth) && decide (x.nodes ≤ t.maxNodes) && x.legalB (C.problem q nF nL) mls T) = true)
    (hlt : C.total x T < (s : Rat) / q) : ¬ CostLeast C q nF nL mls o t T := by
  simp only [Bool.and_eq_true, decide_eq_true_eq] at hs hx
  intro h
  have := (h hs.1).2 x ⟨hx.1.1, hx.1.2, (Tree.legalB_iff ..).1 hx.2⟩
  rw [hs.2] at this
  exact absurd hlt (not_lt.2 this)

/-- Two features that split the data alike but differ in price: the preprocessing drops the cheaper one. The default options
report 10 where 8 is possible. -/
theorem costs_search_twins :
    CostUse (bitCosts 5 [1, 3, 0] [1, 1, 0] [0, 0, 0]) 1 3 2 1 (costDefaults 3) ⟨3, 7, false, 2147483647⟩
      (bitData [(0, 0), (7, 0), (2, 1), (5, 0), (7, 1), (0, 0)]) ∧
    ¬ CostLeast (bitCosts 5 [1, 3, 0] [1, 1, 0] [0, 0, 0]) 1 3 2 1 (costDefaults 3) ⟨3, 7, false, 2147483647⟩
      (bitData [(0, 0), (7, 0), (2, 1), (5, 0), (7, 1), (0, 0)]) := by
  refine ⟨use_bits (B := 3) (by decide) (by decide) (by decide) (fun _ => order_range) clock_true (by decide) (by decide) (by decide),
    not_least (.node 2 (.node 1 (.leaf 0) (.leaf 1)) (.leaf 0)) 10 (by decide +kernel) (by decide +kernel) (by decide +kernel)⟩

/-- At depth four the depth-two solver reuses results of the same data on another path, where other tests had been paid for.
The default options report 6 where 2 is possible; every feature splits the data differently. -/
theorem costs_search_stale :
    CostUse (bitCosts 7 [0, 0, 3, 2] [0, 0, 1, 0] [0, 1, 1, 0]) 1 4 2 1 (costDefaults 4) ⟨4, 15, false, 2147483647⟩
      (bitData [(2, 0), (9, 1), (14, 0), (6, 1), (12, 1)]) ∧
    ¬ CostLeast (bitCosts 7 [0, 0, 3, 2] [0, 0, 1, 0] [0, 1, 1, 0]) 1 4 2 1 (costDefaults 4) ⟨4, 15, false, 2147483647⟩
      (bitData [(2, 0), (9, 1), (14, 0), (6, 1), (12, 1)]) := by
  refine ⟨use_bits (B := 3) (by decide) (by decide) (by decide) (fun _ => order_range) clock_true (by decide) (by decide) (by decide),
    not_least (.node 0 (.node 1 (.leaf 1) (.node 3 (.node 2 (.leaf 0) (.leaf 1)) (.leaf 0))) (.leaf 1)) 6 (by decide +kernel)
      (by decide +kernel) (by decide +kernel)⟩

/-- The lower bound stored for a subproblem without a solution below its upper bound is the least bound of its splits; the leaf,
which is cheaper when tests are expensive, is left out (`infeasible_lb`, solver.cpp:450-524). Without the depth-two solver the run
reports 35 where 34 is possible. No two attributes share a discount here. -/
theorem costs_search_bound :
    CostUse (bitCosts 20 [11, 1, 4, 0, 3] [11, 1, 4, 0, 3] [0, 1, 0, 1, 0]) 1 5 2 1
      { costDefaults 5 with useTerm := false } ⟨3, 7, false, 2147483647⟩
      (bitData [(12, 0), (7, 1), (25, 1), (8, 0), (30, 1), (17, 1), (31, 0)]) ∧
    ¬ CostLeast (bitCosts 20 [11, 1, 4, 0, 3] [11, 1, 4, 0, 3] [0, 1, 0, 1, 0]) 1 5 2 1
      { costDefaults 5 with useTerm := false } ⟨3, 7, false, 2147483647⟩
      (bitData [(12, 0), (7, 1), (25, 1), (8, 0), (30, 1), (17, 1), (31, 0)]) := by
  refine ⟨use_bits (B := 11) (by decide) (by decide) (by decide) (fun _ => order_range) clock_true (by decide) (by decide) (by decide),
    not_least (.node 3 (.leaf 1) (.node 1 (.node 4 (.leaf 0) (.leaf 1)) (.leaf 0))) 35 (by decide +kernel) (by decide +kernel)
      (by decide +kernel)⟩

/-- Dataset caching keys results by the instances, not by the tests already paid for: it reports 12 where 11 is possible, even with
all other shortcuts off. -/
theorem costs_search_dataset_cache :
    CostUse (bitCosts 7 [0, 0, 2, 1] [0, 0, 1, 0] [1, 0, 0, 0]) 1 4 2 1
      ⟨false, true, true, false, false, false, true, fun _ => List.range 4, fun _ => true⟩ ⟨3, 7, false, 2147483647⟩
      (bitData [(6, 1), (2, 0), (1, 1), (15, 1), (2, 0), (1, 0), (2, 0)]) ∧
    ¬ CostLeast (bitCosts 7 [0, 0, 2, 1] [0, 0, 1, 0] [1, 0, 0, 0]) 1 4 2 1
      ⟨false, true, true, false, false, false, true, fun _ => List.range 4, fun _ => true⟩ ⟨3, 7, false, 2147483647⟩
      (bitData [(6, 1), (2, 0), (1, 1), (15, 1), (2, 0), (1, 0), (2, 0)]) := by
  refine ⟨use_bits (B := 2) (by decide) (by decide) (by decide) (fun _ => order_range) clock_true (by decide) (by decide) (by decide),
    not_least (.node 1 (.leaf 0) (.node 0 (.node 2 (.leaf 0) (.leaf 1)) (.leaf 1))) 12 (by decide +kernel) (by decide +kernel)
      (by decide +kernel)⟩

/-- The least cost over all trees with leaves of at least one instance, by enumeration. -/
private def low (P : Problem) (τ : Ctx.Prices) : Nat → Branch → Data → Int
  | 0, _, D => (List.range P.nL).foldl (fun m k => min m (leafCost P D k)) 1000000
  | d + 1, b, D => (List.range P.nF).foldl (fun m f =>
      if (without f D).isEmpty || (having f D).isEmpty then m
      else min m (D.length * τ b f + (low P τ d (b.child f false) (without f D) + low P τ d (b.child f true) (having f D))))
      ((List.range P.nL).foldl (fun m k => min m (leafCost P D k)) 1000000)

private theorem foldl_min_le {α : Type} (g : Int → α → Int) (hg : ∀ m a, g m a ≤ m) (l : List α) (m : Int) :
    l.foldl g m ≤ m ∧ ∀ a ∈ l, ∃ m', l.foldl g m ≤ g m' a := by
  induction l generalizing m with
  | nil => simp
  | cons a l ih =>
    rw [List.foldl_cons]
    refine ⟨(ih _).1.trans (hg m a), fun b hb => ?_⟩
    rcases List.mem_cons.1 hb with rfl | hb
    · exact ⟨m, (ih _).1⟩
    · exact (ih _).2 b hb

private theorem low_le (P : Problem) (τ : Ctx.Prices) (t : Tree) (d : Nat) (b : Branch) (D : Data) (hd : t.depth ≤ d)
    (ht : t.Legal P 1 D) : low P τ d b D ≤ Ctx.cost P τ b t D := by
  have hleaf : ∀ D, ∀ k < P.nL, (List.range P.nL).foldl (fun m k => min m (leafCost P D k)) 1000000 ≤ leafCost P D k := by
    intro D k hk
    obtain ⟨m, hm⟩ := (foldl_min_le (fun m k => min m (leafCost P D k)) (fun _ _ => min_le_left _ _) (List.range P.nL) 1000000).2 k
      (List.mem_range.2 hk)
    exact hm.trans (min_le_right _ _)
  have hg : ∀ D b d, ∀ m f, (fun m f => if (without f D).isEmpty || (having f D).isEmpty then m
      else min m (D.length * τ b f + (low P τ d (b.child f false) (without f D) + low P τ d (b.child f true) (having f D)))) m f ≤ m := by
    intro D b d m f
    dsimp only
    split
    · exact le_rfl
    · exact min_le_left _ _
  induction t generalizing d b D with
  | leaf k =>
    cases d with
    | zero => exact hleaf D k ht.1
    | succ d => exact (foldl_min_le _ (hg D b d) _ _).1.trans (hleaf D k ht.1)
  | node f l r ihl ihr =>
    obtain ⟨hf, hm, hl, hr⟩ := ht
    cases d with
    | zero => simp [Tree.depth] at hd
    | succ d =>
      have hdl : l.depth ≤ d := by simp [Tree.depth] at hd; omega
      have hdr : r.depth ≤ d := by simp [Tree.depth] at hd; omega
      obtain ⟨m, h⟩ := (foldl_min_le _ (hg D b d) (List.range P.nF) ((List.range P.nL).foldl (fun m k => min m (leafCost P D k)) 1000000)).2 f
        (List.mem_range.2 hf)
      refine le_trans h ?_
      have h0 := hl.length
      have h1 := hr.length
      have n0 : (without f D).isEmpty = false := by
        cases hh : without f D with
        | nil => rw [hh] at h0; simp at h0
        | cons _ _ => rfl
      have n1 : (having f D).isEmpty = false := by
        cases hh : having f D with
        | nil => rw [hh] at h1; simp at h1
        | cons _ _ => rfl
      simp only [n0, n1, Bool.or_self, Bool.false_eq_true, if_false]
      refine (min_le_right _ _).trans ?_
      simp only [Ctx.cost]
      have a := ihl d (b.child f false) (without f D) hdl hl
      have c := ihr d (b.child f true) (having f D) hdr hr
      omega

/-- The stale results also produce totals that no tree has: the default options report 7 at depth four where every tree costs at
least 9. -/
theorem costs_search_unattained :
    CostUse (bitCosts 7 [1, 3, 1, 2] [0, 0, 0, 1] [1, 0, 0, 1]) 1 4 2 1 (costDefaults 4) ⟨4, 15, false, 2147483647⟩
      (bitData [(7, 0), (1, 0), (4, 1), (1, 0), (15, 1)]) ∧
    ¬ CostAttained (bitCosts 7 [1, 3, 1, 2] [0, 0, 0, 1] [1, 0, 0, 1]) 1 4 2 1 (costDefaults 4) ⟨4, 15, false, 2147483647⟩
      (bitData [(7, 0), (1, 0), (4, 1), (1, 0), (15, 1)]) := by
  have hu : CostUse (bitCosts 7 [1, 3, 1, 2] [0, 0, 0, 1] [1, 0, 0, 1]) 1 4 2 1 (costDefaults 4) ⟨4, 15, false, 2147483647⟩
      (bitData [(7, 0), (1, 0), (4, 1), (1, 0), (15, 1)]) :=
    use_bits (B := 3) (by decide) (by decide) (by decide) (fun _ => order_range) clock_true (by decide) (by decide) (by decide)
  refine ⟨hu, fun h => ?_⟩
  obtain ⟨x, hx, hs⟩ := h (by decide +kernel)
  have h1 : (fitCostSensitive (bitCosts 7 [1, 3, 1, 2] [0, 0, 0, 1] [1, 0, 0, 1]) 1 4 2 1 (costDefaults 4) ⟨4, 15, false, 2147483647⟩
      (bitData [(7, 0), (1, 0), (4, 1), (1, 0), (15, 1)])).1.result.sol = 7 := by decide +kernel
  have h2 := low_le _ ((bitCosts 7 [1, 3, 1, 2] [0, 0, 0, 1] [1, 0, 0, 1]).prices 1) x 4 [] _ hx.1 hx.2.2
  have h3 : low ((bitCosts 7 [1, 3, 1, 2] [0, 0, 0, 1] [1, 0, 0, 1]).problem 1 4 2)
      ((bitCosts 7 [1, 3, 1, 2] [0, 0, 0, 1] [1, 0, 0, 1]).prices 1) 4 [] (bitData [(7, 0), (1, 0), (4, 1), (1, 0), (15, 1)]) = 9 := by
    decide +kernel
  have h4 := Ctx.cost_eval (nF := 4) hu.whole hu.zero x [] _ hu.inRange
  rw [costs_tree _ hu.attrs 2 hu.zero x _ hu.inRange] at h4
  unfold Costs.total at hs
  rw [← hs, h1] at h4
  rw [h3] at h2
  have h5 := (Int.cast_le (R := Rat)).2 h2
  rw [h4] at h5
  norm_num at h5

/-! ### The hypotheses can be met -/

private theorem twins_dec {nF mls : Nat} {T : Data}
    (h : ((List.range nF).all fun f => (List.range nF).all fun g => decide (f = g) || decide ((without f T).length < mls) ||
      decide ((having f T).length < mls) || ([true, false].all fun y => T.any fun i => i.feat f != Bool.xor (i.feat g) y)) = true) :
    Ctx.NoTwins nF mls T := by
  intro f g hf hg hfg h0 h1 y hall
  have a := List.all_eq_true.1 (List.all_eq_true.1 h f (List.mem_range.2 hf)) g (List.mem_range.2 hg)
  simp only [Bool.or_eq_true, decide_eq_true_eq, hfg, false_or] at a
  rcases a with (a | a) | a
  · omega
  · omega
  · obtain ⟨i, hi, hne⟩ := List.any_eq_true.1 (List.all_eq_true.1 a y (by cases y <;> simp))
    rw [hall i hi] at hne
    simp at hne

/-- The default options at depth three on seven instances and three features in two groups, two of them with a discount. -/
example : CostBest (bitCosts 5 [1, 3, 2] [1, 1, 1] [0, 0, 1]) 1 3 2 1 (costDefaults 3) ⟨3, 7, false, 2147483647⟩
    (bitData [(0, 0), (7, 0), (2, 1), (5, 0), (6, 1), (1, 0), (3, 1)]) := by
  refine costs_search_partial
    (use_bits (B := 3) (by decide) (by decide) (by decide) (fun _ => order_range) clock_true (by decide) (by decide) (by decide))
    (by decide) (by decide) rfl ?_ rfl rfl rfl rfl
  intro f g hf hg hfg h0 h1
  have := twins_dec (nF := 3) (mls := 1) (T := bitData [(0, 0), (7, 0), (2, 1), (5, 0), (6, 1), (1, 0), (3, 1)]) (by decide +kernel)
    f g hf hg hfg (List.length_pos_iff.2 h0) (List.length_pos_iff.2 h1)
  exact ⟨by simpa using this false, by simpa using this true⟩

example : (fitCostSensitive (bitCosts 5 [1, 3, 2] [1, 1, 1] [0, 0, 1]) 1 3 2 1 (costDefaults 3) ⟨3, 7, false, 2147483647⟩
    (bitData [(0, 0), (7, 0), (2, 1), (5, 0), (6, 1), (1, 0), (3, 1)])).2 = true := by decide +kernel

/-- Depth four without the depth-two solver and the bounds: the data of `costs_search_stale`. -/
example : CostBest (bitCosts 7 [0, 0, 3, 2] [0, 0, 1, 0] [0, 1, 1, 0]) 1 4 2 1
    { costDefaults 4 with useTerm := false, useLB := false } ⟨4, 15, false, 2147483647⟩
    (bitData [(2, 0), (9, 1), (14, 0), (6, 1), (12, 1)]) :=
  costs_search_plain_partial
    (use_bits (B := 3) (by decide) (by decide) (by decide) (fun _ => order_range) clock_true (by decide) (by decide) (by decide))
    (twins_dec (by decide +kernel)) rfl rfl rfl rfl

/-- Depth four with the depth-two solver: the same data with every attribute in its own group. -/
example : CostBest (bitCosts 7 [0, 0, 3, 2] [0, 0, 1, 0] [0, 1, 2, 3]) 1 4 2 1 { costDefaults 4 with useLB := false }
    ⟨4, 15, false, 2147483647⟩ (bitData [(2, 0), (9, 1), (14, 0), (6, 1), (12, 1)]) :=
  costs_search_flat_partial
    (use_bits (B := 3) (by decide) (by decide) (by decide) (fun _ => order_range) clock_true (by decide) (by decide) (by decide))
    (by decide) rfl (twins_dec (by decide +kernel)) (by decide) (by decide) rfl rfl rfl rfl

end Streed
