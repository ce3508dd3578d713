import Verif.Lemmas.KMeansCache
import Verif.Props.Regression

/-!
# C67: the lower bound of cost-complexity regression

The value the task reports as a lower bound, after any calls for the same data, is at most the squared error plus the
complexity cost of every regression tree with the number of branching nodes allowed. Where it is computed by clustering it
is as large as any bound can be that sees which instances have equal features and nothing else of the features.
-/

namespace Streed

/-- A regression tree: a value in every leaf. -/
inductive RegTree where
  | leaf (v : Rat)
  | node (f : Nat) (l r : RegTree)

namespace RegTree

/-- The prediction for a feature vector. -/
def predict : RegTree → (Nat → Bool) → Rat
  | leaf v, _ => v
  | node f l r, x => if x f then r.predict x else l.predict x

/-- Number of branching nodes. -/
def nodes : RegTree → Nat
  | leaf _ => 0
  | node _ l r => 1 + l.nodes + r.nodes

/-- The values in the leaves. -/
def values : RegTree → List Rat
  | leaf v => [v]
  | node _ l r => l.values ++ r.values

theorem predict_mem (t : RegTree) (x : Nat → Bool) : t.predict x ∈ t.values := by
  induction t with
  | leaf v => simp [predict, values]
  | node f l r ihl ihr =>
    rw [predict, values, List.mem_append]
    split
    · exact .inr ihr
    · exact .inl ihl

theorem length_values (t : RegTree) : t.values.length = t.nodes + 1 := by
  induction t with
  | leaf v => rfl
  | node f l r ihl ihr =>
    rw [values, List.length_append, ihl, ihr, nodes]
    omega

end RegTree

/-- The squared error of a prediction on all the targets that the instances stand for. -/
def sqError (D : List RInst) (ts : RInst → List Rat) (p : RInst → Rat) : Rat :=
  (D.map fun i => ((ts i).map fun y => (y - p i) ^ 2).sum).sum

/-- The entries of a branch after calls with the given numbers of nodes. -/
def boundsAfter (useK : Bool) (bc : Rat) (D : List RInst) (calls : List Nat) : List Rat :=
  calls.foldl (fun s n => (KM.regressionLB useK bc s D n).2) []

/-- The bound for `n` nodes, after earlier calls for the same branch. -/
def boundAfter (useK : Bool) (bc : Rat) (D : List RInst) (calls : List Nat) (n : Nat) : Rat :=
  (KM.regressionLB useK bc (boundsAfter useK bc D calls) D n).1

/-- The cost of giving every group of instances with equal features a value, at most `m + 1` of them different for some
`m ≤ n`, where each value but one costs `bc`. -/
def ClusterCost (bc : Rat) (D : List RInst) (ts : RInst → List Rat) (n : Nat) (c : Rat) : Prop :=
  ∃ (f : Nat → Rat) (m : Nat), m ≤ n ∧ ((D.map fun i => f i.group).toFinset).card ≤ m + 1 ∧
    c = sqError D ts (fun i => f i.group) + m * bc

theorem err_targets {i : RInst} {ts : List Rat} (h : StandsFor i ts) (v : Rat) :
    KM.err v i = (ts.map fun y => (y - v) ^ 2).sum := by
  obtain ⟨h1, h2, h3⟩ := h
  rw [KM.err, h1, h2, h3]
  clear h1 h2 h3
  induction ts with
  | nil => simp
  | cons y ts ih =>
    simp only [List.sum_cons, List.map_cons, List.length_cons]
    rw [← ih]
    push_cast
    ring

theorem errAll_targets {D : List RInst} {ts : RInst → List Rat} (h : ∀ i ∈ D, StandsFor i (ts i)) (f : Nat → Rat) :
    KM.errAll D f = sqError D ts fun i => f i.group := by
  rw [KM.errAll, sqError]
  congr 1
  exact List.map_congr_left fun i hi => err_targets (h i hi) _

theorem clusterCost_iff {bc : Rat} {D : List RInst} {ts : RInst → List Rat} (h : ∀ i ∈ D, StandsFor i (ts i)) (n : Nat)
    (c : Rat) : ClusterCost bc D ts n c ↔ KM.Cluster bc D n c := by
  simp only [ClusterCost, KM.Cluster, errAll_targets h]

theorem boundsAfter_entries (useK : Bool) {bc : Rat} (hbc : 0 ≤ bc) {D : List RInst} (hD : D ≠ [])
    (hw : ∀ i ∈ D, 0 < i.w) (calls : List Nat) : KM.Entries useK bc D (boundsAfter useK bc D calls) := by
  have key : ∀ (l : List Nat) (s : List Rat), KM.Entries useK bc D s →
      KM.Entries useK bc D (l.foldl (fun s n => (KM.regressionLB useK bc s D n).2) s) := by
    intro l
    induction l with
    | nil => exact fun s h => h
    | cons n l ih => exact fun s h => ih _ (KM.entries_step hbc hD hw h n).2
  exact key calls [] fun i hi => absurd rfl hi

/-- **C67.** With either bound, and after any calls for the same branch, the value returned for `n` nodes is at most the
squared error plus the complexity cost of every tree with at most `n` branching nodes. -/
theorem regression_bound_valid (useK : Bool) {bc : Rat} (hbc : 0 ≤ bc) {D : List RInst} (hD : D ≠ [])
    {ts : RInst → List Rat} (h : ∀ i ∈ D, StandsFor i (ts i)) (hts : ∀ i ∈ D, ts i ≠ []) (calls : List Nat) (n : Nat)
    (features : Nat → Nat → Bool) (t : RegTree) (ht : t.nodes ≤ n) :
    boundAfter useK bc D calls n ≤ sqError D ts (fun i => t.predict (features i.group)) + t.nodes * bc := by
  have hw : ∀ i ∈ D, 0 < i.w := fun i hi => by
    rw [(h i hi).2.2]
    exact List.length_pos_of_ne_nil (hts i hi)
  have hF := (KM.entries_step hbc hD hw (boundsAfter_entries useK hbc hD hw calls) n).1.below
  refine hF _ ((clusterCost_iff h _ _).1 ⟨fun g => t.predict (features g), t.nodes, ht, ?_, rfl⟩)
  rw [← t.length_values]
  refine le_trans (Finset.card_le_card (t := t.values.toFinset) fun x hx => ?_) (List.toFinset_card_le _)
  rw [List.mem_toFinset, List.mem_map] at hx
  obtain ⟨i, _, rfl⟩ := hx
  exact List.mem_toFinset.2 (t.predict_mem _)

/-- **C67**, how tight the bound is: with clustering switched on, and fewer than fifty leaves allowed or fewer than fifty
different feature vectors in the data, the value is exactly the least cost of giving the groups of instances with equal
features at most `n + 1` values. The instances are sorted by group, as preprocessing leaves them. -/
theorem regression_bound_exact {bc : Rat} (hbc : 0 ≤ bc) {D : List RInst} (hD : D ≠ []) {ts : RInst → List Rat}
    (h : ∀ i ∈ D, StandsFor i (ts i)) (hts : ∀ i ∈ D, ts i ≠ []) (hs : D.Pairwise fun a b => a.group ≤ b.group)
    (calls : List Nat) (n : Nat) (hn : n + 1 < 50 ∨ ((D.map RInst.group).toFinset).card < 50) :
    IsLeast {c | ClusterCost bc D ts n c} (boundAfter true bc D calls n) := by
  have hw : ∀ i ∈ D, 0 < i.w := fun i hi => by
    rw [(h i hi).2.2]
    exact List.length_pos_of_ne_nil (hts i hi)
  have hF := (KM.entries_step hbc hD hw (boundsAfter_entries true hbc hD hw calls) n).1
  refine ⟨(clusterCost_iff h _ _).2 ((hF.exact rfl ?_ hs).mono (min_le_left _ _)),
    fun c hc => hF.below c ((clusterCost_iff h _ _).1 hc)⟩
  rw [← (KM.card_groups hD hw).2.1 hs]
  have : KM.top true = 49 := rfl
  omega

/-- Four groups of instances that stand for two or one targets each. -/
def clusterData : List RInst :=
  [⟨0, 0, 1, 1, 2⟩, ⟨1, 1, 5, 25, 1⟩, ⟨2, 2, 11, 61, 2⟩, ⟨3, 2, 6, 36, 1⟩, ⟨4, 3, 1, 1, 1⟩]

def clusterTargets (i : RInst) : List Rat :=
  if i.id = 0 then [0, 1] else if i.id = 1 then [5] else if i.id = 2 then [5, 6] else if i.id = 3 then [6] else [1]

/-- The hypotheses hold, with values other than zero, in a history whose first call stores three entries. -/
example : (∀ i ∈ clusterData, StandsFor i (clusterTargets i)) ∧ (∀ i ∈ clusterData, clusterTargets i ≠ []) ∧
    clusterData.Pairwise (fun a b => a.group ≤ b.group) ∧
    boundsAfter true 1 clusterData [3, 0] = [292 / 7, 8 / 3, 8 / 3, 8 / 3] ∧
    boundAfter true 1 clusterData [3, 0] 1 = 8 / 3 := by
  unfold StandsFor
  decide +kernel

/-- Without clustering only the error inside the groups is returned, which need not be reached by any two values. -/
example : boundAfter false 1 clusterData [3, 0] 1 = 7 / 6 := by decide +kernel

/-! ### Entries of the table that are wrong

The table itself is not always right where points are equal: SMAWK returns more for six clusters of the first eight points
below than for five. `regression_bound_valid` and `regression_bound_exact` hold all the same, because the loop stops, or
reads another column, before such an entry matters. -/

def tiedPoints : List KM.KPt := [0, 0, 0, 1, 1, 1, 1, 2, 2, 2, 2, 2].map fun x => ⟨1, x⟩

/-- The rows of the table, filled by SMAWK. -/
def smawkRow (d : List KM.KPt) : Nat → KM.KRow
  | 0 => KM.firstRow (KM.ssq d)
  | q + 1 => KM.smawk (KM.ssq d) (smawkRow d q) d.length (q + 1) (d.length - 1) 1
      (List.range' (q + 1) (d.length - (q + 1))) .init

theorem smawk_entry_wrong : (smawkRow tiedPoints 4).S 7 = 0 ∧ (smawkRow tiedPoints 5).S 7 = 1 / 2 := by
  decide +kernel

end Streed
