import Verif.Model.TestRows
import Verif.Props.NodeLimit
import Verif.Props.TestScore

/-!
# C101: rows that are not trained on
-/

namespace Streed

open TaskLemmas TestLemmas

/-! ### The optimum -/

theorem among_attained {P : Problem} {mls : Nat} (hP : FeatureFree P) (hmay : ∀ f, f < P.nF → P.may f = true)
    (hmls : 1 ≤ mls) {A T : Data} (hT : T.Sublist A) (d n : Nat) (v : Int) :
    Attained P mls d n (prepAmong P mls A T) v ↔ Attained P mls d n T v := by
  constructor
  · rintro ⟨t, ⟨h1, h2, h3⟩, h4⟩
    obtain ⟨a1, a2⟩ := prep_backward hP hmls _ _ t T h3
    exact ⟨_, ⟨by rw [unflip_depth]; exact h1, by rw [unflip_nodes]; exact h2, a1⟩, by rw [a2]; exact h4⟩
  · rintro ⟨t, ⟨h1, h2, h3⟩, h4⟩
    obtain ⟨t', a1, a2, a3, a4⟩ := prep_forward hP hmay t T hT h3
    exact ⟨t', ⟨by omega, by omega, a1⟩, by rw [← h4]; exact a4⟩

/-- C101, the optimum: whatever other rows the dataset holds, preprocessing all of them keeps the optimal value of the training rows,
for every task that may branch on every feature, every budget and leaf size. -/
theorem among_optimum {P : Problem} {mls : Nat} (hP : FeatureFree P) (hmay : ∀ f, f < P.nF → P.may f = true)
    (hmls : 1 ≤ mls) {A T : Data} (hT : T.Sublist A) (d n : Nat) (v : Int) :
    IsOpt P mls d n (prepAmong P mls A T) v ↔ IsOpt P mls d n T v := by
  refine and_congr (among_attained hP hmay hmls hT d n v) ⟨fun h t ht => ?_, fun h t ht => ?_⟩
  · obtain ⟨t', h1, h2⟩ := (among_attained hP hmay hmls hT d n (t.cost P T)).2 ⟨t, ht, rfl⟩
    rw [← h2]; exact h t' h1
  · obtain ⟨t', h1, h2⟩ := (among_attained hP hmay hmls hT d n _).1 ⟨t, ht, rfl⟩
    rw [← h2]; exact h t' h1

namespace Among

theorem length (P : Problem) (mls : Nat) (A T : Data) : (prepAmong P mls A T).length = T.length := by simp [prepAmong]

theorem redundant {P : Problem} {mls : Nat} (A T : Data) {f : Nat} (h : isRedundant P mls A f = true) :
    having f (prepAmong P mls A T) = [] := by
  unfold having prepAmong
  apply List.filter_eq_nil_iff.2
  intro i hi
  obtain ⟨j, _, rfl⟩ := List.mem_map.1 hi
  simp [prepInst, h]

theorem good {nF nL mls : Nat} {o : Options} (A : Data) {T : Data} (h : Input nL T) (hmls : 1 ≤ mls)
    (ho : ∀ D f, f ∈ o.order D ↔ f < nF) (hterm : o.useTerm = true → mls = 1 ∧ o.useUB = true)
    (hsim : o.simLB = true → mls = 1) :
    Good (accCfg nF nL mls o (isRedundant (accuracy nF nL) mls A)) (prepAmong (accuracy nF nL) mls A T) where
  labels := h.labels
  bc := Int.le_refl _
  bcLB := fun _ => rfl
  nonneg := accuracy_nonneg _ _ _
  small := fun D hD t _ => accuracy_lt _ _ _ _ _ (by
    have h1 := hD.length_le
    rw [length] at h1
    have h2 := h.size
    show (D.length : Int) < (int32Max : Int)
    omega)
  mls := hmls
  term := hterm
  sim := hsim
  sparse := fun h => by simp [accCfg] at h
  custom := fun D _ t _ => Tree.cost_nonneg _ t D (accuracy_nonneg _ _ _) (Int.le_refl 0)
  md := ⟨by show (0 : Int) ≤ 1; decide, by show (1 : Int) ≤ 1; decide⟩
  sorted := by
    have := h.sorted
    unfold IdSorted prepAmong at *
    rw [List.pairwise_map]
    exact this
  inRange := fun i hi => by
    obtain ⟨j, hj, rfl⟩ := List.mem_map.1 hi
    exact h.inRange j hj
  order := ho
  redundant := fun f hf => .inr (redundant A T hf)
  simInst := fun _ _ h => by cases h
  worstPer := fun _ _ i _ k _ => by simp only [accCfg, accuracy]; split <;> decide

theorem base {nF nL mls : Nat} {o : Options} (A : Data) {T : Data} (h : Input nL T) (ho : ∀ D f, f ∈ o.order D → f < nF) :
    Base (accCfg nF nL mls o (isRedundant (accuracy nF nL) mls A)) (prepAmong (accuracy nF nL) mls A T) where
  labels := h.labels
  bc := Int.le_refl 0
  nonneg := accuracy_nonneg _ _ _
  worst := by show (0 : Int) ≤ (int32Max : Int); decide
  small := fun D hD t _ => accuracy_lt _ _ _ _ _ (by
    have h1 := hD.length_le
    rw [length] at h1
    have h2 := h.size
    show (D.length : Int) < (int32Max : Int)
    omega)
  custom := fun _ _ => by show (0 : Int) ≤ (int32Max : Int); decide
  md := by show (0 : Int) ≤ 1; decide
  sorted := by
    have := h.sorted
    unfold IdSorted prepAmong at *
    rw [List.pairwise_map]
    exact this
  inRange := fun i hi => by
    obtain ⟨j, hj, rfl⟩ := List.mem_map.1 hi
    exact h.inRange j hj
  order := ho
  worstPer := fun _ => .inl (by show (0 : Int) ≤ 1; decide)
  simInst := fun _ h => by cases h

theorem back {nF nL mls : Nat} (hmls : 1 ≤ mls) (A T : Data) (tr : Tree)
    (h : tr.Legal (accuracy nF nL) mls (prepAmong (accuracy nF nL) mls A T)) :
    (unflip (flipped (accuracy nF nL) A) tr).Legal (accuracy nF nL) mls T ∧
    trainValue (accuracy nF nL) tr (prepAmong (accuracy nF nL) mls A T) 0 = misclassified (unflip (flipped (accuracy nF nL) A) tr) T := by
  obtain ⟨a1, a2⟩ := prep_backward (accuracy_featureFree nF nL) hmls _ _ tr T h
  refine ⟨a1, ?_⟩
  rw [trainValue_eq, ← cost_eq_misclassified nF nL, a2]
  exact Int.zero_add _

theorem spec {nF nL mls : Nat} {o : Options} {A T : Data} {t : Top} (hA : T.Sublist A) (h : Input nL T) (hmls : 1 ≤ mls)
    (hT : mls ≤ T.length) (ho : ∀ D f, f ∈ o.order D ↔ f < nF) (hclk : Monotone o.clock)
    (hterm : o.useTerm = true → mls = 1 ∧ o.useUB = true ∧ t.maxNodes + 1 = 2 ^ t.maxDepth ∧ (t.allTrees = true → t.maxNodes ≤ 1))
    (hsim : o.simLB = true → mls = 1) (hfit : t.maxNodes + 1 ≤ 2 ^ t.maxDepth)
    (hub : (int32Max : Int) ≤ t.ub) (hopt : (fitAmong nF nL mls o t A T).2 = true) :
    IsOpt (accuracy nF nL) mls t.maxDepth t.maxNodes T (fitAmong nF nL mls o t A T).1.result.sol := by
  have G := good (o := o) A h hmls ho (fun a => ⟨(hterm a).1, (hterm a).2.1⟩) hsim
  obtain ⟨h1, h2⟩ := solve_spec G t (by rw [length]; exact hT) hclk hfit
    (fun a => ⟨(hterm a).2.2.1, (hterm a).2.2.2⟩)
  obtain ⟨h3, h4⟩ := h2 hopt
  unfold fitAmong
  generalize solve (accCfg nF nL mls o (isRedundant (accuracy nF nL) mls A)) t (prepAmong (accuracy nF nL) mls A T) = r at *
  have hset : ∀ x, Allowed (accuracy nF nL) mls t.maxDepth t.maxNodes (prepAmong (accuracy nF nL) mls A T) x →
      r.1.result.isEmpty = false ∧ r.1.result.sol ≤ x.cost (accuracy nF nL) (prepAmong (accuracy nF nL) mls A T) := by
    intro x hx
    refine h4 x hx ?_
    have := accuracy_lt nF nL (prepAmong (accuracy nF nL) mls A T) x int32Max (by
      rw [length]; have := h.size; omega)
    exact Int.le_trans (Int.le_of_lt this) hub
  have hne := (hset (.leaf 0) ⟨Nat.zero_le _, Nat.zero_le _, h.labels, by rw [length]; exact hT⟩).1
  obtain ⟨h5, h6⟩ := h1.real hne
  exact (among_optimum (accuracy_featureFree nF nL) (fun _ _ => rfl) hmls hA _ _ _).1
    ⟨h5.attained h6, fun x hx => (hset x hx).2⟩

end Among

/-- C101, the search: with the default budget and leaf size one, the value found by a run that reports `is_optimal` is the smallest
number of misclassified training rows of any tree of that depth, whatever other rows (test file, split-off rows, copies) the
dataset holds. -/
theorem optimal_among {nF nL : Nat} {o : Options} {A T : Data} (d : Nat) (hA : T.Sublist A) (hw : World nF o)
    (hi : Input nL T) (hT : T ≠ []) (hterm : o.useTerm = true → o.useUB = true)
    (hopt : (fitAmong nF nL 1 o ⟨d, 2 ^ d - 1, false, int32Max⟩ A T).2 = true) :
    BestScore nF nL d (2 ^ d - 1) T (fitAmong nF nL 1 o ⟨d, 2 ^ d - 1, false, int32Max⟩ A T).1.result.sol := by
  have hp : 1 ≤ 2 ^ d := Nat.one_le_two_pow
  exact bestScore_of_isOpt hT (Among.spec (t := ⟨d, 2 ^ d - 1, false, int32Max⟩) hA hi (Nat.le_refl _)
    (List.length_pos_iff.2 hT) hw.order hw.clock (fun h => ⟨rfl, hterm h, by show 2 ^ d - 1 + 1 = 2 ^ d; omega, fun h => by simp at h⟩)
    (fun _ => rfl) (by show 2 ^ d - 1 + 1 ≤ 2 ^ d; omega) (Int.le_refl _) hopt)

/-! ### The returned tree and its test score -/

/-- The tree tests no feature that was disabled. -/
def Tree.AvoidsAll (red : Nat → Bool) : Tree → Prop
  | .leaf _ => True
  | .node f l r => red f = false ∧ l.AvoidsAll red ∧ r.AvoidsAll red

namespace Among

theorem avoids {nF nL mls : Nat} (hmls : 1 ≤ mls) (T : Data) (tr : Tree) (fl : Nat → Bool) (red : Nat → Bool)
    (h : tr.Legal (accuracy nF nL) mls (T.map (prepInst fl red))) : tr.AvoidsAll red := by
  induction tr generalizing T with
  | leaf k => trivial
  | node f l r ihl ihr =>
    obtain ⟨_, _, hl, hr⟩ := h
    have key : ∀ (x : Bool), ∃ T' : Data, side f x (T.map (prepInst fl red)) = T'.map (prepInst fl red) := by
      intro x
      unfold side
      rw [List.filter_map]
      exact ⟨_, rfl⟩
    obtain ⟨T0, e0⟩ := key false
    obtain ⟨T1, e1⟩ := key true
    have s0 : without f (T.map (prepInst fl red)) = side f false (T.map (prepInst fl red)) := by
      unfold without side; congr 1; funext i; cases i.feat f <;> rfl
    have s1 : having f (T.map (prepInst fl red)) = side f true (T.map (prepInst fl red)) := by
      unfold having side; congr 1; funext i; cases i.feat f <;> rfl
    refine ⟨?_, ihl T0 (by rw [← e0, ← s0]; exact hl), ihr T1 (by rw [← e1, ← s1]; exact hr)⟩
    cases hf : red f with
    | false => rfl
    | true =>
      exfalso
      have hlen := hr.length
      have : having f (T.map (prepInst fl red)) = [] := by
        unfold having
        apply List.filter_eq_nil_iff.2
        intro i hi
        obtain ⟨j, _, rfl⟩ := List.mem_map.1 hi
        simp [prepInst, hf]
      rw [this] at hlen
      simp at hlen
      omega

theorem avoids_unflip {red : Nat → Bool} (fl : Nat → Bool) {t : Tree} (h : t.AvoidsAll red) : (unflip fl t).AvoidsAll red := by
  induction t with
  | leaf k => trivial
  | node f l r ihl ihr =>
    unfold unflip
    split
    · exact ⟨h.1, ihr h.2.2, ihl h.2.1⟩
    · exact ⟨h.1, ihl h.2.1, ihr h.2.2⟩

/-- What `flipped_features` says about the features there are. -/
theorem flipSet_list (P : Problem) (A : Data) {f : Nat} (hf : f < P.nF) : flipSet (flipList P A) f = flipped P A f := by
  unfold flipSet flipList
  rw [List.getD_eq_getElem?_getD, List.getElem?_map, List.getElem?_range hf, Option.map_some, Option.getD_some]
  cases flipped P A f <;> simp

theorem unflip_both {nF nL : Nat} (A : Data) {t : Tree} (h : t.Over nF nL) {mls : Nat}
    (ha : t.AvoidsAll (isRedundant (accuracy nF nL) mls A)) (i : Inst) :
    (unflip (flipSet (flipList (accuracy nF nL) A)) t).predict
        (prepInst (flipped (accuracy nF nL) A) (isRedundant (accuracy nF nL) mls A) i) = t.predict i ∧
      (unflip (flipSet (flipList (accuracy nF nL) A)) t).asked
        (prepInst (flipped (accuracy nF nL) A) (isRedundant (accuracy nF nL) mls A) i) = t.asked i := by
  induction t with
  | leaf k => exact ⟨rfl, rfl⟩
  | node f l r ihl ihr =>
    obtain ⟨h1, h2, h3⟩ := h
    obtain ⟨a1, a2, a3⟩ := ha
    obtain ⟨b1, b2⟩ := ihl h2 a2
    obtain ⟨c1, c2⟩ := ihr h3 a3
    have e := flipSet_list (accuracy nF nL) A (f := f) h1
    unfold unflip
    rw [e]
    have hfeat : (prepInst (flipped (accuracy nF nL) A) (isRedundant (accuracy nF nL) mls A) i).feat f =
        Bool.xor (i.feat f) (flipped (accuracy nF nL) A f) := by
      simp [prepInst, a1]
    cases hf : flipped (accuracy nF nL) A f <;> cases hi : i.feat f <;>
      simp [Tree.predict, Tree.asked, hfeat, hf, hi, b1, b2, c1, c2]

theorem view_ok (P : Problem) (mls : Nat) (A D : Data) : (testView P mls A D).OK ∧ GroupedBy (testView P mls A D).groups ∧
    (testView P mls A D).rows = (loadRows D).rows.map (prepInst (flipped P A) (isRedundant P mls A)) ∧
    (testView P mls A D).groups.length = (loadRows D).groups.length := by
  obtain ⟨l1, l2, l3, l4⟩ := load_spec D
  refine ⟨?_, ?_, ?_, List.length_map _⟩
  · unfold View.OK testView at *
    dsimp only
    rw [l3, List.map_map]
    congr 1
    exact List.map_congr_left fun g _ => (List.length_map _).symm
  · intro k i hi
    unfold testView at hi
    dsimp only at hi
    rw [List.getD_eq_getElem?_getD, List.getElem?_map] at hi
    have hk := l1 k
    rw [List.getD_eq_getElem?_getD] at hk
    cases hg : (loadRows D).groups[k]? with
    | none => rw [hg] at hi; cases hi
    | some g =>
      rw [hg] at hi hk
      obtain ⟨j, hj, rfl⟩ := List.mem_map.1 hi
      exact hk j hj
  · unfold View.rows testView
    dsimp only
    rw [List.map_flatten]

theorem leafAll (t : Tree) : t.LeafAll fun _ => True := by
  induction t with
  | leaf k => trivial
  | node f l r ihl ihr => exact ⟨ihl, ihr⟩

/-- The test score of a tree that tests no disabled feature. -/
theorem score {nF nL mls : Nat} (A : Data) {t : Tree} (h : t.Over nF nL) (ha : t.AvoidsAll (isRedundant (accuracy nF nL) mls A))
    (D : Data) (hD : D ≠ []) :
    testAmong nF nL mls A (Obj.ofTree t) D =
      some (((D.countP fun i => t.predict i == i.label : Nat) : Rat) / (D.length : Rat), (D.map fun i => t.asked i + 1).sum) := by
  obtain ⟨l1, l2, l3, l4⟩ := load_spec D
  obtain ⟨v1, v2, v3, v4⟩ := view_ok (accuracy nF nL) mls A D
  unfold testAmong
  dsimp only
  rw [walk_eq _ (· + ·) (fun a b c => Int.add_assoc a b c) accLeafV (accLeafCosts _) _ (fun _ => True)
    (fun v k _ hg hn _ => by rw [accLeafV_eq hg, hn]) t (leafAll t) _ v1 v2 rfl]
  simp only [Option.bind_eq_bind, Option.bind_some, Int.zero_add, Nat.zero_add]
  have hperm : (testView (accuracy nF nL) mls A D).rows.Perm
      (D.map (prepInst (flipped (accuracy nF nL) A) (isRedundant (accuracy nF nL) mls A))) := by
    rw [v3]; exact l2.map _
  have hlen : (testView (accuracy nF nL) mls A D).rows.length = D.length := by rw [hperm.length_eq, List.length_map]
  have hne : (testView (accuracy nF nL) mls A D).rows ≠ [] := by
    intro e
    rw [e] at hlen
    exact hD (List.length_eq_zero_iff.1 hlen.symm)
  have hlab : ∀ i ∈ (testView (accuracy nF nL) mls A D).rows, i.label < (testView (accuracy nF nL) mls A D).groups.length := by
    intro i hi
    obtain ⟨j, hj, rfl⟩ := List.mem_map.1 (hperm.mem_iff.1 hi)
    rw [v4]
    exact (l4 _).2 ⟨j, hj, Nat.le_refl _⟩
  obtain ⟨s, e, _, _, hs⟩ := accuracy_score _ (unflip (flipSet (flipList (accuracy nF nL) A)) t) _ hlab hne
  rw [size_rows v1, e]
  simp only [Option.bind_some]
  have hcount : (testView (accuracy nF nL) mls A D).rows.countP
      (fun i => (unflip (flipSet (flipList (accuracy nF nL) A)) t).predict i == i.label) =
      D.countP fun i => t.predict i == i.label := by
    rw [hperm.countP_eq, List.countP_map]
    congr 1
    funext i
    simp only [Function.comp]
    rw [(unflip_both A h ha i).1]
    rfl
  have hsum : ((testView (accuracy nF nL) mls A D).rows.map
      fun i => (unflip (flipSet (flipList (accuracy nF nL) A)) t).asked i + 1).sum = (D.map fun i => t.asked i + 1).sum := by
    rw [(hperm.map _).sum_eq, List.map_map]
    congr 1
    refine List.map_congr_left fun i _ => ?_
    simp only [Function.comp]
    rw [(unflip_both A h ha i).2]
  rw [hs, hcount, hlen, hsum]
  rfl

end Among

/-- C101, the returned tree, for every dataset around the training rows, every leaf size, option and clock (so also after a time-out):
its reported train value is the number of training rows it misclassifies, it tests no disabled feature, every leaf
holds enough training rows, and the reported test score and path length are those of this tree on the test rows as they were given. -/
theorem among_scores {nF nL mls : Nat} {o : Options} {A T : Data} (d : Nat) (all : Bool)
    (ho : ∀ D f, f ∈ o.order D → f < nF) (hi : Input nL T) (hmls : 1 ≤ mls) (hT : mls ≤ T.length) :
    ∃ r : Fitted, fitTreeAmong nF nL mls o ⟨d, 2 ^ d - 1, all, int32Max⟩ A T = some (some r) ∧
      r.value = misclassified r.tree T ∧ r.tree.depth ≤ d ∧ r.tree.Over nF nL ∧ LeavesHold mls r.tree T ∧
      ∀ D : Data, D ≠ [] → testAmong nF nL mls A (Obj.ofTree r.tree) D =
        some (((D.countP fun i => r.tree.predict i == i.label : Nat) : Rat) / (D.length : Rat), (D.map fun i => r.tree.asked i + 1).sum) := by
  have G := Among.base (nF := nF) (mls := mls) (o := o) A hi ho
  have hp : 1 ≤ 2 ^ d := Nat.one_le_two_pow
  obtain ⟨e, he⟩ := solve_sound G ⟨d, 2 ^ d - 1, all, int32Max⟩ (by show 2 ^ d - 1 + 1 ≤ 2 ^ d; omega)
  have hne := he.ne (Int.le_refl _) (by rw [Among.length]; exact hT)
  rcases returned_spec G False _ he (fun _ _ _ => rfl) (fun h => h.elim) with ⟨_, h⟩ | ⟨tr, h1, h2, h3, _⟩
  · omega
  · obtain ⟨b1, b2⟩ := Among.back hmls A T tr h3
    have ha := Among.avoids_unflip (flipped (accuracy nF nL) A) (Among.avoids hmls T tr _ _ h3)
    exact ⟨⟨_, _⟩, by unfold fitTreeAmong fitAmong; dsimp only; rw [h1]; rfl, b2, by rw [unflip_depth]; exact h2, legal_over b1,
      legal_leavesHold b1, fun D hD => Among.score A (legal_over b1) ha D hD⟩

/-- C101 for the default options up to depth three: next to any other rows, the command line returns a tree with the fewest
misclassified training rows of any tree of that depth. -/
theorem default_among_optimal {nF nL : Nat} {A T : Data} (d : Nat) (hA : T.Sublist A) (hi : Input nL T) (hT : T ≠ []) (hd : d ≤ 3) :
    ∃ r : Fitted, fitTreeAmong nF nL 1 (giniOptions nF nL) ⟨d, 2 ^ d - 1, false, int32Max⟩ A T = some (some r) ∧
      r.value = misclassified r.tree T ∧ r.tree.Over nF nL ∧ r.tree.depth ≤ d ∧
      ∀ t : Tree, t.Over nF nL → t.depth ≤ d → misclassified r.tree T ≤ misclassified t T := by
  have hw := giniOptions_world nF nL
  have ho := fun D f h => (hw.order D f).1 h
  have hp : 1 ≤ 2 ^ d := Nat.one_le_two_pow
  have hfit : 2 ^ d - 1 + 1 ≤ 2 ^ d := by omega
  obtain ⟨r, h1, h2, h3, h4, _, _⟩ := among_scores (mls := 1) (A := A) (o := giniOptions nF nL) d false ho hi (Nat.le_refl 1) (List.length_pos_iff.2 hT)
  have hopt : (fitAmong nF nL 1 (giniOptions nF nL) ⟨d, 2 ^ d - 1, false, int32Max⟩ A T).2 = true := by
    unfold fitAmong solve solveFrom
    dsimp only [St.next]
    rfl
  have hlb := bestScore_depth (optimal_among d hA hw hi hT (fun _ => rfl) hopt)
  refine ⟨r, h1, h2, h4, h3, fun t ht htd => ?_⟩
  have hb := hlb t ht htd
  have G := Among.base (nF := nF) (mls := 1) (o := giniOptions nF nL) A hi ho
  obtain ⟨e', he', hh⟩ := solve_h G rfl rfl (Nat.le_refl 1) ⟨d, 2 ^ d - 1, false, int32Max⟩ hfit hd
  unfold fitTreeAmong at h1
  dsimp only at h1
  cases hr : returned (accCfg nF nL 1 (giniOptions nF nL) (isRedundant (accuracy nF nL) 1 A)) (prepAmong (accuracy nF nL) 1 A T)
      (fitAmong nF nL 1 (giniOptions nF nL) ⟨d, 2 ^ d - 1, false, int32Max⟩ A T).1 with
  | none => rw [hr] at h1; simp at h1
  | some x =>
    cases x with
    | none => rw [hr] at h1; simp at h1
    | some tr =>
      rw [hr] at h1
      simp only [Option.map_some, Option.some.injEq] at h1
      have := (returned_h G rfl rfl (Nat.le_refl 1) ⟨d, 2 ^ d - 1, false, int32Max⟩ hd he' hh (fun _ _ _ => rfl) hr).2.2 rfl
      have hv : r.value = tr.cost (accuracy nF nL) (prepAmong (accuracy nF nL) 1 A T) := by
        rw [← h1]; show trainValue _ tr _ 0 = _; rw [trainValue_eq, Int.zero_add]
      have h5 : tr.cost (accuracy nF nL) (prepAmong (accuracy nF nL) 1 A T) ≤
          (fitAmong nF nL 1 (giniOptions nF nL) ⟨d, 2 ^ d - 1, false, int32Max⟩ A T).1.result.sol := this
      omega

/-- C101, the point of it: the reported train value does not depend on the rows that are not trained on. -/
theorem other_rows_do_not_matter {nF nL : Nat} {A B T : Data} (d : Nat) (hA : T.Sublist A) (hB : T.Sublist B) (hi : Input nL T)
    (hT : T ≠ []) (hd : d ≤ 3) (a b : Fitted)
    (h1 : fitTreeAmong nF nL 1 (giniOptions nF nL) ⟨d, 2 ^ d - 1, false, int32Max⟩ A T = some (some a))
    (h2 : fitTreeAmong nF nL 1 (giniOptions nF nL) ⟨d, 2 ^ d - 1, false, int32Max⟩ B T = some (some b)) : a.value = b.value := by
  obtain ⟨x, x1, x2, x3, x4, x5⟩ := default_among_optimal (A := A) d hA hi hT hd (nF := nF)
  obtain ⟨y, y1, y2, y3, y4, y5⟩ := default_among_optimal (A := B) d hB hi hT hd (nF := nF)
  rw [h1] at x1
  rw [h2] at y1
  simp only [Option.some.injEq] at x1 y1
  subst x1 y1
  have := x5 b.tree y3 y4
  have := y5 a.tree x3 x4
  omega

/-! ### Tasks with a feature that may not be used -/

/-- The claim of C101 without the restriction on the task. -/
def OtherRowsHarmless : Prop := ∀ (P : Problem) (mls : Nat) (A T : Data) (d n : Nat) (v : Int), FeatureFree P → 1 ≤ mls → T.Sublist A →
  (IsOpt P mls d n (prepAmong P mls A T) v ↔ IsOpt P mls d n (prepAmong P mls T T) v)

/-- With a sensitive feature, as in both fairness tasks, the test rows decide whether a feature that equals it on the training rows can be used:
one test row that tells the two apart changes the optimum on the training rows from one misclassified row to none. -/
theorem other_rows_harmful : ¬ OtherRowsHarmless := by
  intro h
  let P : Problem := { accuracy 2 2 with may := fun f => f == 1 }
  have hopt : IsOpt P 1 1 1 (prepAmong P 1 (hiddenData ++ [exInst 2 1 0]) hiddenData) 0 := by
    refine ⟨⟨.node 1 (.leaf 0) (.leaf 1), by decide, by decide⟩, fun t _ => ?_⟩
    exact Tree.cost_nonneg _ t _ (accuracy_nonneg 2 2 _) (Int.le_refl 0)
  obtain ⟨t, ⟨h1, h2, h3⟩, h4⟩ := ((h P 1 (hiddenData ++ [exInst 2 1 0]) hiddenData 1 1 0 (fun _ _ _ => rfl) (Nat.le_refl _)
    (List.sublist_append_left ..)).1 hopt).1
  match t with
  | .leaf k =>
    have hk : k < 2 := h3.1
    have : k = 0 ∨ k = 1 := by omega
    rcases this with rfl | rfl <;> revert h4 <;> decide
  | .node f l r =>
    obtain ⟨hf, hm, _, hr⟩ := h3
    have h1 : f = 1 := by simpa [P] using hm
    subst h1
    have := hr.length
    revert this
    decide

/-! ### The hypotheses are met -/

/-- Four training rows with three features: the label needs the first two. -/
def amongTrain : Data := [exInst 0 0 0, exInst 1 1 1, exInst 2 2 1, exInst 3 3 0]

/-- Test rows in which the first two features are mostly present; the third one occurs once. -/
def amongTest : Data := [exInst 4 3 0, exInst 5 3 1, exInst 6 3 0, exInst 7 7 0, exInst 8 1 1]

theorem amongTrain_input : Input 2 amongTrain := ⟨by decide, by decide, by unfold IdSorted; decide, by decide⟩

set_option maxRecDepth 100000 in
/-- Alone no feature is flipped and the third one is disabled; next to the test rows the first two are flipped and the third one
stays. The value is zero both times, and four of the five test rows get their label. -/
example : amongTrain.Sublist (amongTrain ++ amongTest) ∧
    (List.range 3).map (flipped (accuracy 3 2) amongTrain) = [false, false, false] ∧
    (List.range 3).map (isRedundant (accuracy 3 2) 1 amongTrain) = [false, false, true] ∧
    (List.range 3).map (flipped (accuracy 3 2) (amongTrain ++ amongTest)) = [true, true, false] ∧
    (List.range 3).map (isRedundant (accuracy 3 2) 1 (amongTrain ++ amongTest)) = [false, false, false] ∧
    (fitTreeAmong 3 2 1 (giniOptions 3 2) ⟨2, 3, false, int32Max⟩ amongTrain amongTrain).map (·.map Fitted.value) = some (some 0) ∧
    (fitTreeAmong 3 2 1 (giniOptions 3 2) ⟨2, 3, false, int32Max⟩ (amongTrain ++ amongTest) amongTrain).map (·.map Fitted.value) = some (some 0) ∧
    (fitTreeAmong 3 2 1 (giniOptions 3 2) ⟨2, 3, false, int32Max⟩ (amongTrain ++ amongTest) amongTrain).map
      (·.map fun r => testAmong 3 2 1 (amongTrain ++ amongTest) (Obj.ofTree r.tree) amongTest) = some (some (some (4 / 5, 15))) :=
  ⟨List.sublist_append_left .., by decide, by decide, by decide, by decide, by decide +kernel, by decide +kernel, by decide +kernel⟩

end Streed
