import Verif.Model.IntRange
import Verif.Props.Tasks
import Verif.Props.FairSearch

/-!
# C94: arithmetic on error counts stays in range
-/

namespace Streed

theorem int32_some {x : Int} (h1 : -2147483648 ≤ x) (h2 : x ≤ 2147483647) : int32 x = some x := if_pos ⟨h1, h2⟩

theorem int32_none {x : Int} (h : 2147483647 < x) : int32 x = none := if_neg (by omega)

/-! ### Differences of F1 values -/

/-- False negatives between 0 and `P`, false positives between 0 and `Q`. -/
def InBox (P Q : Nat) (s : F1Sol) : Prop := 0 ≤ s.fn ∧ s.fn ≤ P ∧ 0 ≤ s.fp ∧ s.fp ≤ Q

private theorem sq_le {x P : Int} (h1 : -P ≤ x) (h2 : x ≤ P) : x * x ≤ P * P := by nlinarith

/-- Differences of values from a box with a short enough diagonal are computed exactly. -/
theorem f1_diff_exact {P Q : Nat} (h : P * P + Q * Q ≤ 2147483647) {a b : F1Sol} (ha : InBox P Q a) (hb : InBox P Q b) :
    f1Diff32 a b = some ((a.fn - b.fn) * (a.fn - b.fn) + (a.fp - b.fp) * (a.fp - b.fp)) := by
  obtain ⟨a1, a2, a3, a4⟩ := ha
  obtain ⟨b1, b2, b3, b4⟩ := hb
  have h' : (P : Int) * P + (Q : Int) * Q ≤ 2147483647 := by exact_mod_cast h
  have hP := sq_le (x := a.fn - b.fn) (P := P) (by omega) (by omega)
  have hQ := sq_le (x := a.fp - b.fp) (P := Q) (by omega) (by omega)
  have p0 := mul_self_nonneg (a.fn - b.fn)
  have q0 := mul_self_nonneg (a.fp - b.fp)
  have P1 : (P : Int) ≤ P * P := by have := Nat.le_mul_self P; exact_mod_cast this
  have Q1 : (Q : Int) ≤ Q * Q := by have := Nat.le_mul_self Q; exact_mod_cast this
  have P0 : (0 : Int) ≤ P * P := by positivity
  have Q0 : (0 : Int) ≤ Q * Q := by positivity
  unfold f1Diff32
  rw [int32_some (x := a.fn - b.fn) (by omega) (by omega), int32_some (x := a.fp - b.fp) (by omega) (by omega)]
  show (do
    let x ← int32 ((a.fn - b.fn) * (a.fn - b.fn))
    let y ← int32 ((a.fp - b.fp) * (a.fp - b.fp))
    int32 (x + y)) = _
  rw [int32_some (x := (a.fn - b.fn) * (a.fn - b.fn)) (by omega) (by omega), int32_some (x := (a.fp - b.fp) * (a.fp - b.fp)) (by omega) (by omega)]
  exact int32_some (by omega) (by omega)

private theorem counts_box (t : Tree) (D : Data) :
    InBox (D.countP fun i => i.label == 1) (D.countP fun i => i.label == 0) ⟨falseNegatives t D, falsePositives t D⟩ := by
  refine ⟨Int.natCast_nonneg _, ?_, Int.natCast_nonneg _, ?_⟩
  · exact Int.ofNat_le.2 (List.countP_mono_left fun i _ h => (Bool.and_eq_true_iff.1 h).1)
  · exact Int.ofNat_le.2 (List.countP_mono_left fun i _ h => (Bool.and_eq_true_iff.1 h).1)

private theorem labels_sum (D : Data) : (D.countP fun i => i.label == 1) + (D.countP fun i => i.label == 0) ≤ D.length := by
  induction D with
  | nil => simp
  | cons i D ih =>
    simp only [List.countP_cons, List.length_cons, beq_iff_eq]
    split <;> split <;> omega

/-- C94 for F1: on at most 46340 rows the difference of the values of any two trees is computed without overflow. -/
theorem f1_diff_trees (D : Data) (hD : D.length ≤ 46340) (t t' : Tree) :
    f1Diff32 ⟨falseNegatives t D, falsePositives t D⟩ ⟨falseNegatives t' D, falsePositives t' D⟩ =
      some (((falseNegatives t D : Int) - falseNegatives t' D) ^ 2 + ((falsePositives t D : Int) - falsePositives t' D) ^ 2) := by
  have h := labels_sum D
  rw [f1_diff_exact (P := D.countP fun i => i.label == 1) (Q := D.countP fun i => i.label == 0) (by nlinarith) (counts_box t D) (counts_box t' D)]
  simp only [pow_two]

/-- One row more is too many. -/
theorem f1_diff_overflow : ∃ (D : Data) (t t' : Tree), D.length = 46341 ∧
    f1Diff32 ⟨falseNegatives t D, falsePositives t D⟩ ⟨falseNegatives t' D, falsePositives t' D⟩ = none := by
  have key : ∀ n : Nat, falseNegatives (.leaf 0) (List.replicate n ⟨0, fun _ => false, 1⟩) = n ∧
      falsePositives (.leaf 0) (List.replicate n ⟨0, fun _ => false, 1⟩) = 0 ∧
      falseNegatives (.leaf 1) (List.replicate n ⟨0, fun _ => false, 1⟩) = 0 ∧
      falsePositives (.leaf 1) (List.replicate n ⟨0, fun _ => false, 1⟩) = 0 := by
    intro n
    simp [falseNegatives, falsePositives, List.countP_replicate, Tree.predict]
  refine ⟨List.replicate 46341 ⟨0, fun _ => false, 1⟩, .leaf 0, .leaf 1, List.length_replicate, ?_⟩
  obtain ⟨e1, e2, e3, e4⟩ := key 46341
  rw [e1, e2, e3, e4]
  decide

/-! ### Containers of limited size -/

variable {S : Type}

/-- If all differences of values with the property `B` are defined, merging stays inside `B`, and all values are in `B`, then nothing
undefined happens. -/
theorem addOrMergeChk_eq {V : Type} {B : S → Prop} (diff? : S → S → Option V) (cmp key eq : S → S → Bool) (diff : S → S → Rat)
    (merge : S → S → S) (max : Nat) (hdef : ∀ a b, B a → B b → (diff? a b).isSome = true) (hmerge : ∀ a b, B a → B b → B (merge a b))
    (F : Front S) (ns : List (PNode S)) (hF : ∀ m ∈ F.sols, B m.sol) (hn : ∀ m ∈ ns, B m.sol) :
    F.addOrMergeChkAll diff? cmp key eq diff merge max ns = F.addOrMergeAll cmp key eq diff merge max ns := by
  induction ns generalizing F with
  | nil => rfl
  | cons n ns ih =>
    have hn1 := hn n (by simp)
    have hstep : F.addOrMergeChk diff? cmp key eq diff merge max n = F.addOrMerge cmp key eq diff merge max n := by
      unfold Front.addOrMergeChk
      split
      · rfl
      · split
        · rfl
        · split
          · rfl
          · dsimp only
            split
            · rfl
            · rw [if_pos]
              rw [List.all_eq_true]
              intro m hm
              exact hdef _ _ (hF m (List.mem_filter.1 hm).1) hn1
    have mergeAt_B : ∀ (l : List (PNode S)) (i : Nat), (∀ m ∈ l, B m.sol) → ∀ m ∈ Front.mergeAt (merge n.sol) i l, B m.sol := by
      intro l
      induction l with
      | nil => intro i _ m hm; cases i <;> simp [Front.mergeAt] at hm
      | cons a l ihl =>
        intro i hl m hm
        cases i with
        | zero =>
          rcases List.mem_cons.1 hm with rfl | hm
          · exact hmerge _ _ hn1 (hl a (by simp))
          · exact hl m (List.mem_cons_of_mem _ hm)
        | succ i =>
          rcases List.mem_cons.1 hm with rfl | hm
          · exact hl _ (by simp)
          · exact ihl i (fun x hx => hl x (List.mem_cons_of_mem _ hx)) m hm
    have hG : ∀ G, F.addOrMerge cmp key eq diff merge max n = some G → ∀ m ∈ G.sols, B m.sol := by
      intro G hg
      unfold Front.addOrMerge at hg
      split at hg
      · cases hg; intro m hm; rw [List.mem_singleton.1 hm]; exact hn1
      · split at hg
        · cases hg; exact hF
        · split at hg
          · cases hg; exact hF
          · dsimp only at hg
            split at hg
            · cases hg
              intro m hm
              rcases List.mem_append.1 hm with hm | hm
              · exact hF m (List.mem_filter.1 hm).1
              · rw [List.mem_singleton.1 hm]; exact hn1
            · split at hg
              · cases hg
              · cases hg
                intro m hm
                exact mergeAt_B _ _ (fun x hx => hF x (List.mem_filter.1 hx).1) m (List.mem_filter.1 hm).1
    simp only [Front.addOrMergeChkAll, Front.addOrMergeAll, hstep]
    cases hg : F.addOrMerge cmp key eq diff merge max n with
    | none => rfl
    | some G => exact ih G (hG G hg) fun m hm => hn m (List.mem_cons_of_mem _ hm)

/-- C94 for F1 containers: a container of limited size that receives only values of trees on `P` positive and `Q` negative rows computes
no difference out of range, whether solutions are merged to their minimum or their maximum. -/
theorem f1_container_in_range {P Q : Nat} (h : P * P + Q * Q ≤ 2147483647) (cmp key eq : F1Sol → F1Sol → Bool) (max : Nat)
    (ns : List (PNode F1Sol)) (hn : ∀ m ∈ ns, InBox P Q m.sol) :
    Front.empty.addOrMergeChkAll f1Diff32 cmp key eq f1Ops.diff f1Ops.merge max ns =
        Front.empty.addOrMergeAll cmp key eq f1Ops.diff f1Ops.merge max ns ∧
      Front.empty.addOrMergeChkAll f1Diff32 cmp key eq f1Ops.diff f1Ops.mergeInv max ns =
        Front.empty.addOrMergeAll cmp key eq f1Ops.diff f1Ops.mergeInv max ns := by
  have hd : ∀ a b, InBox P Q a → InBox P Q b → (f1Diff32 a b).isSome = true := fun a b ha hb => by rw [f1_diff_exact h ha hb]; rfl
  refine ⟨addOrMergeChk_eq _ _ _ _ _ _ _ hd ?_ _ _ (by simp [Front.empty]) hn, addOrMergeChk_eq _ _ _ _ _ _ _ hd ?_ _ _ (by simp [Front.empty]) hn⟩
  · rintro a b ⟨a1, a2, a3, a4⟩ ⟨b1, b2, b3, b4⟩
    refine ⟨?_, ?_, ?_, ?_⟩ <;> simp only [f1Ops] <;> omega
  · rintro a b ⟨a1, a2, a3, a4⟩ ⟨b1, b2, b3, b4⟩
    refine ⟨?_, ?_, ?_, ?_⟩ <;> simp only [f1Ops] <;> omega

/-! ### The extreme points -/

/-- The difference of an extreme point (`INT32_MAX` false positives) to any value with at most two milliard false positives overflows. -/
theorem f1_extreme_overflow (a b : F1Sol) (ha : a.fp = intMax) (hb0 : 0 ≤ b.fp) (hb : b.fp ≤ 2000000000) : f1Diff32 a b = none := by
  unfold f1Diff32
  cases int32 (a.fn - b.fn) with
  | none => rfl
  | some d =>
    unfold intMax at ha
    rw [int32_some (x := a.fp - b.fp) (by omega) (by omega)]
    show (do
      let x ← int32 (d * d)
      let y ← int32 ((a.fp - b.fp) * (a.fp - b.fp))
      int32 (x + y)) = none
    cases int32 (d * d) with
    | none => rfl
    | some x =>
      rw [int32_none (x := (a.fp - b.fp) * (a.fp - b.fp)) (by nlinarith)]
      rfl

/-- So a full container that holds an extreme point cannot receive a further value: the step is undefined. -/
theorem f1_full_container_overflow (cmp key eq : F1Sol → F1Sol → Bool) (diff : F1Sol → F1Sol → Rat) (merge : F1Sol → F1Sol → F1Sol)
    (max : Nat) (F : Front F1Sol) (n : PNode F1Sol) (u : List (F1Sol × Nat)) (hF : F.sols ≠ []) (hu : Front.uniqStep key F.uniq n = some u)
    (hcov : ∀ m ∈ F.sols, cmp m.sol n.sol = false) (hfull : max ≤ (F.sols.filter fun m => !cmp n.sol m.sol).length)
    (hext : ∃ m ∈ F.sols, m.sol.fp = intMax ∧ cmp n.sol m.sol = false) (hn0 : 0 ≤ n.sol.fp) (hn : n.sol.fp ≤ 2000000000) :
    F.addOrMergeChk f1Diff32 cmp key eq diff merge max n = none := by
  obtain ⟨m, hm, h1, h2⟩ := hext
  unfold Front.addOrMergeChk
  have hany : (F.sols.any fun m => cmp m.sol n.sol) = false := List.any_eq_false.2 fun x hx => by simp [hcov x hx]
  rw [if_neg hF, hu]
  dsimp only
  rw [hany, if_neg Bool.false_ne_true, if_neg (by omega), if_neg]
  rw [List.all_eq_true]
  intro hall
  have := hall m (List.mem_filter.2 ⟨hm, by simp [h2]⟩)
  rw [f1_extreme_overflow _ _ h1 hn0 hn] at this
  cases this

/-- Ten positive and ten negative rows. -/
def rangeRows : Data := (List.range 20).map fun j =>
  if j < 10 then ⟨j, fun f => decide (f < j + 1), 1⟩ else ⟨j, fun f => decide (j < 20 - f), 0⟩

/-- The trees of depth at most one with `k` false negatives and `10 - k` false positives. -/
def rangeTree (k : Nat) : Tree := if k = 0 then .leaf 1 else if k = 10 then .leaf 0 else .node k (.leaf 0) (.leaf 1)

/-- C94 fails: subtracting the eleven best trees of twenty rows from an upper bound of one value overflows. -/
theorem f1_bound_overflow : ∃ (D : Data) (UB sols : Front F1Sol), D.length = 20 ∧ UB.sols.length = 1 ∧ sols.sols.length = 11 ∧
    (∀ m ∈ sols.sols, ∃ t : Tree, t.depth ≤ 1 ∧ t.nodes = m.size ∧ m.sol = ⟨falseNegatives t D, falsePositives t D⟩) ∧
    Front.subtractUBsChk f1Diff32 f1Ops f1Sub f1Extremes maxFront UB sols = none := by
  refine ⟨rangeRows, ⟨[⟨⟨20, 20⟩, 0⟩], []⟩,
    ⟨(List.range 11).map fun k => ⟨⟨falseNegatives (rangeTree k) rangeRows, falsePositives (rangeTree k) rangeRows⟩, (rangeTree k).nodes⟩, []⟩,
    by decide, rfl, by decide, ?_, by decide +kernel⟩
  intro m hm
  obtain ⟨k, _, rfl⟩ := List.mem_map.1 hm
  refine ⟨rangeTree k, ?_, rfl, rfl⟩
  unfold rangeTree
  split
  · exact Nat.zero_le _
  · split
    · exact Nat.zero_le _
    · exact Nat.le_refl _

/-! ### The fairness tasks -/

/-- Hash codes of group scores up to 2, the largest a tree can have, are defined. -/
theorem fair_hash_defined (s : FairSol) (h0 : 0 ≤ s.g0) (h0' : s.g0 ≤ 2) (h1 : 0 ≤ s.g1) (h1' : s.g1 ≤ 2) :
    fairHash s = some (s.mis, fairCell s.g0, fairCell s.g1) := by
  have key : ∀ x : Rat, 0 ≤ x → x ≤ 2 → fairCell32 x = some (fairCell x) := by
    intro x hx hx'
    unfold fairCell32 fairCell fairEps
    have e : x / (1 / 10000) = x * 10000 := by ring
    rw [e]
    have l : (0 : Int) ≤ (x * 10000).floor := Rat.le_floor_iff.2 (by push_cast; linarith)
    have u : (x * 10000).floor < 20001 := Rat.floor_lt_iff.2 (by push_cast; linarith)
    exact int32_some (by omega) (by omega)
  unfold fairHash
  rw [key _ h0 h0', key _ h1 h1']
  rfl

/-- C94 fails for fairness whenever a tree with more than the depth-two shapes is put together: the construction first adds `worst` to a
new container (solver.cpp:1017-1022), whose hash code converts a number out of the range of `int`. -/
theorem fair_worst_hash : (Front.empty : Front FairSol).addHashed fairHash fairOps.dom fairOps.key ⟨fairWorst, 0⟩ = none := by
  decide +kernel

/-- The difference to the extreme point with `INT32_MAX` misclassifications overflows for every count below two milliards. -/
theorem fair_extreme_overflow (a b : FairSol) (ha : a.mis = intMax) (hb0 : 0 ≤ b.mis) (hb : b.mis ≤ 2000000000) : fairDiff32 a b = none := by
  unfold fairDiff32
  unfold intMax at ha
  rw [int32_some (x := a.mis - b.mis) (by omega) (by omega)]
  show (do
    let x ← int32 ((a.mis - b.mis) * (a.mis - b.mis))
    pure ((x : Rat) + |a.g0 - b.g0| * 100 + |a.g1 - b.g1| * 100)) = none
  rw [int32_none (x := (a.mis - b.mis) * (a.mis - b.mis)) (by nlinarith)]
  rfl

/-- And such differences are computed: ten members in the upper bound suffice. -/
theorem fair_bound_overflow : ∃ UB sols : Front FairSol, UB.sols.length = 10 ∧
    (∀ m ∈ UB.sols, 0 ≤ m.sol.mis ∧ m.sol.mis ≤ 10 ∧ 0 ≤ m.sol.g0 ∧ m.sol.g0 ≤ 1 ∧ 0 ≤ m.sol.g1 ∧ m.sol.g1 ≤ 1) ∧
    Front.subtractUBsChk fairDiff32 fairOps fairSub fairExtremes maxFront UB sols = none :=
  ⟨⟨(List.range 10).map fun (k : Nat) => ⟨⟨(k : Int), ((9 - k : Nat) : Rat) / 10, 1 / 2, false⟩, 1⟩, []⟩, ⟨[⟨⟨0, 0, 0, false⟩, 0⟩], []⟩, by decide,
    by decide +kernel, by decide +kernel⟩

/-! ### With overflow that wraps around -/

set_option maxRecDepth 100000 in
/-- `f1_search_not_optimal` does not rest on exact differences: it also holds if overflow wraps around. -/
theorem f1_wrapped_not_optimal : ∃ T : Data, F1Input T ∧
    ¬ F1Best 5 1 3 7 T (pSolve ((paretoDefault 5).cfg ((f1Task 5 (numLabel T 1)).withDiff f1DiffWrap)) 3 7 false T).result.sols := by
  have hT : F1Input f1Rows := ⟨by decide, by decide, by unfold IdSorted; decide⟩
  exact ⟨f1Rows, hT, not_best (s := ⟨2, 0⟩) (k := 6)
    (.node 4 (.node 1 (.leaf 1) (.node 2 (.leaf 1) (.leaf 0))) (.node 0 (.node 3 (.leaf 1) (.leaf 0)) (.leaf 1)))
    hT (by decide +kernel) (by decide +kernel) (by decide +kernel)⟩

set_option maxRecDepth 100000 in
/-- The same for demographic parity. -/
theorem parity_wrapped_not_optimal :
    ∃ T : Data, FairInput (T.countP fun i => i.feat 0 == false) (T.countP fun i => i.feat 0 == true) T ∧
      ¬ FairBest parityGap (1 / 2) 4 1 3 7 T
        (pSolve ((paretoDefault 4).cfg ((parityTask 4 (1 / 2) T).withDiff fairDiffWrap)) 3 7 false T).result.sols :=
  ⟨parityRows, ⟨by decide, by decide, by decide, by decide, by unfold IdSorted; decide⟩,
    not_fair_best (s := ⟨1, 1, 1, false⟩) (k := 2) (.node 1 (.node 2 (.leaf 1) (.node 3 (.leaf 0) (.leaf 1))) (.leaf 1))
      (by decide +kernel) (by decide +kernel) (by decide) (by decide +kernel) (by decide +kernel)⟩

set_option maxRecDepth 100000 in
/-- The same for equality of opportunity. -/
theorem opportunity_wrapped_not_optimal :
    ∃ T : Data, FairInput (T.countP fun i => i.feat 0 == false && i.label == 1)
        (T.countP fun i => i.feat 0 == true && i.label == 1) T ∧
      ¬ FairBest opportunityGap 0 4 1 3 7 T
        (pSolve ((paretoDefault 4).cfg ((opportunityTask 4 0 T).withDiff fairDiffWrap)) 3 7 false T).result.sols :=
  ⟨opportunityRows, ⟨by decide, by decide, by decide, by decide, by unfold IdSorted; decide⟩,
    not_fair_best (s := ⟨1, 1, 1, false⟩) (k := 0) (.node 1 (.leaf 1) (.node 2 (.node 3 (.leaf 0) (.leaf 1)) (.leaf 1)))
      (by decide +kernel) (by decide +kernel) (by decide) (by decide +kernel) (by decide +kernel)⟩

/-! ### The hypotheses are met -/

example : falseNegatives (rangeTree 3) rangeRows = 3 ∧ falsePositives (rangeTree 3) rangeRows = 7 := by decide

example : ∀ k ∈ List.range 11, InBox 10 10 ⟨falseNegatives (rangeTree k) rangeRows, falsePositives (rangeTree k) rangeRows⟩ := by
  unfold InBox; decide

/-- A container of twelve values, one of them an extreme point, and a new value. -/
example : ∃ (F : Front F1Sol) (n : PNode F1Sol) (u : List (F1Sol × Nat)), F.sols ≠ [] ∧ Front.uniqStep f1Ops.key F.uniq n = some u ∧
    (∀ m ∈ F.sols, f1Ops.domInv m.sol n.sol = false) ∧ 12 ≤ (F.sols.filter fun m => !f1Ops.domInv n.sol m.sol).length ∧
    ∃ m ∈ F.sols, m.sol.fp = intMax ∧ f1Ops.domInv n.sol m.sol = false :=
  ⟨⟨⟨⟨0, intMax⟩, 0⟩ :: (List.range 11).map fun k => ⟨⟨k + 1, 30 - k⟩, 0⟩, []⟩, ⟨⟨15, 15⟩, 0⟩, [(⟨15, 15⟩, 0)], by decide, by decide,
    by decide, by decide, by decide⟩

end Streed
