import Verif.Props.PwSearch
import Verif.Lemmas.PwReturned

/-!
# The tree returned by regression with a line in every leaf

`Solve` keeps only the root of the best tree and builds the tree afterwards. Whatever the options and whenever the time runs out, that
gives a tree, it is within the depth limit and all its leaves have enough rows; without lower bounds its cost is close to the best.
-/

namespace Streed.Pw
open Apx (tol tol_pos tol_one)

section
variable {nF n mls q : Nat} {ridge ccp : Rat} {Y : List Rat} {rows : Nat → List LinRow} {T : Data} {o : Options} {red : Nat → Bool}

theorem lineWorst_nonneg (m : Rat × Rat) (y : Rat) : 0 ≤ lineWorst m y := by
  unfold lineWorst; split <;> exact mul_self_nonneg _

theorem lines_base (hn : 0 < n) (hmls : 1 ≤ mls) (hq : 0 < q) (hr : 0 ≤ ridge) (hc : 0 ≤ ccp)
    (hs : IdSorted T) (hl : ∀ i ∈ T, i.label = 0) (ho : ∀ D f, f ∈ o.order D → f < nF)
    (hbig : (rowsOf rows T).length * ((ccp + 1) * sumSq rows T) < largestDouble) :
    Feas.Base (lines nF n mls q ridge ccp Y rows T o red) T := by
  have hq' : (0 : Rat) < q := by exact_mod_cast hq
  refine ⟨lines_price hc, ?_, le_refl _, fun D _ v hv => lines_leaf_nonneg hmls hr hv, fun D _ hw => lines_leaf_isSome hn hmls hr hw,
    fun f D _ => lines_split f D, fun D hD t ht => ?_, lines_fair hs hl ho, _, rfl, fun i _ => ?_⟩
  · rw [← Rat.intCast_le_intCast, lines_worst]
    have : (0 : Rat) ≤ (rowsOf rows T).length * ((ccp + 1) * sumSq rows T) :=
      mul_nonneg (by exact_mod_cast Nat.zero_le _) (mul_nonneg (by linarith) (sumSq_nonneg rows T))
    exact mul_nonneg hq'.le (le_of_lt (lt_of_le_of_lt this hbig))
  · rw [← Rat.intCast_lt_intCast, lines_worst]
    exact lt_of_le_of_lt (lines_cost hmls hr hc hD ht) (mul_lt_mul_of_pos_left hbig hq')
  · have hw : (0 : Rat) ≤ (stats rows i.id).w := by
      unfold stats; rw [linTotal_rows]; dsimp only; exact_mod_cast Nat.zero_le _
    have h0 := mul_nonneg hq'.le (mul_nonneg hw (lineWorst_nonneg (lineRange Y) ((stats rows i.id).y / (stats rows i.id).w)))
    rw [← Rat.intCast_le_intCast]
    exact le_trans (by exact_mod_cast h0) Rat.le_ceil

/-- **The returned tree.** For all options, and also when the time runs out: if there are enough rows for a leaf and no smaller upper
bound was given there is a tree; its depth is within the limit and every leaf has enough rows. -/
theorem line_returned (hn : 0 < n) (hmls : 1 ≤ mls) (hq : 0 < q) (hr : 0 ≤ ridge) (hc : 0 ≤ ccp)
    (hs : IdSorted T) (hl : ∀ i ∈ T, i.label = 0) (ho : ∀ D f, f ∈ o.order D → f < nF)
    (hbig : (rowsOf rows T).length * ((ccp + 1) * sumSq rows T) < largestDouble)
    (t : Top) (hfit : t.maxNodes + 1 ≤ 2 ^ t.maxDepth) :
    let p := lines nF n mls q ridge ccp Y rows T o red
    let r := (solve p t T).1
    (returned p T r = none ∧ r.result.sol = p.c.worst ∧ ((rowsOf rows T).length < mls ∨ (t.ub : Rat) < q * largestDouble)) ∨
    ∃ x, returned p T r = some (some x) ∧ x.depth ≤ t.maxDepth ∧ (trees nF n mls ridge ccp rows T).Legal x T := by
  intro p r
  have G := lines_base (Y := Y) (red := red) hn hmls hq hr hc hs hl ho hbig
  obtain ⟨e, h⟩ := Feas.solve_sound G t hfit
  rcases Feas.returned_spec G t h False False.elim with ⟨h1, h2⟩ | ⟨x, h1, h2, h3, _⟩
  · left
    refine ⟨h1, h2, ?_⟩
    by_contra hcon
    rw [not_or, not_lt, not_lt, ← lines_worst (Y := Y) (o := o) (red := red) (n := n) (mls := mls) (ridge := ridge) (ccp := ccp)
      (rows := rows) (T := T) (nF := nF)] at hcon
    have := h.ne (by exact_mod_cast hcon.2) (by rw [lines_weight]; exact hcon.1)
    omega
  · exact .inr ⟨x, h1, h2, (legal_iff hn hmls hr x T).1 h3⟩

/-- **Without lower bounds the returned tree is close to the best one.** If the run finishes in time, the cost of the returned tree is
at most `1.0001 ^ ((nF + 1) (d + 1))` times the cost of any allowed tree within the given upper bound; `d` is the depth limit. Missing
from the full claim: lower bounds (see `line_default_not_optimal`, `line_similarity_not_optimal`), and the factor. -/
theorem line_returned_near_optimal_partial (hn : 0 < n) (hmls : 1 ≤ mls) (hq : 0 < q) (hr : 0 ≤ ridge) (hc : 0 ≤ ccp)
    (hx : Exact q (price ccp rows T) (bestLine n mls ridge rows T) T)
    (hs : IdSorted T) (hl : ∀ i ∈ T, i.label = 0) (ho : ∀ D f, f ∈ o.order D ↔ f < nF) (hclk : Monotone o.clock)
    (hlb : o.useLB = false) (hub : o.useUB = true) (hred : ∀ f, red f = true → without f T = [] ∨ having f T = [])
    (hbig : tol ^ (nF + 1) * ((rowsOf rows T).length * ((ccp + 1) * sumSq rows T)) < largestDouble)
    (t : Top) (hfit : t.maxNodes + 1 ≤ 2 ^ t.maxDepth)
    (hfin : (solve (lines nF n mls q ridge ccp Y rows T o red) t T).2 = true)
    (y : Tree) (hya : (trees nF n mls ridge ccp rows T).Allowed t.maxDepth t.maxNodes T y)
    (hyu : tol ^ (nF + 1) * (q * (trees nF n mls ridge ccp rows T).cost y T) ≤ t.ub) :
    let p := lines nF n mls q ridge ccp Y rows T o red
    ∃ x, returned p T (solve p t T).1 = some (some x) ∧ x.depth ≤ t.maxDepth ∧ (trees nF n mls ridge ccp rows T).Legal x T ∧
      (trees nF n mls ridge ccp rows T).cost x T ≤
        tol ^ ((nF + 1) * (t.maxDepth + 1)) * (trees nF n mls ridge ccp rows T).cost y T := by
  intro p
  have hv : ViewOf T T := List.Sublist.refl T
  have hq' : (0 : Rat) < q := by exact_mod_cast hq
  have sq0 := sumSq_nonneg rows T
  have h1 : (1 : Rat) ≤ tol ^ (nF + 1) := one_le_pow₀ tol_one
  have hz : (0 : Rat) ≤ (rowsOf rows T).length * ((ccp + 1) * sumSq rows T) :=
    mul_nonneg (by exact_mod_cast Nat.zero_le _) (mul_nonneg (by linarith) sq0)
  have G := lines_base (Y := Y) (red := red) hn hmls hq hr hc hs hl (fun D f => (ho D f).1) (lt_of_le_of_lt (by nlinarith) hbig)
  have O := lines_open (Y := Y) hn hmls hq hr hc hlb hub (fun D f => (ho D f).2) hred hbig
  obtain ⟨n1, n2⟩ := line_near_optimal_partial hn hmls hq hr hc hx hs hl ho hclk hlb hub hred hbig t hfit hfin y hya hyu
  obtain ⟨e, h⟩ := Feas.solve_sound G t hfit
  have hall : AllOK p.c (solve p t T).1.st.tick := by
    have := hclk.allOK (c := p.c) hfin
    exact this
  rcases Feas.returned_spec G t h True (fun _ => ⟨O, hall⟩) with ⟨_, h2⟩ | ⟨x, h2, h3, h4, h5⟩
  · have := (G.ne_iff hv h.sound).1 n1
    omega
  · refine ⟨x, h2, h3, (legal_iff hn hmls hr x T).1 h4, ?_⟩
    have h5 := h5 trivial
    rw [cost_scaled hx x hv] at h5
    have h6 : (0 : Rat) ≤ (tol ^ (nF + 1)) ^ t.maxDepth := pow_nonneg (le_trans zero_le_one h1) _
    have h7 := le_trans h5 (mul_le_mul_of_nonneg_left n2 h6)
    have h8 : (tol ^ (nF + 1)) ^ t.maxDepth * (tol ^ (nF + 1) * (q * (trees nF n mls ridge ccp rows T).cost y T)) =
        q * (tol ^ ((nF + 1) * (t.maxDepth + 1)) * (trees nF n mls ridge ccp rows T).cost y T) := by
      rw [pow_mul tol (nF + 1) (t.maxDepth + 1), pow_succ (tol ^ (nF + 1)) t.maxDepth]; ring
    change _ ≤ (tol ^ (nF + 1)) ^ t.maxDepth * _ at h7
    rw [h8] at h7
    exact le_of_mul_le_mul_left h7 hq'

end

/-- The task and the run of `stepRun`. -/
def stepTask (o : Options) : Task :=
  lines 1 1 5 1320 0 (1 / 100) ((List.range 10).map fun j => (stepRow j).y) stepRows stepData o fun _ => false

/-- The time runs out at the third check. -/
def stepTimed : Options := { stepOpen with clock := fun i => decide (i < 2) }

set_option maxRecDepth 100000 in
/-- Non-vacuity of `line_returned`, for a run that is cut off: there is a tree. -/
example : (stepRun stepTimed).2 = false ∧ ∃ x, returned (stepTask stepTimed) stepData (stepRun stepTimed).1 = some (some x) ∧
    x.depth ≤ 3 ∧ (trees 1 1 5 0 (1 / 100) stepRows stepData).Legal x stepData := by
  refine ⟨by decide +kernel, ?_⟩
  rcases line_returned (Y := (List.range 10).map fun j => (stepRow j).y) (red := fun _ => false) (o := stepTimed) (nF := 1) (n := 1)
    (mls := 5) (q := 1320) (ridge := 0) (ccp := 1 / 100) (rows := stepRows) (T := stepData)
    (by decide) (by decide) (by decide) (by decide) (by decide +kernel) (by unfold IdSorted; decide) (by decide)
    (fun D f h => by rw [List.mem_singleton.1 h]; decide) (by decide +kernel) ⟨3, 7, false, (1320 * largestDouble : Nat)⟩ (by decide)
    with ⟨_, _, h | h⟩ | h
  · exact absurd h (by decide +kernel)
  · exact absurd h (by decide +kernel)
  · exact h

set_option maxRecDepth 100000 in
/-- Non-vacuity of `line_returned_near_optimal_partial`, and the tree that is returned. -/
example : (∃ x, returned (stepTask stepOpen) stepData (stepRun stepOpen).1 = some (some x) ∧
      x.depth ≤ 3 ∧ (trees 1 1 5 0 (1 / 100) stepRows stepData).Legal x stepData ∧
      (trees 1 1 5 0 (1 / 100) stepRows stepData).cost x stepData ≤
        tol ^ ((1 + 1) * (3 + 1)) * (trees 1 1 5 0 (1 / 100) stepRows stepData).cost (.node 0 (.leaf 0) (.leaf 0)) stepData) ∧
    returned (stepTask stepOpen) stepData (stepRun stepOpen).1 = some (some (.node 0 (.leaf 0) (.leaf 0))) := by
  refine ⟨?_, by decide +kernel⟩
  have hc := line_default_not_optimal.2.2.2
  have hu : tol ^ (1 + 1) * ((1320 : Nat) * (trees 1 1 5 0 (1 / 100) stepRows stepData).cost (.node 0 (.leaf 0) (.leaf 0)) stepData) ≤
      (((1320 * largestDouble : Nat) : Int) : Rat) := by
    rw [show ((1320 : Nat) : Rat) = (1320 : Rat) from rfl, hc]
    decide +kernel
  exact line_returned_near_optimal_partial (by decide) (by decide) (by decide) (by decide) (by decide +kernel) step_exact
    (by unfold IdSorted; decide) (by decide) (fun D f => by show f ∈ [0] ↔ f < 1; simp) (fun _ _ _ _ => rfl) rfl rfl
    (fun f h => Bool.noConfusion h) (by decide +kernel) ⟨3, 7, false, (1320 * largestDouble : Nat)⟩ (by decide) (by decide +kernel) _
    line_default_not_optimal.2.2.1 hu

set_option maxRecDepth 100000 in
/-- The tree returned where the similarity bound cuts off the best one has three branching nodes, although four were allowed. -/
example : (returned (lines 4 1 1 simUnit 0 0 ((rowsOf simRows simData).map (·.y)) simRows simData simOpt fun _ => false) simData
    (simRun simOpt).1).map (·.map Tree.nodes) = some (some 3) := by decide +kernel

end Streed.Pw
