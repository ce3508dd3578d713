import Verif.Model.PlotBars
import Verif.Props.LabelRange
import Mathlib.Algebra.Order.Field.Rat

/-!
# C110: the pictures of the instance-cost-sensitive classifier show the cheapest classes
-/

namespace Streed

/-- The average costs of a class over rows. -/
def avgCost (w : Nat → Nat → Nat) (D : Data) (k : Nat) : Rat := ((D.map fun i => w i.id k).sum : Nat) / (D.length : Rat)

namespace Bars

instance : Std.Total fun a b : PlotBar => a.cost ≤ b.cost := ⟨fun a b => le_total a.cost b.cost⟩
instance : IsTrans PlotBar fun a b => a.cost ≤ b.cost := ⟨fun _ _ _ h1 h2 => le_trans h1 h2⟩

/-- Sorting is stable: of equal costs the first label comes first. -/
theorem sort_head (l : List PlotBar) (hl : l.Pairwise fun a b => a.label < b.label) (hne : l ≠ []) :
    ∃ h tl, (l.insertionSort fun a b => a.cost ≤ b.cost) = h :: tl ∧ h ∈ l ∧ ∀ y ∈ l, h.cost < y.cost ∨ h.cost = y.cost ∧ h.label ≤ y.label := by
  induction l with
  | nil => exact absurd rfl hne
  | cons a l ih =>
    rw [List.insertionSort_cons]
    obtain ⟨ha, hl'⟩ := List.pairwise_cons.1 hl
    by_cases hn : l = []
    · subst hn
      exact ⟨a, [], rfl, by simp, fun y hy => .inr (by simp at hy; rw [hy]; exact ⟨rfl, le_refl _⟩)⟩
    · obtain ⟨h, tl, e, hm, hh⟩ := ih hl' hn
      rw [e]
      by_cases hc : a.cost ≤ h.cost
      · refine ⟨a, h :: tl, by simp [List.orderedInsert, hc], by simp, fun y hy => ?_⟩
        rcases List.mem_cons.1 hy with rfl | hy
        · exact .inr ⟨rfl, le_refl _⟩
        · rcases lt_or_eq_of_le (show a.cost ≤ y.cost by
            rcases hh y hy with h1 | ⟨h1, -⟩
            · exact le_trans hc (le_of_lt h1)
            · rw [← h1]; exact hc) with h1 | h1
          · exact .inl h1
          · exact .inr ⟨h1, le_of_lt (ha y hy)⟩
      · refine ⟨h, _, by rw [List.orderedInsert, if_neg hc], List.mem_cons_of_mem _ hm, fun y hy => ?_⟩
        rcases List.mem_cons.1 hy with rfl | hy
        · exact .inl (not_le.1 hc)
        · exact hh y hy

end Bars

/-- **C110**: the picture of a node with rows `D` has a bar for each of the four cheapest classes, or for all if there are fewer, ordered by costs with
the cheapest on top. Bars show average costs, the classes left out are not cheaper, only the best class is coloured, and the bar on top is that class
with the costs in the title. -/
theorem bars_spec (K : Nat) (w : Nat → Nat → Nat) (D : Data) (hK : 0 < K) (hD : D ≠ []) :
    ∃ bs t, plotBars K w D = some bs ∧ plotTitle K w D = some t ∧ bs.length = min 4 K ∧ (bs.map (·.label)).Nodup ∧
      (∀ b ∈ bs, b.label < K ∧ b.cost = avgCost w D b.label ∧ (b.strong = true ↔ b.label = t.best)) ∧
      bs.Pairwise (fun a b => b.cost ≤ a.cost) ∧
      (∀ k < K, (∀ b ∈ bs, b.label ≠ k) → ∀ b ∈ bs, b.cost ≤ avgCost w D k) ∧
      bs.getLast? = some ⟨t.best, t.costs, true⟩ ∧ t.best < K ∧ (∀ k < K, t.costs ≤ avgCost w D k) ∧
      (∀ k < t.best, t.costs < avgCost w D k) := by
  have hlen : D.length ≠ 0 := fun h => hD (List.length_eq_zero_iff.1 h)
  have hpos : (0 : Rat) < D.length := by exact_mod_cast Nat.pos_of_ne_zero hlen
  unfold plotBars plotTitle
  rw [if_neg hlen, if_neg hlen]
  dsimp only
  set sums : Nat → Nat := fun k => (D.map fun i => w i.id k).sum with hsums
  set best := npArgmin sums K with hbest
  set bars : List PlotBar := (List.range K).map fun k => ⟨k, (sums k : Rat) / D.length, decide (k = best)⟩ with hbars
  set so := bars.insertionSort fun a b => a.cost ≤ b.cost with hso
  have hperm : so.Perm bars := List.perm_insertionSort _ _
  have hsort : so.Pairwise fun a b => a.cost ≤ b.cost := List.pairwise_insertionSort _ _
  have hmem : ∀ b : PlotBar, b ∈ bars ↔ b.label < K ∧ b = ⟨b.label, (sums b.label : Rat) / D.length, decide (b.label = best)⟩ := by
    intro b
    rw [hbars, List.mem_map]
    constructor
    · rintro ⟨k, hk, rfl⟩; exact ⟨List.mem_range.1 hk, rfl⟩
    · rintro ⟨h1, h2⟩; exact ⟨b.label, List.mem_range.2 h1, h2.symm⟩
  have hblt : best < K := npArgmin_lt sums hK
  have hlab : bars.Pairwise fun a b => a.label < b.label := by
    rw [hbars, List.pairwise_map]; exact List.pairwise_lt_range
  have hbl : bars.length = K := by simp [hbars]
  have hnod : (so.map (·.label)).Nodup := by
    rw [(hperm.map _).nodup_iff, hbars, List.map_map]
    have : ((fun b : PlotBar => b.label) ∘ fun k => (⟨k, (sums k : Rat) / D.length, decide (k = best)⟩ : PlotBar)) = id := rfl
    rw [this, List.map_id]; exact List.nodup_range
  have hle : ∀ k < K, (sums best : Rat) / D.length ≤ (sums k : Rat) / D.length := by
    intro k hk
    exact div_le_div_of_nonneg_right (by exact_mod_cast npArgmin_le sums hk) (le_of_lt hpos)
  have hlt : ∀ k < best, (sums best : Rat) / D.length < (sums k : Rat) / D.length := by
    intro k hk
    exact div_lt_div_of_pos_right (by exact_mod_cast npArgmin_first sums hk) hpos
  refine ⟨_, _, rfl, rfl, ?_, ?_, ?_, ?_, ?_, ?_, hblt, hle, hlt⟩
  · rw [List.length_reverse, List.length_take, hperm.length_eq, hbl]
  · rw [List.map_reverse, List.nodup_reverse, List.map_take]
    exact hnod.sublist (List.take_sublist _ _)
  · intro b hb
    have hb' : b ∈ bars := hperm.mem_iff.1 (List.mem_of_mem_take (List.mem_reverse.1 hb))
    obtain ⟨h1, h2⟩ := (hmem b).1 hb'
    refine ⟨h1, by rw [h2]; rfl, ?_⟩
    rw [h2]; simp
  · rw [List.pairwise_reverse]
    exact hsort.sublist (List.take_sublist _ _)
  · intro k hk hno b hb
    have hb' := List.mem_reverse.1 hb
    have hk' : (⟨k, (sums k : Rat) / D.length, decide (k = best)⟩ : PlotBar) ∈ so := hperm.mem_iff.2 ((hmem _).2 ⟨hk, rfl⟩)
    rw [← List.take_append_drop 4 so] at hk' hsort
    rcases List.mem_append.1 hk' with h | h
    · exact absurd rfl (hno _ (List.mem_reverse.2 h))
    · exact (List.pairwise_append.1 hsort).2.2 b hb' _ h
  · obtain ⟨h, tl, e, hm, hh⟩ := Bars.sort_head bars hlab (by intro h; rw [h] at hbl; simp at hbl; omega)
    rw [List.getLast?_reverse, hso, e]
    simp only [List.take_succ_cons, List.head?_cons, Option.some.injEq]
    obtain ⟨h1, h2⟩ := (hmem h).1 hm
    have hb : h.label = best := by
      have hy := hh ⟨best, (sums best : Rat) / D.length, decide (best = best)⟩ ((hmem _).2 ⟨hblt, rfl⟩)
      have hc : h.cost = (sums h.label : Rat) / D.length := by rw [h2]
      dsimp only at hy
      rw [hc] at hy
      rcases hy with hy | ⟨hy, hy'⟩
      · exact absurd (hle _ h1) (not_le.2 hy)
      · rcases lt_or_eq_of_le hy' with h3 | h3
        · exact absurd (hlt _ h3) (by rw [hy]; exact lt_irrefl _)
        · exact h3
    rw [h2, hb, decide_eq_true rfl]

/-- There is no picture without rows. -/
theorem bars_no_rows (K : Nat) (w : Nat → Nat → Nat) : plotBars K w [] = none := rfl

/-- Five classes, two of which cost the same: the dearest is left out. -/
example : plotBars 5 (fun _ k => [4, 1, 9, 1, 3].getD k 0) [⟨0, fun _ => false, 0⟩] =
    some [⟨0, 4, false⟩, ⟨4, 3, false⟩, ⟨3, 1, false⟩, ⟨1, 1, true⟩] := by decide +kernel

end Streed
