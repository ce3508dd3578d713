import Verif.Lemmas.Search
import Verif.Lemmas.Basic

/-!
# C20, C21, C54: bounds and budgets of the general case
-/

namespace Streed

/-- C20, first child: a split that stays within the upper bound and improves on the best solution so far (by at
least `minimum_difference`) has its first child within the reduced bound computed from a lower bound `lbOther` of
the second child. -/
theorem subtract_first (c : Cfg) (UB cur lbOther : Node) (x y : Int) (hx : 0 ≤ x)
    (hlb : lbOther.sol ≤ y) (hUB : c.P.bc + (x + y) ≤ UB.sol) (hcur : c.P.bc + (x + y) ≤ cur.sol - c.md)
    (hy : 0 ≤ y) (hbc : 0 ≤ c.P.bc) : x ≤ (subtractUB c UB lbOther cur).sol := by
  unfold subtractUB
  split
  · unfold Node.value subtract
    dsimp only
    split <;> omega
  · unfold Node.value
    dsimp only
    omega

/-- C20, second child: with the first child's solution known, the second child is within the reduced bound. -/
theorem subtract_second (c : Cfg) (UB cur first : Node) (y : Int) (hx : 0 ≤ first.sol) (hy : 0 ≤ y)
    (hUB : c.P.bc + (first.sol + y) ≤ UB.sol) (hcur : c.P.bc + (first.sol + y) ≤ cur.sol - c.md)
    (hbc : 0 ≤ c.P.bc) : y ≤ (subtractUB c UB first cur).sol := by
  refine subtract_first c UB cur first y first.sol hy (Int.le_refl _) ?_ ?_ hx hbc <;> omega

/-- C20: the reduced bound is also not larger than needed: what fits the bound fits the total upper bound, unless
the bound was clamped at zero. -/
theorem subtract_tight (c : Cfg) (UB cur first : Node) (y : Int) (huse : c.useUB = true) (hsub : c.subUB = true)
    (hmd : 0 ≤ c.md) (hbc : 0 ≤ c.P.bc) (hpos : 0 < (subtractUB c UB first cur).sol)
    (hy : y ≤ (subtractUB c UB first cur).sol) : c.P.bc + (first.sol + y) ≤ UB.sol ∧
      (cur.sol ≤ UB.sol → c.P.bc + (first.sol + y) ≤ cur.sol - c.md) := by
  unfold subtractUB Node.value subtract at *
  simp only [huse, hsub, Bool.and_self, if_true] at *
  by_cases h : cur.sol ≤ UB.sol
  · rw [if_pos h] at *
    omega
  · rw [if_neg h] at *
    omega

/-- C21: every distribution that is tried uses exactly the budget, and each child's part is a possible size for its
depth. -/
theorem distribution_fits (d n : Nat) (hd : 1 ≤ d) (hn : 1 ≤ n) (hp : n + 1 ≤ 2 ^ d) (ls : Nat) (h : ls ∈ sizes d n) :
    ls + (n - ls - 1) + 1 = n ∧ ls + 1 ≤ 2 ^ min (d - 1) ls ∧ (n - ls - 1) + 1 ≤ 2 ^ min (d - 1) (n - ls - 1) := by
  unfold sizes at h
  have h := List.mem_range'_1.1 h
  obtain ⟨e, rfl⟩ : ∃ e, d = e + 1 := ⟨d - 1, by omega⟩
  simp only [Nat.add_sub_cancel] at *
  have hpow : 2 ^ (e + 1) = 2 * 2 ^ e := by rw [Nat.pow_succ]; omega
  have hpos : 1 ≤ 2 ^ e := Nat.one_le_two_pow
  have key : ∀ m, m + 1 ≤ 2 ^ e → m + 1 ≤ 2 ^ (min e m) := by
    intro m hm
    rcases Nat.le_total e m with h | h
    · rw [Nat.min_eq_left h]; exact hm
    · rw [Nat.min_eq_right h]; exact Nat.lt_two_pow_self
  exact ⟨by omega, key _ (by omega), key _ (by omega)⟩

/-- C21: every tree with a split at the root that is within the budget is covered by one of the distributions that
are tried: each child fits the depth and the nodes given to its side. -/
theorem distribution_covers (d n f : Nat) (l r : Tree) (hp : n + 1 ≤ 2 ^ d)
    (hdep : (Tree.node f l r).depth ≤ d) (hnod : (Tree.node f l r).nodes ≤ n) :
    ∃ ls ∈ sizes d n, l.nodes ≤ ls ∧ l.depth ≤ min (d - 1) ls ∧ r.nodes ≤ n - ls - 1 ∧
      r.depth ≤ min (d - 1) (n - ls - 1) := by
  simp only [Tree.depth, Tree.nodes] at hdep hnod
  have hl := l.nodes_lt_pow
  have hr := r.nodes_lt_pow
  have hl' : 2 ^ l.depth ≤ 2 ^ (d - 1) := Nat.pow_le_pow_right (by omega) (by omega)
  have hr' : 2 ^ r.depth ≤ 2 ^ (d - 1) := Nat.pow_le_pow_right (by omega) (by omega)
  obtain ⟨ls, h1, h2, h3⟩ := sizes_cover (a := l.nodes) (b := r.nodes) (by omega) hp (by omega) (by omega) (by omega)
    (by omega : l.nodes + r.nodes + 1 ≤ n)
  have := l.depth_le_nodes
  have := r.depth_le_nodes
  exact ⟨ls, h1, h2, by omega, h3, by omega⟩

/-- C21: also when the larger side is the right child. -/
theorem distribution_covers_swapped (d n f : Nat) (l r : Tree) (hp : n + 1 ≤ 2 ^ d)
    (hdep : (Tree.node f l r).depth ≤ d) (hnod : (Tree.node f l r).nodes ≤ n) :
    ∃ ls ∈ sizes d n, r.nodes ≤ ls ∧ r.depth ≤ min (d - 1) ls ∧ l.nodes ≤ n - ls - 1 ∧
      l.depth ≤ min (d - 1) (n - ls - 1) :=
  distribution_covers d n f r l hp (by simp only [Tree.depth] at *; omega) (by simp only [Tree.nodes] at *; omega)

/-- C21: no distribution is tried twice. -/
theorem distribution_nodup (d n : Nat) : (sizes d n).Nodup := List.nodup_range'

theorem Tree.bc_nodes_le_cost (P : Problem) (t : Tree) (D : Data) (h : ∀ i ∈ D, ∀ k, 0 ≤ P.cost i k) :
    P.bc * t.nodes ≤ t.cost P D := by
  induction t generalizing D with
  | leaf k => simpa [Tree.nodes, Tree.cost] using leafCost_nonneg P D k h
  | node f l r ihl ihr =>
    have h1 := ihl (without f D) fun i hi => h i ((without_sublist f D).subset hi)
    have h2 := ihr (having f D) fun i hi => h i ((having_sublist f D).subset hi)
    have e : P.bc * ((1 + l.nodes + r.nodes : Nat) : Int) = P.bc + P.bc * l.nodes + P.bc * r.nodes := by
      push_cast; rw [Int.mul_add, Int.mul_add]; simp
    simp only [Tree.nodes, Tree.cost]
    rw [e]
    omega

/-- C54: a tree within the old budget whose total cost does not exceed the upper bound is within the reduced
budget. -/
theorem reduceBudget_keeps (c : Cfg) (UB : Node) (d n : Nat) (D : Data) (h : ∀ i ∈ D, ∀ k, 0 ≤ c.P.cost i k)
    (t : Tree) (hd : t.depth ≤ d) (hn : t.nodes ≤ n) (hc : t.cost c.P D ≤ UB.sol) :
    t.depth ≤ (reduceBudget c UB d n).1 ∧ t.nodes ≤ (reduceBudget c UB d n).2 := by
  unfold reduceBudget
  split
  · exact ⟨hd, hn⟩
  · rename_i hb
    have hb : 0 < c.P.bc := by
      simp only [not_or] at hb; omega
    have h1 := Tree.bc_nodes_le_cost c.P t D h
    have h2 : (t.nodes : Int) ≤ UB.sol / c.P.bc := by
      rw [Int.le_ediv_iff_mul_le hb, Int.mul_comm]
      omega
    have h0 : 0 ≤ UB.sol := by
      have : 0 ≤ c.P.bc * (t.nodes : Int) := Int.mul_nonneg (by omega) (by omega)
      omega
    rw [Int.max_eq_right h0]
    have h3 : t.nodes ≤ (UB.sol / c.P.bc).toNat := by omega
    have h4 := t.depth_le_nodes
    have h5 := t.nodes_lt_pow
    dsimp only
    split
    · split
      · refine ⟨by omega, ?_⟩
        have : 2 ^ t.depth ≤ 2 ^ min d (UB.sol / c.P.bc).toNat := Nat.pow_le_pow_right (by omega) (by omega)
        omega
      · exact ⟨hd, hn⟩
    · exact ⟨hd, hn⟩

/-- C54: the reduced budget is never larger than the old one, and the assertion `max_depth <= num_nodes`
(solver.cpp:897) holds. -/
theorem reduceBudget_le (c : Cfg) (UB : Node) (d n : Nat) (hdn : d ≤ n) :
    (reduceBudget c UB d n).1 ≤ d ∧ (reduceBudget c UB d n).2 ≤ n ∧
      (reduceBudget c UB d n).1 ≤ (reduceBudget c UB d n).2 := by
  unfold reduceBudget
  split
  · exact ⟨Nat.le_refl _, Nat.le_refl _, hdn⟩
  · dsimp only
    split
    · split
      · have : min d (max 0 UB.sol / c.P.bc).toNat < 2 ^ min d (max 0 UB.sol / c.P.bc).toNat := Nat.lt_two_pow_self
        refine ⟨by omega, by omega, by omega⟩
      · exact ⟨Nat.le_refl _, Nat.le_refl _, hdn⟩
    · exact ⟨Nat.le_refl _, Nat.le_refl _, hdn⟩

/-- The problem used in the examples: accuracy with two units per branching node. -/
def exSparse : Cfg := ⟨{ accuracy 2 2 with bc := 2 }, 1, true, true, true, true, true, true, true, 1, 100,
  fun _ => 1, fun _ => [0, 1], fun _ => false, fun _ => true, true, fun _ => 0, none⟩

/-- An upper bound of 5 with two units per node leaves at most two nodes, so depth three becomes depth two. -/
example : reduceBudget exSparse (Node.value 5) 3 7 = (2, 3) := by decide

example : (subtractUB exSparse (Node.value 9) (Node.value 3) (Node.value 8)).sol = 2 := by decide
example : sizes 3 5 = [1, 2, 3] := by decide

end Streed
