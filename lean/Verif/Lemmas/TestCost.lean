import Verif.Model.TestCost
import Verif.Lemmas.TestScore
import Verif.Props.CostSensitive
import Verif.Props.Policy
import Mathlib.Tactic.Ring

/-!
# Lemmas for C90: scores of new data with costs, treatments and numbers
-/

namespace Streed

namespace TestLemmas

open TaskLemmas

/-- The walk with branching costs adds up the value of the tree. -/
theorem cost_walk_eq (fl : List Nat) (C : Costs) (leaf : View → Nat → Option Rat) (n : Nat) (P : Nat → Prop)
    (hleaf : ∀ v k, v.OK → GroupedBy v.groups → v.groups.length = n → P k → leaf v k = some (C.leaf n v.rows k))
    (t : Tree) (ht : t.LeafAll P) (b : Branch) (v : View) (hok : v.OK) (hg : GroupedBy v.groups) (hn : v.groups.length = n)
    (acc : Rat) :
    (Obj.ofTree t).costWalk fl C.branchCost leaf b v acc = some (acc + C.eval n (unflip (flipSet fl) t) b v.rows) := by
  induction t generalizing b v acc with
  | leaf k =>
    simp only [Obj.ofTree, Obj.label, Obj.costWalk, unflip, Costs.eval]
    rw [hleaf v k hok hg hn ht, Option.map_some]
  | node f l r ihl ihr =>
    obtain ⟨s1, s2⟩ := split_rows v f
    obtain ⟨g1, g2⟩ := split_groups v f
    obtain ⟨_, _, o1, o2, _⟩ := split_sizes v f hok
    have gr1 : GroupedBy (v.split f).1.groups := by rw [g1]; exact grouped_filter hg _
    have gr2 : GroupedBy (v.split f).2.groups := by rw [g2]; exact grouped_filter hg _
    have n1 : (v.split f).1.groups.length = n := by rw [g1, List.length_map, hn]
    have n2 : (v.split f).2.groups.length = n := by rw [g2, List.length_map, hn]
    simp only [Obj.ofTree, Obj.feature, Obj.costWalk]
    by_cases hf : f < fl.length ∧ fl.getD f 0 = 1
    · have hs : flipSet fl f = true := by unfold flipSet; rw [hf.2]; rfl
      rw [if_pos hf, ihr ht.2 _ _ o1 gr1 n1]
      simp only [Option.bind_eq_bind, Option.bind_some]
      rw [ihl ht.1 _ _ o2 gr2 n2, unflip, if_pos hs]
      simp only [Costs.eval, s1, s2, size_rows hok]
      congr 1
      ring
    · have hs : flipSet fl f = false := by
        unfold flipSet
        by_cases h1 : f < fl.length
        · exact beq_false_of_ne fun e => hf ⟨h1, e⟩
        · rw [List.getD_eq_getElem?_getD, List.getElem?_eq_none (by omega)]; rfl
      rw [if_neg hf, ihl ht.1 _ _ o1 gr1 n1]
      simp only [Option.bind_eq_bind, Option.bind_some]
      rw [ihr ht.2 _ _ o2 gr2 n2, unflip, hs, if_neg (by simp)]
      simp only [Costs.eval, s1, s2, size_rows hok]
      congr 1
      ring

/-- If no leaf can be evaluated, neither can the tree. -/
theorem cost_walk_none (fl : List Nat) (price : Branch → Nat → Rat) (leaf : View → Nat → Option Rat) (n : Nat) (P : Nat → Prop)
    (hleaf : ∀ v k, v.groups.length = n → P k → leaf v k = none) (t : Tree) (ht : t.LeafAll P) (b : Branch) (v : View)
    (hn : v.groups.length = n) (acc : Rat) : (Obj.ofTree t).costWalk fl price leaf b v acc = none := by
  induction t generalizing b v acc with
  | leaf k =>
    simp only [Obj.ofTree, Obj.label, Obj.costWalk]
    rw [hleaf v k hn ht]
    rfl
  | node f l r ihl ihr =>
    obtain ⟨g1, _⟩ := split_groups v f
    have n1 : (v.split f).1.groups.length = n := by rw [g1, List.length_map, hn]
    simp only [Obj.ofTree, Obj.feature, Obj.costWalk]
    split
    · rw [ihr ht.2 _ _ n1]; rfl
    · rw [ihl ht.1 _ _ n1]; rfl

theorem foldlM_some {α β : Type} (f : β → α → Option β) (g : β → α → β) (l : List α) (h : ∀ a ∈ l, ∀ b, f b a = some (g b a)) (b : β) :
    l.foldlM f b = some (l.foldl g b) := by
  induction l generalizing b with
  | nil => rfl
  | cons a l ih =>
    rw [List.foldlM_cons, h a (List.mem_cons_self ..)]
    exact ih (fun x hx => h x (List.mem_cons_of_mem _ hx)) _

theorem foldlM_none {α β : Type} (f : β → α → Option β) (l : List α) (a : α) (ha : a ∈ l) (h : ∀ b, f b a = none) (b : β) :
    l.foldlM f b = none := by
  induction l generalizing b with
  | nil => cases ha
  | cons x l ih =>
    rw [List.foldlM_cons]
    rcases List.mem_cons.1 ha with rfl | ha
    · rw [h]; rfl
    · cases f b x with
      | none => rfl
      | some c => exact ih ha c

theorem csLeafV_eq (C : Costs) {n : Nat} {v : View} (h : GroupedBy v.groups) (hn : v.groups.length ≤ n) {k : Nat} (hk : k < n) :
    csLeafV C n v k = some (C.leaf v.groups.length v.rows k) := by
  unfold csLeafV Costs.leaf
  rw [foldlM_some _ (fun e j => if j = k then e else e + numLabel v.rows j * C.matrix j k)]
  intro j hj e
  have hj := List.mem_range.1 hj
  by_cases hjk : j = k
  · rw [if_pos hjk, if_pos hjk]
  · rw [if_neg hjk, if_neg hjk, if_pos ⟨by omega, hk⟩, group_length h]

theorem csLeafV_none (C : Costs) {n : Nat} {v : View} (hn : n < v.groups.length) {k : Nat} (hk : k < n) : csLeafV C n v k = none := by
  unfold csLeafV
  refine foldlM_none _ _ n (List.mem_range.2 hn) (fun b => ?_) _
  rw [if_neg (by omega), if_neg (by omega)]

/-- The costs that count: a correct prediction is free whatever the matrix says. -/
def offDiagonal (C : Costs) : Costs := { C with matrix := fun i j => if i = j then 0 else C.matrix i j }

theorem foldl_congr' {α β : Type} {f g : β → α → β} (l : List α) (h : ∀ b, ∀ a ∈ l, f b a = g b a) (b : β) :
    l.foldl f b = l.foldl g b := by
  induction l generalizing b with
  | nil => rfl
  | cons a l ih =>
    rw [List.foldl_cons, List.foldl_cons, h b a (List.mem_cons_self ..)]
    exact ih (fun b x hx => h b x (List.mem_cons_of_mem _ hx)) _

theorem offDiagonal_eval (C : Costs) (n : Nat) (t : Tree) (b : Branch) (D : Data) :
    (offDiagonal C).eval n t b D = C.eval n t b D := by
  induction t generalizing b D with
  | leaf k =>
    simp only [Costs.eval, Costs.leaf]
    refine foldl_congr' _ (fun e j _ => ?_) _
    by_cases h : j = k
    · rw [if_pos h, if_pos h]
    · rw [if_neg h, if_neg h]; simp only [offDiagonal, if_neg h]
  | node f l r ihl ihr => simp only [Costs.eval, ihl, ihr]; rfl

theorem unflip_tests (fl : Nat → Bool) (t : Tree) (i : Inst) : (unflip fl t).tests (flipInst fl i) = t.tests i := by
  induction t with
  | leaf k => rfl
  | node f l r ihl ihr =>
    unfold unflip
    cases hf : fl f <;> cases hi : i.feat f <;> simp [Tree.tests, flipInst, hf, hi] at * <;> assumption

/-- A sum over what the solver sees is a sum over the rows as given. -/
theorem seen_sum {S : Type} [AddCommMonoid S] (fl : List Nat) (D : Data) (g h : Inst → S) (e : ∀ i, g (flipInst (flipSet fl) i) = h i) :
    ((preprocessTest fl (loadRows D)).rows.map g).sum = (D.map h).sum := by
  rw [((seen_perm fl D).map g).sum_eq, List.map_map]
  congr 1
  exact List.map_congr_left fun i _ => e i

/-- The largest class. -/
theorem biggest_eq (gs : List Data) (x : Nat) : (gs.map List.length).foldl max x = max x ((gs.map List.length).foldl max 0) := by
  induction gs generalizing x with
  | nil => simp
  | cons g gs ih => rw [List.map_cons, List.foldl_cons, List.foldl_cons, ih, ih (max 0 _)]; omega

theorem biggest_spec (gs : List Data) : (∀ k, (gs.getD k []).length ≤ (gs.map List.length).foldl max 0) ∧
    (gs = [] ∨ ∃ k, k < gs.length ∧ (gs.map List.length).foldl max 0 = (gs.getD k []).length) := by
  induction gs with
  | nil => exact ⟨fun k => by simp, .inl rfl⟩
  | cons g gs ih =>
    rw [List.map_cons, List.foldl_cons, biggest_eq]
    refine ⟨fun k => ?_, .inr ?_⟩
    · cases k with
      | zero => simp only [List.getD_cons_zero]; omega
      | succ k => simp only [List.getD_cons_succ]; have := ih.1 k; omega
    · rcases ih.2 with rfl | ⟨k, hk, e⟩
      · exact ⟨0, by simp, by simp⟩
      · by_cases hc : (gs.map List.length).foldl max 0 ≤ g.length
        · exact ⟨0, by simp, by simp only [List.getD_cons_zero]; omega⟩
        · exact ⟨k + 1, by simpa using hk, by simp only [List.getD_cons_succ]; omega⟩

end TestLemmas

end Streed
