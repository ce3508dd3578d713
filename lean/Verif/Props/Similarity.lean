import Verif.Lemmas.Similarity
import Verif.Props.Counts
import Verif.Props.Terminal
import Verif.Model.Solver

/-!
# C18: the similarity lower bound
-/

namespace Streed

theorem Tree.cost_eq_sum_nodes (P : Problem) (t : Tree) (D : Data) :
    t.cost P D = (D.map fun i => P.cost i (t.predict i)).sum + P.bc * t.nodes := by
  induction t generalizing D with
  | leaf k => simp [Tree.cost, leafCost, Tree.predict, Tree.nodes]
  | node f l r ihl ihr =>
    simp only [Tree.cost, ihl, ihr, Tree.nodes]
    have h1 := sum_split (fun i => P.cost i ((Tree.node f l r).predict i)) f D
    have h2 : ((without f D).map fun i => P.cost i ((Tree.node f l r).predict i)) =
        (without f D).map fun i => P.cost i (l.predict i) :=
      List.map_congr_left fun i hi => by simp [Tree.predict, (mem_without.1 hi).2]
    have h3 : ((having f D).map fun i => P.cost i ((Tree.node f l r).predict i)) =
        (having f D).map fun i => P.cost i (r.predict i) :=
      List.map_congr_left fun i hi => by simp [Tree.predict, (mem_having.1 hi).2]
    rw [h2, h3] at h1
    have e : P.bc * ((1 + l.nodes + r.nodes : Nat) : Int) = P.bc + P.bc * l.nodes + P.bc * r.nodes := by
      push_cast; rw [Int.mul_add, Int.mul_add]; simp
    rw [e]
    omega

/-- The bound computed from an archived dataset (similarity_lowerbound.cpp:65-68). -/
def similarityBound (P : Problem) (wp : Nat → Int) (old new : Data) (x : Int) : Int :=
  subtract x (((List.range P.nL).map fun k => wp k * (numRemovals old new k : Int)).sum)

/-- The bound used by the search is this one. -/
theorem similarityBound_eq (c : Cfg) (hc : c.simInst = none) (old new : Data) (x : Int) :
    subtract x (removalCost c old new) = similarityBound c.P c.worstPer old new x := by
  unfold removalCost; rw [hc]; rfl

/-- The inputs of the bound: two views of one dataset, costs that are not negative, and a per-label worst case. -/
structure SimInput (P : Problem) (wp : Nat → Int) (T old new : Data) : Prop where
  sorted : IdSorted T
  old : ViewOf T old
  new : ViewOf T new
  labels : ∀ i ∈ T, i.label < P.nL
  nonneg : ∀ i ∈ T, ∀ k, 0 ≤ P.cost i k
  worst : ∀ i ∈ T, ∀ k, k < P.nL → P.cost i k ≤ wp i.label
  bc : 0 ≤ P.bc

/-- C18 for leaf size one: a lower bound for the old data, reduced by the worst case of the removed instances, is
a lower bound for the new data. Missing: larger leaf sizes, for which the claim is false
(`similarity_not_bound`). -/
theorem similarity_bound_partial {P : Problem} {wp : Nat → Int} {T old new : Data} (h : SimInput P wp T old new)
    (hne : old ≠ []) (d n : Nat) (x : Int) (hx : LowerBound P 1 d n old x) :
    LowerBound P 1 d n new (similarityBound P wp old new x) := by
  intro t ht
  have h1 := hx (prune t old) ⟨Nat.le_trans (prune_depth t old) ht.1, Nat.le_trans (prune_nodes t old) ht.2.1,
    prune_legal (ht.2.2.vocab old) hne⟩
  let P0 : Problem := { P with bc := 0 }
  have so : IdSorted old := h.old.sorted h.sorted
  have sn : IdSorted new := h.new.sorted h.sorted
  have hlab : ∀ i ∈ old ++ new, i.label < P0.nL := fun i hi => by
    rcases List.mem_append.1 hi with hi | hi
    · exact h.labels i (h.old.subset hi)
    · exact h.labels i (h.new.subset hi)
  have vocab0 : t.Legal P0 0 new := by
    have := ht.2.2.vocab new
    clear h1 ht
    revert this
    generalize new = E
    induction t generalizing E with
    | leaf k => exact fun h => h
    | node f l r ihl ihr => exact fun h => ⟨h.1, h.2.1, ihl _ h.2.2.1, ihr _ h.2.2.2⟩
  have hcons : Consistent old new := h.old.consistent h.new h.sorted
  have h2 := cost_transfer (P := P0) rfl wp old new so sn hlab hcons
    (fun i hi => h.nonneg i (h.new.subset hi)) (fun i hi => h.worst i (h.old.subset hi)) t vocab0
  have h3 := Tree.cost_nonneg P t new (fun i hi => h.nonneg i (h.new.subset hi)) h.bc
  rw [Tree.cost_eq_sum_nodes] at h1 h3 ⊢
  rw [Tree.cost_eq_sum_nodes, Tree.cost_eq_sum_nodes] at h2
  have e1 : ((old.map fun i => P.cost i ((prune t old).predict i))).sum = (old.map fun i => P.cost i (t.predict i)).sum := by
    congr 1; exact List.map_congr_left fun i hi => by rw [prune_predict t old i hi]
  have e2 : P.bc * ((prune t old).nodes : Int) ≤ P.bc * (t.nodes : Int) :=
    Int.mul_le_mul_of_nonneg_left (by exact_mod_cast prune_nodes t old) h.bc
  rw [e1] at h1
  simp only [P0, Int.zero_mul, Int.add_zero] at h2
  unfold similarityBound subtract
  unfold removalBound at h2
  omega

/-- The claim of C18 for every leaf size. -/
def SimilarityBound : Prop := ∀ (P : Problem) (wp : Nat → Int) (T old new : Data) (mls d n : Nat) (x : Int),
  SimInput P wp T old new → 1 ≤ mls → mls ≤ old.length → mls ≤ new.length → LowerBound P mls d n old x →
  LowerBound P mls d n new (similarityBound P wp old new x)

/-- One instance of the first label without the feature, two of the second with it, then a second of the first. -/
def simData : Data := [exInst 0 0 0, exInst 1 1 1, exInst 2 1 1, exInst 3 0 0]

/-- With leaf size two an added instance can make a split possible: the optimum falls without any removal. -/
theorem similarity_not_bound : ¬ SimilarityBound := by
  intro h
  have hlow : LowerBound (accuracy 1 2) 2 1 1 (simData.take 3) 1 := by
    rintro t ⟨_, _, h3⟩
    match t with
    | .leaf k =>
      have hk : k < 2 := h3.1
      have : k = 0 ∨ k = 1 := by omega
      rcases this with rfl | rfl <;> decide
    | .node f l r =>
      exfalso
      obtain ⟨hf, _, hl, _⟩ := h3
      have hf : f < 1 := hf
      obtain rfl : f = 0 := by omega
      have := hl.length
      revert this
      decide
  have := h (accuracy 1 2) (fun _ => 1) simData (simData.take 3) simData 2 1 1 1
    ⟨by simp [simData, exInst, IdSorted], List.take_sublist 3 _, List.Sublist.refl _, by simp [simData, exInst, accuracy],
      accuracy_nonneg _ _ _, fun i _ k _ => by simp only [accuracy]; split <;> decide, by decide⟩
    (by decide) (by decide) (by decide) hlow (.node 0 (.leaf 0) (.leaf 1)) (by decide)
  revert this
  decide

/-- The hypotheses of the positive theorem are met, and the bound is not trivial. -/
example : SimInput (accuracy 1 2) (fun _ => 1) simData simData (simData.take 3) ∧
    similarityBound (accuracy 1 2) (fun _ => 1) simData (simData.take 3) 3 = 2 :=
  ⟨⟨by simp [simData, exInst, IdSorted], List.Sublist.refl _, List.take_sublist 3 _, by simp [simData, exInst, accuracy],
    accuracy_nonneg _ _ _, fun i _ k _ => by simp only [accuracy]; split <;> decide, by decide⟩, by decide⟩

end Streed
