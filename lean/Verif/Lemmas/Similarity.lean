import Verif.Lemmas.CacheInv

/-! Tree surgery for the similarity bound. -/

namespace Streed

/-- Remove the tests that do not separate `D`. -/
def prune : Tree → Data → Tree
  | .leaf k, _ => .leaf k
  | .node f l r, D =>
    if without f D = [] then prune r (having f D)
    else if having f D = [] then prune l (without f D)
    else .node f (prune l (without f D)) (prune r (having f D))

theorem prune_depth (t : Tree) (D : Data) : (prune t D).depth ≤ t.depth := by
  induction t generalizing D with
  | leaf k => exact Nat.le_refl _
  | node f l r ihl ihr =>
    have h1 := ihl (without f D)
    have h2 := ihr (having f D)
    unfold prune
    split
    · simp only [Tree.depth]; omega
    · split
      · simp only [Tree.depth]; omega
      · simp only [Tree.depth]; omega

theorem prune_nodes (t : Tree) (D : Data) : (prune t D).nodes ≤ t.nodes := by
  induction t generalizing D with
  | leaf k => exact Nat.le_refl _
  | node f l r ihl ihr =>
    have h1 := ihl (without f D)
    have h2 := ihr (having f D)
    unfold prune
    split
    · simp only [Tree.nodes]; omega
    · split
      · simp only [Tree.nodes]; omega
      · simp only [Tree.nodes]; omega

theorem without_eq_nil {f : Nat} {D : Data} (h : without f D = []) : having f D = D := by
  unfold without at h; unfold having
  apply List.filter_eq_self.2
  intro i hi
  have := List.filter_eq_nil_iff.1 h i hi
  simpa using this

theorem having_eq_nil {f : Nat} {D : Data} (h : having f D = []) : without f D = D := by
  unfold having at h; unfold without
  apply List.filter_eq_self.2
  intro i hi
  have := List.filter_eq_nil_iff.1 h i hi
  simpa using this

theorem prune_predict (t : Tree) (D : Data) (i : Inst) (hi : i ∈ D) : (prune t D).predict i = t.predict i := by
  induction t generalizing D with
  | leaf k => rfl
  | node f l r ihl ihr =>
    unfold prune
    split
    · rename_i h
      have h' := without_eq_nil h
      have hi' : i ∈ having f D := by rw [h']; exact hi
      rw [ihr _ hi']
      simp [Tree.predict, (mem_having.1 hi').2]
    · split
      · rename_i h
        have h' := having_eq_nil h
        have hi' : i ∈ without f D := by rw [h']; exact hi
        rw [ihl _ hi']
        simp [Tree.predict, (mem_without.1 hi').2]
      · simp only [Tree.predict]
        split
        · rename_i hf; exact ihr _ (mem_having.2 ⟨hi, hf⟩)
        · rename_i hf; exact ihl _ (mem_without.2 ⟨hi, by simpa using hf⟩)

/-- Labels and features of a legal tree are legal on any data. -/
theorem Tree.Legal.vocab {P : Problem} {mls : Nat} {t : Tree} {D : Data} (h : t.Legal P mls D) (E : Data) :
    t.Legal P 0 E := by
  induction t generalizing D E with
  | leaf k => exact ⟨h.1, Nat.zero_le _⟩
  | node f l r ihl ihr => exact ⟨h.1, h.2.1, ihl h.2.2.1 _, ihr h.2.2.2 _⟩

theorem prune_legal {P : Problem} {t : Tree} {D : Data} (h : t.Legal P 0 D) (hD : D ≠ []) :
    (prune t D).Legal P 1 D := by
  induction t generalizing D with
  | leaf k => exact ⟨h.1, List.length_pos_iff.2 hD⟩
  | node f l r ihl ihr =>
    unfold prune
    split
    · rename_i h0
      have h' := without_eq_nil h0
      have := ihr h.2.2.2 (by rw [h']; exact hD)
      rw [h'] at this ⊢; exact this
    · split
      · rename_i h0
        have h' := having_eq_nil h0
        have := ihl h.2.2.1 (by rw [h']; exact hD)
        rw [h'] at this ⊢; exact this
      · rename_i h1 h2
        exact ⟨h.1, h.2.1, ihl h.2.2.1 h1, ihr h.2.2.2 h2⟩

theorem prune_cost {P : Problem} (hb : P.bc = 0) (t : Tree) (D : Data) : (prune t D).cost P D = t.cost P D := by
  rw [Tree.cost_eq_sum P hb, Tree.cost_eq_sum P hb]
  congr 1
  exact List.map_congr_left fun i hi => by rw [prune_predict t D i hi]

/-- What removed instances can have cost. -/
def removalBound (nL : Nat) (wp : Nat → Int) (old new : Data) : Int :=
  ((List.range nL).map fun k => wp k * (numRemovals old new k : Int)).sum

theorem removed_cost_le (nL : Nat) (wp : Nat → Int) (old new : Data) (ho : IdSorted old) (hn : IdSorted new)
    (g : Inst → Int) (hg : ∀ i ∈ old, g i ≤ wp i.label) :
    ((computeDifference nL old new).2.map g).sum ≤ removalBound nL wp old new := by
  rw [difference_exact nL old new ho hn]
  unfold removalBound
  simp only
  induction List.range nL with
  | nil => simp
  | cons k ks ih =>
    simp only [List.flatMap_cons, List.map_append, List.sum_append, List.map_cons, List.sum_cons]
    have hlen : numRemovals old new k = (minus (byLabel old k) (byLabel new k)).length := by
      unfold numRemovals
      rw [mergeCount_eq, mergeDiff_eq (byLabel old k) (byLabel new k) (ho.filter _) (hn.filter _)]
    have h1 : ((minus (byLabel old k) (byLabel new k)).map g).sum ≤
        wp k * (minus (byLabel old k) (byLabel new k)).length := by
      have : ∀ i ∈ minus (byLabel old k) (byLabel new k), g i ≤ wp k := by
        intro i hi
        have h := List.mem_filter.1 (List.mem_filter.1 hi).1
        have hl : i.label = k := by simpa using h.2
        rw [← hl]; exact hg i h.1
      generalize minus (byLabel old k) (byLabel new k) = L at this
      induction L with
      | nil => simp
      | cons a L ihL =>
        simp only [List.map_cons, List.sum_cons, List.length_cons]
        have h1 := this a (List.mem_cons_self ..)
        have h2 := ihL fun i hi => this i (List.mem_cons_of_mem _ hi)
        have : wp k * ((L.length + 1 : Nat) : Int) = wp k * (L.length : Int) + wp k := by
          rw [Int.natCast_add, Int.mul_add]; simp
        omega
    rw [hlen]
    omega

/-- The cost of a tree on the old data exceeds the cost on the new data by at most the removals. -/
theorem cost_transfer {P : Problem} (hb : P.bc = 0) (wp : Nat → Int) (old new : Data) (ho : IdSorted old)
    (hn : IdSorted new) (hl : ∀ i ∈ old ++ new, i.label < P.nL) (hc : Consistent old new)
    (hpos : ∀ i ∈ new, ∀ k, 0 ≤ P.cost i k) (hw : ∀ i ∈ old, ∀ k, k < P.nL → P.cost i k ≤ wp i.label)
    (t : Tree) (ht : t.Legal P 0 new) :
    t.cost P old ≤ t.cost P new + removalBound P.nL wp old new := by
  have pl : ∀ i, t.predict i < P.nL := by
    intro i
    have := ht.vocab []
    clear ht
    revert this
    generalize ([] : Data) = E
    induction t generalizing E with
    | leaf k => intro h; exact h.1
    | node f l r ihl ihr =>
      intro h
      simp only [Tree.predict]
      split
      · exact ihr _ h.2.2.2
      · exact ihl _ h.2.2.1
  have hp := perm_map_sum (difference_apply P.nL old new ho hn hl hc) fun i => P.cost i (t.predict i)
  simp only [List.map_append, List.sum_append] at hp
  have e1 := Tree.cost_eq_sum P hb t old
  have e2 := Tree.cost_eq_sum P hb t new
  have h1 := removed_cost_le P.nL wp old new ho hn (fun i => P.cost i (t.predict i))
    fun i hi => hw i hi _ (pl i)
  have h2 : 0 ≤ ((computeDifference P.nL old new).1.map fun i => P.cost i (t.predict i)).sum :=
    sum_map_nonneg _ _ fun i hi => hpos i ((difference_mem P.nL old new ho hn hl i).1.1 hi).1 _
  omega

/-- The transfer with one bound per instance. -/
theorem cost_transfer_inst {P : Problem} (hb : P.bc = 0) (w : Inst → Int) (old new : Data) (ho : IdSorted old)
    (hn : IdSorted new) (hl : ∀ i ∈ old ++ new, i.label < P.nL) (hc : Consistent old new)
    (hpos : ∀ i ∈ new, ∀ k, 0 ≤ P.cost i k) (hw : ∀ i ∈ old, ∀ k, k < P.nL → P.cost i k ≤ w i)
    (t : Tree) (ht : t.Legal P 0 new) :
    t.cost P old ≤ t.cost P new + ((computeDifference P.nL old new).2.map w).sum := by
  have pl : ∀ i, t.predict i < P.nL := by
    intro i
    have := ht.vocab []
    clear ht
    revert this
    generalize ([] : Data) = E
    induction t generalizing E with
    | leaf k => intro h; exact h.1
    | node f l r ihl ihr =>
      intro h
      simp only [Tree.predict]
      split
      · exact ihr _ h.2.2.2
      · exact ihl _ h.2.2.1
  have hp := perm_map_sum (difference_apply P.nL old new ho hn hl hc) fun i => P.cost i (t.predict i)
  simp only [List.map_append, List.sum_append] at hp
  have e1 := Tree.cost_eq_sum P hb t old
  have e2 := Tree.cost_eq_sum P hb t new
  have h1 : ((computeDifference P.nL old new).2.map fun i => P.cost i (t.predict i)).sum ≤
      ((computeDifference P.nL old new).2.map w).sum :=
    sum_map_le _ _ _ fun i hi => hw i ((difference_mem P.nL old new ho hn hl i).2.1 hi).1 _ (pl i)
  have h2 : 0 ≤ ((computeDifference P.nL old new).1.map fun i => P.cost i (t.predict i)).sum :=
    sum_map_nonneg _ _ fun i hi => hpos i ((difference_mem P.nL old new ho hn hl i).1.1 hi).1 _
  omega

/-- The similarity bound for leaf size one, with one bound per instance. -/
theorem similarity_lower_inst {P : Problem} (hb : P.bc = 0) (w : Inst → Int) (old new : Data) (ho : IdSorted old)
    (hn : IdSorted new) (hl : ∀ i ∈ old ++ new, i.label < P.nL) (hc : Consistent old new)
    (hpos : ∀ i ∈ new, ∀ k, 0 ≤ P.cost i k) (hw : ∀ i ∈ old, ∀ k, k < P.nL → P.cost i k ≤ w i)
    (hne : old ≠ []) (d n : Nat) (x : Int) (hx : LowerBound P 1 d n old x) :
    LowerBound P 1 d n new (subtract x ((computeDifference P.nL old new).2.map w).sum) := by
  intro t ht
  have h1 := hx (prune t old) ⟨Nat.le_trans (prune_depth t old) ht.1, Nat.le_trans (prune_nodes t old) ht.2.1,
    prune_legal (ht.2.2.vocab old) hne⟩
  rw [prune_cost hb] at h1
  have h2 := cost_transfer_inst hb w old new ho hn hl hc hpos hw t (ht.2.2.vocab new)
  have h3 := Tree.cost_nonneg P t new hpos (by omega)
  unfold subtract
  omega

/-- The similarity bound for leaf size one. -/
theorem similarity_lower {P : Problem} (hb : P.bc = 0) (wp : Nat → Int) (old new : Data) (ho : IdSorted old)
    (hn : IdSorted new) (hl : ∀ i ∈ old ++ new, i.label < P.nL) (hc : Consistent old new)
    (hpos : ∀ i ∈ new, ∀ k, 0 ≤ P.cost i k) (hw : ∀ i ∈ old, ∀ k, k < P.nL → P.cost i k ≤ wp i.label)
    (hne : old ≠ []) (d n : Nat) (x : Int) (hx : LowerBound P 1 d n old x) :
    LowerBound P 1 d n new (subtract x (removalBound P.nL wp old new)) := by
  intro t ht
  have h1 := hx (prune t old) ⟨Nat.le_trans (prune_depth t old) ht.1, Nat.le_trans (prune_nodes t old) ht.2.1,
    prune_legal (ht.2.2.vocab old) hne⟩
  rw [prune_cost hb] at h1
  have h2 := cost_transfer hb wp old new ho hn hl hc hpos hw t (ht.2.2.vocab new)
  have h3 := Tree.cost_nonneg P t new hpos (by omega)
  unfold subtract
  omega

end Streed
