import Verif.Lemmas.Terminal

/-!
# C17: the depth-two solver

On the statistics left by any history of incremental updates the depth-two solver returns the cheapest
tree of depth one, and (leaf size one) the cheapest tree of depth two. Its result for two nodes is a
legal tree, but not always the cheapest one, and with larger leaf sizes neither is the three-node
result; witnesses below.
-/

namespace Streed

private theorem foldl_congr' {α β : Type} (st st' : β → α → β) (L : List α) (b : β)
    (h : ∀ b, ∀ a ∈ L, st b a = st' b a) : L.foldl st b = L.foldl st' b := by
  induction L generalizing b with
  | nil => rfl
  | cons a L ih =>
    simp only [List.foldl_cons]
    rw [h b a (List.mem_cons_self ..)]
    exact ih _ fun b x hx => h b x (List.mem_cons_of_mem _ hx)

section
variable {P : Problem} {one : Bool} {D : Data} {S : Stats} (h : Agrees P one D S)
include h

private theorem counts_congr (f g : Nat) (hf : f < P.nF) (hg : g < P.nF) (ho : one = true → f = g) :
    S.counts f g = (statsOf P D).counts f g := by
  obtain ⟨a1, a2, a3, a4⟩ := h
  unfold Stats.counts
  simp only
  rw [a1, a2 (min f g) (max f g) (by omega) (by omega) (fun h => by have := ho h; omega),
    a2 (min f g) (min f g) (by omega) (by omega) (fun _ => rfl),
    a2 (max f g) (max f g) (by omega) (by omega) (fun _ => rfl)]

private theorem sols_congr (k f g : Nat) (hk : k < P.nL) (hf : f < P.nF) (hg : g < P.nF) (ho : one = true → f = g) :
    S.sols k f g = (statsOf P D).sols k f g := by
  obtain ⟨a1, a2, a3, a4⟩ := h
  unfold Stats.sols
  simp only
  rw [a3 k hk, a4 k (min f g) (max f g) hk (by omega) (by omega) (fun h => by have := ho h; omega),
    a4 k (min f g) (min f g) hk (by omega) (by omega) (fun _ => rfl),
    a4 k (max f g) (max f g) hk (by omega) (by omega) (fun _ => rfl)]

private theorem oneNode_congr (mls : Nat) (w : Int) :
    oneNode (tcOf P mls w) S = oneNode (tcOf P mls w) (statsOf P D) := by
  unfold oneNode
  simp only
  have e0 : (List.range P.nL).foldl (fun r k => Node.addMin r (Node.leaf k (S.ctot k))) (Node.empty w) =
      (List.range P.nL).foldl (fun r k => Node.addMin r (Node.leaf k ((statsOf P D).ctot k))) (Node.empty w) :=
    foldl_congr' _ _ _ _ fun r k hk => by rw [h.2.2.1 k (List.mem_range.1 hk)]
  simp only [tcOf] at *
  rw [e0]
  refine foldl_congr' _ _ _ _ fun r f hf => ?_
  have hf := List.mem_range.1 hf
  rw [counts_congr h f f hf hf fun _ => rfl]
  congr 2
  refine foldl_congr' _ _ _ _ fun r p hp => ?_
  have hp := mem_labelPairs.1 (show (p.1, p.2) ∈ _ from hp)
  rw [sols_congr h p.1 f f hp.1 hf hf fun _ => rfl, sols_congr h p.2 f f hp.2.1 hf hf fun _ => rfl]

private theorem pairFeatures_congr (mls : Nat) (w : Int) (b : Branch) :
    pairFeatures (tcOf P mls w) S b = pairFeatures (tcOf P mls w) (statsOf P D) b := by
  unfold pairFeatures
  refine List.filter_congr fun f hf => ?_
  rw [h.1, h.2.1 f f (Nat.le_refl _) (List.mem_range.1 hf) fun _ => rfl]

private theorem pairStep_congr (mls : Nat) (w : Int) (f1 f2 : Nat) (ch : Children) (h1 : f1 < P.nF)
    (h2 : f2 < P.nF) (ho : one = false) :
    pairStep (tcOf P mls w) S f1 ch f2 = pairStep (tcOf P mls w) (statsOf P D) f1 ch f2 := by
  unfold pairStep
  have e1 : S.counts f1 f2 = (statsOf P D).counts f1 f2 :=
    counts_congr h f1 f2 h1 h2 fun h => by rw [ho] at h; simp at h
  have e2 : ∀ k, k < P.nL → S.sols k f1 f2 = (statsOf P D).sols k f1 f2 := fun k hk =>
    sols_congr h k f1 f2 hk h1 h2 fun h => by rw [ho] at h; simp at h
  rw [e1]
  have eb : ∀ g (v v' : Nat × Nat → Int) cur, (∀ p ∈ labelPairs P.nL, v p = v' p) →
      bestChild (tcOf P mls w) g v cur = bestChild (tcOf P mls w) g v' cur := by
    intro g v v' cur hv
    unfold bestChild
    exact foldl_congr' _ _ _ _ fun r p hp => by rw [hv p hp]
  have hl : ∀ p ∈ labelPairs P.nL, S.sols p.1 f1 f2 = (statsOf P D).sols p.1 f1 f2 ∧
      S.sols p.2 f1 f2 = (statsOf P D).sols p.2 f1 f2 := fun p hp =>
    ⟨e2 _ (mem_labelPairs.1 (show (p.1, p.2) ∈ _ from hp)).1, e2 _ (mem_labelPairs.1 (show (p.1, p.2) ∈ _ from hp)).2.1⟩
  simp only
  rw [eb f2 (fun p => (S.sols p.1 f1 f2).v00 + (S.sols p.2 f1 f2).v01)
        (fun p => ((statsOf P D).sols p.1 f1 f2).v00 + ((statsOf P D).sols p.2 f1 f2).v01) _
        (fun p hp => by rw [(hl p hp).1, (hl p hp).2]),
      eb f2 (fun p => (S.sols p.1 f1 f2).v10 + (S.sols p.2 f1 f2).v11)
        (fun p => ((statsOf P D).sols p.1 f1 f2).v10 + ((statsOf P D).sols p.2 f1 f2).v11) _
        (fun p hp => by rw [(hl p hp).1, (hl p hp).2]),
      eb f1 (fun p => (S.sols p.1 f1 f2).v00 + (S.sols p.2 f1 f2).v10)
        (fun p => ((statsOf P D).sols p.1 f1 f2).v00 + ((statsOf P D).sols p.2 f1 f2).v10) _
        (fun p hp => by rw [(hl p hp).1, (hl p hp).2]),
      eb f1 (fun p => (S.sols p.1 f1 f2).v01 + (S.sols p.2 f1 f2).v11)
        (fun p => ((statsOf P D).sols p.1 f1 f2).v01 + ((statsOf P D).sols p.2 f1 f2).v11) _
        (fun p hp => by rw [(hl p hp).1, (hl p hp).2])]

private theorem bestTwo_congr (mls : Nat) (w : Int) (ch : Children) (f : Nat) (cur : Node) (hf : f < P.nF) :
    bestTwo (tcOf P mls w) S ch f cur = bestTwo (tcOf P mls w) (statsOf P D) ch f cur := by
  unfold bestTwo
  have eb : ∀ n (v v' : Nat → Int), (∀ k, k < P.nL → v k = v' k) →
      bestLeaf (tcOf P mls w) n v = bestLeaf (tcOf P mls w) n v' := by
    intro n v v' hv
    unfold bestLeaf
    split
    · exact foldl_congr' _ _ _ _ fun r k hk => by rw [hv k (List.mem_range.1 hk)]
    · rfl
  simp only
  rw [counts_congr h f f hf hf fun _ => rfl,
    eb _ (fun k => (S.sols k f f).v00) (fun k => ((statsOf P D).sols k f f).v00) (fun k hk => by rw [sols_congr h k f f hk hf hf fun _ => rfl]),
    eb _ (fun k => (S.sols k f f).v11) (fun k => ((statsOf P D).sols k f f).v11) (fun k hk => by rw [sols_congr h k f f hk hf hf fun _ => rfl])]

private theorem pairLoop_congr (mls : Nat) (w : Int) (ho : one = false) (L : List Nat) (ch : Children)
    (two three : Node) (hL : ∀ f ∈ L, f < P.nF) :
    pairLoop (tcOf P mls w) S L ch two three = pairLoop (tcOf P mls w) (statsOf P D) L ch two three := by
  induction L generalizing ch two three with
  | nil => rfl
  | cons f1 rest ih =>
    unfold pairLoop
    have e : rest.foldl (pairStep (tcOf P mls w) S f1) ch = rest.foldl (pairStep (tcOf P mls w) (statsOf P D) f1) ch :=
      foldl_congr' _ _ _ _ fun c f2 h2 => pairStep_congr h mls w f1 f2 c (hL f1 (List.mem_cons_self ..))
        (hL f2 (List.mem_cons_of_mem _ h2)) ho
    simp only
    rw [e, bestTwo_congr h mls w _ f1 two (hL f1 (List.mem_cons_self ..)), ih _ _ _ fun f hf => hL f (List.mem_cons_of_mem _ hf)]

end

/-- The depth-two solver reads its statistics only where they are maintained: any storage that agrees with
the dataset gives the same results as the statistics computed from scratch. -/
theorem terminal_congr {P : Problem} {D : Data} {S : Stats} {n : Nat} (h : Agrees P (n == 1) D S)
    (mls : Nat) (w : Int) (b : Branch) :
    terminal (tcOf P mls w) S b n = terminal (tcOf P mls w) (statsOf P D) b n := by
  unfold terminal
  rw [h.1, oneNode_congr h]
  split
  · rfl
  · simp only
    split
    · rfl
    · rename_i hn
      split
      · rfl
      · rw [pairFeatures_congr h, pairLoop_congr h mls w (by simpa using hn) _ _ _ _ fun f hf =>
          ((mem_pairFeatures ..).1 hf).1]

/-- The results of the depth-two solver called for dataset `D` after an arbitrary history of calls on views
of the same training data. -/
def terminalAfter (P : Problem) (mls : Nat) (w : Int) (zeroTrue : Bool) (hist : List (Data × Nat)) (D : Data)
    (b : Branch) (n : Nat) : TResults :=
  terminal (tcOf P mls w) ((runCalc P zeroTrue (hist ++ [(D, n)]) Calc.init).S.stats P.nF) b n

/-- What the depth-two solver is used on: views of one training set, with labels in range, and zero cost
for the true label if the task promises it. -/
structure TermInput (P : Problem) (zeroTrue : Bool) (T : Data) (hist : List (Data × Nat)) (D : Data) : Prop where
  labels : 0 < P.nL
  sorted : IdSorted T
  inRange : ∀ i ∈ T, i.label < P.nL
  zero : zeroTrue = true → ∀ i ∈ T, P.cost i i.label = 0
  views : ∀ x ∈ hist, ViewOf T x.1
  view : ViewOf T D

theorem terminalAfter_eq {P : Problem} {zeroTrue : Bool} {T : Data} {hist : List (Data × Nat)} {D : Data}
    (h : TermInput P zeroTrue T hist D) (mls : Nat) (w : Int) (b : Branch) (n : Nat) :
    terminalAfter P mls w zeroTrue hist D b n = terminal (tcOf P mls w) (statsOf P D) b n :=
  terminal_congr (incremental_exact P zeroTrue T hist D n h.labels h.sorted h.inRange h.zero h.views h.view) mls w b

/-- C17, one node: the cheapest tree of depth at most one, for every minimum leaf size. -/
theorem depth_one_optimal {P : Problem} {zeroTrue : Bool} {T : Data} {hist : List (Data × Nat)} {D : Data}
    (h : TermInput P zeroTrue T hist D) (mls : Nat) (w : Int) (b : Branch) (n : Nat) (hbc : 0 ≤ P.bc)
    (hm : mls ≤ D.length) (hw : ∀ t, Allowed P mls 1 1 D t → t.cost P D < w) :
    IsOpt P mls 1 1 D (terminalAfter P mls w zeroTrue hist D b n).one.sol := by
  rw [terminalAfter_eq h]
  have e : (terminal (tcOf P mls w) (statsOf P D) b n).one = oneNode (tcOf P mls w) (statsOf P D) := by
    unfold terminal
    rw [if_neg (by simp only [statsOf, tcOf]; omega)]
    simp only
    split
    · rfl
    · split <;> rfl
  rw [e]
  have hle := oneNode_le P mls w D hbc
  have h0 : Allowed P mls 1 1 D (.leaf 0) := ⟨Nat.zero_le _, Nat.zero_le _, h.labels, hm⟩
  have hr := (oneNode_sound P mls w D hm).real_lt (Int.lt_of_le_of_lt (hle (.leaf 0) h0.1 h0.2.2) (hw _ h0))
  exact ⟨hr.1.attained hr.2, fun t ht => hle t ht.1 ht.2.2⟩

/-- C17, three nodes, leaf size one: the cheapest tree of depth at most two. Partial: for larger leaf sizes and
for the two-node result the claim is false (`three_not_optimal`, `two_not_optimal`). -/
theorem depth_two_optimal_partial {P : Problem} {zeroTrue : Bool} {T : Data} {hist : List (Data × Nat)} {D : Data}
    (h : TermInput P zeroTrue T hist D) (w : Int) (b : Branch) (n : Nat) (hn : n ≠ 1) (hbc : 0 ≤ P.bc)
    (hD : D ≠ []) (hb : PathOK D b) (hc : ∀ i ∈ D, ∀ k, 0 ≤ P.cost i k)
    (hw : ∀ t, Allowed P 1 2 3 D t → t.cost P D < w) :
    IsOpt P 1 2 3 D (terminalAfter P 1 w zeroTrue hist D b n).three.sol := by
  rw [terminalAfter_eq h]
  have hlen : 1 ≤ D.length := List.length_pos_iff.2 hD
  have hle : ∀ t, Allowed P 1 2 3 D t → (terminal (tcOf P 1 w) (statsOf P D) b n).three.sol ≤ t.cost P D :=
    fun t ht => terminal_three_le P w D b n hn hb hbc hc t ht.1 ht.2.2 (hw t ht)
  have h0 : Allowed P 1 2 3 D (.leaf 0) := ⟨Nat.zero_le _, Nat.zero_le _, h.labels, hlen⟩
  have hr := (terminal_sound P 1 w D b n).2.2.real_lt (Int.lt_of_le_of_lt (hle _ h0) (hw _ h0))
  exact ⟨hr.1.attained hr.2, hle⟩

/-- C17, all results, any leaf size: what is reported is the cost of a legal tree within the limits. -/
theorem depth_two_attained {P : Problem} {zeroTrue : Bool} {T : Data} {hist : List (Data × Nat)} {D : Data}
    (h : TermInput P zeroTrue T hist D) (mls : Nat) (w : Int) (b : Branch) (n : Nat) :
    let r := terminalAfter P mls w zeroTrue hist D b n
    (r.one.isEmpty = false → Attained P mls 1 1 D r.one.sol) ∧
    (r.two.isEmpty = false → Attained P mls 2 2 D r.two.sol) ∧
    (r.three.isEmpty = false → Attained P mls 2 3 D r.three.sol) := by
  simp only
  rw [terminalAfter_eq h]
  obtain ⟨h1, h2, h3⟩ := terminal_sound P mls w D b n
  exact ⟨fun e => (h1.real e).1.attained (h1.real e).2, fun e => (h2.real e).1.attained (h2.real e).2,
    fun e => (h3.real e).1.attained (h3.real e).2⟩

/-! ### Witnesses -/

/-- Four instances over three features for the two-node witness. -/
def twoData : Data := [exInst 0 6 1, exInst 1 4 0, exInst 2 7 1, exInst 3 3 0]

/-- The claim of C17 for two nodes. -/
def TwoOptimal : Prop := ∀ (P : Problem) (D : Data) (w : Int), D ≠ [] → 0 < P.nL → P.bc = 0 →
  (∀ i ∈ D, i.label < P.nL) → IdSorted D → (∀ i ∈ D, ∀ k, 0 ≤ P.cost i k) →
  (∀ t, Allowed P 1 2 3 D t → t.cost P D < w) →
  LowerBound P 1 2 2 D (terminalAfter P 1 w true [] D [] 3).two.sol

/-- The claim of C17 for three nodes and every leaf size. -/
def ThreeOptimal : Prop := ∀ (P : Problem) (D : Data) (mls : Nat) (w : Int), mls ≤ D.length → 0 < P.nL → P.bc = 0 →
  (∀ i ∈ D, i.label < P.nL) → IdSorted D → (∀ i ∈ D, ∀ k, 0 ≤ P.cost i k) →
  (∀ t, Allowed P mls 2 3 D t → t.cost P D < w) →
  LowerBound P mls 2 3 D (terminalAfter P mls w true [] D [] 3).three.sol

theorem accuracy_lt (nF nL : Nat) (D : Data) (t : Tree) (w : Int) (h : (D.length : Int) < w) :
    t.cost (accuracy nF nL) D < w := by
  rw [Tree.cost_eq_sum _ rfl]
  have : (D.map fun i => (accuracy nF nL).cost i (t.predict i)).sum ≤ (D.map fun _ => (1 : Int)).sum :=
    sum_map_le _ _ _ fun i _ => by simp only [accuracy]; split <;> decide
  have e : (D.map fun _ => (1 : Int)).sum = D.length := by
    clear this h; induction D with
    | nil => rfl
    | cons i D ih => simp only [List.map_cons, List.sum_cons, ih, List.length_cons]; omega
  omega

theorem accuracy_nonneg (nF nL : Nat) (D : Data) : ∀ i ∈ D, ∀ k, 0 ≤ (accuracy nF nL).cost i k := by
  intro i _ k; simp only [accuracy]; split <;> decide

/-- The two-node result is not always optimal: the pair loop stops when a three-node tree with cost zero is
found, before the remaining two-node trees are tried. -/
theorem two_not_optimal : ¬ TwoOptimal := by
  intro h
  have := h (accuracy 3 2) twoData 100 (by simp [twoData]) (by decide) rfl
    (by simp [twoData, exInst, accuracy]) (by simp [twoData, exInst, IdSorted]) (accuracy_nonneg _ _ _)
    (fun t _ => accuracy_lt _ _ _ _ _ (by simp [twoData]))
    (.node 1 (.leaf 0) (.node 2 (.leaf 0) (.leaf 1))) (by decide)
  revert this
  decide

/-- Six instances over two features for the leaf-size witness. -/
def leafData : Data := [exInst 0 0 0, exInst 1 0 0, exInst 2 2 1, exInst 3 2 1, exInst 4 1 0, exInst 5 3 0]

/-- With leaf size two the three-node result is not always optimal: the filter before the pair loop drops
features that are needed as second test. -/
theorem three_not_optimal : ¬ ThreeOptimal := by
  intro h
  have := h (accuracy 2 2) leafData 2 100 (by simp [leafData]) (by decide) rfl
    (by simp [leafData, exInst, accuracy]) (by simp [leafData, exInst, IdSorted]) (accuracy_nonneg _ _ _)
    (fun t _ => accuracy_lt _ _ _ _ _ (by simp [leafData]))
    (.node 0 (.node 1 (.leaf 0) (.leaf 1)) (.leaf 0)) (by decide)
  revert this
  decide

example : TermInput (accuracy 2 2) true exT [(exT, 3)] exD ∧ PathOK exD [code 0 true] → False := by
  intro ⟨_, h⟩
  rcases h 0 (by decide) with h | h <;> revert h <;> decide

/-- The hypotheses are met by a two-step history. -/
example : TermInput (accuracy 2 2) true exT [(exT, 3)] exD ∧ PathOK exD [code 1 true] ∧ exD ≠ [] ∧
    (terminalAfter (accuracy 2 2) 1 100 true [(exT, 3)] exD [code 1 true] 3).three.sol = 1 := by
  refine ⟨⟨by decide, by simp [exT, exInst, IdSorted], by simp [exT, exInst, accuracy], ?_, ?_, ?_⟩, ?_, by simp [exD], by decide⟩
  · intro _; simp [exT, exInst, accuracy]
  · intro x hx; rw [List.mem_singleton.1 hx]; exact List.Sublist.refl _
  · exact List.Sublist.cons_cons _ (List.Sublist.cons _ (List.Sublist.refl _))
  · intro f hf
    have : f = 1 := by simp [Branch.has, code] at hf; omega
    subst this
    left; rfl

end Streed
