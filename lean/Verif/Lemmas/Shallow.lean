import Verif.Lemmas.Penalised

/-!
Searches of depth at most two on a fresh solver. They consist of one call of the depth-two solver, possibly cut off by
a lower bound, so that nothing stored earlier is used.
-/

namespace Streed

/-- The same configuration without lower bounds and without the similarity bound. -/
abbrev Cfg.noLB (c : Cfg) : Cfg := { c with useLB := false, simLB := false }

theorem leafLoop_noLB (c : Cfg) (D : Data) (ks : List Nat) (r UB : Node) :
    leafLoop c.noLB D ks r UB = leafLoop c D ks r UB := by
  induction ks generalizing r UB with
  | nil => rfl
  | cons k ks ih =>
    unfold leafLoop
    dsimp only
    split
    · rw [ih]
    · rw [ih]; rfl

theorem solveLeaf_noLB (c : Cfg) (D : Data) (UB : Node) : solveLeaf c.noLB D UB = solveLeaf c D UB := by
  unfold solveLeaf
  split
  · rfl
  · exact leafLoop_noLB c D _ _ UB

/-- Nothing has been stored. -/
structure Fresh (s : St) : Prop where
  cache : s.cache = Cache.init
  arch : s.arch = []
  mdf : s.mdf = 0

theorem Fresh.next {s : St} (h : Fresh s) : Fresh s.next := ⟨h.cache, h.arch, h.mdf⟩

theorem Fresh.ok {c : Cfg} {T : Data} {s : St} (h : Fresh s) : StOK c T s :=
  ⟨by rw [h.cache]; exact CInv.init c T _, fun d p hp => by rw [h.arch] at hp; simp [Tbl.get] at hp⟩

/-- The state with everything but the clock forgotten. -/
def St.forget (s : St) : St := { St.init with tick := s.tick }

theorem St.forget_fresh (s : St) : Fresh s.forget := ⟨rfl, rfl, rfl⟩

theorem Post.forget {c : Cfg} {T D : Data} {UB : Node} {d n : Nat} {s s' : St} {v : Node} (h : Post c T D UB d n s (v, s')) :
    Post c T D UB d n s (v, s'.forget) :=
  ⟨h.tick, fun _ => s'.forget_fresh.ok, h.real, h.emp, h.low, h.inf⟩

theorem fresh_retrieveOpt (cc : CacheCfg) (D : Data) (b : Branch) (d n : Nat) :
    (Cache.init.retrieveOpt cc D b d n).isEmpty = true := by
  cases cc; rename_i x y z w
  cases x <;> cases y <;> simp [Cache.retrieveOpt, Cache.init, Store.find, retrieveOptEntries, Node.empty, Node.isEmpty]

theorem fresh_isOptCached (cc : CacheCfg) (D : Data) (b : Branch) (d n : Nat) :
    Cache.init.isOptCached cc D b d n = false := by
  cases cc; rename_i x y z w
  cases x <;> cases y <;> simp [Cache.isOptCached, Cache.init, Store.find, isOptEntries]

theorem fresh_retrieveLB (cc : CacheCfg) (D : Data) (b : Branch) (d n : Nat) :
    (Cache.init.retrieveLB cc D b d n).sol = 0 := by
  cases cc; rename_i x y z w
  cases x <;> cases y <;> cases z <;>
    simp [Cache.retrieveLB, Cache.init, Store.find, retrieveLBEntries, Node.value, Node.isEmpty]

theorem fresh_similarity (c : Cfg) {s : St} (h : Fresh s) (D : Data) (b : Branch) (d n : Nat) :
    useSimilarity c s D b d n = (false, s) := by
  unfold useSimilarity
  split
  · rfl
  · have := h.arch
    cases s
    dsimp only at this
    subst this
    rfl

theorem solveTerminal_tick (c : Cfg) (D : Data) (b : Branch) (UB : Node) (d n : Nat) (s : St) :
    (solveTerminal c D b UB d n s).2.tick = s.tick := by
  unfold solveTerminal updateArchive
  dsimp only
  split <;> rfl

theorem solveTerminal_noLB (c : Cfg) (D : Data) (b : Branch) (UB : Node) (d n : Nat) (s : St) :
    ((solveTerminal c.noLB D b UB d n s).1, (solveTerminal c.noLB D b UB d n s).2.forget) =
    ((solveTerminal c D b UB d n s).1, (solveTerminal c D b UB d n s).2.forget) := by
  unfold St.forget
  rw [solveTerminal_tick, solveTerminal_tick]
  rfl

theorem fresh_lowerCached (c : Cfg) {s : St} (h : Fresh s) (D : Data) (b : Branch) (n l : Nat) :
    lowerCached c s D b n l = none := by
  induction l with
  | zero => rfl
  | succ l ih => unfold lowerCached; dsimp only; rw [h.cache, fresh_isOptCached]; simpa using ih

theorem depthRuns_one (c : Cfg) (t : Top) (D : Data) (d : Nat) (r : Run) :
    depthRuns c t D [d] r = { depthRun c t D r d with st := (depthRun c t D r d).st.next } := by
  unfold depthRuns
  dsimp only
  split <;> rfl

theorem sizeRuns_one (c : Cfg) (t : Top) (D : Data) (n : Nat) (r : Run) :
    sizeRuns c t D [n] r = if c.ok r.st = false then { r with st := r.st.next }
      else { sizeRun c t D { r with st := r.st.next } n with st := (sizeRun c t D { r with st := r.st.next } n).st.next } := by
  unfold sizeRuns
  dsimp only
  split
  · rfl
  · split <;> rfl

section
variable {c : Cfg} {T : Data} (G : Good c.noLB T)
include G

/-- The best leaf found without an upper bound. -/
theorem shallow_leaf (hm : c.mls ≤ T.length) :
    (solveLeaf c T (Node.empty c.worst)).1.isEmpty = false ∧
    Real c.P c.mls 0 T (solveLeaf c T (Node.empty c.worst)).1 ∧
    ∀ k, k < c.P.nL → (solveLeaf c T (Node.empty c.worst)).1.sol ≤ leafCost c.P T k := by
  have hv := List.Sublist.refl T
  obtain ⟨l1, l2⟩ := solveLeaf_spec G hv hm (Node.empty c.worst)
  rw [solveLeaf_noLB] at l1 l2
  have hne : (solveLeaf c T (Node.empty c.worst)).1.isEmpty = false := by
    cases he : (solveLeaf c T (Node.empty c.worst)).1.isEmpty with
    | false => rfl
    | true =>
      have h3 := ((l1 he).2.2 0 G.labels).2
      have h4 : leafCost c.P T 0 < c.worst := G.small T hv (.leaf 0) ⟨G.labels, hm⟩
      simp only [Node.empty] at h3; omega
  exact ⟨hne, (l2 hne).1, fun k hk => (l2 hne).2.2 k hk⟩

theorem shallow_lb (hm : c.mls ≤ T.length)
    (hcust : ∀ f l r, (Tree.node f l r).Legal c.P c.mls T → c.P.bc + c.customLB T ≤ (Tree.node f l r).cost c.P T)
    {s : St} (h : Fresh s) (d n : Nat) (t : Tree) (ht : t.Legal c.P c.mls T) : (computeLB c s T [] d n).sol ≤ t.cost c.P T := by
  have hv := List.Sublist.refl T
  have h0 : 0 ≤ t.cost c.P T := Tree.cost_nonneg c.P t T (fun i hi => G.nonneg i hi) G.bc
  have h1 : c.customLB T ≤ t.cost c.P T := G.custom T hv t ht
  have h2 : (Node.addMax (Node.addMax (Node.value 0) (s.cache.retrieveLB c.cc T [] d n)) (Node.value (c.customLB T))).sol ≤
      t.cost c.P T := by
    rcases addMax_cases (Node.addMax (Node.value 0) (s.cache.retrieveLB c.cc T [] d n)) (Node.value (c.customLB T))
      with e | e <;> rw [e]
    · rcases addMax_cases (Node.value 0) (s.cache.retrieveLB c.cc T [] d n) with e | e <;> rw [e]
      · exact h0
      · rw [h.cache, fresh_retrieveLB]; exact h0
    · exact h1
  obtain ⟨_, _, hl⟩ := shallow_leaf G hm
  unfold computeLB
  split
  · dsimp only
    split
    · unfold sparseLB
      rw [fresh_lowerCached c h, h.mdf]
      dsimp only
      generalize (solveLeaf c T (Node.empty c.worst)).1 = lf at *
      generalize Node.addMax (Node.addMax (Node.value 0) (s.cache.retrieveLB c.cc T [] d n)) (Node.value (c.customLB T)) = x at *
      have e1 : (max (0 : Int) (0 - (([] : Branch).length : Int)) + 1) * c.P.bc = c.P.bc := by simp
      rw [e1]
      split
      · rename_i hle
        rcases addMax_cases x lf with e | e <;> rw [e]
        · exact h2
        · cases t with
          | leaf k => exact hl k ht.1
          | node f l r => have := hcust f l r ht; omega
      · rename_i hle
        rcases addMax_cases x ⟨some 0, none, c.P.bc + c.customLB T, lf.nl, lf.nr⟩ with e | e <;> rw [e]
        · exact h2
        · cases t with
          | leaf k => have : lf.sol ≤ (Tree.leaf k).cost c.P T := hl k ht.1
                      dsimp only; omega
          | node f l r => exact hcust f l r ht
    · exact h2
  · exact h0

/-- One call of the search, with lower bounds on or off. -/
theorem shallow_budget (ht : c.useTerm = true) (hm : c.mls ≤ T.length)
    (hcust : ∀ f l r, (Tree.node f l r).Legal c.P c.mls T → c.P.bc + c.customLB T ≤ (Tree.node f l r).cost c.P T)
    (rec : Rec) (UB : Node) (d n : Nat) {s : St} (h : Fresh s) (hd : d ≤ 2) (hb : BudOK c d n) :
    Post c.noLB T T UB d n s ((searchBudget c rec T [] UB d n s.next).1, (searchBudget c rec T [] UB d n s.next).2.forget) := by
  have tn : s.tick ≤ s.next.tick := Nat.le_succ _
  have hv := List.Sublist.refl T
  unfold searchBudget
  dsimp only
  split
  · rename_i h0
    have := leaf_post G hv hm UB d n s s.next tn h.next.ok fun t ht => leaf_of_depth_zero (t := t) (by
      have h1 := ht.1
      have h2 := ht.2.1
      omega)
    rw [solveLeaf_noLB] at this
    exact this.forget
  · rename_i h0
    have go : Post c.noLB T T UB d n s ((solveTerminal c T [] UB d n s.next).1, (solveTerminal c T [] UB d n s.next).2.forget) := by
      rw [← solveTerminal_noLB]
      exact ((solveTerminal_spec (b := []) (UB := UB) G (sel_nil T).symm hm (by omega) hd hb ht h.next.ok).shift tn).forget
    rw [show s.next.cache = Cache.init from h.cache, fresh_retrieveOpt, fresh_similarity c h.next]
    rw [if_pos (show c.useTerm = true ∧ d ≤ 2 from ⟨ht, hd⟩)]
    simp only [Bool.true_eq_false, if_false, Bool.false_eq_true, false_and]
    split
    · have hlb := fun t (ht : Allowed c.P c.mls d n T t) => shallow_lb G hm hcust h.next d n t ht.2.2
      split
      · rename_i hc
        exact ⟨tn, fun _ => (St.forget_fresh _).ok, fun h => by simp [Node.empty, Node.isEmpty] at h, fun _ => rfl,
          fun _ h => by simp [Node.empty, Node.isEmpty] at h,
          fun hH _ t ht => ⟨hc.1, by have := hlb t ht; show UB.sol < t.cost c.P T; omega⟩⟩
      · split
        · rename_i heq
          obtain ⟨hne, hre, _⟩ := shallow_leaf G hm
          refine ⟨tn, fun _ => (St.forget_fresh _).ok, fun _ => ⟨hre.mono (Nat.zero_le _), ?_⟩, fun h => ?_, fun hH _ t ht => ?_, fun _ h => ?_⟩
          · dsimp only; rw [hre.numNodes_zero]; exact Nat.zero_le _
          · dsimp only at h; rw [hne] at h; simp at h
          · have := hlb t ht
            left; show (solveLeaf c T (Node.empty c.worst)).1.sol ≤ t.cost c.P T; omega
          · dsimp only at h; rw [hne] at h; simp at h
        · exact go
    · exact go

theorem shallow_post (ht : c.useTerm = true) (hm : c.mls ≤ T.length)
    (hcust : ∀ f l r, (Tree.node f l r).Legal c.P c.mls T → c.P.bc + c.customLB T ≤ (Tree.node f l r).cost c.P T)
    (fuel : Nat) (UB : Node) (d n : Nat) {s : St} (h : Fresh s) (hd : d ≤ 2) (hb : BudOK c d n) (hp : n + 1 ≤ 2 ^ d) :
    Post c.noLB T T UB d n s ((solveSub c fuel T [] UB d n s).1, (solveSub c fuel T [] UB d n s).2.forget) := by
  have hv := List.Sublist.refl T
  obtain ⟨rec, hrec⟩ : ∃ rec, solveSub c fuel = subTree c rec := by
    cases fuel <;> exact ⟨_, rfl⟩
  rw [hrec]
  unfold subTree
  split
  · rename_i hok
    have hno : ¬ AllOK c.noLB (s.tick + 1) := not_AllOK_next (c := c.noLB) hok
    exact ⟨Nat.le_succ _, fun _ => (St.forget_fresh _).ok, fun h => by simp [Node.empty, Node.isEmpty] at h, fun _ => rfl,
      fun h => absurd h hno, fun h => absurd h hno⟩
  · obtain ⟨r1, r2, r3, r4, r5⟩ := reduceBudget_bud (UB := UB) hp hb
    have hpost := shallow_budget G ht hm hcust rec UB (reduceBudget c UB d n).1 (reduceBudget c UB d n).2 h (by omega) r4
    change Post c.noLB T T UB d n s ((searchBudget c rec T [] UB (reduceBudget c UB d n).1 (reduceBudget c UB d n).2 s.next).1,
      (searchBudget c rec T [] UB (reduceBudget c UB d n).1 (reduceBudget c UB d n).2 s.next).2.forget)
    cases hsp : c.sparse with
    | false =>
      have e := r5 hsp
      rw [e] at hpost ⊢; exact hpost
    | true =>
      obtain ⟨_, g2⟩ := G.sparse hsp
      refine hpost.widen r1 r2 (fun _ => (St.forget_fresh _).ok) (fun _ => ⟨hsp, g2⟩) ?_
      intro t ht hno
      by_contra hle
      have hle : ¬ UB.sol < t.cost c.P T := hle
      have := reduceBudget_keeps c UB d n T (fun i hi => G.nonneg i (hv.subset hi)) t ht.1 ht.2.1 (by omega)
      exact hno ⟨this.1, this.2, ht.2.2⟩

/-- `Solve` with a depth of at most two. -/
theorem solve_shallow (t : Top) (ht : c.useTerm = true) (hm : c.mls ≤ T.length) (hclk : Monotone c.clock)
    (hcust : ∀ f l r, (Tree.node f l r).Legal c.P c.mls T → c.P.bc + c.customLB T ≤ (Tree.node f l r).cost c.P T)
    (hd : t.maxDepth ≤ 2) (hn : t.maxNodes + 1 = 2 ^ t.maxDepth) (ha : t.allTrees = false) :
    RunOK c.noLB t T (solve c t T).1 ∧
    ((solve c t T).2 = true → Settled c.noLB t T t.maxDepth t.maxNodes (solve c t T).1.result) := by
  have h0 := start_ok G t hm t.maxDepth { St.init with mdf := 0 }
  rw [solveLeaf_noLB] at h0
  change RunOK c.noLB t T ⟨(solveLeaf c T (startUB c t)).1, (solveLeaf c T (startUB c t)).2, _, _⟩ at h0
  have hf : Fresh { St.init with mdf := 0 } := ⟨rfl, rfl, rfl⟩
  have hb : BudOK c t.maxDepth t.maxNodes := .inr (by omega)
  have step := fun (s : St) (hs : Fresh s) => fun b k mdf => run_post G t (r := ⟨(solveLeaf c T (startUB c t)).1, (solveLeaf c T (startUB c t)).2, t.maxDepth, s⟩)
    ⟨h0.real, h0.emp, h0.ubE, h0.ubN⟩ (Nat.le_refl _) (Nat.le_refl _) b k mdf
    (shallow_post G ht hm hcust t.maxDepth (solveLeaf c T (startUB c t)).2 t.maxDepth t.maxNodes hs hd hb (by omega))
  have fin : ∀ (s : St), Fresh s → ∀ (b : Bool) (k : Nat) (mdf : Int) (x : Node × St),
      x = solveSub c t.maxDepth T [] (solveLeaf c T (startUB c t)).2 t.maxDepth t.maxNodes s → ∀ s' : St, x.2.tick ≤ s'.tick →
      RunOK c.noLB t T ⟨Node.addMin (solveLeaf c T (startUB c t)).1 x.1, tighten c b (Node.addMin (solveLeaf c T (startUB c t)).1 x.1)
        (Node.addMin (solveLeaf c T (startUB c t)).2 x.1), k, s'⟩ ∧
      (AllOK c s'.tick → Settled c.noLB t T t.maxDepth t.maxNodes (Node.addMin (solveLeaf c T (startUB c t)).1 x.1)) := by
    intro s hs b k mdf x hx s' hs'
    obtain ⟨g1, _, _, g4, _⟩ := step s hs b k mdf
    rw [← hx] at g1 g4
    exact ⟨⟨g1.real, g1.emp, g1.ubE, g1.ubN⟩, fun hH => g4 (AllOK.mono (c := c.noLB) hH hs')⟩
  have hstart : (if (Node.empty c.worst).isEmpty = true then solveLeaf c T (Node.addMin (Node.empty c.worst) (Node.value t.ub))
      else (Node.empty c.worst, Node.empty c.worst)) = solveLeaf c T (startUB c t) := by
    rw [if_pos (by rfl)]; rfl
  unfold solve solveFrom
  dsimp only
  rw [hstart, ha]
  have deep : ∀ d, t.maxDepth = d → t.maxNodes ≠ 1 → min t.maxDepth t.maxNodes = d → min 2 d = d → min t.maxNodes (2 ^ d - 1) = t.maxNodes →
      RunOK c.noLB t T ((depthRuns c t T [d] ⟨(solveLeaf c T (startUB c t)).1, (solveLeaf c T (startUB c t)).2, t.maxDepth, { St.init with mdf := 0 }⟩)) ∧
      (c.ok (depthRuns c t T [d] ⟨(solveLeaf c T (startUB c t)).1, (solveLeaf c T (startUB c t)).2, t.maxDepth, { St.init with mdf := 0 }⟩).st = true →
        Settled c.noLB t T t.maxDepth t.maxNodes
          (depthRuns c t T [d] ⟨(solveLeaf c T (startUB c t)).1, (solveLeaf c T (startUB c t)).2, t.maxDepth, { St.init with mdf := 0 }⟩).result) := by
    intro d h1 h2 h3 h4 h5
    rw [depthRuns_one]
    unfold depthRun
    dsimp only
    rw [h5]
    obtain ⟨g1, g2⟩ := fin { St.init with mdf := 0 } hf false d d _ (by rw [h1])
      { (solveSub c t.maxDepth T [] (solveLeaf c T (startUB c t)).2 d t.maxNodes { St.init with mdf := 0 }).2 with mdf := d }.next
      (Nat.le_succ _)
    exact ⟨g1, fun hok => g2 ((hclk.allOK hok).mono (Nat.le_succ _))⟩
  have wrap : ∀ r : Run, RunOK c.noLB t T r ∧ (c.ok r.st = true → Settled c.noLB t T t.maxDepth t.maxNodes r.result) →
      RunOK c.noLB t T { r with st := r.st.next } ∧ (c.ok r.st = true → Settled c.noLB t T t.maxDepth t.maxNodes r.result) :=
    fun r h => ⟨⟨h.1.real, h.1.emp, h.1.ubE, h.1.ubN⟩, h.2⟩
  refine wrap _ ?_
  obtain h | h | h : t.maxDepth = 0 ∨ t.maxDepth = 1 ∨ t.maxDepth = 2 := by omega
  · have h' : t.maxNodes = 0 := by rw [h] at hn; omega
    have e : List.range' (min 2 (min t.maxDepth t.maxNodes)) (min t.maxDepth t.maxNodes + 1 - min 2 (min t.maxDepth t.maxNodes)) = [0] := by
      rw [h, h']; rfl
    rw [if_neg (by simp [h']), e]
    exact deep 0 h (by omega) (by omega) (by omega) (by rw [h']; rfl)
  · have h' : t.maxNodes = 1 := by rw [h] at hn; omega
    rw [if_pos (.inr h'), h', show List.range' 1 1 = [1] from rfl, sizeRuns_one]
    split
    · rename_i hno
      refine ⟨⟨h0.real, h0.emp, h0.ubE, h0.ubN⟩, fun hok => ?_⟩
      have := hclk.allOK hok 0 (Nat.succ_pos _)
      dsimp only [Cfg.ok, St.init] at hno
      rw [hno] at this; simp at this
    · unfold sizeRun
      dsimp only
      have e : min t.maxDepth 1 = t.maxDepth := by omega
      rw [e]
      obtain ⟨g1, g2⟩ := fin (St.next { St.init with mdf := 0 }) hf.next true t.maxDepth (Nat.log2 (1 + 1)) _ (by rw [h'])
        { (solveSub c t.maxDepth T [] (solveLeaf c T (startUB c t)).2 t.maxDepth 1 (St.next { St.init with mdf := 0 })).2
          with mdf := Nat.log2 (1 + 1) }.next (Nat.le_succ _)
      rw [h'] at g2
      exact ⟨g1, fun hok => g2 ((hclk.allOK hok).mono (Nat.le_succ _))⟩
  · have h' : t.maxNodes = 3 := by rw [h] at hn; omega
    have e : List.range' (min 2 (min t.maxDepth t.maxNodes)) (min t.maxDepth t.maxNodes + 1 - min 2 (min t.maxDepth t.maxNodes)) = [2] := by
      rw [h, h']; rfl
    rw [if_neg (by simp [h']), e]
    exact deep 2 h (by omega) (by omega) (by omega) (by rw [h']; rfl)

end

/-- The outcome of a finished run of depth at most two, with any caches and bounds. -/
theorem fitPenalised_shallow {nF nL e p : Nat} {o : Options} {T S : Data} {t : Top} (h : Input nL T)
    (hT : 1 ≤ T.length) (hS : SortedByFeatures nF (preprocess (penalised nF nL e p) 1 T) S)
    (hN : (e + p) * T.length < e * int32Max) (ho : ∀ D f, f ∈ o.order D ↔ f < nF) (hclk : Monotone o.clock)
    (hterm : o.useTerm = true) (hub : o.useUB = true) (hd : t.maxDepth ≤ 2) (hn : t.maxNodes + 1 = 2 ^ t.maxDepth)
    (ha : t.allTrees = false) (htub : ((e * int32Max : Nat) : Int) ≤ t.ub)
    (hopt : (fitPenalised nF nL e p 1 o t T S).2 = true) :
    (fitPenalised nF nL e p 1 o t T S).1.result.isEmpty = false ∧
    IsOpt (penalised nF nL e p) 1 t.maxDepth t.maxNodes T (fitPenalised nF nL e p 1 o t T S).1.result.sol := by
  have hlen : ((assignGroups nF S).map (·.inst)).length = T.length := by
    rw [(assignGroups_rows nF S).length, hS.sameRows.length, preprocess_length]
  have G := ccaCfg_good (o := { o with useLB := false, simLB := false }) h (Nat.le_refl 1) hS hN ho (fun _ => rfl) (fun _ => rfl) rfl hub
  obtain ⟨h1, h2⟩ := solve_shallow (c := ccaCfg nF nL e p 1 o (isRedundant (penalised nF nL e p) 1 T) (assignGroups nF S)) G t hterm
    (by rw [hlen]; exact hT) hclk (fun f l r hx => by
      have h1 := ccaLB_le (S := S) (e := e) (List.Sublist.refl _) (Tree.node f l r) (legal_over_pen hx)
      have h2 := penalised_cost nF nL e p (.node f l r) ((assignGroups nF S).map (·.inst))
      have h3 : (p : Int) ≤ p * (Tree.node f l r).nodes := by
        have h4 : p * 1 ≤ p * (Tree.node f l r).nodes := Nat.mul_le_mul_left _ (by simp only [Tree.nodes]; omega)
        rw [Nat.mul_one] at h4
        exact_mod_cast h4
      show (p : Int) + ccaLB nL e (assignGroups nF S) _ ≤ (Tree.node f l r).cost (penalised nF nL e p) _
      omega) hd hn ha
  exact penalised_back h (Nat.le_refl 1) hT hS hN htub h1.real (h2 hopt)

end Streed
