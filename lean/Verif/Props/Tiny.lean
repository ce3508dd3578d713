import Verif.Model.Tiny
import Verif.Props.Within
import Verif.Props.Counts
import Verif.Props.PolicyFit

/-!
# C80: only the proportions of costs matter

Multiplying all costs by a positive number should not change the answer. The depth-two solver, however, skips costs of at most
`1e-6`.
-/

namespace Streed

/-! ### The statistics -/

theorem updateInstZ_eq (z : Int → Bool) (hz : ∀ c, z (-c) = z c) (h0 : z 0 = true) (P : Problem) (zeroTrue one : Bool) {mult : Int}
    (hm : mult = 1 ∨ mult = -1) (org : Nat) (i : Inst) (S : Storage) :
    updateInstZ z P zeroTrue one mult org i S = updateInst (dropTiny z P) zeroTrue one mult org i S := by
  unfold updateInstZ updateInst
  dsimp only [dropTiny]
  congr 1
  funext S l
  have e : z (mult * P.cost i l) = z (P.cost i l) := by
    rcases hm with rfl | rfl
    · rw [one_mul]
    · rw [neg_one_mul, hz]
  rw [e]
  cases hc : z (P.cost i l) with
  | true =>
    simp only [if_true, mul_zero]
    rfl
  | false =>
    have hne : mult * P.cost i l ≠ 0 := by
      intro h
      have : P.cost i l = 0 := by rcases hm with rfl | rfl <;> omega
      rw [this, h0] at hc
      simp at hc
    simp only [Bool.false_eq_true, if_false, if_neg hne]

theorem updateCostsZ_eq (z : Int → Bool) (hz : ∀ c, z (-c) = z c) (h0 : z 0 = true) (P : Problem) (zeroTrue one : Bool) {mult : Int}
    (hm : mult = 1 ∨ mult = -1) (D : Data) (S : Storage) :
    updateCostsZ z P zeroTrue one mult D S = updateCosts (dropTiny z P) zeroTrue one mult D S := by
  unfold updateCostsZ updateCosts
  simp only [updateInstZ_eq z hz h0 P zeroTrue one hm]
  rfl

theorem initializeZ_eq (z : Int → Bool) (hz : ∀ c, z (-c) = z c) (h0 : z 0 = true) (P : Problem) (zeroTrue : Bool) (c : Calc) (D : Data)
    (n : Nat) : c.initializeZ z P zeroTrue D n = c.initialize (dropTiny z P) zeroTrue D n := by
  unfold Calc.initializeZ Calc.initialize
  simp only [updateCostsZ_eq z hz h0 P zeroTrue _ (.inl rfl), updateCostsZ_eq z hz h0 P zeroTrue _ (.inr rfl)]
  rfl

/-- A history of calls of the depth-two solver with the test of the task. -/
def runCalcZ (z : Int → Bool) (P : Problem) (zeroTrue : Bool) : List (Data × Nat) → Calc → Calc
  | [], c => c
  | (D, n) :: hist, c => runCalcZ z P zeroTrue hist (c.initializeZ z P zeroTrue D n).1

/-- **C80**, statistics: after any history of calls on views of one training set, what the depth-two solver reads are the sums of the costs
that pass the test of the task, and nothing of the others. -/
theorem tiny_statistics (z : Int → Bool) (hz : ∀ c, z (-c) = z c) (h0 : z 0 = true) (P : Problem) (T : Data)
    (hist : List (Data × Nat)) (D : Data) (n : Nat) (hL : 0 < P.nL) (hT : IdSorted T) (hl : ∀ i ∈ T, i.label < P.nL)
    (hh : ∀ x ∈ hist, ViewOf T x.1) (hD : ViewOf T D) :
    Agrees (dropTiny z P) (n == 1) D ((runCalcZ z P false (hist ++ [(D, n)]) Calc.init).S.stats P.nF) := by
  have e : ∀ h c, runCalcZ z P false h c = runCalc (dropTiny z P) false h c := by
    intro h
    induction h with
    | nil => intro c; rfl
    | cons x h ih =>
      intro c
      rw [runCalcZ, initializeZ_eq z hz h0, ih]
      rfl
  rw [e]
  exact incremental_exact (dropTiny z P) false T hist D n hL hT hl (fun h => by simp at h) hh hD

theorem tiny_neg (u : Nat) (c : Int) : tiny u (-c) = tiny u c := by simp [tiny]

theorem tiny_zero (u : Nat) : tiny u 0 = true := by simp [tiny]

/-! ### One call of the depth-two solver -/

theorem retrieveOpt_init (c : CacheCfg) (D : Data) (b : Branch) (d n : Nat) : Cache.init.retrieveOpt c D b d n = Node.empty c.worst := by
  have h1 : retrieveOptEntries c.worst ((Cache.init.br.find b).getD []) d n = Node.empty c.worst := rfl
  have h2 : retrieveOptEntries c.worst ((Cache.init.ds.find (dataKey D)).getD []) d n = Node.empty c.worst := rfl
  unfold Cache.retrieveOpt
  rw [h1, h2]
  cases c.useBr <;> cases c.useDs <;> rfl

theorem retrieveLB_init (c : CacheCfg) (D : Data) (b : Branch) (d n : Nat) : Cache.init.retrieveLB c D b d n = Node.value 0 := by
  have h1 : retrieveLBEntries ((Cache.init.br.find b).getD []) d n = Node.value 0 := rfl
  have h2 : retrieveLBEntries ((Cache.init.ds.find (dataKey D)).getD []) d n = Node.value 0 := rfl
  unfold Cache.retrieveLB
  rw [h1, h2]
  cases c.useLB <;> cases c.useBr <;> cases c.useDs <;> rfl

/-- The search below the root, the first time that it is called. -/
theorem subTree_first {c : Cfg} (rec : Rec) (D : Data) (UB : Node) {d n : Nat} (hd : 1 ≤ d) (hd2 : d ≤ 2) (hn : 1 ≤ n) {s : St}
    (hc : s.cache = Cache.init) (ha : s.arch = []) (hok : c.ok s = true) (hterm : c.useTerm = true) (hsp : c.sparse = false)
    (hcl : c.customLB D = 0) (hUB : 0 ≤ UB.sol) (hleaf : 0 < (Tol.solveLeaf c D (Node.empty c.worst)).1.sol) :
    (Tol.subTree c rec D [] UB d n s).1 = (Tol.solveTerminal c D [] UB d n s).1 := by
  have hlb : Tol.computeLB c s.next D [] d n = Node.value 0 := by
    unfold Tol.computeLB
    have : s.next.cache = Cache.init := hc
    rw [this, retrieveLB_init, hcl, hsp]
    cases c.useLB <;> rfl
  have hsim : ∀ d n, (Tol.useSimilarity c s.next D [] d n) = (false, s.next) := by
    intro d n
    unfold Tol.useSimilarity
    have h1 : s.next.arch = [] := ha
    cases hs : c.simLB with
    | false => rfl
    | true =>
      rw [if_neg (by simp)]
      have : Tbl.get s.next.arch d [] = [] := by rw [h1]; rfl
      rw [this]
      rfl
  have hre : reduceBudget c UB d n = (d, n) := by unfold reduceBudget; rw [if_pos (.inl hsp)]
  unfold Tol.subTree
  rw [if_neg (by rw [hok]; simp)]
  dsimp only
  rw [hre, if_neg (by omega)]
  have hhit : ∀ d n, s.next.cache.retrieveOpt c.cc D [] d n = Node.empty c.cc.worst := by
    intro d n
    have : s.next.cache = Cache.init := hc
    rw [this]
    exact retrieveOpt_init _ _ _ _ _
  rw [hsim, hlb, hhit]
  have e0 : (Node.empty c.cc.worst).isEmpty = true := rfl
  have e1 : ¬ ((Node.empty c.cc.worst).isEmpty = false) := by rw [e0]; simp
  have hgo : (Tol.solveTerminal c D [] UB d n s.next).1 = (Tol.solveTerminal c D [] UB d n s).1 := rfl
  simp only [if_neg e1, hterm, true_and, if_pos hd2]
  split
  · have h2 : ¬ (c.useUB = true ∧ Tol.sdom UB.sol (Node.value 0).sol) := by
      rintro ⟨_, h⟩
      simp only [Tol.sdom, Node.value] at h
      omega
    have h3 : ¬ Tol.same (Node.value 0).sol (Tol.solveLeaf c D (Node.empty c.worst)).1.sol := by
      rintro ⟨_, h⟩
      simp only [Node.value] at h
      omega
    simp only [Bool.false_eq_true, false_and, if_false, if_neg h2, if_neg h3]
    exact hgo
  · exact hgo

/-- `shallow` with the exact costs is what the search does with at most three nodes, if no single leaf is free. -/
theorem shallow_solve {c : Cfg} {D : Data} {t : Top} (hall : t.allTrees = false) (h1 : 1 ≤ t.maxNodes) (hfit : t.maxNodes + 1 ≤ 2 ^ t.maxDepth)
    (hd : t.maxDepth ≤ 2) (hclk : ∀ k, c.clock k = true) (hterm : c.useTerm = true) (hsp : c.sparse = false) (hcl : c.customLB D = 0)
    (hUB : 0 ≤ (Tol.solveLeaf c D (Node.addMin (Node.empty c.worst) (Node.value t.ub))).2.sol)
    (hleaf : 0 < (Tol.solveLeaf c D (Node.empty c.worst)).1.sol) :
    (Tol.solve c t D).1.result = shallow c c.P t D := by
  have hsub : ∀ (UB : Node) (d n : Nat) (s : St), s.cache = Cache.init → s.arch = [] → 1 ≤ d → d ≤ 2 → 1 ≤ n → 0 ≤ UB.sol →
      (Tol.solveSub c t.maxDepth D [] UB d n s).1 = (Tol.solveTerminal c D [] UB d n s).1 := by
    intro UB d n s hc ha h1 h2 h3 h4
    cases t.maxDepth with
    | zero => exact subTree_first _ D UB h1 h2 h3 hc ha (hclk _) hterm hsp hcl h4 hleaf
    | succ m => exact subTree_first _ D UB h1 h2 h3 hc ha (hclk _) hterm hsp hcl h4 hleaf
  obtain ⟨md, mn, all, ub⟩ := t
  dsimp only at *
  subst hall
  have hok : ∀ s, c.ok s = true := fun s => hclk _
  have hmd : md = 1 ∨ md = 2 := by
    rcases md with _ | _ | _ | md
    · simp at hfit; omega
    · left; rfl
    · right; rfl
    · omega
  unfold Tol.solve Tol.solveFrom shallow
  have he : (Node.empty c.worst).isEmpty = true := rfl
  dsimp only
  rw [if_pos he]
  generalize hst : Tol.solveLeaf c D (Node.addMin (Node.empty c.worst) (Node.value ub)) = start at *
  by_cases hn1 : mn = 1
  · subst hn1
    rw [if_pos (.inr rfl)]
    have hr : List.range' 1 1 = [1] := rfl
    rw [hr]
    simp only [Tol.sizeRuns, hok, Bool.true_eq_false, if_false, Tol.sizeRun]
    rw [hsub _ _ _ _ rfl rfl (by omega) (by omega) (by omega) hUB]
    rfl
  · have hmn : mn = 2 ∨ mn = 3 := by
      rcases hmd with rfl | rfl
      · omega
      · have : mn + 1 ≤ 4 := hfit
        omega
    have hmd2 : md = 2 := by
      rcases hmd with rfl | rfl
      · have : mn + 1 ≤ 2 := hfit
        omega
      · rfl
    subst hmd2
    have hr : List.range' (min 2 (min 2 mn)) (min 2 mn + 1 - min 2 (min 2 mn)) = [2] := by
      rcases hmn with rfl | rfl <;> rfl
    rw [if_neg (by simp [hn1]), hr]
    simp only [Tol.depthRuns, hok, Bool.true_eq_false, if_false, Tol.depthRun]
    have hmin : min mn (2 ^ 2 - 1) = mn := by omega
    rw [hmin, hsub _ _ _ _ rfl rfl (by omega) (by omega) (by omega) hUB]
    rfl

/-- A wrong parity costs three, a right one costs one. -/
def parityCosts2 : Nat → Nat → Nat := fun i k => if (i % 2 + i / 2) % 2 = k then 1 else 3

/-! ### Costs that are skipped -/

theorem foldl_addMin_stay {α : Type} (g : α → Node) (l : List α) (r : Node) (h : ∀ x ∈ l, r.sol ≤ (g x).sol) :
    l.foldl (fun r x => Node.addMin r (g x)) r = r := by
  induction l with
  | nil => rfl
  | cons x l ih =>
    have h1 := h x (by simp)
    rw [List.foldl_cons]
    have : Node.addMin r (g x) = r := by unfold Node.addMin; rw [if_neg (by omega)]
    rw [this]
    exact ih fun y hy => h y (List.mem_cons_of_mem _ hy)

theorem leafCost_zero {P : Problem} {D : Data} {k : Nat} (h : ∀ i ∈ D, P.cost i k = 0) : leafCost P D k = 0 := by
  unfold leafCost
  rw [List.map_congr_left h]
  simp

theorem oneNode_zero {c : TCfg} {P : Problem} {D : Data} (hL : 0 < c.nL) (hw : 0 < c.worst) (hb : 0 ≤ c.bc)
    (h : ∀ i ∈ D, ∀ k < c.nL, P.cost i k = 0) : oneNode c (statsOf P D) = Node.leaf 0 0 := by
  have h0 : ∀ k < c.nL, (statsOf P D).ctot k = 0 := fun k hk => leafCost_zero fun i hi => h i hi k hk
  have h1 : ∀ k < c.nL, ∀ f g, (statsOf P D).cst k f g = 0 := fun k hk f g =>
    leafCost_zero fun i hi => h i (List.mem_of_mem_filter hi) k hk
  generalize statsOf P D = S at h0 h1 ⊢
  have hr : (List.range c.nL).foldl (fun r k => Node.addMin r (Node.leaf k (S.ctot k))) (Node.empty c.worst) = Node.leaf 0 0 := by
    obtain ⟨m, hm⟩ : ∃ m, c.nL = m + 1 := ⟨c.nL - 1, by omega⟩
    rw [hm, List.range_succ_eq_map, List.foldl_cons]
    have : Node.addMin (Node.empty c.worst) (Node.leaf 0 (S.ctot 0)) = Node.leaf 0 0 := by
      rw [h0 0 hL]
      exact if_pos (show (Node.leaf 0 0).sol < (Node.empty c.worst).sol from hw)
    rw [this]
    refine foldl_addMin_stay (fun k => Node.leaf k (S.ctot k)) _ _ fun k hk => ?_
    obtain ⟨j, hj, rfl⟩ := List.mem_map.1 hk
    rw [List.mem_range] at hj
    show (0 : Int) ≤ S.ctot (j + 1)
    rw [h0 _ (by omega)]
  have hin : ∀ f, (labelPairs c.nL).foldl (fun r p =>
      Node.addMin r ⟨some f, none, (S.sols p.1 f f).v00 + (S.sols p.2 f f).v11 + c.bc, 0, 0⟩) (Node.leaf 0 0) =
        Node.leaf 0 0 := by
    intro f
    refine foldl_addMin_stay (α := Nat × Nat)
      (fun p => (⟨some f, none, (S.sols p.1 f f).v00 + (S.sols p.2 f f).v11 + c.bc, 0, 0⟩ : Node)) _ _ ?_
    intro p hp
    have hp' : p.1 < c.nL ∧ p.2 < c.nL := by
      unfold labelPairs at hp
      have := List.mem_of_mem_filter hp
      obtain ⟨a, ha, hab⟩ := List.mem_flatMap.1 this
      obtain ⟨b, hb', rfl⟩ := List.mem_map.1 hab
      exact ⟨List.mem_range.1 ha, List.mem_range.1 hb'⟩
    have e1 : (S.sols p.1 f f).v00 = 0 := by
      unfold Stats.sols
      rw [if_pos rfl]
      show S.ctot p.1 - S.cst p.1 _ _ = 0
      rw [h0 _ hp'.1, h1 _ hp'.1]; rfl
    have e2 : (S.sols p.2 f f).v11 = 0 := by
      unfold Stats.sols
      rw [if_pos rfl]
      exact h1 _ hp'.2 _ _
    show (0 : Int) ≤ (S.sols p.1 f f).v00 + (S.sols p.2 f f).v11 + c.bc
    rw [e1, e2]
    omega
  unfold oneNode
  rw [hr]
  generalize List.range c.nF = l
  induction l with
  | nil => rfl
  | cons f l ih =>
    rw [List.foldl_cons]
    dsimp only
    rw [hin f, ite_self, ite_self]
    exact ih

theorem terminal_zero {c : TCfg} {P : Problem} {D : Data} {b : Branch} (n : Nat) (hL : 0 < c.nL) (hw : 0 < c.worst) (hb : 0 ≤ c.bc)
    (hm : c.mls ≤ D.length) (h : ∀ i ∈ D, ∀ k < c.nL, P.cost i k = 0) :
    let r := terminal c (statsOf P D) b n
    (if n = 1 then r.one else if n = 2 then r.two else r.three) = Node.leaf 0 0 := by
  have h1 := oneNode_zero hL hw hb h
  have h2 : ¬ (statsOf P D).tot < c.mls := by
    show ¬ ((D.length : Nat) : Int) < _
    omega
  dsimp only
  unfold terminal
  dsimp only
  rw [if_neg h2, h1]
  by_cases hn : n = 1
  · rw [if_pos hn, if_pos hn]
  · rw [if_neg hn, if_neg hn]
    have h3 : Node.addMin (Node.empty c.worst) (Node.leaf 0 0) = Node.leaf 0 0 := by
      exact if_pos (show (Node.leaf 0 0).sol < (Node.empty c.worst).sol from hw)
    rw [if_pos (show (Node.leaf 0 0).sol = 0 from rfl), h3, h3, ite_self]

theorem not_sdom_zero {a : Int} (h : 0 ≤ a) : ¬ Tol.sdom a (Node.leaf 0 0).sol := by
  show ¬ 10001 * a < 10000 * 0
  omega

theorem leafLoop_bound {c : Cfg} {D : Data} (hnn : ∀ k, 0 ≤ leafCost c.P D k) (ks : List Nat) (r UB : Node) (hU : 0 ≤ UB.sol)
    (hr : 0 < r.sol) (hpos : ∀ k ∈ ks, 0 < leafCost c.P D k) :
    0 < (Tol.leafLoop c D ks r UB).1.sol ∧ 0 ≤ (Tol.leafLoop c D ks r UB).2.sol := by
  induction ks generalizing r UB with
  | nil => exact ⟨hr, hU⟩
  | cons k ks ih =>
    unfold Tol.leafLoop
    dsimp only
    have h1 := hpos k (by simp)
    split
    · exact ih r UB hU hr fun j hj => hpos j (List.mem_cons_of_mem _ hj)
    · refine ih _ _ ?_ ?_ fun j hj => hpos j (List.mem_cons_of_mem _ hj)
      · unfold updateUB Node.addMin
        split
        · split
          · exact hnn k
          · exact hU
        · exact hU
      · unfold Node.addMin
        split
        · exact h1
        · exact hr

/-- Every label has costs. -/
def NoFreeLabel (nL : Nat) (w : Nat → Nat → Nat) (T : Data) : Prop := ∀ k < nL, 0 < (T.map fun i => w i.id k).sum

theorem preprocess_leafCost {nF nL mls : Nat} {w : Nat → Nat → Nat} (T : Data) (k : Nat) :
    leafCost (instProblem nF nL w) (preprocess (instProblem nF nL w) mls T) k = ((T.map fun i => w i.id k).sum : Nat) := by
  rw [show leafCost (instProblem nF nL w) (preprocess (instProblem nF nL w) mls T) k =
    (Tree.leaf k).cost (instProblem nF nL w) (preprocess (instProblem nF nL w) mls T) from rfl, cost_eq_totalCost]
  unfold totalCost preprocess
  rw [List.map_map]
  rfl

theorem shallow_start {nF nL u mls : Nat} {w : Nat → Nat → Nat} {o : Options} {T : Data} {ub : Int} (hu : 0 < u) (hub : 0 ≤ ub)
    (hfree : NoFreeLabel nL w T) (v : Node) (hv : v = Node.empty (u * largestDouble : Nat) ∨
      v = Node.addMin (Node.empty (u * largestDouble : Nat)) (Node.value ub)) :
    0 < (Tol.solveLeaf (instCfg nF nL u w mls o (isRedundant (instProblem nF nL w) mls T)) (preprocess (instProblem nF nL w) mls T) v).1.sol ∧
    0 ≤ (Tol.solveLeaf (instCfg nF nL u w mls o (isRedundant (instProblem nF nL w) mls T)) (preprocess (instProblem nF nL w) mls T) v).2.sol := by
  have hw : 0 < ((u * largestDouble : Nat) : Int) := by
    have h1 := largestDouble_large
    have h2 : 1 * largestDouble ≤ u * largestDouble := Nat.mul_le_mul_right _ hu
    omega
  have hv0 : 0 ≤ v.sol := by
    rcases hv with rfl | rfl
    · exact hw.le
    · unfold Node.addMin
      split
      · exact hub
      · exact hw.le
  unfold Tol.solveLeaf
  split
  · exact ⟨hw, hv0⟩
  · refine leafLoop_bound (fun k => ?_) _ _ _ hv0 hw fun k hk => ?_
    · show 0 ≤ leafCost (instProblem nF nL w) (preprocess (instProblem nF nL w) mls T) k
      rw [preprocess_leafCost]
      exact Int.natCast_nonneg _
    · show 0 < leafCost (instProblem nF nL w) (preprocess (instProblem nF nL w) mls T) k
      rw [preprocess_leafCost]
      exact_mod_cast hfree k (List.mem_range.1 hk)

/-- **C80 fails.** Whatever the training data, leaf size, options and costs: if no single cost exceeds `1e-6` and every label costs
something, a fit with up to three nodes returns a single leaf with label 0, which is taken to cost nothing. -/
theorem tiny_costs_ignored {nF nL u mls : Nat} {w : Nat → Nat → Nat} {o : Options} {T : Data} (t : Top) (hu : 0 < u) (hL : 0 < nL)
    (hm : mls ≤ T.length) (hub : 0 ≤ t.ub) (hfree : NoFreeLabel nL w T) (htiny : ∀ i ∈ T, ∀ k < nL, w i.id k * 1000000 ≤ u) :
    fitCostsShallow nF nL u w mls o t T = Node.leaf 0 0 := by
  have hw : 0 < ((u * largestDouble : Nat) : Int) := by
    have h1 := largestDouble_large
    have h2 : 1 * largestDouble ≤ u * largestDouble := Nat.mul_le_mul_right _ hu
    omega
  have h1 := terminal_zero (c := (instCfg nF nL u w mls o (isRedundant (instProblem nF nL w) mls T)).tc)
    (P := dropTiny (tiny u) (instProblem nF nL w)) (D := preprocess (instProblem nF nL w) mls T) (b := []) t.maxNodes hL hw (Int.le_refl 0)
    (by rw [preprocess_length]; exact hm) (by
      intro i hi k hk
      obtain ⟨j, hj, rfl⟩ := List.mem_map.1 hi
      have : tiny u ((w j.id k : Nat) : Int) = true := by
        unfold tiny
        rw [Int.natAbs_natCast, decide_eq_true_eq]
        exact htiny j hj k hk
      show (if tiny u ((w j.id k : Nat) : Int) then (0 : Int) else _) = 0
      rw [if_pos this])
  obtain ⟨h2, h3⟩ := shallow_start (nF := nF) (mls := mls) (o := o) hu hub hfree _ (.inr rfl)
  unfold fitCostsShallow shallow
  dsimp only at h1 ⊢
  rw [h1]
  refine (congrArg _ (if_neg (not_sdom_zero h3))).trans ?_
  exact if_pos h2

/-- **C80** where it holds: if every cost is zero or above `1e-6`, the run with the test of the task is the run of `fitCosts`, about which C65,
C69 and C76 speak. At most three nodes; every dataset, leaf size, cost and option with the depth-two solver, without a time-out. -/
theorem tiny_costs_partial {nF nL u mls : Nat} {w : Nat → Nat → Nat} {o : Options} {T : Data} (t : Top) (hu : 0 < u)
    (hall : t.allTrees = false) (h1 : 1 ≤ t.maxNodes) (hfit : t.maxNodes + 1 ≤ 2 ^ t.maxDepth) (hd : t.maxDepth ≤ 2)
    (hclk : ∀ k, o.clock k = true) (hterm : o.useTerm = true) (hub : 0 ≤ t.ub) (hfree : NoFreeLabel nL w T)
    (hbig : ∀ i ∈ T, ∀ k, w i.id k = 0 ∨ u < w i.id k * 1000000) :
    fitCostsShallow nF nL u w mls o t T = (fitCosts nF nL u w mls o t T).1.result := by
  have hcost : ∀ (D : Data), (∀ i ∈ D, ∃ j ∈ T, i.id = j.id) → ∀ k,
      leafCost (dropTiny (tiny u) (instProblem nF nL w)) D k = leafCost (instProblem nF nL w) D k := by
    intro D hD k
    unfold leafCost
    congr 1
    refine List.map_congr_left fun i hi => ?_
    obtain ⟨j, hj, e⟩ := hD i hi
    show (if tiny u ((w i.id k : Nat) : Int) then (0 : Int) else (w i.id k : Nat)) = (w i.id k : Nat)
    rw [e]
    split
    · rename_i ht
      unfold tiny at ht
      rw [Int.natAbs_natCast, decide_eq_true_eq] at ht
      rcases hbig j hj k with h | h
      · rw [h]; rfl
      · omega
    · rfl
  have hst : statsOf (dropTiny (tiny u) (instProblem nF nL w)) (preprocess (instProblem nF nL w) mls T) =
      statsOf (instProblem nF nL w) (preprocess (instProblem nF nL w) mls T) := by
    have hin : ∀ i ∈ preprocess (instProblem nF nL w) mls T, ∃ j ∈ T, i.id = j.id := by
      intro i hi
      obtain ⟨j, hj, rfl⟩ := List.mem_map.1 hi
      exact ⟨j, hj, rfl⟩
    unfold statsOf
    congr 1
    · funext k; exact hcost _ hin k
    · funext k f g; exact hcost _ (fun i hi => hin i (List.mem_of_mem_filter hi)) k
  unfold fitCostsShallow fitCosts
  dsimp only
  rw [shallow_solve (c := instCfg nF nL u w mls o (isRedundant (instProblem nF nL w) mls T)) hall h1 hfit hd hclk hterm rfl rfl
    (shallow_start hu hub hfree _ (.inr rfl)).2 (shallow_start hu hub hfree _ (.inl rfl)).1]
  unfold shallow
  dsimp only
  rw [hst]
  rfl

/-- What a user relies on: dividing all costs by a number does not change the root of the tree. -/
def ScaleFree : Prop := ∀ (nF nL u m mls : Nat) (w : Nat → Nat → Nat) (o : Options) (t : Top) (T : Data), 0 < u → 0 < m → Input nL T →
  NoFreeLabel nL w T → World nF o → mls ≤ T.length → ((u * m * largestDouble : Nat) : Int) ≤ t.ub →
  (fitCostsShallow nF nL (u * m) w mls o t T).feature = (fitCostsShallow nF nL u w mls o t T).feature ∧
  (fitCostsShallow nF nL (u * m) w mls o t T).label = (fitCostsShallow nF nL u w mls o t T).label

/-- Label 0 costs two, label 1 one. -/
def plainCosts : Nat → Nat → Nat := fun _ k => if k = 0 then 2 else 1

/-- Divided by two million, the costs are skipped, and the fit prefers the label that costs twice as much. -/
theorem scale_not_free : ¬ ScaleFree := by
  intro h
  have h1 := h 2 2 1 2000000 1 plainCosts (defaultOptions 2) ⟨2, 3, false, (1 * 2000000 * largestDouble : Nat)⟩ trialData (by decide) (by decide)
    trialData_input (by unfold NoFreeLabel; decide) (defaultOptions_world 2) (by decide) (Int.le_refl _)
  rw [tiny_costs_ignored _ (by decide) (by decide) (by decide) (Int.natCast_nonneg _) (by unfold NoFreeLabel; decide) (by decide)] at h1
  have h2 : (fitCostsShallow 2 2 1 plainCosts 1 (defaultOptions 2) ⟨2, 3, false, (1 * 2000000 * largestDouble : Nat)⟩ trialData).label = some 1 := by
    decide +kernel
  rw [h2] at h1
  exact absurd h1.2 (by decide)

set_option maxRecDepth 100000 in
/-- The same costs as they are: the cheaper label, and the hypotheses of `tiny_costs_partial`. -/
example : NoFreeLabel 2 parityCosts2 trialData ∧ (∀ i ∈ trialData, ∀ k, parityCosts2 i.id k = 0 ∨ 1 < parityCosts2 i.id k * 1000000) ∧
    fitCostsShallow 2 2 1 parityCosts2 1 (defaultOptions 2) ⟨2, 3, false, (1 * largestDouble : Nat)⟩ trialData = ⟨some 0, none, 4, 1, 1⟩ ∧
    (fitCosts 2 2 1 parityCosts2 1 (defaultOptions 2) ⟨2, 3, false, (1 * largestDouble : Nat)⟩ trialData).1.result = ⟨some 0, none, 4, 1, 1⟩ :=
  ⟨by unfold NoFreeLabel; decide, fun i _ k => by unfold parityCosts2; split <;> right <;> decide, by decide +kernel, by decide +kernel⟩

end Streed
