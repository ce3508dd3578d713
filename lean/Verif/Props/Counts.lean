import Verif.Lemmas.Counts
import Verif.Props.Difference

/-!
# C13, C14, C15: pair statistics

C13: the one-dimensional index of the symmetric feature-pair matrix is a bijection from pairs
(row ≤ column) onto the allocated range. C14: the four counts and costs derived for a feature pair
are the numbers of instances (sums of costs) with each combination of the two features. C15: after any
history of (incremental or full) initialisations the statistics are those of the last dataset.
-/

namespace Streed

/-- C13: different cells have different indices. -/
theorem symIndex_inj (n r c r' c' : Nat) (h1 : r ≤ c) (h2 : c < n) (h3 : r' ≤ c') (h4 : c' < n)
    (e : symIndex n r c = symIndex n r' c') : r = r' ∧ c = c' :=
  symIndex_inj' n r c r' c' h1 h2 h3 h4 e

/-- C13: every cell lies in the allocated array. -/
theorem symIndex_lt (n r c : Nat) (h1 : r ≤ c) (h2 : c < n) : symIndex n r c < numElements n := by
  rw [symIndex_eq n r c h1 h2, ← rowStart_self]
  have := rowStart_mono n r n (by omega) (Nat.le_refl _)
  omega

/-- C13: every element of the array is a cell. -/
theorem symIndex_surj (n x : Nat) (h : x < numElements n) :
    ∃ r c, r ≤ c ∧ c < n ∧ symIndex n r c = x := by
  rw [← rowStart_self] at h
  have key : ∀ m, m ≤ n → x < rowStart n m → ∃ r c, r ≤ c ∧ c < n ∧ symIndex n r c = x := by
    intro m
    induction m with
    | zero => intro _ h; simp [rowStart] at h
    | succ m ih =>
      intro hm hx
      by_cases hlt : x < rowStart n m
      · exact ih (by omega) hlt
      · rw [rowStart_succ n m (by omega)] at hx
        refine ⟨m, m + (x - rowStart n m), by omega, by omega, ?_⟩
        rw [symIndex_eq n m _ (by omega) (by omega)]
        omega
  exact key n (Nat.le_refl _) h

example : symIndex 4 1 3 = 6 ∧ symIndex 4 2 2 = 7 ∧ numElements 4 = 10 := by decide

/-- Every index an instance contributes to is inside the allocated array. -/
theorem touched_in_range (nF : Nat) (one : Bool) (i : Inst) (x : Nat) (h : x ∈ touched nF one i) :
    x < numElements nF := by
  unfold touched at h
  split at h
  · obtain ⟨f, hf, rfl⟩ := List.mem_map.1 h
    exact symIndex_lt _ _ _ (Nat.le_refl _) ((mem_present _ _ _).1 hf).1
  · unfold pairIndices at h
    obtain ⟨⟨f, g⟩, hp, rfl⟩ := List.mem_map.1 h
    have := (mem_pairsOf _ (present_sorted nF i) _ _).1 hp
    exact symIndex_lt _ _ _ this.2.2 ((mem_present _ _ _).1 this.2.1).1

/-- Number of instances with given values of two features. -/
def countWith (D : Data) (f g : Nat) (x y : Bool) : Int :=
  (D.countP fun i => i.feat f == x && i.feat g == y : Nat)

/-- Cost of giving label `k` to the instances with given values of two features. -/
def costWith (P : Problem) (D : Data) (k f g : Nat) (x y : Bool) : Int :=
  leafCost P (D.filter fun i => i.feat f == x && i.feat g == y) k

private theorem tt : (true == true) = true := rfl
private theorem tf : (true == false) = false := rfl
private theorem ft : (false == true) = false := rfl
private theorem ff : (false == false) = true := rfl

/-- C14 for the counts: the inclusion-exclusion formulas give the four cell counts, in either
argument order. -/
theorem counts_exact (P : Problem) (D : Data) (f g : Nat) :
    (statsOf P D).counts f g = ⟨countWith D f g false false, countWith D f g false true,
      countWith D f g true false, countWith D f g true true⟩ := by
  have key : ∀ a b : Nat,
      (D.length : Int) - (D.countP fun i => i.feat a && i.feat a : Nat) -
        (D.countP fun i => i.feat b && i.feat b : Nat) + (D.countP fun i => i.feat a && i.feat b : Nat)
        = countWith D a b false false ∧
      ((D.countP fun i => i.feat b && i.feat b : Nat) : Int) -
        (D.countP fun i => i.feat a && i.feat b : Nat) = countWith D a b false true ∧
      ((D.countP fun i => i.feat a && i.feat a : Nat) : Int) -
        (D.countP fun i => i.feat a && i.feat b : Nat) = countWith D a b true false ∧
      ((D.countP fun i => i.feat a && i.feat b : Nat) : Int) = countWith D a b true true := by
    intro a b
    unfold countWith
    induction D with
    | nil => simp
    | cons i D ih =>
      obtain ⟨h1, h2, h3, h4⟩ := ih
      simp only [Bool.and_self] at h1 h2 h3
      simp only [List.countP_cons, List.length_cons]
      cases i.feat a <;> cases i.feat b <;> simp only [Bool.and_self, Bool.and_false,
        Bool.and_true, tt, tf, ft, ff, if_true, if_false, Bool.false_eq_true] <;> omega
  have swap : ∀ x y : Bool, countWith D g f x y = countWith D f g y x := by
    intro x y; unfold countWith; congr 2; funext i; exact Bool.and_comm _ _
  unfold Stats.counts statsOf
  simp only
  by_cases h : g < f
  · rw [if_pos h, Nat.min_eq_right (Nat.le_of_lt h), Nat.max_eq_left (Nat.le_of_lt h)]
    obtain ⟨h1, h2, h3, h4⟩ := key g f
    rw [h1, h3, h2, h4, swap, swap, swap, swap]
  · have h' : f ≤ g := by omega
    rw [if_neg h, Nat.min_eq_left h', Nat.max_eq_right h']
    obtain ⟨h1, h2, h3, h4⟩ := key f g
    rw [h1, h2, h3, h4]

/-- C14 for the costs of two different features. -/
theorem costs_exact (P : Problem) (D : Data) (k f g : Nat) (hne : f ≠ g) :
    (statsOf P D).sols k f g = ⟨costWith P D k f g false false, costWith P D k f g false true,
      costWith P D k f g true false, costWith P D k f g true true⟩ := by
  have key : ∀ a b : Nat,
      leafCost P D k - (leafCost P (D.filter fun i => i.feat a && i.feat a) k -
        leafCost P (D.filter fun i => i.feat a && i.feat b) k) -
        leafCost P (D.filter fun i => i.feat b && i.feat b) k = costWith P D k a b false false ∧
      leafCost P (D.filter fun i => i.feat b && i.feat b) k -
        leafCost P (D.filter fun i => i.feat a && i.feat b) k = costWith P D k a b false true ∧
      leafCost P (D.filter fun i => i.feat a && i.feat a) k -
        leafCost P (D.filter fun i => i.feat a && i.feat b) k = costWith P D k a b true false ∧
      leafCost P (D.filter fun i => i.feat a && i.feat b) k = costWith P D k a b true true := by
    intro a b
    unfold costWith leafCost
    induction D with
    | nil => simp
    | cons i D ih =>
      obtain ⟨h1, h2, h3, h4⟩ := ih
      simp only [Bool.and_self] at h1 h2 h3
      simp only [List.filter_cons, List.map_cons, List.sum_cons]
      cases i.feat a <;> cases i.feat b <;> simp only [Bool.and_self, Bool.and_false,
        Bool.and_true, tt, tf, ft, ff, if_true, if_false, Bool.false_eq_true,
        List.map_cons, List.sum_cons] <;> omega
  have swap : ∀ x y : Bool, costWith P D k g f x y = costWith P D k f g y x := by
    intro x y; unfold costWith; congr 2; funext i; exact Bool.and_comm _ _
  unfold Stats.sols statsOf
  simp only [if_neg hne]
  by_cases h : g < f
  · rw [if_pos h, Nat.min_eq_right (Nat.le_of_lt h), Nat.max_eq_left (Nat.le_of_lt h)]
    obtain ⟨h1, h2, h3, h4⟩ := key g f
    rw [h1, h3, h2, h4, swap, swap, swap, swap]
  · have h' : f ≤ g := by omega
    rw [if_neg h, Nat.min_eq_left h', Nat.max_eq_right h']
    obtain ⟨h1, h2, h3, h4⟩ := key f g
    rw [h1, h2, h3, h4]

/-- C14 for a single feature: the costs of the instances without and with it. -/
theorem costs_exact_one (P : Problem) (D : Data) (k f : Nat) :
    ((statsOf P D).sols k f f).v00 = leafCost P (without f D) k ∧
    ((statsOf P D).sols k f f).v11 = leafCost P (having f D) k := by
  unfold Stats.sols statsOf without having leafCost
  simp only [if_true, Nat.min_self, Nat.max_self, Bool.and_self, and_true]
  induction D with
  | nil => rfl
  | cons i D ih =>
    simp only [List.filter_cons, List.map_cons, List.sum_cons]
    cases i.feat f <;> simp <;> omega

/-! ### C15 -/

/-- A sequence of initialisations. -/
def runCalc (P : Problem) (zeroTrue : Bool) : List (Data × Nat) → Calc → Calc
  | [], c => c
  | (D, n) :: hist, c => runCalc P zeroTrue hist (c.initialize P zeroTrue D n).1

/-- Statistics `S` agree with those of `D` wherever the depth-two solver reads them: everywhere on
row ≤ column, or on the diagonal only if `one`. -/
def Agrees (P : Problem) (one : Bool) (D : Data) (S : Stats) : Prop :=
  S.tot = (statsOf P D).tot ∧
  (∀ f g, f ≤ g → g < P.nF → (one = true → f = g) → S.cnt f g = (statsOf P D).cnt f g) ∧
  (∀ k, k < P.nL → S.ctot k = (statsOf P D).ctot k) ∧
  (∀ k f g, k < P.nL → f ≤ g → g < P.nF → (one = true → f = g) →
    S.cst k f g = (statsOf P D).cst k f g)

theorem agrees_of_holds {P : Problem} {one : Bool} {D : Data} {S : Storage} (h : Holds P one D S) :
    Agrees P one D (S.stats P.nF) := by
  obtain ⟨a1, a2, a3, a4⟩ := h
  have hc : ∀ f g, f ≤ g → g < P.nF → (one = true → f = g) → ∀ i : Inst,
      ((touched P.nF one i).count (symIndex P.nF f g) : Int) = if i.feat f && i.feat g then 1 else 0 := by
    intro f g hfg hg ho i
    cases one with
    | false => exact count_touched_pair P.nF i f g hfg hg
    | true => obtain rfl := ho rfl; rw [count_touched_diag P.nF true i f hg]; simp
  refine ⟨a1, fun f g hfg hg ho => ?_, fun k hk => a3 k hk, fun k f g hk hfg hg ho => ?_⟩
  · show S.cnt _ = _
    rw [a2]
    simp only [hc f g hfg hg ho]
    exact sum_ite_count D _
  · show S.cst _ _ = _
    rw [a4 k hk]
    simp only [hc f g hfg hg ho]
    exact sum_ite_filter D _ _

/-- The datasets of a history are views of one training set. -/
def ViewOf (T D : Data) : Prop := D.Sublist T

theorem ViewOf.sorted {T D : Data} (h : ViewOf T D) (hT : IdSorted T) : IdSorted D := by
  unfold IdSorted at *; exact hT.sublist h

theorem sorted_unique {T : Data} (hT : IdSorted T) {a b : Inst} (ha : a ∈ T) (hb : b ∈ T)
    (e : a.id = b.id) : a = b := by
  unfold IdSorted at hT
  induction T with
  | nil => simp at ha
  | cons x T ih =>
    have h := List.pairwise_cons.1 hT
    rcases List.mem_cons.1 ha with ea | ha <;> rcases List.mem_cons.1 hb with eb | hb
    · rw [ea, eb]
    · have := h.1 _ hb; rw [ea] at e; omega
    · have := h.1 _ ha; rw [eb] at e; omega
    · exact ih h.2 ha hb

theorem ViewOf.consistent {T D E : Data} (h : ViewOf T D) (h' : ViewOf T E) (hT : IdSorted T) :
    Consistent D E := fun _ ha _ hb e => sorted_unique hT (h.subset ha) (h'.subset hb) e

/-- Invariant of the calculator: its storage holds the statistics of some view, and this view has the
same instances as the dataset of the last call. -/
def CalcInv (P : Problem) (T : Data) (c : Calc) : Prop :=
  ∀ D n, c.prev = some (D, n) → ViewOf T D ∧ Holds P (n == 1) D c.S

theorem initialize_inv (P : Problem) (zeroTrue : Bool) (T : Data) (c : Calc) (D : Data) (n : Nat)
    (hL : 0 < P.nL) (hT : IdSorted T) (hl : ∀ i ∈ T, i.label < P.nL)
    (hz : zeroTrue = true → ∀ i ∈ T, P.cost i i.label = 0)
    (hc : CalcInv P T c) (hD : ViewOf T D) :
    CalcInv P T (c.initialize P zeroTrue D n).1 ∧
      Holds P (n == 1) D (c.initialize P zeroTrue D n).1.S := by
  have hrec : Holds P (n == 1) D (updateCosts P zeroTrue (n == 1) 1 D Storage.zero) :=
    holds_recount P zeroTrue _ D hL (fun i hi => hl i (hD.subset hi))
      (fun h i hi => hz h i (hD.subset hi))
  have fresh : ∀ S, Holds P (n == 1) D S → CalcInv P T ⟨some (D, n), S⟩ := by
    intro S hS D' n' e
    simp only [Option.some.injEq, Prod.mk.injEq] at e
    obtain ⟨rfl, rfl⟩ := e
    exact ⟨hD, hS⟩
  unfold Calc.initialize
  match hp : c.prev with
  | none => exact ⟨fresh _ hrec, hrec⟩
  | some (D', n') =>
    obtain ⟨hv, hS⟩ := hc D' n' hp
    have hmem := difference_mem P.nL D' D (hv.sorted hT) (hD.sorted hT) (by
      intro i hi
      rcases List.mem_append.1 hi with h | h
      · exact hl i (hv.subset h)
      · exact hl i (hD.subset h))
    have happ := difference_apply P.nL D' D (hv.sorted hT) (hD.sorted hT) (by
      intro i hi
      rcases List.mem_append.1 hi with h | h
      · exact hl i (hv.subset h)
      · exact hl i (hD.subset h)) (hv.consistent hD hT)
    simp only
    split
    · rename_i heq
      split
      · rename_i h0
        have e1 : (computeDifference P.nL D' D).1 = [] := List.length_eq_zero_iff.1 h0.1
        have e2 : (computeDifference P.nL D' D).2 = [] := List.length_eq_zero_iff.1 h0.2
        rw [e1, e2, List.append_nil, List.append_nil] at happ
        refine ⟨hc, ?_⟩
        rw [heq]
        exact hS.perm happ.symm
      · split
        · have h := holds_incremental P zeroTrue (n == 1) D' D _ _ c.S (by rw [heq]; exact hS) hL
            (fun i hi => hl i (hD.subset ((hmem i).1.1 hi).1))
            (fun i hi => hl i (hv.subset ((hmem i).2.1 hi).1))
            (fun h i hi => hz h i (hD.subset ((hmem i).1.1 hi).1))
            (fun h i hi => hz h i (hv.subset ((hmem i).2.1 hi).1)) happ
          exact ⟨fresh _ h, h⟩
        · exact ⟨fresh _ hrec, hrec⟩
    · exact ⟨fresh _ hrec, hrec⟩

/-- C15: after any history of initialisations on views of one training set, the statistics agree with
those of the dataset of the last call. -/
theorem incremental_exact (P : Problem) (zeroTrue : Bool) (T : Data) (hist : List (Data × Nat))
    (D : Data) (n : Nat) (hL : 0 < P.nL) (hT : IdSorted T) (hl : ∀ i ∈ T, i.label < P.nL)
    (hz : zeroTrue = true → ∀ i ∈ T, P.cost i i.label = 0)
    (hh : ∀ x ∈ hist, ViewOf T x.1) (hD : ViewOf T D) :
    Agrees P (n == 1) D ((runCalc P zeroTrue (hist ++ [(D, n)]) Calc.init).S.stats P.nF) := by
  have key : ∀ hist c, CalcInv P T c → (∀ x ∈ hist, ViewOf T x.1) →
      Holds P (n == 1) D (runCalc P zeroTrue (hist ++ [(D, n)]) c).S := by
    intro hist
    induction hist with
    | nil => intro c hc _; exact (initialize_inv P zeroTrue T c D n hL hT hl hz hc hD).2
    | cons x hist ih =>
      intro c hc hx
      obtain ⟨E, m⟩ := x
      exact ih _ (initialize_inv P zeroTrue T c E m hL hT hl hz hc (hx (E, m) (by simp))).1
        fun y hy => hx y (List.mem_cons_of_mem _ hy)
  exact agrees_of_holds (key hist Calc.init (by intro D n h; simp [Calc.init] at h) hh)

end Streed

namespace Streed

/-- A training set and two views of it for the examples. -/
def exT : Data := [exInst 0 3 0, exInst 1 1 1, exInst 2 3 1, exInst 4 2 0]
def exD : Data := [exInst 0 3 0, exInst 2 3 1, exInst 4 2 0]

example : ViewOf exT exT ∧ ViewOf exT exD ∧ (∀ i ∈ exT, i.label < (accuracy 2 2).nL) ∧
    IdSorted exT ∧ (∀ i ∈ exT, (accuracy 2 2).cost i i.label = 0) ∧
    ((runCalc (accuracy 2 2) true [(exT, 3), (exD, 3)] Calc.init).S.stats 2).cnt 0 1 = 2 ∧
    ((Calc.initialize (accuracy 2 2) true (runCalc (accuracy 2 2) true [(exT, 3)] Calc.init) exD 3).1.S.stats
      2).cst 0 1 1 = 1 := by
  refine ⟨List.Sublist.refl _, ?_, ?_, ?_, ?_, ?_, ?_⟩
  · exact List.Sublist.cons_cons _ (List.Sublist.cons _ (List.Sublist.refl _))
  · simp [exT, exInst, accuracy]
  · simp [exT, exInst, IdSorted]
  · simp [exT, exInst, accuracy]
  · decide
  · decide

end Streed
