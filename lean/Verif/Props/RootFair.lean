import Verif.Props.FairSearch

/-!
# C23 for the fairness tasks

The keys of the fairness tasks identify values whose group scores differ by at most `1e-4`. If every inserted value satisfies the
fairness constraint, the root front still ends with a best score (`root_front_fair_best`): equal keys mean equally many mistakes. The
same holds if the scores are multiples of a step larger than the tolerance (`root_front_fair_grid`), whether or not the constraint is
satisfied. Without these conditions it fails (`root_front_fair_wrong`): a value that violates the constraint takes the key of one
that satisfies it.
-/

namespace Streed

open TaskLemmas

/-- Adding with a comparison and keys that are as they should be on the added values: the front is the set of best values. -/
theorem front_nonDominated_on {S : Type} {V : S → Prop} {cmp key : S → S → Bool} (check : Bool) (hg : GoodOn V cmp key)
    (ns : List (PNode S)) (hV : ∀ n ∈ ns, V n.sol) :
    NonDominated cmp ns ((Front.empty : Front S).addAll cmp key check ns).sols := by
  have all : ∀ (ns : List (PNode S)) (F : Front S) (added : List (PNode S)), FInv cmp F added → (∀ m ∈ added, V m.sol) →
      (∀ p ∈ F.uniq, V p.1) → (∀ n ∈ ns, V n.sol) → NonDominated cmp (added ++ ns) (F.addAll cmp key check ns).sols := by
    intro ns
    induction ns with
    | nil => intro F added h _ _ _; simpa [Front.addAll] using h.nd
    | cons n ns ih =>
      intro F added h ha hu hn
      obtain ⟨h1, h2⟩ := add_inv_on check hg F added n h ha hu (hn n (by simp))
      have := ih (F.add cmp key check n) (added ++ [n]) h1 (by
        intro m hm
        rcases List.mem_append.1 hm with hm | hm
        · exact ha m hm
        · rw [List.mem_singleton.1 hm]; exact hn n (by simp)) h2 (fun m hm => hn m (List.mem_cons_of_mem _ hm))
      simpa [Front.addAll] using this
  exact all ns Front.empty [] ⟨⟨by simp [Front.empty], by simp [Front.empty], by simp⟩, by simp [Front.empty]⟩ (by simp)
    (by simp [Front.empty]) hV

/-- The front at the root of a fairness task, after adding `ns` in order, on training data of `size` instances. -/
def fairRootFront (limit : Rat) (size : Nat) (ns : List (PNode FairSol)) : List (PNode FairSol) :=
  ((Front.empty : Front FairSol).addAll (fairDomD0 limit size) fairOps.key true ns).sols

/-- What C23 says: one member, which was inserted, and no inserted solution scores better. -/
def RootBest (limit : Rat) (size : Nat) (ns front : List (PNode FairSol)) : Prop :=
  ∃ m, front = [m] ∧ m ∈ ns ∧ ∀ x ∈ ns, fairScore limit size x.sol ≤ fairScore limit size m.sol

private theorem rootBest_of {limit : Rat} {size : Nat} {n : PNode FairSol} {ns : List (PNode FairSol)}
    (h : NonDominated (fairDomD0 limit size) (n :: ns) (fairRootFront limit size (n :: ns))) :
    RootBest limit size (n :: ns) (fairRootFront limit size (n :: ns)) := by
  generalize fairRootFront limit size (n :: ns) = sols at *
  match sols, h with
  | [], h =>
    obtain ⟨m, hm, _⟩ := h.covered n (by simp)
    simp at hm
  | [m], h =>
    refine ⟨m, rfl, h.inserted m (by simp), ?_⟩
    intro x hx
    obtain ⟨y, hy, hc⟩ := h.covered x hx
    have hy : y = m := by simpa using hy
    subst hy
    simpa [fairDomD0] using hc
  | a :: b :: l, h =>
    have h1 := (List.pairwise_cons.1 h.antichain).1 b (by simp)
    simp only [fairDomD0, decide_eq_false_iff_not, not_le] at h1
    exact absurd h1.1 (not_lt.2 (le_of_lt h1.2))

/-- C23 for fairness, if every inserted value satisfies the constraint. -/
theorem root_front_fair_best (limit : Rat) (size : Nat) (n : PNode FairSol) (ns : List (PNode FairSol))
    (hok : ∀ x ∈ n :: ns, fairAccepts limit x.sol = true) :
    RootBest limit size (n :: ns) (fairRootFront limit size (n :: ns)) := by
  refine rootBest_of (front_nonDominated_on (V := fun s => fairAccepts limit s = true) true ⟨?_, ?_, ?_⟩ _ hok)
  · intro a _; simp [fairDomD0]
  · intro a b e _ _ _ h1 h2
    simp only [fairDomD0, decide_eq_true_eq] at *
    exact le_trans h2 h1
  · intro a b ha hb h
    simp only [fairOps, fairEq, Bool.and_eq_true, decide_eq_true_eq] at h
    simp only [fairDomD0, fairScore, ha, hb, if_true, h.1.1.1.1.1, decide_eq_true_eq]
    exact le_refl _

/-- C23 for fairness, if the group scores are multiples of `1/L` with `L` below 10000 (the product of the group sizes for demographic
parity, that of the positives of the groups for equality of opportunity). -/
theorem root_front_fair_grid {L : Nat} (hL : 0 < L) (hs : L < 10000) (limit : Rat) (size : Nat) (n : PNode FairSol)
    (ns : List (PNode FairSol)) (hg : ∀ x ∈ n :: ns, OnGrid L x.sol) :
    RootBest limit size (n :: ns) (fairRootFront limit size (n :: ns)) := by
  refine rootBest_of (front_nonDominated_on (V := OnGrid L) true ⟨?_, ?_, ?_⟩ _ hg)
  · intro a _; simp [fairDomD0]
  · intro a b e _ _ _ h1 h2
    simp only [fairDomD0, decide_eq_true_eq] at *
    exact le_trans h2 h1
  · intro a b ha hb h
    have e := grid_key hL hs ha hb h
    subst e
    simp [fairDomD0]

/-- C23 fails for fairness in general: of two values with the same key the first violates the constraint and stays. -/
theorem root_front_fair_wrong : ∃ (limit : Rat) (size : Nat) (n : PNode FairSol) (ns : List (PNode FairSol)),
    ¬ RootBest limit size (n :: ns) (fairRootFront limit size (n :: ns)) := by
  refine ⟨1 / 2, 10, ⟨⟨1, 150005 / 100000, 1 / 2, false⟩, 3⟩, [⟨⟨1, 3 / 2, 1 / 2, false⟩, 3⟩], ?_⟩
  have e : fairRootFront (1 / 2) 10 [⟨⟨1, 150005 / 100000, 1 / 2, false⟩, 3⟩, ⟨⟨1, 3 / 2, 1 / 2, false⟩, 3⟩] =
    [⟨⟨1, 150005 / 100000, 1 / 2, false⟩, 3⟩] := by decide +kernel
  rw [e]
  rintro ⟨m, h, _, hb⟩
  have h := List.head_eq_of_cons_eq h
  subst h
  exact absurd (hb ⟨⟨1, 3 / 2, 1 / 2, false⟩, 3⟩ (by simp)) (by decide +kernel)

/-- Three values on the grid of step 1/4: the feasible one with fewest mistakes stays. -/
example : fairRootFront (1 / 2) 10 [⟨⟨0, 7 / 4, 1 / 4, false⟩, 3⟩, ⟨⟨2, 3 / 2, 1 / 2, false⟩, 3⟩, ⟨⟨1, 5 / 4, 3 / 4, false⟩, 3⟩] =
    [⟨⟨1, 5 / 4, 3 / 4, false⟩, 3⟩] := by decide +kernel

/-- Two feasible values with the same key: the number of mistakes is the same. -/
example : (∀ x ∈ [(⟨⟨1, 14 / 10, 1 / 2, false⟩, 3⟩ : PNode FairSol), ⟨⟨1, 140005 / 100000, 1 / 2, false⟩, 3⟩],
    fairAccepts (1 / 2) x.sol = true) ∧ fairOps.key ⟨1, 14 / 10, 1 / 2, false⟩ ⟨1, 140005 / 100000, 1 / 2, false⟩ = true := by
  decide +kernel

end Streed
