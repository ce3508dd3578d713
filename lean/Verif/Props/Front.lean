import Verif.Model.Front
import Mathlib.Tactic.Linarith
import Mathlib.Tactic.NormNum

/-!
# C22, C23, C24: fronts of non-dominated solutions

C22: after any insertions the members were inserted, no member dominates another, and every inserted solution
is dominated by a member. Proved for every task whose dominance is reflexive and transitive (F1);
refuted for the fairness tasks, whose dominance allows a difference of 1e-4 and so is not transitive
(`fairness_front_drops`).

C23: the front at the root, where dominance compares scores, always has exactly one member, and it has the best
score inserted.

C24: bounded fronts. `AddOrMerge` and `AddInvOrInvMerge` stay within the size and cover every
inserted solution. `AddOrInvMerge`, used for upper bounds, only holds values that an inserted solution
dominates. `AddInvOrMerge`, used for lower bounds, loses solutions (`addInvOrMerge_drops`).
-/

namespace Streed

variable {S : Type}

/-- `cmp` is reflexive and transitive, and equal keys dominate each other. -/
structure GoodOrder (cmp key : S → S → Bool) : Prop where
  refl : ∀ a, cmp a a = true
  trans : ∀ a b c, cmp a b = true → cmp b c = true → cmp a c = true
  key : ∀ a b, key a b = true → cmp a b = true

/-- The specification of C22: `sols` are exactly the non-dominated ones among `added` (up to mutual
domination). -/
structure NonDominated (cmp : S → S → Bool) (added sols : List (PNode S)) : Prop where
  inserted : ∀ m ∈ sols, m ∈ added
  antichain : sols.Pairwise fun a b => cmp a.sol b.sol = false ∧ cmp b.sol a.sol = false
  covered : ∀ n ∈ added, ∃ m ∈ sols, cmp m.sol n.sol = true

theorem setKey_mem (key : S → S → Bool) (s : S) (n : Nat) (u : List (S × Nat)) (p : S × Nat)
    (h : p ∈ Front.setKey key s n u) : p.1 = s ∨ ∃ q ∈ u, q.1 = p.1 := by
  induction u with
  | nil => simp only [Front.setKey, List.mem_singleton] at h; exact .inl (by rw [h])
  | cons q u ih =>
    rw [Front.setKey] at h
    split at h
    · rcases List.mem_cons.1 h with rfl | h
      · exact .inr ⟨q, by simp, rfl⟩
      · exact .inr ⟨p, by simp [h], rfl⟩
    · rcases List.mem_cons.1 h with rfl | h
      · exact .inr ⟨p, by simp, rfl⟩
      · rcases ih h with h | ⟨q', h1, h2⟩
        · exact .inl h
        · exact .inr ⟨q', by simp [h1], h2⟩

theorem uniqStep_none (key : S → S → Bool) (u : List (S × Nat)) (n : PNode S)
    (h : Front.uniqStep key u n = none) : ∃ p ∈ u, key p.1 n.sol = true := by
  unfold Front.uniqStep at h
  split at h
  · rename_i p hp
    exact ⟨p, List.mem_of_find?_eq_some hp, by simpa using List.find?_some hp⟩
  · simp at h

private theorem uniqStep_some (key : S → S → Bool) (u u' : List (S × Nat)) (n : PNode S)
    (h : Front.uniqStep key u n = some u') : u' = Front.setKey key n.sol n.size u := by
  unfold Front.uniqStep at h
  split at h
  · split at h
    · simp at h
    · simpa using h.symm
  · simpa using h.symm

theorem step_some (key : S → S → Bool) (check : Bool) (u u' : List (S × Nat)) (n : PNode S)
    (h : (if check then Front.uniqStep key u n else some u) = some u') :
    ∀ p ∈ u', p.1 = n.sol ∨ ∃ q ∈ u, q.1 = p.1 := by
  intro p hp
  split at h
  · rw [uniqStep_some key u u' n h] at hp
    exact setKey_mem key _ _ _ _ hp
  · simp only [Option.some.injEq] at h
    subst h
    exact .inr ⟨p, hp, rfl⟩

/-- The invariant of the insertion loop. -/
structure FInv (cmp : S → S → Bool) (F : Front S) (added : List (PNode S)) : Prop where
  nd : NonDominated cmp added F.sols
  keys : ∀ p ∈ F.uniq, ∃ m ∈ F.sols, cmp m.sol p.1 = true

theorem add_inv (cmp key : S → S → Bool) (check : Bool) (hg : GoodOrder cmp key)
    (F : Front S) (added : List (PNode S)) (n : PNode S) (h : FInv cmp F added) :
    FInv cmp (F.add cmp key check n) (added ++ [n]) := by
  unfold Front.add
  split
  · rename_i he
    have hadd : added = [] := by
      cases added with
      | nil => rfl
      | cons a as =>
        obtain ⟨m, hm, _⟩ := h.nd.covered a (by simp)
        rw [he] at hm; simp at hm
    have hu : ∀ p ∈ F.uniq, False := by
      intro p hp
      obtain ⟨m, hm, _⟩ := h.keys p hp
      rw [he] at hm; simp at hm
    subst hadd
    refine ⟨⟨by simp, by simp, ?_⟩, ?_⟩
    · intro m hm
      exact ⟨n, by simp, by simp at hm; rw [hm]; exact hg.refl _⟩
    · intro p hp
      refine ⟨n, by simp, ?_⟩
      split at hp
      · rcases setKey_mem key _ _ _ _ hp with h1 | ⟨q, hq, _⟩
        · rw [h1]; exact hg.refl _
        · exact (hu q hq).elim
      · exact (hu p hp).elim
  · split
    · rename_i hne hs
      refine ⟨⟨?_, h.nd.antichain, ?_⟩, h.keys⟩
      · intro m hm
        exact List.mem_append_left _ (h.nd.inserted m hm)
      · intro m hm
        rcases List.mem_append.1 hm with hm | hm
        · exact h.nd.covered m hm
        · have hm : m = n := by simpa using hm
          subst hm
          cases check with
          | false => simp at hs
          | true =>
            simp only [if_true] at hs
            obtain ⟨p, hp, hk⟩ := uniqStep_none key _ _ hs
            obtain ⟨x, hx, hc⟩ := h.keys p hp
            exact ⟨x, hx, hg.trans _ _ _ hc (hg.key _ _ hk)⟩
    · rename_i hne u hs
      have hkeys := step_some key check F.uniq u n hs
      split
      · rename_i hany
        obtain ⟨x, hx, hc⟩ := List.any_eq_true.1 hany
        refine ⟨⟨?_, h.nd.antichain, ?_⟩, ?_⟩
        · intro m hm
          exact List.mem_append_left _ (h.nd.inserted m hm)
        · intro m hm
          rcases List.mem_append.1 hm with hm | hm
          · exact h.nd.covered m hm
          · have hm : m = n := by simpa using hm
            subst hm
            exact ⟨x, hx, hc⟩
        · intro p hp
          rcases hkeys p hp with h1 | ⟨q, hq, h1⟩
          · exact ⟨x, hx, by rw [h1]; exact hc⟩
          · rw [← h1]; exact h.keys q hq
      · rename_i hany
        have hno : ∀ m ∈ F.sols, cmp m.sol n.sol = false := by
          intro m hm
          by_contra hc
          exact hany (List.any_eq_true.2 ⟨m, hm, by simpa using hc⟩)
        -- whatever a member covered is still covered
        have keep : ∀ s, (∃ m ∈ F.sols, cmp m.sol s = true) →
            ∃ m ∈ (F.sols.filter fun m => !cmp n.sol m.sol) ++ [n], cmp m.sol s = true := by
          rintro s ⟨m, hm, hc⟩
          by_cases hd : cmp n.sol m.sol = true
          · exact ⟨n, by simp, hg.trans _ _ _ hd hc⟩
          · exact ⟨m, by simp [List.mem_filter, hm, hd], hc⟩
        refine ⟨⟨?_, ?_, ?_⟩, ?_⟩
        · intro m hm
          rcases List.mem_append.1 hm with hm | hm
          · exact List.mem_append_left _ (h.nd.inserted m (List.mem_filter.1 hm).1)
          · exact List.mem_append_right _ hm
        · refine List.pairwise_append.2 ⟨h.nd.antichain.filter _, by simp, ?_⟩
          intro a ha b hb
          have hb : b = n := by simpa using hb
          subst hb
          obtain ⟨ha, hd⟩ := List.mem_filter.1 ha
          exact ⟨hno a ha, by simpa using hd⟩
        · intro m hm
          rcases List.mem_append.1 hm with hm | hm
          · exact keep m.sol (h.nd.covered m hm)
          · have hm : m = n := by simpa using hm
            subst hm
            exact ⟨m, by simp, hg.refl _⟩
        · intro p hp
          rcases hkeys p hp with h1 | ⟨q, hq, h1⟩
          · exact ⟨n, by simp, by rw [h1]; exact hg.refl _⟩
          · rw [← h1]; exact keep q.1 (h.keys q hq)

theorem addAll_inv (cmp key : S → S → Bool) (check : Bool) (hg : GoodOrder cmp key)
    (F : Front S) (added ns : List (PNode S)) (h : FInv cmp F added) :
    FInv cmp (F.addAll cmp key check ns) (added ++ ns) := by
  induction ns generalizing F added with
  | nil => simpa [Front.addAll] using h
  | cons n ns ih =>
    rw [Front.addAll]
    have := ih (F.add cmp key check n) (added ++ [n]) (add_inv cmp key check hg F added n h)
    simpa using this

/-- C22 for every task with a reflexive and transitive dominance: after any sequence of insertions the front
holds exactly the non-dominated solutions. -/
theorem front_nonDominated (cmp key : S → S → Bool) (check : Bool) (hg : GoodOrder cmp key)
    (ns : List (PNode S)) :
    NonDominated cmp ns ((Front.empty : Front S).addAll cmp key check ns).sols := by
  have := addAll_inv cmp key check hg Front.empty [] ns ⟨⟨by simp [Front.empty], by simp [Front.empty],
    by simp⟩, by simp [Front.empty]⟩
  simpa using this.nd

theorem f1_goodOrder : GoodOrder f1Ops.dom f1Ops.key := by
  constructor
  · intro a; simp [f1Ops]
  · intro a b c h1 h2
    simp only [f1Ops, Bool.and_eq_true, decide_eq_true_eq] at *
    omega
  · intro a b h
    simp only [f1Ops, Bool.and_eq_true, decide_eq_true_eq] at *
    subst h; omega

theorem f1_goodOrderInv : GoodOrder f1Ops.domInv f1Ops.key := by
  constructor
  · intro a; simp [f1Ops]
  · intro a b c h1 h2
    simp only [f1Ops, Bool.and_eq_true, decide_eq_true_eq] at *
    omega
  · intro a b h
    simp only [f1Ops, Bool.and_eq_true, decide_eq_true_eq] at *
    subst h; omega

/-- C22 for the F1 task, spelled out: members are inserted pairs of error counts, no two different members
are comparable, and each inserted pair is at least as large in both counts as some member. -/
theorem f1_front_exact (ns : List (PNode F1Sol)) :
    let sols := ((Front.empty : Front F1Sol).addAll f1Ops.dom f1Ops.key f1Ops.checkUnique ns).sols
    (∀ m ∈ sols, m ∈ ns) ∧
    (sols.Pairwise fun a b => ¬ (a.sol.fn ≤ b.sol.fn ∧ a.sol.fp ≤ b.sol.fp) ∧
      ¬ (b.sol.fn ≤ a.sol.fn ∧ b.sol.fp ≤ a.sol.fp)) ∧
    ∀ n ∈ ns, ∃ m ∈ sols, m.sol.fn ≤ n.sol.fn ∧ m.sol.fp ≤ n.sol.fp := by
  have h := front_nonDominated f1Ops.dom f1Ops.key f1Ops.checkUnique f1_goodOrder ns
  refine ⟨h.inserted, h.antichain.imp ?_, ?_⟩
  · intro a b hab
    obtain ⟨h1, h2⟩ := hab
    simp only [f1Ops, Bool.and_eq_false_iff, decide_eq_false_iff_not] at h1 h2
    omega
  · intro n hn
    obtain ⟨m, hm, hc⟩ := h.covered n hn
    simp only [f1Ops, Bool.and_eq_true, decide_eq_true_eq] at hc
    exact ⟨m, hm, hc⟩

/-- C22 fails for the fairness tasks: three solutions that get less fair by a little less than 1e-4 each and
replace each other; the first is not dominated, not even with the tolerance, by what is left. Such
scores need groups of at least 20000 instances. -/
theorem fairness_front_drops :
    ∃ ns : List (PNode FairSol), ¬ NonDominated fairDom ns
      ((Front.empty : Front FairSol).addAll fairOps.dom fairOps.key fairOps.checkUnique ns).sols := by
  refine ⟨[⟨⟨5, 100 / 100000, 1, false⟩, 1⟩, ⟨⟨4, 109 / 100000, 1, false⟩, 1⟩,
    ⟨⟨3, 118 / 100000, 1, false⟩, 1⟩], ?_⟩
  intro h
  obtain ⟨m, hm, hc⟩ := h.covered ⟨⟨5, 100 / 100000, 1, false⟩, 1⟩ (by simp)
  have e : ((Front.empty : Front FairSol).addAll fairOps.dom fairOps.key fairOps.checkUnique
      [⟨⟨5, 100 / 100000, 1, false⟩, 1⟩, ⟨⟨4, 109 / 100000, 1, false⟩, 1⟩,
        ⟨⟨3, 118 / 100000, 1, false⟩, 1⟩]).sols = [⟨⟨3, 118 / 100000, 1, false⟩, 1⟩] := by
    decide +kernel
  rw [e] at hm
  simp only [List.mem_singleton] at hm
  subst hm
  revert hc
  decide +kernel

/-- A solution equal to a member but with a smaller tree does not replace it: the front keeps the larger tree
(although `uniques` then records the smaller size). -/
theorem front_keeps_larger_tree :
    ((Front.empty : Front F1Sol).addAll f1Ops.dom f1Ops.key true [⟨⟨1, 1⟩, 3⟩, ⟨⟨1, 1⟩, 2⟩]).sols =
      [⟨⟨1, 1⟩, 3⟩] := by decide

/-- The smallest number of nodes inserted for each value. -/
structure Smallest (u : List (S × Nat)) (ns : List (PNode S)) : Prop where
  below : ∀ n ∈ ns, ∃ p ∈ u, p.1 = n.sol ∧ p.2 ≤ n.size
  origin : ∀ p ∈ u, ∃ n ∈ ns, n.sol = p.1 ∧ n.size = p.2
  once : (u.map Prod.fst).Nodup

private theorem setKey_exact {key : S → S → Bool} (hk : ∀ a b, key a b = true ↔ a = b) (s : S) (n : Nat) (u : List (S × Nat)) :
    (s, n) ∈ Front.setKey key s n u ∧ (∀ p ∈ Front.setKey key s n u, p = (s, n) ∨ p ∈ u) ∧
      ∀ p ∈ u, p.1 ≠ s → p ∈ Front.setKey key s n u := by
  induction u with
  | nil => simp [Front.setKey]
  | cons q u ih =>
    rw [Front.setKey]
    by_cases h : key q.1 s = true
    · rw [if_pos h]
      have e := (hk _ _).1 h
      refine ⟨by rw [e]; simp, ?_, ?_⟩
      · intro p hp
        rcases List.mem_cons.1 hp with rfl | hp
        · left; rw [e]
        · right; simp [hp]
      · intro p hp hne
        rcases List.mem_cons.1 hp with rfl | hp
        · exact absurd e hne
        · simp [hp]
    · rw [if_neg h]
      refine ⟨by simp [ih.1], ?_, ?_⟩
      · intro p hp
        rcases List.mem_cons.1 hp with rfl | hp
        · right; simp
        · rcases ih.2.1 p hp with h | h
          · exact .inl h
          · right; simp [h]
      · intro p hp hne
        rcases List.mem_cons.1 hp with rfl | hp
        · simp
        · simp [ih.2.2 p hp hne]

private theorem setKey_keys {key : S → S → Bool} (hk : ∀ a b, key a b = true ↔ a = b) (s : S) (n : Nat) (u : List (S × Nat)) :
    ((Front.setKey key s n u).map Prod.fst) = u.map Prod.fst ∨
      (s ∉ u.map Prod.fst ∧ (Front.setKey key s n u).map Prod.fst = u.map Prod.fst ++ [s]) := by
  induction u with
  | nil => right; simp [Front.setKey]
  | cons q u ih =>
    rw [Front.setKey]
    by_cases h : key q.1 s = true
    · rw [if_pos h]; left; rfl
    · rw [if_neg h]
      have hne : s ≠ q.1 := fun e => h ((hk _ _).2 e.symm)
      rcases ih with ih | ⟨h1, h2⟩
      · left; simp only [List.map_cons, ih]
      · right; simp only [List.map_cons, h2, List.mem_cons, not_or]; exact ⟨⟨hne, h1⟩, rfl⟩

private theorem fst_inj {u : List (S × Nat)} (h : (u.map Prod.fst).Nodup) {p q : S × Nat} (hp : p ∈ u) (hq : q ∈ u) (e : p.1 = q.1) :
    p = q := by
  induction u with
  | nil => simp at hp
  | cons x u ih =>
    obtain ⟨h1, h2⟩ := List.nodup_cons.1 h
    rcases List.mem_cons.1 hp with a | a <;> rcases List.mem_cons.1 hq with b | b
    · rw [a, b]
    · rw [a] at e; exact absurd (List.mem_map.2 ⟨q, b, e.symm⟩) h1
    · rw [b] at e; exact absurd (List.mem_map.2 ⟨p, a, e⟩) h1
    · exact ih h2 a b

/-- C22: the table of values seen records, for each value inserted, the size of the smallest tree, for exact keys. -/
theorem front_uniques_smallest {cmp key : S → S → Bool} (hk : ∀ a b, key a b = true ↔ a = b) (ns : List (PNode S)) :
    Smallest ((Front.empty : Front S).addAll cmp key true ns).uniq ns := by
  have set : ∀ (u : List (S × Nat)) (m : List (PNode S)) (n : PNode S), Smallest u m → (∀ p ∈ u, p.1 = n.sol → n.size ≤ p.2) →
      Smallest (Front.setKey key n.sol n.size u) (m ++ [n]) := by
    intro u m n h hle
    obtain ⟨a, b, c⟩ := setKey_exact hk n.sol n.size u
    constructor
    · intro x hx
      rcases List.mem_append.1 hx with hx | hx
      · obtain ⟨p, hp, e, hs⟩ := h.below x hx
        by_cases hp2 : p.1 = n.sol
        · exact ⟨_, a, by rw [← e, hp2], Nat.le_trans (hle p hp hp2) hs⟩
        · exact ⟨p, c p hp hp2, e, hs⟩
      · rw [List.mem_singleton.1 hx]
        exact ⟨_, a, rfl, Nat.le_refl _⟩
    · intro p hp
      rcases b p hp with rfl | hp
      · exact ⟨n, by simp, rfl, rfl⟩
      · obtain ⟨x, hx, e⟩ := h.origin p hp
        exact ⟨x, by simp [hx], e⟩
    · rcases setKey_keys hk n.sol n.size u with e | ⟨h1, e⟩
      · rw [e]; exact h.once
      · rw [e]; exact List.nodup_append.2 ⟨h.once, by simp, by
          intro x hx y hy; rw [List.mem_singleton.1 hy]; rintro rfl; exact h1 hx⟩
  have step : ∀ (F : Front S) (m : List (PNode S)) (n : PNode S), Smallest F.uniq m → (F.sols = [] → F.uniq = []) →
      Smallest (F.add cmp key true n).uniq (m ++ [n]) ∧ (F.add cmp key true n).sols ≠ [] := by
    intro F m n h h0
    unfold Front.add
    by_cases hs : F.sols = []
    · rw [if_pos hs]
      simp only [if_true]
      refine ⟨set _ _ _ h ?_, by simp⟩
      rw [h0 hs]; simp
    · rw [if_neg hs]
      simp only [if_true]
      unfold Front.uniqStep
      cases hf : F.uniq.find? fun p => key p.1 n.sol with
      | none =>
        simp only
        have hle : ∀ p ∈ F.uniq, p.1 = n.sol → n.size ≤ p.2 := by
          intro p hp e
          have := List.find?_eq_none.1 hf p hp
          exact absurd ((hk _ _).2 e) this
        split
        · exact ⟨set _ _ _ h hle, hs⟩
        · exact ⟨set _ _ _ h hle, by simp⟩
      | some q =>
        have hq := List.mem_of_find?_eq_some hf
        have he := List.find?_some hf
        have eq : q.1 = n.sol := (hk _ _).1 he
        simp only
        by_cases hle : q.2 ≤ n.size
        · rw [if_pos hle]
          refine ⟨⟨?_, ?_, h.once⟩, hs⟩
          · intro x hx
            rcases List.mem_append.1 hx with hx | hx
            · exact h.below x hx
            · rw [List.mem_singleton.1 hx]
              exact ⟨q, hq, eq, hle⟩
          · intro p hp
            obtain ⟨x, hx, e⟩ := h.origin p hp
            exact ⟨x, by simp [hx], e⟩
        · rw [if_neg hle]
          have hall : ∀ p ∈ F.uniq, p.1 = n.sol → n.size ≤ p.2 := by
            intro p hp e
            have : p = q := fst_inj h.once hp hq (e.trans eq.symm)
            rw [this]; omega
          simp only
          split
          · exact ⟨set _ _ _ h hall, hs⟩
          · exact ⟨set _ _ _ h hall, by simp⟩
  have all : ∀ (ns m : List (PNode S)) (F : Front S), Smallest F.uniq m → (F.sols = [] → F.uniq = []) →
      Smallest (F.addAll cmp key true ns).uniq (m ++ ns) := by
    intro ns
    induction ns with
    | nil => intro m F h _; rw [List.append_nil]; exact h
    | cons n ns ih =>
      intro m F h h0
      rw [Front.addAll]
      obtain ⟨a, b⟩ := step F m n h h0
      have := ih (m ++ [n]) _ a fun e => absurd e b
      simpa using this
  exact all ns [] Front.empty ⟨by simp, by simp [Front.empty], by simp [Front.empty]⟩ fun _ => rfl

/-- Two trees of the same value: the smaller size is recorded, whichever comes first. -/
example : ((Front.empty : Front F1Sol).addAll f1Ops.dom f1Ops.key true [⟨⟨1, 1⟩, 3⟩, ⟨⟨1, 1⟩, 2⟩]).uniq = [(⟨1, 1⟩, 2)] ∧
    ((Front.empty : Front F1Sol).addAll f1Ops.dom f1Ops.key true [⟨⟨1, 1⟩, 2⟩, ⟨⟨1, 1⟩, 3⟩]).uniq = [(⟨1, 1⟩, 2)] := by decide

/-! ### C23 -/

/-- The comparison at the root (f1score.h:87, group_fairness.h:128, eq_opp.h:128): the training score is at
least as large. -/
def scoreCmp (score : S → Rat) (a b : S) : Bool := decide (score b ≤ score a)

/-- C23: at the root, after at least one insertion, the front has exactly one member; it was inserted, and no
inserted solution has a better score. -/
theorem root_front_best [DecidableEq S] (score : S → Rat) (n : PNode S) (ns : List (PNode S)) :
    ∃ m, ((Front.empty : Front S).addAll (scoreCmp score) (fun a b => decide (a = b)) true (n :: ns)).sols =
        [m] ∧ m ∈ n :: ns ∧ ∀ x ∈ n :: ns, score x.sol ≤ score m.sol := by
  have hg : GoodOrder (scoreCmp score) (fun a b => decide (a = b)) := by
    constructor
    · intro a; simp [scoreCmp]
    · intro a b c h1 h2
      simp only [scoreCmp, decide_eq_true_eq] at *
      exact le_trans h2 h1
    · intro a b h
      simp only [scoreCmp, decide_eq_true_eq] at *
      rw [h]
  have h := front_nonDominated (scoreCmp score) (fun a b => decide (a = b)) true hg (n :: ns)
  generalize ((Front.empty : Front S).addAll (scoreCmp score) (fun a b => decide (a = b)) true
    (n :: ns)).sols = sols at *
  match sols, h with
  | [], h =>
    obtain ⟨m, hm, _⟩ := h.covered n (by simp)
    simp at hm
  | [m], h =>
    refine ⟨m, rfl, h.inserted m (by simp), ?_⟩
    intro x hx
    obtain ⟨y, hy, hc⟩ := h.covered x hx
    have hy : y = m := by simpa using hy
    subst hy
    simpa [scoreCmp] using hc
  | a :: b :: l, h =>
    have h1 := (List.pairwise_cons.1 h.antichain).1 b (by simp)
    simp only [scoreCmp, decide_eq_false_iff_not, not_le] at h1
    exact absurd h1.1 (not_lt.2 (le_of_lt h1.2))

/-! ### C24 -/

/-- What a bounded front must keep: the size limit, and every inserted value dominated by a member. -/
structure BoundedCover (cmp : S → S → Bool) (max : Nat) (added sols : List (PNode S)) : Prop where
  size : sols.length ≤ max
  covered : ∀ n ∈ added, ∃ m ∈ sols, cmp m.sol n.sol = true

/-- `merge a b` dominates both, and mutual domination means equality. -/
structure GoodMerge (cmp eq : S → S → Bool) (merge : S → S → S) : Prop where
  left : ∀ a b, cmp (merge a b) a = true
  right : ∀ a b, cmp (merge a b) b = true
  antisymm : ∀ a b, cmp a b = true → cmp b a = true → eq a b = true

private theorem similarFrom_lt (diff : S → S → Rat) (s : S) (ms : List (PNode S)) (i : Nat) (best : Nat × Rat)
    (h : best.1 < i) : Front.similarFrom diff s ms i best < i + ms.length := by
  induction ms generalizing i best with
  | nil => simpa [Front.similarFrom] using h
  | cons m ms ih =>
    rw [Front.similarFrom]
    split
    · have := ih (i + 1) (i, diff m.sol s) (by simp)
      simp only [List.length_cons]; omega
    · have := ih (i + 1) best (by omega)
      simp only [List.length_cons]; omega

private theorem similar_lt (diff : S → S → Rat) (s : S) (ms : List (PNode S)) (h : ms ≠ []) :
    Front.similar diff s ms < ms.length := by
  cases ms with
  | nil => exact absurd rfl h
  | cons m ms =>
    have := similarFrom_lt diff s ms 1 (0, diff m.sol s) (by simp)
    simp only [Front.similar, List.length_cons]; omega

private theorem mergeAt_length (g : S → S) (i : Nat) (l : List (PNode S)) :
    (Front.mergeAt g i l).length = l.length := by
  induction l generalizing i with
  | nil => cases i <;> rfl
  | cons m l ih => cases i with
    | zero => rfl
    | succ i => simp [Front.mergeAt, ih]

/-- Members of the merged list: unchanged ones, and the merged one. -/
private theorem mergeAt_mem (g : S → S) (i : Nat) (l : List (PNode S)) (hi : i < l.length) :
    (∃ m ∈ l, { m with sol := g m.sol } ∈ Front.mergeAt g i l) ∧
    (∀ m ∈ l, m ∈ Front.mergeAt g i l ∨ { m with sol := g m.sol } ∈ Front.mergeAt g i l) ∧
    ∀ x ∈ Front.mergeAt g i l, x ∈ l ∨ ∃ m ∈ l, x = { m with sol := g m.sol } := by
  induction l generalizing i with
  | nil => simp at hi
  | cons a l ih =>
    cases i with
    | zero =>
      refine ⟨⟨a, by simp, by simp [Front.mergeAt]⟩, ?_, ?_⟩
      · intro m hm
        rcases List.mem_cons.1 hm with rfl | hm
        · exact .inr (by simp [Front.mergeAt])
        · exact .inl (by simp [Front.mergeAt, hm])
      · intro x hx
        rcases List.mem_cons.1 hx with rfl | hx
        · exact .inr ⟨a, by simp, rfl⟩
        · exact .inl (by simp [hx])
    | succ i =>
      obtain ⟨⟨m, h1, h2⟩, h3, h4⟩ := ih i (by simpa using hi)
      refine ⟨⟨m, by simp [h1], by simp [Front.mergeAt, h2]⟩, ?_, ?_⟩
      · intro x hx
        rcases List.mem_cons.1 hx with rfl | hx
        · exact .inl (by simp [Front.mergeAt])
        · rcases h3 x hx with h | h
          · exact .inl (by simp [Front.mergeAt, h])
          · exact .inr (by simp [Front.mergeAt, h])
      · intro x hx
        rcases List.mem_cons.1 hx with rfl | hx
        · exact .inl (by simp)
        · rcases h4 x hx with h | ⟨m, hm, h⟩
          · exact .inl (by simp [h])
          · exact .inr ⟨m, by simp [hm], h⟩

private structure MInv (cmp : S → S → Bool) (max : Nat) (F : Front S) (added : List (PNode S)) : Prop where
  bc : BoundedCover cmp max added F.sols
  keys : ∀ p ∈ F.uniq, ∃ m ∈ F.sols, cmp m.sol p.1 = true

private theorem addOrMerge_inv (cmp key eq : S → S → Bool) (diff : S → S → Rat) (merge : S → S → S)
    (max : Nat) (hmax : 0 < max) (hg : GoodOrder cmp key) (hm : GoodMerge cmp eq merge)
    (F : Front S) (added : List (PNode S)) (n : PNode S) (h : MInv cmp max F added) :
    ∃ G, F.addOrMerge cmp key eq diff merge max n = some G ∧ MInv cmp max G (added ++ [n]) := by
  unfold Front.addOrMerge
  -- a new list of solutions that covers `n` and everything covered before is enough
  have done : ∀ (sols : List (PNode S)) (u : List (S × Nat)), sols.length ≤ max →
      (∀ p ∈ u, p.1 = n.sol ∨ ∃ q ∈ F.uniq, q.1 = p.1) →
      (∃ m ∈ sols, cmp m.sol n.sol = true) →
      (∀ s, (∃ m ∈ F.sols, cmp m.sol s = true) → ∃ m ∈ sols, cmp m.sol s = true) →
      MInv cmp max ⟨sols, u⟩ (added ++ [n]) := by
    intro sols u h1 h2 h3 h4
    refine ⟨⟨h1, ?_⟩, ?_⟩
    · intro x hx
      rcases List.mem_append.1 hx with hx | hx
      · exact h4 _ (h.bc.covered x hx)
      · have hx : x = n := by simpa using hx
        subst hx; exact h3
    · intro p hp
      rcases h2 p hp with e | ⟨q, hq, e⟩
      · rw [e]; exact h3
      · rw [← e]; exact h4 _ (h.keys q hq)
  split
  · rename_i he
    refine ⟨_, rfl, done _ _ (by simp; omega) ?_ ⟨n, by simp, hg.refl _⟩ ?_⟩
    · intro p hp; exact setKey_mem key _ _ _ _ hp
    · rintro s ⟨m, hm, _⟩; rw [he] at hm; simp at hm
  · split
    · rename_i hs
      refine ⟨F, rfl, ?_⟩
      obtain ⟨p, hp, hk⟩ := uniqStep_none key _ _ hs
      obtain ⟨x, hx, hc⟩ := h.keys p hp
      exact done F.sols F.uniq h.bc.size (fun p hp => .inr ⟨p, hp, rfl⟩)
        ⟨x, hx, hg.trans _ _ _ hc (hg.key _ _ hk)⟩ fun s hs => hs
    · rename_i u hs
      have hkeys : ∀ p ∈ u, p.1 = n.sol ∨ ∃ q ∈ F.uniq, q.1 = p.1 :=
        step_some key true F.uniq u n (by simpa using hs)
      split
      · rename_i hany
        obtain ⟨x, hx, hc⟩ := List.any_eq_true.1 hany
        exact ⟨_, rfl, done F.sols u h.bc.size hkeys ⟨x, hx, hc⟩ fun s hs => hs⟩
      · simp only
        have hrest : ∀ s, (∃ m ∈ F.sols, cmp m.sol s = true) →
            (∃ m ∈ F.sols.filter fun m => !cmp n.sol m.sol, cmp m.sol s = true) ∨ cmp n.sol s = true := by
          rintro s ⟨m, hm, hc⟩
          by_cases hd : cmp n.sol m.sol = true
          · exact .inr (hg.trans _ _ _ hd hc)
          · exact .inl ⟨m, by simp [List.mem_filter, hm, hd], hc⟩
        have hdom : ∀ m ∈ F.sols.filter (fun m => !cmp n.sol m.sol), cmp n.sol m.sol = false := by
          intro m hm; simpa using (List.mem_filter.1 hm).2
        have hlen : (F.sols.filter fun m => !cmp n.sol m.sol).length ≤ max :=
          le_trans (List.length_filter_le _ _) h.bc.size
        generalize F.sols.filter (fun m => !cmp n.sol m.sol) = rest at *
        split
        · rename_i hlt
          refine ⟨_, rfl, done _ u (by simp; omega) hkeys ⟨n, by simp, hg.refl _⟩ ?_⟩
          intro s hs
          rcases hrest s hs with ⟨m, hm, hc⟩ | hc
          · exact ⟨m, by simp [hm], hc⟩
          · exact ⟨n, by simp, hc⟩
        · rename_i hge
          have hne : rest ≠ [] := by
            intro e; rw [e] at hge; simp at hge; omega
          rw [if_neg hne]
          have hi := similar_lt diff n.sol rest hne
          generalize Front.similar diff n.sol rest = i at *
          obtain ⟨⟨m0, h1, h2⟩, h3, h4⟩ := mergeAt_mem (merge n.sol) i rest hi
          -- no member is erased
          have hkeep : ∀ x ∈ Front.mergeAt (merge n.sol) i rest,
              (!(!eq n.sol x.sol && cmp n.sol x.sol)) = true := by
            intro x hx
            rcases h4 x hx with hx | ⟨m, hmr, rfl⟩
            · rw [hdom x hx]; simp
            · cases hcx : cmp n.sol (merge n.sol m.sol) with
              | false => simp
              | true => rw [hm.antisymm _ _ hcx (hm.left n.sol m.sol)]; rfl
          rw [List.filter_eq_self.2 hkeep]
          refine ⟨_, rfl, done _ u (by rw [mergeAt_length]; exact hlen) hkeys
            ⟨_, h2, hm.left _ _⟩ ?_⟩
          intro s hs
          rcases hrest s hs with ⟨m, hmm, hc⟩ | hc
          · rcases h3 m hmm with hx | hx
            · exact ⟨m, hx, hc⟩
            · exact ⟨_, hx, hg.trans _ _ _ (hm.right _ _) hc⟩
          · exact ⟨_, h2, hg.trans _ _ _ (hm.left _ _) hc⟩

/-- C24, generic: with a good order and a merge that dominates both arguments, compressing a front never
fails, respects the size limit and covers every inserted value. -/
theorem bounded_front_covers (cmp key eq : S → S → Bool) (diff : S → S → Rat) (merge : S → S → S)
    (max : Nat) (hmax : 0 < max) (hg : GoodOrder cmp key) (hm : GoodMerge cmp eq merge)
    (ns : List (PNode S)) :
    ∃ G, (Front.empty : Front S).addOrMergeAll cmp key eq diff merge max ns = some G ∧
      BoundedCover cmp max ns G.sols := by
  have key' : ∀ (ns added : List (PNode S)) (F : Front S), MInv cmp max F added →
      ∃ G, F.addOrMergeAll cmp key eq diff merge max ns = some G ∧ MInv cmp max G (added ++ ns) := by
    intro ns
    induction ns with
    | nil => intro added F h; exact ⟨F, rfl, by simpa using h⟩
    | cons n ns ih =>
      intro added F h
      obtain ⟨G, h1, h2⟩ := addOrMerge_inv cmp key eq diff merge max hmax hg hm F added n h
      obtain ⟨G', h3, h4⟩ := ih (added ++ [n]) G h2
      exact ⟨G', by rw [Front.addOrMergeAll, h1]; exact h3, by simpa using h4⟩
  obtain ⟨G, h1, h2⟩ := key' ns [] Front.empty ⟨⟨by simp [Front.empty], by simp⟩, by simp [Front.empty]⟩
  exact ⟨G, h1, by simpa using h2.bc⟩

/-- C24 for F1 and `AddOrMerge`: at most `max` members, and each inserted pair of error counts is at least
as large in both counts as some member. -/
theorem f1_addOrMerge_covers (max : Nat) (hmax : 0 < max) (ns : List (PNode F1Sol)) :
    ∃ G, (Front.empty : Front F1Sol).addOrMergeAll f1Ops.dom f1Ops.key f1Ops.eq f1Ops.diff f1Ops.merge max
        ns = some G ∧ G.sols.length ≤ max ∧
      ∀ n ∈ ns, ∃ m ∈ G.sols, m.sol.fn ≤ n.sol.fn ∧ m.sol.fp ≤ n.sol.fp := by
  obtain ⟨G, h1, h2⟩ := bounded_front_covers f1Ops.dom f1Ops.key f1Ops.eq f1Ops.diff f1Ops.merge max hmax
    f1_goodOrder (by
      constructor
      · intro a b; simp [f1Ops]
      · intro a b; simp [f1Ops]
      · intro a b h1 h2
        simp only [f1Ops, Bool.and_eq_true, decide_eq_true_eq] at *
        obtain ⟨a1, a2⟩ := a; obtain ⟨b1, b2⟩ := b
        simp only [F1Sol.mk.injEq] at *; omega) ns
  refine ⟨G, h1, h2.size, ?_⟩
  intro n hn
  obtain ⟨m, hm, hc⟩ := h2.covered n hn
  simp only [f1Ops, Bool.and_eq_true, decide_eq_true_eq] at hc
  exact ⟨m, hm, hc⟩

/-- C24 for F1 and `AddInvOrInvMerge`, the same with the order reversed. -/
theorem f1_addInvOrInvMerge_covers (max : Nat) (hmax : 0 < max) (ns : List (PNode F1Sol)) :
    ∃ G, (Front.empty : Front F1Sol).addOrMergeAll f1Ops.domInv f1Ops.key f1Ops.eq f1Ops.diff f1Ops.mergeInv
        max ns = some G ∧ G.sols.length ≤ max ∧
      ∀ n ∈ ns, ∃ m ∈ G.sols, n.sol.fn ≤ m.sol.fn ∧ n.sol.fp ≤ m.sol.fp := by
  obtain ⟨G, h1, h2⟩ := bounded_front_covers f1Ops.domInv f1Ops.key f1Ops.eq f1Ops.diff f1Ops.mergeInv max hmax
    f1_goodOrderInv (by
      constructor
      · intro a b; simp [f1Ops]
      · intro a b; simp [f1Ops]
      · intro a b h1 h2
        simp only [f1Ops, Bool.and_eq_true, decide_eq_true_eq] at *
        obtain ⟨a1, a2⟩ := a; obtain ⟨b1, b2⟩ := b
        simp only [F1Sol.mk.injEq] at *; omega) ns
  refine ⟨G, h1, h2.size, ?_⟩
  intro n hn
  obtain ⟨m, hm, hc⟩ := h2.covered n hn
  simp only [f1Ops, Bool.and_eq_true, decide_eq_true_eq] at hc
  exact ⟨m, hm, hc⟩

/-- `AddOrInvMerge`, used to shrink upper bounds: every member's value is dominated by an inserted value, so
pruning with the compressed front prunes nothing that pruning with all inserted values would keep. -/
theorem addOrInvMerge_sound (cmp key eq : S → S → Bool) (diff : S → S → Rat) (mergeInv : S → S → S)
    (max : Nat) (hg : GoodOrder cmp key)
    (hm : ∀ a b, cmp a (mergeInv a b) = true) (ns : List (PNode S)) (G : Front S)
    (h : (Front.empty : Front S).addOrMergeAll cmp key eq diff mergeInv max ns = some G) :
    ∀ m ∈ G.sols, ∃ n ∈ ns, cmp n.sol m.sol = true := by
  have key' : ∀ (ns added : List (PNode S)) (F : Front S),
      (∀ m ∈ F.sols, ∃ n ∈ added, cmp n.sol m.sol = true) →
      F.addOrMergeAll cmp key eq diff mergeInv max ns = some G →
      ∀ m ∈ G.sols, ∃ n ∈ added ++ ns, cmp n.sol m.sol = true := by
    intro ns
    induction ns with
    | nil =>
      intro added F hF h
      simp only [Front.addOrMergeAll, Option.some.injEq] at h
      subst h
      simpa using hF
    | cons n ns ih =>
      intro added F hF h
      rw [Front.addOrMergeAll] at h
      cases h1 : F.addOrMerge cmp key eq diff mergeInv max n with
      | none => rw [h1] at h; simp at h
      | some F' =>
        rw [h1] at h
        have hF' : ∀ m ∈ F'.sols, ∃ x ∈ added ++ [n], cmp x.sol m.sol = true := by
          have old : ∀ m ∈ F.sols, ∃ x ∈ added ++ [n], cmp x.sol m.sol = true := by
            intro m hm
            obtain ⟨x, hx, hc⟩ := hF m hm
            exact ⟨x, List.mem_append_left _ hx, hc⟩
          have new : ∃ x ∈ added ++ [n], cmp x.sol n.sol = true := ⟨n, by simp, hg.refl _⟩
          unfold Front.addOrMerge at h1
          split at h1
          · cases h1
            intro m hm
            have hm : m = n := by simpa using hm
            subst hm; exact new
          · split at h1
            · cases h1; exact old
            · split at h1
              · cases h1; exact old
              · simp only at h1
                split at h1
                · cases h1
                  intro m hm
                  rcases List.mem_append.1 hm with hm | hm
                  · exact old m (List.mem_filter.1 hm).1
                  · have hm : m = n := by simpa using hm
                    subst hm; exact new
                · split at h1
                  · simp at h1
                  · rename_i hne
                    cases h1
                    intro m hm'
                    have hmem := (List.mem_filter.1 hm').1
                    rcases (mergeAt_mem _ _ _ (similar_lt diff n.sol _ hne)).2.2 m hmem with hx | ⟨y, _, rfl⟩
                    · exact old m (List.mem_filter.1 hx).1
                    · exact ⟨n, by simp, hm n.sol y.sol⟩
        have := ih (added ++ [n]) F' hF' h
        simpa using this
  have := key' ns [] Front.empty (by simp [Front.empty]) h
  simpa using this

/-- C24 fails for `AddInvOrMerge`, which the solver uses to shrink lower bounds: after a merge the merged
solution is erased at once, because the new node reverse-dominates it, and nothing is left that is at
most the inserted values. -/
theorem addInvOrMerge_drops :
    ∃ (ns : List (PNode F1Sol)) (G : Front F1Sol),
      (Front.empty : Front F1Sol).addOrMergeAll f1Ops.domInv f1Ops.key f1Ops.eq f1Ops.diff f1Ops.merge 2 ns =
        some G ∧ G.sols = [⟨⟨9, 0⟩, 0⟩] ∧
      ∃ n ∈ ns, ∀ m ∈ G.sols, ¬ (m.sol.fn ≤ n.sol.fn ∧ m.sol.fp ≤ n.sol.fp) := by
  refine ⟨[⟨⟨9, 0⟩, 0⟩, ⟨⟨0, 9⟩, 0⟩, ⟨⟨1, 8⟩, 0⟩], ⟨[⟨⟨9, 0⟩, 0⟩], [(⟨9, 0⟩, 0), (⟨0, 9⟩, 0), (⟨1, 8⟩, 0)]⟩,
    by rfl, rfl, ⟨⟨0, 9⟩, 0⟩, by simp, ?_⟩
  intro m hm
  have hm : m = ⟨⟨9, 0⟩, 0⟩ := by simpa using hm
  subst hm
  simp

/-- A front of three F1 solutions after four insertions. -/
example : ((Front.empty : Front F1Sol).addAll f1Ops.dom f1Ops.key f1Ops.checkUnique
    [⟨⟨3, 3⟩, 1⟩, ⟨⟨5, 0⟩, 1⟩, ⟨⟨2, 3⟩, 2⟩, ⟨⟨0, 4⟩, 1⟩]).sols = [⟨⟨5, 0⟩, 1⟩, ⟨⟨2, 3⟩, 2⟩, ⟨⟨0, 4⟩, 1⟩] := by decide

end Streed
