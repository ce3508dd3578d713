import Verif.Lemmas.Clock

/-! How many time checks are made after the time limit. -/

namespace Streed

section
variable {c : Cfg} {k : Nat} (hk : ∀ i, k ≤ i → c.clock i = false)

theorem ok_before (hk : ∀ i, k ≤ i → c.clock i = false) {s : St} (h : ¬ c.ok s = false) : s.tick < k := by
  rcases Nat.lt_or_ge s.tick k with h1 | h1
  · exact h1
  · exact absurd (hk _ h1) h

/-- A call makes one check, or ends at most `B` checks after the limit. -/
def Prompt (k B : Nat) (rec : Rec) : Prop := ∀ D b UB d n s, (rec D b UB d n s).2.tick ≤ max (s.tick + 1) (k + B)

include hk

theorem sizeStep_prompt {B : Nat} {rec : Rec} (hr : Prompt k B rec) (f : Nat) (L R : Side) (sw : Bool) (d n ls : Nat) (v : Loc) (s : St)
    (hs : s.tick ≤ k) : (sizeStep c rec f L R sw d n ls v s).2.2.tick ≤ k + B + 2 ∧
    ((sizeStep c rec f L R sw d n ls v s).1 = false → (sizeStep c rec f L R sw d n ls v s).2.2.tick ≤ k) := by
  unfold sizeStep
  dsimp only
  split
  · exact ⟨by dsimp only; omega, fun _ => hs⟩
  split
  · exact ⟨by dsimp only; omega, fun _ => hs⟩
  have h1 := hr L.D L.b (subtractUB c v.UB (computeLRLB c s f L.D L.b (min (d - 1) ls) ls R.D R.b (min (d - 1) (n - ls - 1)) (n - ls - 1)).2.2 v.sols)
    (min (d - 1) ls) ls s
  generalize rec L.D L.b _ (min (d - 1) ls) ls s = lr at h1 ⊢
  split
  · exact ⟨by simp only [St.next]; omega, fun h => by simp at h⟩
  rename_i ok1
  have b1 := ok_before hk ok1
  split
  · exact ⟨by simp only [St.next]; omega, fun _ => by simp only [St.next]; omega⟩
  have h2 := hr R.D R.b (subtractUB c v.UB lr.1 v.sols) (min (d - 1) (n - ls - 1)) (n - ls - 1) lr.2.next
  generalize rec R.D R.b _ (min (d - 1) (n - ls - 1)) (n - ls - 1) lr.2.next = rr at h2 ⊢
  simp only [St.next] at h2
  split
  · exact ⟨by simp only [St.next]; omega, fun h => by simp at h⟩
  rename_i ok2
  have b2 := ok_before hk ok2
  generalize (if sw = true then Node.combine f rr.1 lr.1 c.P.bc else Node.combine f lr.1 rr.1 c.P.bc) = nn
  split
  · exact ⟨by simp only [St.next]; omega, fun _ => by simp only [St.next]; omega⟩
  split
  · exact ⟨by simp only [St.next]; omega, fun _ => by simp only [St.next]; omega⟩
  · exact ⟨by simp only [St.next]; omega, fun _ => by simp only [St.next]; omega⟩

theorem sizeLoop_prompt {B : Nat} {rec : Rec} (hr : Prompt k B rec) (f : Nat) (L R : Side) (sw : Bool) (d n : Nat) (ls : List Nat) (v : Loc) (s : St)
    (hs : s.tick ≤ k) : (sizeLoop c rec f L R sw d n ls v s).2.tick ≤ k + B + 2 := by
  induction ls generalizing v s with
  | nil => unfold sizeLoop; dsimp only; omega
  | cons l ls ih =>
    unfold sizeLoop
    dsimp only
    have h := sizeStep_prompt hk hr f L R sw d n l v s hs
    split
    · exact h.1
    · rename_i hf
      exact ih _ _ (h.2 (by simpa using hf))

theorem featLoop_prompt {B : Nat} {rec : Rec} (hr : Prompt k B rec) (D : Data) (b : Branch) (d n : Nat) (blb : Node) (fs : List Nat) (v : Loc) (s : St) :
    (featLoop c rec D b d n blb fs v s).2.tick ≤ max (s.tick + 1) (k + B + 3) := by
  induction fs generalizing v s with
  | nil => unfold featLoop; dsimp only; omega
  | cons f fs ih =>
    unfold featLoop
    dsimp only
    split
    · simp only [St.next]; omega
    rename_i ok
    have hb := ok_before hk ok
    split
    · simp only [St.next]; omega
    split
    · simp only [St.next]; omega
    split
    · refine Nat.le_trans (ih v s.next) ?_
      simp only [St.next]; omega
    split
    · simp only [St.next]; omega
    split
    · refine Nat.le_trans (ih v s.next) ?_
      simp only [St.next]; omega
    · refine Nat.le_trans (ih _ _) ?_
      split
      · have := sizeLoop_prompt hk hr f ⟨having f D, b.child f true⟩ ⟨without f D, b.child f false⟩ true d n (sizes d n) v s.next (by simp only [St.next]; omega)
        omega
      · have := sizeLoop_prompt hk hr f ⟨without f D, b.child f false⟩ ⟨having f D, b.child f true⟩ false d n (sizes d n) v s.next (by simp only [St.next]; omega)
        omega

theorem generalCase_prompt {B : Nat} {rec : Rec} (hr : Prompt k B rec) (D : Data) (b : Branch) (UB : Node) (d n : Nat) (s : St) :
    (generalCase c rec D b UB d n s).2.tick ≤ max (s.tick + 1) (k + B + 3) := by
  unfold generalCase
  dsimp only
  split
  · dsimp only; omega
  · have := featLoop_prompt hk hr D b d n (computeLB c s D b d n) (c.order D) (startLoc c D b UB d n s) s
    rw [updateArchive_tick]
    exact this

theorem subTree_prompt {B : Nat} {rec : Rec} (hr : Prompt k B rec) : Prompt k (B + 3) (subTree c rec) := by
  intro D b UB d n s
  have go : ∀ (s' : St) d n, s'.tick ≤ k →
      (if c.useTerm = true ∧ d ≤ 2 then solveTerminal c D b UB d n s' else generalCase c rec D b UB d n s').2.tick ≤ k + (B + 3) := by
    intro s' d n h
    split
    · rw [solveTerminal_tick]; omega
    · have := generalCase_prompt hk hr D b UB d n s'
      omega
  unfold subTree
  dsimp only
  split
  · simp only [St.next]; omega
  rename_i ok
  have hb := ok_before hk ok
  split
  · simp only [St.next]; omega
  split
  · simp only [St.next]; omega
  split
  · have hu := useSimilarity_tick (c := c) s.next D b (reduceBudget c UB d n).1 (reduceBudget c UB d n).2
    simp only [St.next] at hu
    split
    · rw [show (useSimilarity c s.next D b (reduceBudget c UB d n).1 (reduceBudget c UB d n).2).2.tick = s.tick + 1 from hu]; omega
    split
    · rw [show (useSimilarity c s.next D b (reduceBudget c UB d n).1 (reduceBudget c UB d n).2).2.tick = s.tick + 1 from hu]; omega
    split
    · rw [show (useSimilarity c s.next D b (reduceBudget c UB d n).1 (reduceBudget c UB d n).2).2.tick = s.tick + 1 from hu]; omega
    · refine Nat.le_trans (go _ _ _ ?_) (Nat.le_max_right _ _)
      rw [show (useSimilarity c s.next D b (reduceBudget c UB d n).1 (reduceBudget c UB d n).2).2.tick = s.tick + 1 from hu]; omega
  · exact Nat.le_trans (go _ _ _ hb) (Nat.le_max_right _ _)

theorem solveSub_prompt (fuel : Nat) : Prompt k (3 * fuel + 3) (solveSub c fuel) := by
  induction fuel with
  | zero =>
    have : Prompt k 0 (fun _ _ _ _ _ s => (Node.empty c.worst, s) : Rec) := fun _ _ _ _ _ s => by dsimp only; omega
    exact subTree_prompt hk this
  | succ fuel ih => exact subTree_prompt hk ih

theorem depthRuns_prompt (t : Top) (D : Data) (ds : List Nat) (r : Run) (hr : r.st.tick ≤ k) :
    (depthRuns c t D ds r).st.tick ≤ k + 3 * t.maxDepth + 4 := by
  induction ds generalizing r with
  | nil => unfold depthRuns; omega
  | cons d ds ih =>
    unfold depthRuns
    dsimp only
    have h := solveSub_prompt hk t.maxDepth D [] r.gUB d (min t.maxNodes (2 ^ d - 1)) r.st
    have e : (depthRun c t D r d).st.tick = (solveSub c t.maxDepth D [] r.gUB d (min t.maxNodes (2 ^ d - 1)) r.st).2.tick := rfl
    split
    · simp only [St.next]; omega
    · rename_i ok
      have := ok_before hk ok
      exact ih _ (by simp only [St.next]; omega)

theorem sizeRuns_prompt (t : Top) (D : Data) (ns : List Nat) (r : Run) (hr : r.st.tick ≤ k) :
    (sizeRuns c t D ns r).st.tick ≤ k + 3 * t.maxDepth + 4 := by
  induction ns generalizing r with
  | nil => unfold sizeRuns; omega
  | cons n ns ih =>
    unfold sizeRuns
    dsimp only
    split
    · simp only [St.next]; omega
    rename_i ok
    have hb := ok_before hk ok
    have h := solveSub_prompt hk t.maxDepth D [] r.gUB (min t.maxDepth n) n r.st.next
    have e : (sizeRun c t D { r with st := r.st.next } n).st.tick = (solveSub c t.maxDepth D [] r.gUB (min t.maxDepth n) n r.st.next).2.tick := rfl
    simp only [St.next] at h e
    split
    · simp only [St.next]; omega
    · rename_i ok
      have := ok_before hk ok
      exact ih _ (by simp only [St.next] at this ⊢; omega)

theorem solve_prompt (t : Top) (D : Data) : (solve c t D).1.st.tick ≤ k + 3 * t.maxDepth + 5 := by
  unfold solve solveFrom
  dsimp only
  generalize (if (Node.empty c.worst).isEmpty = true then _ else _ : Node × Node) = st
  split
  · have := sizeRuns_prompt hk t D (List.range' 1 t.maxNodes) ⟨st.1, st.2, t.maxDepth, { St.init with mdf := 0 }⟩ (Nat.zero_le _)
    simp only [St.next]
    exact Nat.succ_le_succ this
  · have := depthRuns_prompt hk t D (List.range' (min 2 (min t.maxDepth t.maxNodes)) (min t.maxDepth t.maxNodes + 1 - min 2 (min t.maxDepth t.maxNodes)))
      ⟨st.1, st.2, t.maxDepth, { St.init with mdf := 0 }⟩ (Nat.zero_le _)
    simp only [St.next]
    exact Nat.succ_le_succ this

end
end Streed
