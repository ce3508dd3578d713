import Verif.Model.IterMemo
import Verif.Lemmas.CacheInv

/-!
# C10: remembered lookups do not change the dataset cache

`MemoCache.run` is the cache with its remembered iterators; `plainRun` is a plain map from instance sets to entries.
-/

namespace Streed

/-- The remembered lookups are right: they are current and say what a search in the map would. -/
structure MemoOK (data : Branch → List Nat) (S : MemoCache) : Prop where
  ok : ∀ sz b it, (b, it) ∈ S.memo sz → it.age = S.age sz ∧ (data b).length = sz ∧
    it.key = if (S.map.find (data b)).isSome then some (data b) else none

theorem MemoOK.find {data : Branch → List Nat} {S : MemoCache} (h : MemoOK data S) (b : Branch) :
    MemoOK data (S.findIter (data b) b).2 ∧ (S.findIter (data b) b).2.map = S.map ∧
    (S.findIter (data b) b).1.key = (if (S.map.find (data b)).isSome then some (data b) else none) ∧
    (S.findIter (data b) b).1.age = (S.findIter (data b) b).2.age (data b).length := by
  unfold MemoCache.findIter
  cases hf : (S.memo (data b).length).find? fun p => p.1 == b with
  | some p =>
    have h1 := List.find?_some hf
    have h2 := List.mem_of_find?_eq_some hf
    obtain ⟨x, it⟩ := p
    simp only [beq_iff_eq] at h1
    subst h1
    obtain ⟨g1, g2, g3⟩ := h.ok _ _ _ h2
    exact ⟨h, rfl, g3, g1⟩
  | none =>
    dsimp only
    refine ⟨⟨fun sz b' it hm => ?_⟩, rfl, rfl, rfl⟩
    dsimp only at hm ⊢
    unfold setAt at hm
    split at hm
    · rename_i hsz
      subst hsz
      rcases List.mem_cons.1 hm with e | hm
      · simp only [Prod.mk.injEq] at e
        obtain ⟨rfl, rfl⟩ := e
        exact ⟨rfl, rfl, rfl⟩
      · refine h.ok _ b' it ?_
        split at hm
        · exact List.dropLast_subset _ hm
        · exact hm
    · exact h.ok sz b' it hm

theorem MemoOK.set {data : Branch → List Nat} {S : MemoCache} (h : MemoOK data S) {k : List Nat} (hk : (S.map.find k).isSome = true)
    (es : List Entry) : MemoOK data { S with map := S.map.set k es } := by
  refine ⟨fun sz b it hm => ?_⟩
  obtain ⟨g1, g2, g3⟩ := h.ok sz b it hm
  refine ⟨g1, g2, ?_⟩
  dsimp only
  rw [g3, Store.find_set]
  split
  · rename_i e
    split
    · rename_i hb; rw [hb] at *; simp
    · simp
  · rename_i e
    split
    · rename_i hb; rw [hb] at e; exact absurd hk e
    · simp

theorem MemoOK.insert {data : Branch → List Nat} {S : MemoCache} (h : MemoOK data S) {k : List Nat} (hk : S.map.find k = none)
    (es : List Entry) : MemoOK data (S.insert k es) ∧ (S.insert k es).map = S.map.set k es := by
  have hmap : (S.insert k es).map = S.map.set k es := by
    unfold MemoCache.insert; dsimp only; rw [hk]; rfl
  refine ⟨⟨fun sz b it hm => ?_⟩, hmap⟩
  rw [hmap]
  unfold MemoCache.insert setAt at *
  dsimp only at hm ⊢
  split at hm
  · simp at hm
  · rename_i hsz
    obtain ⟨g1, g2, g3⟩ := h.ok sz b it hm
    rw [if_neg hsz]
    refine ⟨g1, g2, ?_⟩
    have hne : data b ≠ k := fun e => by rw [e] at g2; exact hsz g2.symm
    rw [g3, Store.find_set, if_neg hne]

/-- One call. -/
theorem MemoOK.call {data : Branch → List Nat} {S : MemoCache} (w : Int) (h : MemoOK data S) (o : DsOp) (ho : o.key = data o.branch) :
    ∃ S', S.call w o = some ((plainCall w S.map o).1, S') ∧ S'.map = (plainCall w S.map o).2 ∧ MemoOK data S' := by
  obtain ⟨f1, f2, f3, f4⟩ := h.find o.branch
  rw [← ho] at f1 f2 f3 f4
  unfold MemoCache.call plainCall
  dsimp only
  generalize S.findIter o.key o.branch = r at *
  obtain ⟨it, S1⟩ := r
  dsimp only at f1 f2 f3 f4 ⊢
  have hd : S1.deref o.key it = some (S.map.find o.key) := by
    unfold MemoCache.deref
    rw [if_pos f4, f3, f2]
    cases hf : S.map.find o.key with
    | none => simp
    | some es => simp [hf]
  rw [hd]
  dsimp only [Option.map]
  refine ⟨_, rfl, ?_⟩
  rw [f3]
  cases hw : o.written w (S.map.find o.key) with
  | none => exact ⟨f2, f1⟩
  | some es =>
    dsimp only
    cases hf : S.map.find o.key with
    | none =>
      have := f1.insert (k := o.key) (by rw [f2]; exact hf) es
      dsimp only [Option.isSome]
      rw [if_neg (by simp)]
      exact ⟨by rw [this.2, f2], this.1⟩
    | some es0 =>
      have := f1.set (k := o.key) (by rw [f2, hf]; rfl) es
      dsimp only [Option.isSome]
      rw [if_pos rfl]
      exact ⟨by dsimp only; rw [f2], this⟩

theorem MemoOK.run {data : Branch → List Nat} (w : Int) (ops : List DsOp) (ho : ∀ o ∈ ops, o.key = data o.branch) {S : MemoCache}
    (h : MemoOK data S) : S.run w ops = some (plainRun w S.map ops) := by
  induction ops generalizing S with
  | nil => rfl
  | cons o ops ih =>
    obtain ⟨S', h1, h2, h3⟩ := h.call w o (ho o (List.mem_cons_self ..))
    unfold MemoCache.run plainRun
    rw [h1]
    dsimp only [Option.bind]
    rw [ih (fun x hx => ho x (List.mem_cons_of_mem _ hx)) h3, h2]
    rfl

/-- C10: in any sequence of calls in which equal paths denote equal data, no outdated iterator is used and every answer is
the one a plain map would give. -/
theorem memo_transparent (w : Int) (ops : List DsOp) (data : Branch → List Nat) (h : ∀ o ∈ ops, o.key = data o.branch) :
    MemoCache.init.run w ops = some (plainRun w [] ops) :=
  MemoOK.run w ops h ⟨fun _ _ _ hm => by simp [MemoCache.init] at hm⟩

/-- Without that condition: the remembered lookup of another dataset of the same size answers. -/
theorem memo_needs_paths : ¬ ∀ (w : Int) (ops : List DsOp), MemoCache.init.run w ops = some (plainRun w [] ops) := by
  intro h
  have := h 100 [.store [0, 1] [3] (Node.leaf 0 5) 1 1, .getOpt [0, 1] [3] 1 1, .getOpt [0, 2] [3] 1 1]
  revert this
  decide

/-- The hypotheses are met: lookups before and after stores, on three paths of two sizes. -/
example : let data : Branch → List Nat := fun b => if b = [3] then [0, 1] else if b = [2] then [2, 4] else [0, 1, 2, 4]
    let ops : List DsOp := [.getOpt [0, 1] [3] 1 1, .isOpt [2, 4] [2] 1 1, .store [2, 4] [2] (Node.branch 1 4 0 0) 1 1,
      .getOpt [0, 1] [3] 1 1, .lower [0, 1] [3] ⟨some 0, none, 2, 0, 0⟩ 1 1, .getLB [0, 1] [3] 1 1, .getOpt [2, 4] [2] 1 1,
      .getOpt [0, 1, 2, 4] [] 1 1]
    (∀ o ∈ ops, o.key = data o.branch) ∧ MemoCache.init.run 100 ops = some [.sol (Node.empty 100), .flag false, .done,
      .sol (Node.empty 100), .done, .sol ⟨some 0, none, 2, 0, 0⟩, .sol (Node.branch 1 4 0 0), .sol (Node.empty 100)] := by
  decide

end Streed
