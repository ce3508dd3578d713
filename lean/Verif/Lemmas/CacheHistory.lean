import Verif.Model.CacheHistory
import Verif.Lemmas.CacheInv

/-! Histories of cache operations: where answers come from and that they stay. -/

namespace Streed

/-- The source of a stored answer for a path: the path itself or one it was transferred from. -/
inductive Linked (ops : List CacheOp) : Branch → Branch → Prop
  | refl (b : Branch) : Linked ops b b
  | step {a b e : Branch} : Linked ops a b → CacheOp.transfer b e ∈ ops → Linked ops a e

theorem Linked.mono {ops ops' : List CacheOp} (h : ∀ o ∈ ops, o ∈ ops') {a b : Branch} (hl : Linked ops a b) : Linked ops' a b := by
  induction hl with
  | refl => exact .refl _
  | step _ hm ih => exact .step ih (h _ hm)

/-- At most one entry per budget. -/
def OneEach (es : List Entry) : Prop := es.Pairwise fun a b => ¬ (a.depth = b.depth ∧ a.nodes = b.nodes)

theorem OneEach.same {es : List Entry} (h : OneEach es) {a b : Entry} (ha : a ∈ es) (hb : b ∈ es) (hd : a.depth = b.depth)
    (hn : a.nodes = b.nodes) : a = b := by
  unfold OneEach at h
  induction es with
  | nil => simp at ha
  | cons e es ih =>
    rw [List.pairwise_cons] at h
    rcases List.mem_cons.1 ha with rfl | ha' <;> rcases List.mem_cons.1 hb with rfl | hb'
    · rfl
    · exact absurd ⟨hd, hn⟩ (h.1 b hb')
    · exact absurd ⟨hd.symm, hn.symm⟩ (h.1 a ha')
    · exact ih h.2 ha' hb'

theorem OneEach.map {es : List Entry} (h : OneEach es) (f : Entry → Entry) (hf : ∀ e, (f e).depth = e.depth ∧ (f e).nodes = e.nodes) :
    OneEach (es.map f) := by
  unfold OneEach at *
  rw [List.pairwise_map]
  refine h.imp fun {a b} hab => ?_
  rw [(hf a).1, (hf a).2, (hf b).1, (hf b).2]; exact hab

theorem oneEach_append {es es' : List Entry} (h : OneEach es) (h' : OneEach es')
    (hx : ∀ a ∈ es, ∀ b ∈ es', ¬ (a.depth = b.depth ∧ a.nodes = b.nodes)) : OneEach (es ++ es') :=
  List.pairwise_append.2 ⟨h, h', hx⟩

theorem budgets_mem {lo n od d : Nat} {b : Nat × Nat} (h : b ∈ budgets lo n od d) :
    lo ≤ b.2 ∧ b.2 ≤ n ∧ od ≤ b.1 ∧ b.1 ≤ d ∧ b.1 ≤ b.2 := by
  unfold budgets at h
  rw [List.mem_flatMap] at h
  obtain ⟨nb, h1, h2⟩ := h
  rw [List.mem_map] at h2
  obtain ⟨db, h3, rfl⟩ := h2
  rw [List.mem_range'_1] at h1 h3
  dsimp only
  omega

theorem budgets_nodup (lo n od d : Nat) : (budgets lo n od d).Nodup := by
  unfold budgets
  rw [List.Nodup, List.pairwise_flatMap]
  refine ⟨fun nb _ => ?_, ?_⟩
  · rw [List.pairwise_map]
    exact (List.nodup_range' (step := 1)).imp fun {a b} hab h => hab (by simpa using h)
  · refine (List.nodup_range' (step := 1)).imp fun {a b} hab x hx y hy h => ?_
    obtain ⟨_, _, rfl⟩ := List.mem_map.1 hx
    obtain ⟨_, _, rfl⟩ := List.mem_map.1 hy
    simp only [Prod.mk.injEq] at h
    exact hab h.2

theorem solved_oneEach (l : List (Nat × Nat)) (h : l.Nodup) (s : Node) : OneEach (l.map fun b => Entry.solved b.1 b.2 s) := by
  unfold OneEach
  rw [List.pairwise_map]
  refine h.imp fun {a b} hab hx => hab ?_
  exact Prod.ext hx.1 hx.2

/-- What `StoreOptimalBranchAssignment` leaves. -/
theorem storeEntries_facts (old : Option (List Entry)) (s : Node) (od d n : Nat) (ho : ∀ es, old = some es → OneEach es) :
    OneEach (storeEntries old s od d n) ∧
    (∀ e ∈ storeEntries old s od d n, e.isOpt = true → (∃ es, old = some es ∧ e ∈ es) ∨
      (e.opt = s ∧ s.numNodes ≤ e.nodes ∧ e.nodes ≤ n ∧ od ≤ e.depth ∧ e.depth ≤ d)) ∧
    (∀ es, old = some es → ∀ e ∈ es, e.isOpt = true → e ∈ storeEntries old s od d n) := by
  unfold storeEntries
  cases old with
  | none =>
    dsimp only
    refine ⟨solved_oneEach _ (budgets_nodup _ _ _ _) s, fun e he _ => ?_, fun es h => by simp at h⟩
    obtain ⟨b, hb, rfl⟩ := List.mem_map.1 he
    have := budgets_mem hb
    exact .inr ⟨rfl, this.1, this.2.1, this.2.2.1, this.2.2.2.1⟩
  | some es =>
    dsimp only
    have hes := ho es rfl
    have hm : OneEach (es.map fun e => if s.numNodes ≤ e.nodes ∧ e.nodes ≤ n ∧ od ≤ e.depth ∧ e.depth ≤ d then
        (if e.isOpt then e else e.setOpt s) else e) := by
      refine hes.map _ fun e => ?_
      split
      · split <;> exact ⟨rfl, rfl⟩
      · exact ⟨rfl, rfl⟩
    refine ⟨?_, fun e he hopt => ?_, fun es' h e he hopt => ?_⟩
    · refine oneEach_append hm (solved_oneEach _ ((budgets_nodup _ _ _ _).sublist List.filter_sublist) s) fun a ha b hb hab => ?_
      obtain ⟨x, hx, rfl⟩ := List.mem_map.1 hb
      have hx := (List.mem_filter.1 hx).2
      obtain ⟨y, hy, rfl⟩ := List.mem_map.1 ha
      have hy' : y.depth = x.1 ∧ y.nodes = x.2 := by
        split at hab
        · split at hab <;> exact hab
        · exact hab
      simp only [Bool.not_eq_true', List.any_eq_false, Bool.and_eq_true, beq_iff_eq] at hx
      exact hx y hy hy'
    · rcases List.mem_append.1 he with he | he
      · obtain ⟨y, hy, rfl⟩ := List.mem_map.1 he
        by_cases hc : s.numNodes ≤ y.nodes ∧ y.nodes ≤ n ∧ od ≤ y.depth ∧ y.depth ≤ d
        · rw [if_pos hc]
          by_cases ho : y.isOpt = true
          · rw [if_pos ho]; exact .inl ⟨es, rfl, hy⟩
          · rw [if_neg ho]
            exact .inr ⟨rfl, hc.1, hc.2.1, hc.2.2.1, hc.2.2.2⟩
        · rw [if_neg hc]; exact .inl ⟨es, rfl, hy⟩
      · obtain ⟨b, hb, rfl⟩ := List.mem_map.1 he
        have := budgets_mem (List.mem_filter.1 hb).1
        exact .inr ⟨rfl, this.1, this.2.1, this.2.2.1, this.2.2.2.1⟩
    · simp only [Option.some.injEq] at h
      subst h
      refine List.mem_append.2 (.inl (List.mem_map.2 ⟨e, he, ?_⟩))
      simp only [hopt, if_true, ite_self]

theorem updateFirst_budgets (g : Bool) (v : Node) (d n : Nat) (es : List Entry) :
    (updateFirst g v d n es).map (fun e => (e.depth, e.nodes, e.opt)) = es.map fun e => (e.depth, e.nodes, e.opt) := by
  induction es with
  | nil => rfl
  | cons e es ih =>
    unfold updateFirst
    split
    · split <;> rfl
    · simp only [List.map_cons, ih]

theorem oneEach_iff (es : List Entry) : OneEach es ↔ (es.map fun e => (e.depth, e.nodes, e.opt)).Pairwise fun a b => ¬ (a.1 = b.1 ∧ a.2.1 = b.2.1) := by
  unfold OneEach
  rw [List.pairwise_map]

theorem mem_budgets_map {es es' : List Entry} (h : es.map (fun e => (e.depth, e.nodes, e.opt)) = es'.map fun e => (e.depth, e.nodes, e.opt))
    {e : Entry} (he : e ∈ es) : ∃ e' ∈ es', e'.depth = e.depth ∧ e'.nodes = e.nodes ∧ e'.opt = e.opt := by
  have : (e.depth, e.nodes, e.opt) ∈ es'.map fun e => (e.depth, e.nodes, e.opt) := by
    rw [← h]; exact List.mem_map.2 ⟨e, he, rfl⟩
  obtain ⟨e', h1, h2⟩ := List.mem_map.1 this
  simp only [Prod.mk.injEq] at h2
  exact ⟨e', h1, h2⟩

/-- What `UpdateLowerBound` leaves: it changes no answer. -/
theorem updateLBEntries_facts (w : Int) (g : Bool) (old : Option (List Entry)) (v : Node) (d n : Nat)
    (ho : ∀ es, old = some es → OneEach es) :
    OneEach (updateLBEntries w g old v d n) ∧
    (∀ e ∈ updateLBEntries w g old v d n, e.isOpt = true → ∃ es, old = some es ∧ ∃ e' ∈ es, e'.depth = e.depth ∧ e'.nodes = e.nodes ∧ e'.opt = e.opt) ∧
    (∀ es, old = some es → ∀ e ∈ es, e.isOpt = true →
      ∃ e' ∈ updateLBEntries w g old v d n, e'.depth = e.depth ∧ e'.nodes = e.nodes ∧ e'.opt = e.opt) := by
  have hfresh : ∀ e, e = (Entry.fresh w d n).updLB v → e.isOpt = false := by
    intro e h; rw [h]; rfl
  unfold updateLBEntries
  cases old with
  | none =>
    dsimp only
    refine ⟨List.pairwise_singleton .., fun e he hopt => ?_, fun es h => by simp at h⟩
    rw [hfresh e (by simpa using he)] at hopt; simp at hopt
  | some es =>
    dsimp only
    have hes := ho es rfl
    split
    · have hb := updateFirst_budgets g v d n es
      refine ⟨?_, fun e he _ => ⟨es, rfl, mem_budgets_map hb he⟩, fun es' h e he _ => ?_⟩
      · rw [oneEach_iff, hb]; exact (oneEach_iff es).1 hes
      · simp only [Option.some.injEq] at h
        subst h
        exact mem_budgets_map hb.symm he
    · rename_i hany
      refine ⟨oneEach_append hes (List.pairwise_singleton ..) fun a ha b hb hab => ?_, fun e he hopt => ?_, fun es' h e he _ => ?_⟩
      · rw [List.mem_singleton] at hb
        subst hb
        apply hany
        rw [List.any_eq_true]
        exact ⟨a, ha, by simpa using (show a.depth = d ∧ a.nodes = n from hab)⟩
      · rcases List.mem_append.1 he with he | he
        · exact ⟨es, rfl, e, he, rfl, rfl, rfl⟩
        · rw [hfresh e (by simpa using he)] at hopt; simp at hopt
      · simp only [Option.some.injEq] at h
        subst h
        exact ⟨e, List.mem_append.2 (.inl he), rfl, rfl, rfl⟩

theorem transferOne_budgets (src : Entry) (es : List Entry) :
    (transferOne src es).map (fun e => (e.depth, e.nodes)) = es.map fun e => (e.depth, e.nodes) := by
  induction es with
  | nil => rfl
  | cons e es ih =>
    unfold transferOne
    split
    · rename_i h
      simp only [List.map_cons, h.1, h.2.1]
    · simp only [List.map_cons, ih]

theorem transferOne_mem (src : Entry) (es : List Entry) (e : Entry) (h : e ∈ transferOne src es) : e = src ∨ e ∈ es := by
  induction es with
  | nil => simp [transferOne] at h
  | cons x es ih =>
    unfold transferOne at h
    split at h
    · rcases List.mem_cons.1 h with h | h
      · exact .inl h
      · exact .inr (List.mem_cons_of_mem _ h)
    · rcases List.mem_cons.1 h with h | h
      · exact .inr (h ▸ List.mem_cons_self ..)
      · rcases ih h with h | h
        · exact .inl h
        · exact .inr (List.mem_cons_of_mem _ h)

theorem transferEntries_facts (src dst : List Entry) (hd : OneEach dst) :
    OneEach (transferEntries src dst) ∧ ∀ e ∈ transferEntries src dst, e ∈ src ∨ e ∈ dst := by
  unfold transferEntries
  induction src generalizing dst with
  | nil => exact ⟨hd, fun e he => .inr he⟩
  | cons s src ih =>
    rw [List.foldl_cons]
    by_cases hany : (dst.any fun x => s.depth == x.depth && s.nodes == x.nodes) = true
    · rw [if_pos hany]
      have h1 : OneEach (transferOne s dst) := by
        have hp : ∀ es : List Entry, OneEach es ↔ (es.map fun e => (e.depth, e.nodes)).Pairwise fun x y => ¬ (x.1 = y.1 ∧ x.2 = y.2) := by
          intro es; unfold OneEach; rw [List.pairwise_map]
        rw [hp, transferOne_budgets, ← hp]; exact hd
      obtain ⟨h2, h3⟩ := ih _ h1
      refine ⟨h2, fun e he => ?_⟩
      rcases h3 e he with h | h
      · exact .inl (List.mem_cons_of_mem _ h)
      · rcases transferOne_mem s dst e h with h | h
        · exact .inl (h ▸ List.mem_cons_self ..)
        · exact .inr h
    · rw [if_neg hany]
      have h1 : OneEach (dst ++ [s]) := by
        refine oneEach_append hd (List.pairwise_singleton ..) fun a ha b hb hab => ?_
        rw [List.mem_singleton] at hb
        subst hb
        apply hany
        rw [List.any_eq_true]
        exact ⟨a, ha, by simp [hab.1, hab.2]⟩
      obtain ⟨h2, h3⟩ := ih _ h1
      refine ⟨h2, fun e he => ?_⟩
      rcases h3 e he with h | h
      · exact .inl (List.mem_cons_of_mem _ h)
      · rcases List.mem_append.1 h with h | h
        · exact .inr h
        · rw [List.mem_singleton] at h; exact .inl (h ▸ List.mem_cons_self ..)

/-- A lookup that finds something finds an entry. -/
theorem retrieveOpt_entry {w : Int} {es : List Entry} {d n : Nat} (h : (retrieveOptEntries w es d n).isEmpty = false) :
    ∃ e ∈ es, e.depth = d ∧ e.nodes = n ∧ e.isOpt = true ∧ e.opt = retrieveOptEntries w es d n := by
  unfold retrieveOptEntries at *
  split at h
  · rename_i e he
    have h1 := List.find?_some he
    have h2 := List.mem_of_find?_eq_some he
    simp only [Bool.and_eq_true, beq_iff_eq] at h1
    exact ⟨e, h2, h1.1.1, h1.1.2, h1.2, rfl⟩
  · simp [Node.empty, Node.isEmpty] at h

/-- The entry of a budget is the one that is found. -/
theorem retrieveOpt_of_entry {w : Int} {es : List Entry} (ho : OneEach es) {e : Entry} (he : e ∈ es) (hopt : e.isOpt = true) :
    retrieveOptEntries w es e.depth e.nodes = e.opt := by
  unfold retrieveOptEntries
  cases hf : es.find? fun x => x.depth == e.depth && x.nodes == e.nodes && x.isOpt with
  | none =>
    have := List.find?_eq_none.1 hf e he
    simp [hopt] at this
  | some x =>
    have h1 := List.find?_some hf
    have h2 := List.mem_of_find?_eq_some hf
    simp only [Bool.and_eq_true, beq_iff_eq] at h1
    dsimp only
    rw [ho.same h2 he h1.1.1 h1.1.2]

end Streed
