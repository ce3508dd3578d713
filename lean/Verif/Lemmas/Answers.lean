import Verif.Lemmas.ReturnedTop
import Verif.Lemmas.CacheHistory

/-! The answers of the dataset cache when the cache of paths is off: what storing and bounding change. -/

namespace Streed

/-- What the dataset cache answers. -/
def Cache.ans (w : Int) (C : Cache) (E : Data) (d n : Nat) : Node :=
  retrieveOptEntries w ((C.ds.find (dataKey E)).getD []) d n

/-- At most one entry per dataset and budget. -/
def DsOne (C : Cache) : Prop := ∀ k es, C.ds.find k = some es → OneEach es

theorem retrieve_empty {w : Int} {es : List Entry} {d n : Nat} (h : (retrieveOptEntries w es d n).isEmpty = true) :
    retrieveOptEntries w es d n = Node.empty w := by
  unfold retrieveOptEntries at h ⊢
  split at h
  · rename_i e he
    have := List.find?_some he
    simp only [Entry.isOpt, Bool.and_eq_true, Bool.not_eq_true'] at this
    rw [this.2] at h; simp at h
  · rfl

theorem oneEach_getD {old : Option (List Entry)} (ho : ∀ es, old = some es → OneEach es) : OneEach (old.getD []) := by
  cases old with
  | none => exact List.Pairwise.nil
  | some es => exact ho es rfl

theorem budgets_intro {lo n od d d' n' : Nat} (h1 : lo ≤ n') (h2 : n' ≤ n) (h3 : od ≤ d') (h4 : d' ≤ d) (h5 : d' ≤ n') :
    (d', n') ∈ budgets lo n od d := by
  unfold budgets
  rw [List.mem_flatMap]
  refine ⟨n', List.mem_range'_1.2 (by omega), List.mem_map.2 ⟨d', List.mem_range'_1.2 (by omega), rfl⟩⟩

theorem isOptEntries_iff {es : List Entry} (h : OneEach es) (w : Int) (d n : Nat) :
    isOptEntries es d n = !(retrieveOptEntries w es d n).isEmpty := by
  unfold isOptEntries
  cases hf : es.find? fun e => e.nodes == n && e.depth == d with
  | none =>
    dsimp only
    cases hr : (retrieveOptEntries w es d n).isEmpty with
    | true => rfl
    | false =>
      obtain ⟨e, he, h1, h2, _, _⟩ := retrieveOpt_entry hr
      have := List.find?_eq_none.1 hf e he
      simp [h1, h2] at this
  | some e =>
    dsimp only
    have hm := List.mem_of_find?_eq_some hf
    have hp := List.find?_some hf
    simp only [Bool.and_eq_true, beq_iff_eq] at hp
    cases ho : e.isOpt with
    | true =>
      have := retrieveOpt_of_entry (w := w) h hm ho
      rw [hp.1, hp.2] at this
      rw [this]
      simpa [Entry.isOpt] using ho.symm
    | false =>
      cases hr : (retrieveOptEntries w es d n).isEmpty with
      | true => rfl
      | false =>
        obtain ⟨e', he', h1, h2, h3, _⟩ := retrieveOpt_entry hr
        have := h.same hm he' (by omega) (by omega)
        rw [this, h3] at ho; simp at ho

/-- The answers after storing a solution. -/
theorem storeEntries_ans (w : Int) (old : Option (List Entry)) (v : Node) (od d n : Nat) (ho : ∀ es, old = some es → OneEach es)
    (hv : v.isEmpty = false) (d' n' : Nat) (hdn : d' ≤ n') :
    retrieveOptEntries w (storeEntries old v od d n) d' n' =
      if (retrieveOptEntries w (old.getD []) d' n').isEmpty = true ∧ v.numNodes ≤ n' ∧ n' ≤ n ∧ od ≤ d' ∧ d' ≤ d then v
      else retrieveOptEntries w (old.getD []) d' n' := by
  obtain ⟨f1, f2, f3⟩ := storeEntries_facts old v od d n ho
  have hone := oneEach_getD ho
  cases hr : (retrieveOptEntries w (old.getD []) d' n').isEmpty with
  | false =>
    rw [if_neg (by simp)]
    obtain ⟨e, he, h1, h2, h3, h4⟩ := retrieveOpt_entry hr
    cases old with
    | none => simp at he
    | some es =>
      have := retrieveOpt_of_entry (w := w) f1 (f3 es rfl e he h3) h3
      rw [h1, h2] at this
      rw [this, h4]
  | true =>
    have hnone : ∀ e ∈ old.getD [], e.depth = d' → e.nodes = n' → e.isOpt = false := by
      intro e he h1 h2
      cases h3 : e.isOpt with
      | false => rfl
      | true =>
        have := retrieveOpt_of_entry (w := w) hone he h3
        rw [h1, h2] at this
        rw [this] at hr
        rw [Entry.isOpt, hr] at h3; simp at h3
    split
    · rename_i hb
      obtain ⟨_, b1, b2, b3, b4⟩ := hb
      have key : ∃ e ∈ storeEntries old v od d n, e.depth = d' ∧ e.nodes = n' ∧ e.opt = v := by
        unfold storeEntries
        cases old with
        | none =>
          dsimp only
          exact ⟨_, List.mem_map.2 ⟨(d', n'), budgets_intro b1 b2 b3 b4 hdn, rfl⟩, rfl, rfl, rfl⟩
        | some es =>
          dsimp only
          by_cases hx : es.any fun e => e.depth == d' && e.nodes == n'
          · obtain ⟨e, he, hb⟩ := List.any_eq_true.1 hx
            simp only [Bool.and_eq_true, beq_iff_eq] at hb
            have h0 := hnone e he hb.1 hb.2
            refine ⟨e.setOpt v, List.mem_append.2 (.inl (List.mem_map.2 ⟨e, he, ?_⟩)), hb.1, hb.2, rfl⟩
            rw [if_pos (by rw [hb.1, hb.2]; exact ⟨b1, b2, b3, b4⟩), h0]; rfl
          · refine ⟨Entry.solved d' n' v, List.mem_append.2 (.inr (List.mem_map.2 ⟨(d', n'), List.mem_filter.2
              ⟨budgets_intro b1 b2 b3 b4 hdn, ?_⟩, rfl⟩)), rfl, rfl, rfl⟩
            simpa using hx
      obtain ⟨e, he, h1, h2, h3⟩ := key
      have := retrieveOpt_of_entry (w := w) f1 he (by simp [Entry.isOpt, h3, hv])
      rw [h1, h2, h3] at this
      exact this
    · rename_i hb
      have : (retrieveOptEntries w (storeEntries old v od d n) d' n').isEmpty = true := by
        by_contra hc
        obtain ⟨e, he, h1, h2, h3, _⟩ := retrieveOpt_entry (by simpa using hc)
        rcases f2 e he h3 with ⟨es, rfl, hes⟩ | ⟨_, g1, g2, g3, g4⟩
        · rw [hnone e hes h1 h2] at h3; simp at h3
        · rw [h1] at g3 g4
          rw [h2] at g1 g2
          exact hb ⟨rfl, g1, g2, g3, g4⟩
      rw [retrieve_empty this, retrieve_empty hr]

/-- Bounding changes no answer. -/
theorem updateLBEntries_ans (w : Int) (g : Bool) (old : Option (List Entry)) (v : Node) (d n : Nat)
    (ho : ∀ es, old = some es → OneEach es) (d' n' : Nat) :
    retrieveOptEntries w (updateLBEntries w g old v d n) d' n' = retrieveOptEntries w (old.getD []) d' n' := by
  obtain ⟨f1, f2, f3⟩ := updateLBEntries_facts w g old v d n ho
  have hone := oneEach_getD ho
  cases hr : (retrieveOptEntries w (old.getD []) d' n').isEmpty with
  | false =>
    obtain ⟨e, he, h1, h2, h3, h4⟩ := retrieveOpt_entry hr
    cases old with
    | none => simp at he
    | some es =>
      obtain ⟨e', m, g1, g2, g3⟩ := f3 es rfl e he h3
      have := retrieveOpt_of_entry (w := w) f1 m (by rw [Entry.isOpt, g3]; exact h3)
      rw [g1, g2, g3, h1, h2] at this
      rw [this, h4]
  | true =>
    have : (retrieveOptEntries w (updateLBEntries w g old v d n) d' n').isEmpty = true := by
      by_contra hc
      obtain ⟨e, he, h1, h2, h3, _⟩ := retrieveOpt_entry (by simpa using hc)
      obtain ⟨es, rfl, e', m, g1, g2, g3⟩ := f2 e he h3
      have h3' : e'.isOpt = true := by rw [Entry.isOpt, g3]; exact h3
      have := retrieveOpt_of_entry (w := w) hone (show e' ∈ (some es).getD [] from m) h3'
      rw [g1, g2, h1, h2] at this
      rw [this] at hr
      rw [Entry.isOpt, hr] at h3'; simp at h3'
    rw [retrieve_empty this, retrieve_empty hr]

section
variable {cc : CacheCfg} (hbr : cc.useBr = false) (hds : cc.useDs = true)
include hbr hds

theorem retrieveOpt_ans (C : Cache) (E : Data) (b : Branch) (d n : Nat) :
    C.retrieveOpt cc E b d n = C.ans cc.worst E d n := by
  unfold Cache.retrieveOpt Cache.ans
  rw [hbr, hds]
  rfl

theorem isOptCached_ans {C : Cache} (h : DsOne C) (E : Data) (b : Branch) (d n : Nat) :
    C.isOptCached cc E b d n = !(C.ans cc.worst E d n).isEmpty := by
  unfold Cache.isOptCached Cache.ans
  rw [hbr, hds]
  simp only [Bool.false_and, Bool.true_and, Bool.false_or]
  exact isOptEntries_iff (oneEach_getD fun es he => h _ es he) _ _ _

omit hbr in
theorem storeOpt_ans {C : Cache} (h : DsOne C) (F : Data) (b : Branch) {v : Node} (hv : v.isEmpty = false) (d n : Nat) :
    DsOne (C.storeOpt cc F b v d n) ∧ ∀ (E : Data) (d' n' : Nat), d' ≤ n' →
      (C.storeOpt cc F b v d n).ans cc.worst E d' n' =
        if dataKey E = dataKey F ∧ (C.ans cc.worst E d' n').isEmpty = true ∧ v.numNodes ≤ n' ∧ n' ≤ n ∧
          min d v.numNodes ≤ d' ∧ d' ≤ d then v
        else C.ans cc.worst E d' n' := by
  have hd : (C.storeOpt cc F b v d n).ds = C.ds.set (dataKey F) (storeEntries (C.ds.find (dataKey F)) v (min d v.numNodes) d n) := by
    unfold Cache.storeOpt; rw [hds]; rfl
  refine ⟨fun k es hk => ?_, fun E d' n' hdn => ?_⟩
  · rw [hd, Store.find_set] at hk
    split at hk
    · simp only [Option.some.injEq] at hk
      rw [← hk]
      exact (storeEntries_facts _ _ _ _ _ fun es he => h _ es he).1
    · exact h k es hk
  · unfold Cache.ans
    rw [hd, Store.find_set]
    by_cases hk : dataKey E = dataKey F
    · rw [if_pos hk, hk]
      simp only [Option.getD_some, true_and]
      exact storeEntries_ans cc.worst _ v _ d n (fun es he => h _ es he) hv d' n' hdn
    · rw [if_neg hk, if_neg fun hc => hk hc.1]

omit hbr in
theorem updateLB_ans {C : Cache} (h : DsOne C) (F : Data) (b : Branch) (v : Node) (d n : Nat) :
    DsOne (C.updateLB cc F b v d n) ∧ ∀ (E : Data) (d' n' : Nat),
      (C.updateLB cc F b v d n).ans cc.worst E d' n' = C.ans cc.worst E d' n' := by
  unfold Cache.updateLB
  cases cc.useLB with
  | false => exact ⟨h, fun _ _ _ => rfl⟩
  | true =>
    simp only [hds, if_true]
    refine ⟨fun k es hk => ?_, fun E d' n' => ?_⟩
    · dsimp only at hk
      rw [Store.find_set] at hk
      split at hk
      · simp only [Option.some.injEq] at hk
        rw [← hk]
        exact (updateLBEntries_facts _ _ _ _ _ _ fun es he => h _ es he).1
      · exact h k es hk
    · unfold Cache.ans
      dsimp only
      rw [Store.find_set]
      by_cases hk : dataKey E = dataKey F
      · rw [if_pos hk, hk]
        exact updateLBEntries_ans cc.worst _ _ v d n (fun es he => h _ es he) d' n'
      · rw [if_neg hk]

omit hds in
theorem transfer_off (C : Cache) (src dst : Branch) : C.transfer cc src dst = C := by
  unfold Cache.transfer
  rw [hbr]; simp

end

/-- The same answers. -/
structure SameAns (w : Int) (C C' : Cache) : Prop where
  one : DsOne C → DsOne C'
  ans : DsOne C → ∀ (E : Data) (d n : Nat), C'.ans w E d n = C.ans w E d n

theorem SameAns.refl (w : Int) (C : Cache) : SameAns w C C := ⟨id, fun _ _ _ _ => rfl⟩

section
variable {c : Cfg} (hbr : c.useBr = false) (hds : c.useDs = true)
include hbr hds

omit hbr in
theorem updateLB_same (C : Cache) (F : Data) (b : Branch) (v : Node) (d n : Nat) :
    SameAns c.worst C (C.updateLB c.cc F b v d n) :=
  ⟨fun h => (updateLB_ans (cc := c.cc) hds h F b v d n).1, fun h => (updateLB_ans (cc := c.cc) hds h F b v d n).2⟩

omit hds in
theorem simLoop_cache (D : Data) (b : Branch) (d n : Nat) (es : List (Data × Branch)) (lb : Node) (C : Cache) :
    (simLoop c D b d n es lb C).2.2 = C := by
  induction es generalizing lb with
  | nil => rfl
  | cons p es ih =>
    obtain ⟨D', b'⟩ := p
    have ht := transfer_off (cc := c.cc) hbr C b' b
    unfold simLoop
    split
    · exact ih _
    · split
      · exact ih _
      · dsimp only
        rw [ht]
        split
        · split
          · rfl
          · exact ih _
        · exact ih _

theorem useSimilarity_same (s : St) (D : Data) (b : Branch) (d n : Nat) :
    SameAns c.worst s.cache (useSimilarity c s D b d n).2.cache := by
  unfold useSimilarity
  have hc := simLoop_cache hbr D b d n (Tbl.get s.arch d []) (Node.value 0) s.cache
  split
  · exact .refl _ _
  · dsimp only
    generalize simLoop c D b d n (Tbl.get s.arch d []) (Node.value 0) s.cache = r at hc
    split
    · dsimp only; rw [hc]; exact .refl _ _
    · split
      · dsimp only; rw [hc]; exact .refl _ _
      · split
        · dsimp only; rw [hc]; exact updateLB_same hds _ _ _ _ _ _
        · dsimp only; rw [hc]; exact .refl _ _

omit hbr hds in
theorem updateArchive_same (s : St) (D : Data) (b : Branch) (d : Nat) : (updateArchive c s D b d).cache = s.cache := by
  unfold updateArchive
  split <;> rfl

end
end Streed
