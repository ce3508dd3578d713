import Mathlib.Data.List.Perm.Subperm
import Mathlib.Data.List.Range
import Mathlib.Data.List.Dedup
import Mathlib.Algebra.BigOperators.Group.List.Basic
import Verif.Model.EquivPoints

/-!
# Helper lemmas for the equivalent-points bound
-/

namespace Streed

/-- Errors of a labelling. -/
def errsOf (h : EInst → Nat) (l : List EInst) : Nat := l.countP (fun e => h e != e.inst.label)

theorem foldl_natMax_ge (l : List Nat) (a : Nat) : a ≤ l.foldl max a ∧ ∀ x ∈ l, x ≤ l.foldl max a := by
  induction l generalizing a with
  | nil => simp
  | cons b l ih =>
    obtain ⟨h1, h2⟩ := ih (max a b)
    refine ⟨by simp only [List.foldl_cons]; omega, ?_⟩
    intro x hx
    simp only [List.foldl_cons]
    rcases List.mem_cons.1 hx with rfl | hx
    · omega
    · exact h2 x hx

theorem runErrors_le {nL n : Nat} {counts : Nat → Nat} {h : EInst → Nat} {run : List EInst} {p : Nat} (hp : p < nL)
    (hn : n = run.length) (hc : ∀ k, counts k = run.countP (fun e => e.inst.label == k))
    (hr : ∀ e ∈ run, h e = p) : runErrors nL n counts ≤ errsOf h run := by
  unfold runErrors
  split
  · have h1 : counts p ≤ ((List.range' 1 (nL - 1)).map counts).foldl max (counts 0) := by
      obtain ⟨a, b⟩ := foldl_natMax_ge ((List.range' 1 (nL - 1)).map counts) (counts 0)
      rcases Nat.eq_zero_or_pos p with rfl | hp0
      · exact a
      · exact b _ (List.mem_map.2 ⟨p, by rw [List.mem_range'_1]; omega, rfl⟩)
    have h2 : errsOf h run + counts p = run.length := by
      rw [hc p]
      unfold errsOf
      rw [List.length_eq_countP_add_countP (fun e => h e != e.inst.label)]
      congr 1
      apply List.countP_congr
      intro e he
      rw [hr e he]
      simp only [Bool.not_eq_true, bne_eq_false_iff_eq, beq_iff_eq, decide_eq_true_eq]
      exact eq_comm
    omega
  · omega

/-- Invariant of the main loop: `done` holds the instances of finished runs, `run` those of the current run. -/
structure EqInv (D : List EInst) (h : EInst → Nat) (s : EqSt) (done run : List EInst) : Prop where
  perm : ∀ k, (((done ++ run).filter (fun e => e.inst.label == k)) ++ s.its k).Perm
    (D.filter (fun e => e.inst.label == k))
  lb : s.lb ≤ errsOf h done
  prev : s.prev ∈ D
  group : ∀ e ∈ run, e ∈ D ∧ e.gid = s.prev.gid
  n : s.n = run.length
  counts : ∀ k, s.counts k = run.countP (fun e => e.inst.label == k)

theorem EqInv.le {D : List EInst} {h : EInst → Nat} {s : EqSt} {done run : List EInst} (hi : EqInv D h s done run) :
    errsOf h done + errsOf h run ≤ errsOf h D := by
  classical
  have : (done ++ run).Subperm D := by
    rw [List.subperm_ext_iff]
    intro x hx
    have := (hi.perm x.inst.label).count_eq x
    rw [List.count_append, List.count_filter (by simp), List.count_filter (by simp)] at this
    omega
  have := this.countP_le (fun e => h e != e.inst.label)
  simpa [errsOf, List.countP_append] using this

/-- The labelling depends on the group only, and uses existing labels. -/
structure GroupLabel (nL : Nat) (D : List EInst) (h : EInst → Nat) : Prop where
  lt : ∀ e ∈ D, h e < nL
  same : ∀ a ∈ D, ∀ b ∈ D, a.gid = b.gid → h a = h b

theorem EqInv.runErrors {nL : Nat} {D : List EInst} {h : EInst → Nat} {s : EqSt} {done run : List EInst}
    (hg : GroupLabel nL D h) (hi : EqInv D h s done run) : runErrors nL s.n s.counts ≤ errsOf h run :=
  runErrors_le (hg.lt _ hi.prev) hi.n hi.counts
    (fun e he => hg.same _ (hi.group e he).1 _ hi.prev (hi.group e he).2)

theorem eqStep_inv {nL : Nat} {D : List EInst} {h : EInst → Nat} {s s' : EqSt} {done run : List EInst}
    (hg : GroupLabel nL D h) (hi : EqInv D h s done run) {cur : Nat} {rest : List Nat} {x : EInst} {xs : List EInst}
    (hx : s.its cur = x :: xs) (hs : eqStep nL s cur rest x xs = some s') : ∃ done run, EqInv D h s' done run := by
  have hmem : x ∈ D.filter (fun e => e.inst.label == cur) :=
    (hi.perm cur).mem_iff.1 (by rw [hx]; simp)
  obtain ⟨hxD, hxl⟩ := List.mem_filter.1 hmem
  have hxl : x.inst.label = cur := by simpa using hxl
  have key : ∀ (seen : List EInst) (k : Nat), (seen.filter (fun e => e.inst.label == k) ++ s.its k).Perm
      (D.filter (fun e => e.inst.label == k)) →
      ((seen ++ [x]).filter (fun e => e.inst.label == k) ++ (if k = cur then xs else s.its k)).Perm
        (D.filter (fun e => e.inst.label == k)) := by
    intro seen k hk
    by_cases hkc : k = cur
    · subst hkc
      rw [if_pos rfl, List.filter_append]
      simp only [List.filter_cons, hxl, beq_self_eq_true, if_true, List.filter_nil, List.append_assoc,
        List.singleton_append]
      rwa [hx] at hk
    · rw [if_neg hkc, List.filter_append]
      have : (x.inst.label == k) = false := by simp only [hxl, beq_eq_false_iff_ne]; omega
      simpa [List.filter_cons, this] using hk
  have core : ∀ ls, ∃ done run, EqInv D h ⟨fun k => if k = cur then xs else s.its k, ls,
      fun k => (if (s.prev.gid == x.gid) = true then s.counts k else 0) + (if k = cur then 1 else 0), x,
      if (s.prev.gid == x.gid) = true then s.n + 1 else 1,
      if (s.prev.gid == x.gid) = true then s.lb else s.lb + Streed.runErrors nL s.n s.counts⟩ done run := by
    intro ls
    have hcnt : ∀ k, List.countP (fun e : EInst => e.inst.label == k) [x] = if k = cur then 1 else 0 := by
      intro k
      simp only [List.countP_cons, List.countP_nil, hxl, beq_iff_eq, Nat.zero_add]
      exact if_congr eq_comm rfl rfl
    by_cases hsame : s.prev.gid = x.gid
    · refine ⟨done, run ++ [x], ?_, ?_, hxD, ?_, ?_, ?_⟩
      · intro k
        have := key (done ++ run) k (hi.perm k)
        simpa [List.append_assoc] using this
      · simpa [hsame] using hi.lb
      · intro e he
        rcases List.mem_append.1 he with he | he
        · exact ⟨(hi.group e he).1, (hi.group e he).2.trans hsame⟩
        · rw [List.mem_singleton.1 he]
          exact ⟨hxD, rfl⟩
      · simp [hsame, hi.n]
      · intro k
        rw [List.countP_append, hcnt]
        simp [hsame, hi.counts k]
    · refine ⟨done ++ run, [x], ?_, ?_, hxD, ?_, ?_, ?_⟩
      · intro k
        exact key (done ++ run) k (hi.perm k)
      · have h1 := hi.runErrors hg
        have h2 := hi.lb
        simp only [beq_iff_eq, hsame, if_false]
        have : errsOf h (done ++ run) = errsOf h done + errsOf h run := by simp [errsOf, List.countP_append]
        omega
      · intro e he
        rw [List.mem_singleton.1 he]
        exact ⟨hxD, rfl⟩
      · simp [hsame]
      · intro k
        rw [hcnt]
        simp [hsame]
  unfold eqStep at hs
  dsimp only at hs
  split at hs
  · cases hs
    exact core _
  · obtain ⟨ls, -, rfl⟩ := Option.map_eq_some_iff.1 hs
    exact core _

theorem eqLoop_inv {nL : Nat} {D : List EInst} {h : EInst → Nat} (hg : GroupLabel nL D h) (fuel : Nat) {s s' : EqSt}
    {done run : List EInst} (hi : EqInv D h s done run) (hs : eqLoop nL fuel s = some s') :
    ∃ done run, EqInv D h s' done run := by
  induction fuel generalizing s done run with
  | zero =>
    cases hs
    exact ⟨_, _, hi⟩
  | succ fuel ih =>
    unfold eqLoop at hs
    split at hs
    · cases hs
      exact ⟨_, _, hi⟩
    · split at hs
      · cases hs
        exact ⟨_, _, hi⟩
      · next x xs hx =>
        split at hs
        · cases hs
        · next s1 h1 =>
          obtain ⟨d1, r1, hi1⟩ := eqStep_inv hg hi hx h1
          exact ih hi1 hs

theorem equivBound_le {nL : Nat} {D : List EInst} {h : EInst → Nat} (hg : GroupLabel nL D h) {b : Nat}
    (hb : equivBound nL D = some b) : b ≤ errsOf h D := by
  unfold equivBound at hb
  dsimp only at hb
  split at hb
  · cases hb
  split at hb
  · cases hb
  split at hb
  · cases hb
  next cur rest _ _ x xs hx =>
  obtain ⟨s', hs', rfl⟩ := Option.map_eq_some_iff.1 hb
  have hmem : x ∈ D.filter (fun e => e.inst.label == cur) := by rw [hx]; simp
  obtain ⟨hxD, hxl⟩ := List.mem_filter.1 hmem
  have hxl : x.inst.label = cur := by simpa using hxl
  have h0 : EqInv D h ⟨fun k => if k = cur then xs else D.filter (fun e => e.inst.label == k), cur :: rest,
      fun k => if k = cur then 1 else 0, x, 1, 0⟩ [] [x] := by
    refine ⟨?_, Nat.zero_le _, hxD, ?_, rfl, ?_⟩
    · intro k
      by_cases hkc : k = cur
      · subst hkc
        simp only [List.nil_append, if_true]
        rw [hx]
        simp [hxl]
      · have : (x.inst.label == k) = false := by simp only [hxl, beq_eq_false_iff_ne]; omega
        simp [hkc, this]
    · intro e he
      rw [List.mem_singleton.1 he]
      exact ⟨hxD, rfl⟩
    · intro k
      simp only [List.countP_cons, List.countP_nil, hxl, beq_iff_eq, Nat.zero_add]
      exact if_congr eq_comm rfl rfl
  obtain ⟨d1, r1, hi⟩ := eqLoop_inv hg _ h0 hs'
  have := hi.le
  have := hi.runErrors hg
  have := hi.lb
  omega

/-! ### The bound is always defined -/

/-- The order in which `compEnd` sorts. -/
theorem compEnd_total (its : Nat → List EInst) (a b : Nat) :
    compEnd its b a = false ∨ compEnd its a b = false := by
  unfold compEnd
  cases ha : its a <;> cases hb : its b <;> simp
  omega

theorem compEnd_trans (its : Nat → List EInst) (a b c : Nat) (h1 : compEnd its b a = false)
    (h2 : compEnd its c b = false) : compEnd its c a = false := by
  unfold compEnd at *
  cases ha : its a <;> cases hb : its b <;> cases hc : its c <;> simp_all
  omega

theorem popEmptyRev_spec (its : Nat → List EInst) (l : List Nat) (hs : l.Pairwise (fun a b => compEnd its a b = false)) :
    (popEmptyRev its l = none ∧ ∀ k ∈ l, its k = []) ∨
    ∃ r, popEmptyRev its l = some r ∧ r ≠ [] ∧ r.Sublist l ∧ ∀ k ∈ r, its k ≠ [] := by
  induction l with
  | nil => exact Or.inl ⟨rfl, by simp⟩
  | cons k ks ih =>
    rw [List.pairwise_cons] at hs
    by_cases hk : its k = []
    · rcases ih hs.2 with ⟨h1, h2⟩ | ⟨r, h1, h2, h3, h4⟩
      · left
        refine ⟨by simp [popEmptyRev, hk, h1], ?_⟩
        intro x hx
        rcases List.mem_cons.1 hx with rfl | hx
        · exact hk
        · exact h2 x hx
      · right
        exact ⟨r, by simp [popEmptyRev, hk, h1], h2, h3.cons k, h4⟩
    · right
      refine ⟨k :: ks, by simp [popEmptyRev, hk], by simp, List.Sublist.refl _, ?_⟩
      intro x hx
      rcases List.mem_cons.1 hx with rfl | hx
      · exact hk
      · have := hs.1 x hx
        unfold compEnd at this
        intro h0
        cases hc : its k with
        | nil => exact hk hc
        | cons a as => simp [hc, h0] at this

theorem bubble_some (its : Nat → List EInst) (cur : Nat) (hc : its cur ≠ []) (l : List Nat) (hl : ∀ k ∈ l, its k ≠ []) :
    ∃ r, bubble its cur l = some r ∧ r.Perm (cur :: l) := by
  induction l with
  | nil => exact ⟨[cur], rfl, List.Perm.refl _⟩
  | cons k ks ih =>
    obtain ⟨r, h1, h2⟩ := ih (fun x hx => hl x (List.mem_cons_of_mem _ hx))
    obtain ⟨a, as, ha⟩ := List.exists_cons_of_ne_nil (hl k (by simp))
    obtain ⟨b, bs, hb⟩ := List.exists_cons_of_ne_nil hc
    unfold bubble
    rw [ha, hb]
    dsimp only
    split
    · exact ⟨k :: r, by rw [h1]; rfl, (h2.cons k).trans (List.Perm.swap _ _ _)⟩
    · exact ⟨_, rfl, List.Perm.refl _⟩

/-- All labels but possibly the first still have instances. -/
def Live (s : EqSt) : Prop := s.labels.Nodup ∧ ∀ k ∈ s.labels.tail, s.its k ≠ []

theorem eqLoop_some (nL fuel : Nat) (s : EqSt) (hl : Live s) : ∃ s', eqLoop nL fuel s = some s' := by
  induction fuel generalizing s with
  | zero => exact ⟨s, rfl⟩
  | succ fuel ih =>
    unfold eqLoop
    obtain ⟨hn, ht⟩ := hl
    cases hls : s.labels with
    | nil => exact ⟨s, rfl⟩
    | cons cur rest =>
      rw [hls] at hn ht
      rw [List.nodup_cons] at hn
      simp only [List.tail_cons] at ht
      dsimp only
      cases hx : s.its cur with
      | nil => exact ⟨s, rfl⟩
      | cons x xs =>
        dsimp only
        have hrest : ∀ k ∈ rest, (if k = cur then xs else s.its k) ≠ [] := by
          intro k hk
          rw [if_neg (fun h : k = cur => hn.1 (h ▸ hk))]
          exact ht k hk
        have : ∃ s', eqStep nL s cur rest x xs = some s' ∧ Live s' := by
          unfold eqStep
          dsimp only
          split
          · refine ⟨_, rfl, hn.2, ?_⟩
            intro k hk
            exact hrest k (List.mem_of_mem_tail hk)
          · next hne =>
            obtain ⟨r, h1, h2⟩ := bubble_some (fun k => if k = cur then xs else s.its k) cur
              (by simpa using hne) rest hrest
            rw [h1]
            refine ⟨_, rfl, h2.nodup_iff.2 (List.nodup_cons.2 hn), ?_⟩
            intro k hk
            rcases List.mem_cons.1 (h2.mem_iff.1 (List.mem_of_mem_tail hk)) with rfl | hk
            · simpa using hne
            · exact hrest k hk
        obtain ⟨s', h1, h2⟩ := this
        rw [h1]
        exact ih s' h2

theorem equivBound_some {nL : Nat} {D : List EInst} (hD : ∃ e ∈ D, e.inst.label < nL) : ∃ b, equivBound nL D = some b := by
  unfold equivBound
  dsimp only
  have tot : Std.Total (fun a b => compEnd (fun k => D.filter (fun e => e.inst.label == k)) b a = false) :=
    ⟨compEnd_total _⟩
  have trn : IsTrans Nat (fun a b => compEnd (fun k => D.filter (fun e => e.inst.label == k)) b a = false) :=
    ⟨compEnd_trans _⟩
  have hsort := List.pairwise_insertionSort
    (fun a b => compEnd (fun k => D.filter (fun e => e.inst.label == k)) b a = false) (List.range nL)
  have hperm := List.perm_insertionSort
    (fun a b => compEnd (fun k => D.filter (fun e => e.inst.label == k)) b a = false) (List.range nL)
  have hnd := hperm.nodup_iff.2 List.nodup_range
  rcases popEmptyRev_spec _ _ (List.pairwise_reverse.2 hsort) with ⟨-, h2⟩ | ⟨r, h1, h2, h3, h4⟩
  · exfalso
    obtain ⟨e, he, hl⟩ := hD
    have := h2 e.inst.label (List.mem_reverse.2 (hperm.mem_iff.2 (List.mem_range.2 hl)))
    rw [List.filter_eq_nil_iff] at this
    exact this e he (by simp)
  · rw [h1]
    dsimp only
    have hr := (h3.nodup (List.nodup_reverse.2 hnd))
    cases hrr : r.reverse with
    | nil => exact absurd (List.reverse_eq_nil_iff.1 hrr) h2
    | cons cur rest =>
      dsimp only
      have hmem : ∀ k ∈ cur :: rest, D.filter (fun e => e.inst.label == k) ≠ [] := by
        intro k hk
        exact h4 k (List.mem_reverse.1 (hrr ▸ hk))
      cases hx : D.filter (fun e => e.inst.label == cur) with
      | nil => exact absurd hx (hmem cur (by simp))
      | cons x xs =>
        dsimp only
        have hnd2 : (cur :: rest).Nodup := hrr ▸ List.nodup_reverse.2 hr
        obtain ⟨s', hs'⟩ := eqLoop_some nL D.length
          ⟨fun k => if k = cur then xs else D.filter (fun e => e.inst.label == k), cur :: rest,
            fun k => if k = cur then 1 else 0, x, 1, 0⟩ ⟨hnd2, by
              intro k hk
              dsimp only at hk ⊢
              rw [List.tail_cons] at hk
              rw [if_neg (fun h : k = cur => (List.nodup_cons.1 hnd2).1 (h ▸ hk))]
              exact hmem k (List.mem_cons_of_mem _ hk)⟩
        rw [hs']
        exact ⟨_, rfl⟩

/-! ### The groups -/

theorem hasEqualFeatures_iff (nF : Nat) (a b : Inst) :
    hasEqualFeatures nF a b = true ↔ ∀ f < nF, a.feat f = b.feat f := by
  unfold hasEqualFeatures presentList
  rw [beq_iff_eq]
  constructor
  · intro h f hf
    have : f ∈ (List.range nF).filter a.feat ↔ f ∈ (List.range nF).filter b.feat := by rw [h]
    simp only [List.mem_filter, List.mem_range, hf, true_and] at this
    exact Bool.eq_iff_iff.2 this
  · intro h
    apply List.filter_congr
    intro f hf
    exact h f (List.mem_range.1 hf)

/-- Instances of one group have the features of the first instance of the group, and groups are numbered
upwards. -/
theorem assignLoop_groups (nF : Nat) (S : List Inst) (prev : Inst) (g id : Nat) :
    (∀ e ∈ assignLoop nF prev g id S, g ≤ e.gid) ∧
    (∀ e ∈ assignLoop nF prev g id S, e.gid = g → ∀ f < nF, e.inst.feat f = prev.feat f) ∧
    (∀ a ∈ assignLoop nF prev g id S, ∀ b ∈ assignLoop nF prev g id S, a.gid = b.gid →
      ∀ f < nF, a.inst.feat f = b.inst.feat f) := by
  induction S generalizing prev g id with
  | nil => simp [assignLoop]
  | cons i is ih =>
    unfold assignLoop
    split
    · next h =>
      rw [hasEqualFeatures_iff] at h
      obtain ⟨h1, h2, h3⟩ := ih prev g (id + 1)
      refine ⟨?_, ?_, ?_⟩
      · intro e he
        rcases List.mem_cons.1 he with rfl | he
        · exact Nat.le_refl _
        · exact h1 e he
      · intro e he hg f hf
        rcases List.mem_cons.1 he with rfl | he
        · exact (h f hf).symm
        · exact h2 e he hg f hf
      · intro a ha b hb hab f hf
        rcases List.mem_cons.1 ha with rfl | ha <;> rcases List.mem_cons.1 hb with rfl | hb
        · rfl
        · exact (h f hf).symm.trans (h2 b hb hab.symm f hf).symm
        · exact (h2 a ha hab f hf).trans (h f hf)
        · exact h3 a ha b hb hab f hf
    · obtain ⟨h1, h2, h3⟩ := ih i (g + 1) (id + 1)
      refine ⟨?_, ?_, ?_⟩
      · intro e he
        rcases List.mem_cons.1 he with rfl | he
        · exact Nat.le_succ _
        · have := h1 e he
          omega
      · intro e he hg f hf
        rcases List.mem_cons.1 he with rfl | he
        · dsimp only at hg
          omega
        · have := h1 e he
          omega
      · intro a ha b hb hab f hf
        rcases List.mem_cons.1 ha with rfl | ha <;> rcases List.mem_cons.1 hb with rfl | hb
        · rfl
        · exact (h2 b hb hab.symm f hf).symm
        · exact h2 a ha hab f hf
        · exact h3 a ha b hb hab f hf

theorem assignGroups_same (nF : Nat) (S : List Inst) (a : EInst) (ha : a ∈ assignGroups nF S) (b : EInst)
    (hb : b ∈ assignGroups nF S) (hab : a.gid = b.gid) : ∀ f < nF, a.inst.feat f = b.inst.feat f := by
  cases S with
  | nil => simp [assignGroups] at ha
  | cons i is =>
    unfold assignGroups at ha hb
    obtain ⟨-, h2, h3⟩ := assignLoop_groups nF is i 0 1
    intro f hf
    rcases List.mem_cons.1 ha with rfl | ha <;> rcases List.mem_cons.1 hb with rfl | hb
    · rfl
    · exact (h2 b hb hab.symm f hf).symm
    · exact h2 a ha hab f hf
    · exact h3 a ha b hb hab f hf

theorem featGtFrom_eq (a b : Nat → Bool) (i n : Nat) (h1 : featGtFrom a b i n = false) (h2 : featGtFrom b a i n = false) :
    ∀ f, i ≤ f → f < i + n → a f = b f := by
  induction n generalizing i with
  | zero => intro f h3 h4; omega
  | succ n ih =>
    intro f h3 h4
    unfold featGtFrom at h1 h2
    have hi : a i = b i ∧ featGtFrom a b (i + 1) n = false ∧ featGtFrom b a (i + 1) n = false := by
      cases ha : a i <;> cases hb : b i <;> simp_all
    rcases Nat.eq_or_lt_of_le h3 with rfl | h5
    · exact hi.1
    · exact ih (i + 1) hi.2.1 hi.2.2 f h5 (by omega)

theorem featGtFrom_congr (a a' b : Nat → Bool) (i n : Nat) (h : ∀ f, i ≤ f → f < i + n → a f = a' f) :
    featGtFrom a b i n = featGtFrom a' b i n := by
  induction n generalizing i with
  | zero => rfl
  | succ n ih =>
    unfold featGtFrom
    rw [h i (Nat.le_refl _) (by omega), ih (i + 1) (fun f h1 h2 => h f (by omega) (by omega))]

theorem assignLoop_mem (nF : Nat) (S : List Inst) (prev : Inst) (g id : Nat) :
    ∀ e ∈ assignLoop nF prev g id S, ∃ x ∈ S, e.inst.feat = x.feat := by
  induction S generalizing prev g id with
  | nil => simp [assignLoop]
  | cons i is ih =>
    intro e he
    unfold assignLoop at he
    split at he
    · rcases List.mem_cons.1 he with rfl | he
      · exact ⟨i, by simp, rfl⟩
      · obtain ⟨x, hx, h⟩ := ih _ _ _ e he
        exact ⟨x, List.mem_cons_of_mem _ hx, h⟩
    · rcases List.mem_cons.1 he with rfl | he
      · exact ⟨i, by simp, rfl⟩
      · obtain ⟨x, hx, h⟩ := ih _ _ _ e he
        exact ⟨x, List.mem_cons_of_mem _ hx, h⟩

/-- In sorted data, an instance with the features of the current group belongs to it. -/
theorem assignLoop_sorted (nF : Nat) (S : List Inst) (prev : Inst) (g id : Nat)
    (hp : ∀ x ∈ S, featGt nF x prev = false) (hs : S.Pairwise (fun a b => featGt nF b a = false)) :
    (∀ e ∈ assignLoop nF prev g id S, (∀ f < nF, e.inst.feat f = prev.feat f) → e.gid = g) ∧
    (∀ a ∈ assignLoop nF prev g id S, ∀ b ∈ assignLoop nF prev g id S,
      (∀ f < nF, a.inst.feat f = b.inst.feat f) → a.gid = b.gid) := by
  induction S generalizing prev g id with
  | nil => simp [assignLoop]
  | cons i is ih =>
    rw [List.pairwise_cons] at hs
    unfold assignLoop
    split
    · next h =>
      rw [hasEqualFeatures_iff] at h
      obtain ⟨h1, h2⟩ := ih prev g (id + 1) (fun x hx => hp x (List.mem_cons_of_mem _ hx)) hs.2
      refine ⟨?_, ?_⟩
      · intro e he hf
        rcases List.mem_cons.1 he with rfl | he
        · rfl
        · exact h1 e he hf
      · intro a ha b hb hf
        rcases List.mem_cons.1 ha with rfl | ha <;> rcases List.mem_cons.1 hb with rfl | hb
        · rfl
        · exact (h1 b hb (fun f hf' => (hf f hf').symm.trans (h f hf').symm)).symm
        · exact h1 a ha (fun f hf' => (hf f hf').trans (h f hf').symm)
        · exact h2 a ha b hb hf
    · next h =>
      rw [hasEqualFeatures_iff] at h
      obtain ⟨h1, h2⟩ := ih i (g + 1) (id + 1) hs.1 hs.2
      have no : ∀ x ∈ i :: is, ¬ ∀ f < nF, x.feat f = prev.feat f := by
        intro x hx hxp
        rcases List.mem_cons.1 hx with rfl | hx
        · exact h fun f hf => (hxp f hf).symm
        · refine h fun f hf => ?_
          refine featGtFrom_eq _ _ 0 nF ?_ (hp i (by simp)) f (Nat.zero_le _) (by omega)
          rw [← featGtFrom_congr x.feat prev.feat i.feat 0 nF (fun f _ hf => hxp f (by omega))]
          exact hs.1 x hx
      refine ⟨?_, ?_⟩
      · intro e he hf
        exfalso
        rcases List.mem_cons.1 he with rfl | he
        · exact no i (by simp) hf
        · obtain ⟨x, hx, hxe⟩ := assignLoop_mem nF is _ _ _ e he
          exact no x (List.mem_cons_of_mem _ hx) (fun f hf' => by rw [← hxe]; exact hf f hf')
      · intro a ha b hb hf
        rcases List.mem_cons.1 ha with rfl | ha <;> rcases List.mem_cons.1 hb with rfl | hb
        · rfl
        · exact (h1 b hb (fun f hf' => (hf f hf').symm)).symm
        · exact h1 a ha hf
        · exact h2 a ha b hb hf

theorem assignGroups_sorted (nF : Nat) (S : List Inst) (hs : S.Pairwise (fun a b => featGt nF b a = false)) (a : EInst)
    (ha : a ∈ assignGroups nF S) (b : EInst) (hb : b ∈ assignGroups nF S)
    (hab : ∀ f < nF, a.inst.feat f = b.inst.feat f) : a.gid = b.gid := by
  cases S with
  | nil => simp [assignGroups] at ha
  | cons i is =>
    rw [List.pairwise_cons] at hs
    unfold assignGroups at ha hb
    obtain ⟨h2, h3⟩ := assignLoop_sorted nF is i 0 1 hs.1 hs.2
    rcases List.mem_cons.1 ha with rfl | ha <;> rcases List.mem_cons.1 hb with rfl | hb
    · rfl
    · exact (h2 b hb (fun f hf => (hab f hf).symm)).symm
    · exact h2 a ha hab
    · exact h3 a ha b hb hab

theorem predict_congr {nF nL : Nat} {t : Tree} (ht : t.Over nF nL) {a b : Inst} (h : ∀ f < nF, a.feat f = b.feat f) :
    t.predict a = t.predict b := by
  induction t with
  | leaf k => rfl
  | node f l r ihl ihr =>
    obtain ⟨h1, h2, h3⟩ := ht
    simp only [Tree.predict, h f h1, ihl h2, ihr h3]

theorem over_predict_lt {nF nL : Nat} {t : Tree} (ht : t.Over nF nL) (a : Inst) : t.predict a < nL := by
  induction t with
  | leaf k => exact ht
  | node f l r ihl ihr =>
    simp only [Tree.predict]
    split
    · exact ihr ht.2.2
    · exact ihl ht.2.1

/-! ### When the bound is exact -/

/-- The bound the comment in the code describes: in every group, the instances outside the largest class. -/
def groupErrors (nL : Nat) (D : List EInst) : Nat :=
  ((D.map (·.gid)).dedup.map fun g =>
    let r := D.filter (·.gid == g)
    r.length - ((List.range nL).map fun k => r.countP (·.inst.label == k)).foldl max 0).sum

theorem groupErrors_perm (nL : Nat) {A B : List EInst} (h : A.Perm B) : groupErrors nL A = groupErrors nL B := by
  unfold groupErrors
  have h1 : (A.map (·.gid)).dedup.Perm (B.map (·.gid)).dedup := (h.map _).dedup
  rw [(h1.map _).sum_eq]
  congr 1
  apply List.map_congr_left
  intro g _
  dsimp only
  have h2 : (A.filter (·.gid == g)).Perm (B.filter (·.gid == g)) := h.filter _
  rw [h2.length_eq]
  congr 2
  apply List.map_congr_left
  intro k _
  exact h2.countP_eq _

theorem runErrors_eq {nL : Nat} {run : List EInst} {counts : Nat → Nat} (hne : run ≠ [])
    (hl : ∀ e ∈ run, e.inst.label < nL) (hc : ∀ k, counts k = run.countP (fun e => e.inst.label == k)) :
    runErrors nL run.length counts =
      run.length - ((List.range nL).map fun k => run.countP (·.inst.label == k)).foldl max 0 := by
  obtain ⟨e, es, rfl⟩ := List.exists_cons_of_ne_nil hne
  have he := hl e (by simp)
  have hm : ((List.range' 1 (nL - 1)).map counts).foldl max (counts 0) =
      ((List.range nL).map fun k => (e :: es).countP (·.inst.label == k)).foldl max 0 := by
    have hr : List.range nL = 0 :: List.range' 1 (nL - 1) := by
      obtain ⟨m, rfl⟩ : ∃ m, nL = m + 1 := ⟨nL - 1, by omega⟩
      rw [List.range_eq_range', List.range'_succ]
      rfl
    rw [hr, List.map_cons, List.foldl_cons, Nat.zero_max, hc 0]
    congr 1
    exact List.map_congr_left fun k _ => hc k
  unfold runErrors
  rw [hm]
  split
  · rfl
  · have h1 := (foldl_natMax_ge ((List.range nL).map fun k => (e :: es).countP (·.inst.label == k)) 0).2
      ((e :: es).countP (·.inst.label == e.inst.label))
      (List.mem_map.2 ⟨_, List.mem_range.2 he, rfl⟩)
    have h2 : 0 < (e :: es).countP (·.inst.label == e.inst.label) :=
      List.countP_pos_iff.2 ⟨e, by simp, by simp⟩
    omega

theorem groupErrors_append {nL : Nat} {done run : List EInst} {g : Nat} {counts : Nat → Nat} (hne : run ≠ [])
    (hl : ∀ e ∈ run, e.inst.label < nL) (hc : ∀ k, counts k = run.countP (fun e => e.inst.label == k))
    (hg : ∀ e ∈ run, e.gid = g) (hd : ∀ e ∈ done, e.gid ≠ g) :
    groupErrors nL (done ++ run) = groupErrors nL done + runErrors nL run.length counts := by
  have hp : ((done ++ run).map (·.gid)).dedup.Perm (g :: (done.map (·.gid)).dedup) := by
    rw [List.perm_ext_iff_of_nodup (List.nodup_dedup _)
      (List.nodup_cons.2 ⟨by
        rw [List.mem_dedup, List.mem_map]
        rintro ⟨e, he, h⟩
        exact hd e he h, List.nodup_dedup _⟩)]
    intro a
    rw [List.mem_dedup, List.mem_cons, List.mem_dedup, List.map_append, List.mem_append]
    constructor
    · rintro (h | h)
      · exact Or.inr h
      · obtain ⟨e, he, rfl⟩ := List.mem_map.1 h
        exact Or.inl (hg e he)
    · rintro (rfl | h)
      · obtain ⟨e, es, rfl⟩ := List.exists_cons_of_ne_nil hne
        exact Or.inr (List.mem_map.2 ⟨e, by simp, hg e (by simp)⟩)
      · exact Or.inl h
  rw [runErrors_eq hne hl hc]
  unfold groupErrors
  rw [(hp.map _).sum_eq, List.map_cons, List.sum_cons, Nat.add_comm]
  have h1 : (done ++ run).filter (·.gid == g) = run := by
    rw [List.filter_append, List.filter_eq_nil_iff.2 (by
      intro e he
      simpa using hd e he), List.nil_append, List.filter_eq_self.2 (by
      intro e he
      simpa using hg e he)]
  congr 1
  · congr 1
    apply List.map_congr_left
    intro a ha
    have hag : a ≠ g := by
      rintro rfl
      rw [List.mem_dedup, List.mem_map] at ha
      obtain ⟨e, he, h⟩ := ha
      exact hd e he h
    have h0 : run.filter (·.gid == a) = [] := by
      rw [List.filter_eq_nil_iff]
      intro e he
      rw [hg e he]
      simpa using fun h => hag h.symm
    have h2 : (done ++ run).filter (·.gid == a) = done.filter (·.gid == a) := by
      rw [List.filter_append, h0, List.append_nil]
    dsimp only
    rw [h2]
  · dsimp only
    rw [h1]

/-- Invariant of the main loop when every group is consumed in one go: `done` holds the finished groups, `run` the
current one, `rem` what is left. -/
structure ExInv (nL : Nat) (D : List EInst) (s : EqSt) (done run rem : List EInst) : Prop where
  perm : (done ++ run ++ rem).Perm D
  its : ∀ k, s.its k = rem.filter (fun e => e.inst.label == k)
  sorted : rem.Pairwise (fun a b => a.inst.id < b.inst.id)
  gids : rem.Pairwise (fun a b => a.gid ≤ b.gid)
  low : ∀ e ∈ rem, s.prev.gid ≤ e.gid
  past : ∀ e ∈ done, e.gid < s.prev.gid
  ne : run ≠ []
  group : ∀ e ∈ run, e.gid = s.prev.gid
  n : s.n = run.length
  counts : ∀ k, s.counts k = run.countP (fun e => e.inst.label == k)
  lb : s.lb = groupErrors nL done
  nodup : s.labels.Nodup
  live : ∀ k, k ∈ s.labels ↔ s.its k ≠ []
  order : s.labels.tail.Pairwise (fun a b => compEnd s.its b a = false)
  first : ∀ cur rest x xs, s.labels = cur :: rest → s.its cur = x :: xs →
    x.gid = s.prev.gid ∨ ∀ e ∈ rem, x.inst.id ≤ e.inst.id

theorem compEnd_head {its : Nat → List EInst} {a b : Nat} {x y : EInst} {xs ys : List EInst} (ha : its a = x :: xs)
    (hb : its b = y :: ys) : compEnd its b a = false ↔ x.inst.id ≤ y.inst.id := by
  unfold compEnd
  rw [ha, hb]
  simp

theorem bubble_sorted {its : Nat → List EInst} {cur : Nat} (hc : its cur ≠ []) {l r : List Nat}
    (hl : ∀ k ∈ l, its k ≠ []) (hs : l.Pairwise (fun a b => compEnd its b a = false)) (h : bubble its cur l = some r) :
    r.Pairwise (fun a b => compEnd its b a = false) := by
  induction l generalizing r with
  | nil =>
    cases h
    simp
  | cons k ks ih =>
    obtain ⟨a, as, ha⟩ := List.exists_cons_of_ne_nil (hl k (by simp))
    obtain ⟨b, bs, hb⟩ := List.exists_cons_of_ne_nil hc
    rw [List.pairwise_cons] at hs
    unfold bubble at h
    rw [ha, hb] at h
    dsimp only at h
    split at h
    · next hlt =>
      obtain ⟨r', hr', rfl⟩ := Option.map_eq_some_iff.1 h
      obtain ⟨r'', h1, h2⟩ := bubble_some its cur hc ks (fun x hx => hl x (List.mem_cons_of_mem _ hx))
      rw [h1] at hr'
      cases hr'
      refine List.pairwise_cons.2 ⟨?_, ih (fun x hx => hl x (List.mem_cons_of_mem _ hx)) hs.2 h1⟩
      intro j hj
      rcases List.mem_cons.1 (h2.mem_iff.1 hj) with rfl | hj
      · exact (compEnd_head ha hb).2 (Nat.le_of_lt hlt)
      · exact hs.1 j hj
    · next hlt =>
      cases h
      have hk : compEnd its k cur = false := (compEnd_head hb ha).2 (by omega)
      refine List.pairwise_cons.2 ⟨?_, List.pairwise_cons.2 hs⟩
      intro j hj
      rcases List.mem_cons.1 hj with rfl | hj
      · exact hk
      · exact compEnd_trans its _ _ _ hk (hs.1 j hj)

theorem compEnd_congr {its its' : Nat → List EInst} {a b : Nat} (ha : its a = its' a) (hb : its b = its' b) :
    compEnd its b a = compEnd its' b a := by
  unfold compEnd
  rw [ha, hb]

theorem eqStep_exact {nL : Nat} {D : List EInst} (hD : ∀ e ∈ D, e.inst.label < nL) {s s' : EqSt}
    {done run rem : List EInst} (hi : ExInv nL D s done run rem) {cur : Nat} {rest : List Nat} {x : EInst}
    {xs : List EInst} (hls : s.labels = cur :: rest) (hx : s.its cur = x :: xs)
    (hs : eqStep nL s cur rest x xs = some s') :
    ∃ done run rem', ExInv nL D s' done run rem' ∧ rem'.length + 1 = rem.length := by
  have hf := hx
  rw [hi.its cur] at hf
  obtain ⟨a, b, rfl, ha, hxl, hb⟩ := List.filter_eq_cons_iff.1 hf
  have hxl : x.inst.label = cur := by simpa using hxl
  have hnd := hi.nodup
  rw [hls, List.nodup_cons] at hnd
  have hits : ∀ k, (if k = cur then xs else s.its k) = (a ++ b).filter (fun e => e.inst.label == k) := by
    intro k
    by_cases hk : k = cur
    · subst hk
      rw [if_pos rfl, List.filter_append, List.filter_eq_nil_iff.2 ha, List.nil_append, hb]
    · rw [if_neg hk, hi.its k, List.filter_append, List.filter_append, List.filter_cons,
        if_neg (by simp only [hxl, beq_iff_eq]; omega)]
  have hsub : (a ++ b).Sublist (a ++ x :: b) := List.Sublist.append (List.Sublist.refl a) (List.sublist_cons_self x b)
  have hsorted := hi.sorted.sublist hsub
  have hlow : ∀ e ∈ a ++ b, x.gid ≤ e.gid := by
    intro e he
    rcases hi.first cur rest x xs hls hx with h | h
    · rw [h]
      exact hi.low e (hsub.mem he)
    · have h0 : a = [] := by
        cases a with
        | nil => rfl
        | cons y ys =>
          have h1 := h y (by simp)
          have h2 := hi.sorted
          rw [List.cons_append, List.pairwise_cons] at h2
          have := h2.1 x (by simp)
          omega
      subst h0
      have := hi.gids
      rw [List.nil_append, List.pairwise_cons] at this
      exact this.1 e (by simpa using he)
  have hrest : ∀ k ∈ rest, (if k = cur then xs else s.its k) = s.its k := by
    intro k hk
    rw [if_neg (fun h : k = cur => hnd.1 (h ▸ hk))]
  have hcnt : ∀ k, List.countP (fun e : EInst => e.inst.label == k) [x] = if k = cur then 1 else 0 := by
    intro k
    simp only [List.countP_cons, List.countP_nil, hxl, beq_iff_eq, Nat.zero_add]
    exact if_congr eq_comm rfl rfl
  have hrunD : ∀ e ∈ run, e.inst.label < nL := by
    intro e he
    exact hD e (hi.perm.mem_iff.1 (by simp [he]))
  have core : ∀ ls, ls.Nodup → (∀ k, k ∈ ls ↔ (if k = cur then xs else s.its k) ≠ []) →
      ls.Pairwise (fun a b => compEnd (fun k => if k = cur then xs else s.its k) b a = false) →
      ∃ done run rem', ExInv nL D ⟨fun k => if k = cur then xs else s.its k, ls,
      fun k => (if (s.prev.gid == x.gid) = true then s.counts k else 0) + (if k = cur then 1 else 0), x,
      if (s.prev.gid == x.gid) = true then s.n + 1 else 1,
      if (s.prev.gid == x.gid) = true then s.lb else s.lb + Streed.runErrors nL s.n s.counts⟩ done run rem' ∧
      rem'.length + 1 = (a ++ x :: b).length := by
    intro ls hn hlive hord
    have hfirst : ∀ c r y ys, ls = c :: r → (if c = cur then xs else s.its c) = y :: ys →
        ∀ e ∈ a ++ b, y.inst.id ≤ e.inst.id := by
      intro c r y ys hc hy e he
      have hmem : e ∈ (a ++ b).filter (fun e' => e'.inst.label == e.inst.label) :=
        List.mem_filter.2 ⟨he, by simp⟩
      have hne : (if e.inst.label = cur then xs else s.its e.inst.label) ≠ [] := by
        rw [hits]
        exact List.ne_nil_of_mem hmem
      obtain ⟨z, zs, hz⟩ := List.exists_cons_of_ne_nil hne
      have hze : z.inst.id ≤ e.inst.id := by
        have h1 := hsorted.filter (fun e' => e'.inst.label == e.inst.label)
        rw [← hits, hz] at h1
        rw [← hits, hz] at hmem
        rcases List.mem_cons.1 hmem with rfl | h2
        · exact Nat.le_refl _
        · exact Nat.le_of_lt ((List.pairwise_cons.1 h1).1 e h2)
      have hin : e.inst.label ∈ ls := (hlive _).2 hne
      rw [hc] at hin hord
      rcases List.mem_cons.1 hin with h | h
      · rw [h] at hz
        rw [hz] at hy
        cases hy
        exact hze
      · have := (List.pairwise_cons.1 hord).1 _ h
        have := (compEnd_head (its := fun k => if k = cur then xs else s.its k) (a := c) hy hz).1 this
        omega
    have hlen : (a ++ b).length + 1 = (a ++ x :: b).length := by simp; omega
    have hperm : (a ++ x :: b).Perm (x :: (a ++ b)) := List.perm_middle
    by_cases hsame : s.prev.gid = x.gid
    · refine ⟨done, run ++ [x], a ++ b, ⟨?_, hits, hsorted, hi.gids.sublist hsub, hlow, ?_, by simp, ?_, ?_, ?_, ?_,
        hn, hlive, hord.sublist (List.tail_sublist _), ?_⟩, hlen⟩
      · refine List.Perm.trans ?_ hi.perm
        have := (List.Perm.append_left (done ++ run) hperm).symm
        simpa [List.append_assoc] using this
      · intro e he
        have := hi.past e he
        dsimp only
        omega
      · intro e he
        rcases List.mem_append.1 he with he | he
        · exact (hi.group e he).trans hsame
        · rw [List.mem_singleton.1 he]
      · simp [hsame, hi.n]
      · intro k
        rw [List.countP_append, hcnt]
        simp [hsame, hi.counts k]
      · simpa [hsame] using hi.lb
      · intro c r y ys hc hy
        exact Or.inr (hfirst c r y ys hc hy)
    · have hlt : s.prev.gid < x.gid := by
        have := hi.low x (by simp)
        omega
      refine ⟨done ++ run, [x], a ++ b, ⟨?_, hits, hsorted, hi.gids.sublist hsub, hlow, ?_, by simp, ?_, ?_, ?_, ?_,
        hn, hlive, hord.sublist (List.tail_sublist _), ?_⟩, hlen⟩
      · refine List.Perm.trans ?_ hi.perm
        have := (List.Perm.append_left (done ++ run) hperm).symm
        simpa [List.append_assoc] using this
      · intro e he
        dsimp only
        rcases List.mem_append.1 he with he | he
        · have := hi.past e he
          omega
        · have := hi.group e he
          omega
      · intro e he
        rw [List.mem_singleton.1 he]
      · simp [hsame]
      · intro k
        rw [hcnt]
        simp [hsame]
      · rw [groupErrors_append hi.ne hrunD hi.counts hi.group (fun e he => by have := hi.past e he; omega),
          ← hi.lb, ← hi.n]
        simp [hsame]
      · intro c r y ys hc hy
        exact Or.inr (hfirst c r y ys hc hy)
  have hrord : rest.Pairwise (fun a b => compEnd (fun k => if k = cur then xs else s.its k) b a = false) := by
    have h1 := hi.order
    rw [hls, List.tail_cons] at h1
    refine List.Pairwise.imp_of_mem (fun {p q} hp hq h => ?_) h1
    rw [← h]
    exact compEnd_congr (hrest p hp) (hrest q hq)
  have hrlive : ∀ k, k ∈ cur :: rest ↔ s.its k ≠ [] := by
    intro k
    rw [← hls]
    exact hi.live k
  unfold eqStep at hs
  dsimp only at hs
  split at hs
  · next he =>
    cases hs
    refine core rest hnd.2 ?_ hrord
    intro k
    by_cases hk : k = cur
    · subst hk
      rw [if_pos rfl]
      exact ⟨fun h => absurd h hnd.1, fun h => absurd (by simpa using he) h⟩
    · rw [if_neg hk, ← hrlive k, List.mem_cons]
      simp [hk]
  · next he =>
    obtain ⟨ls, hb', rfl⟩ := Option.map_eq_some_iff.1 hs
    have hcur : (if cur = cur then xs else s.its cur) ≠ [] := by simpa using he
    have hrne : ∀ k ∈ rest, (if k = cur then xs else s.its k) ≠ [] := by
      intro k hk
      rw [hrest k hk]
      exact (hrlive k).1 (List.mem_cons_of_mem _ hk)
    obtain ⟨r, h1, h2⟩ := bubble_some (fun k => if k = cur then xs else s.its k) cur hcur rest hrne
    have h3 : r = ls := Option.some.inj (h1.symm.trans hb')
    subst h3
    refine core r (h2.nodup_iff.2 (List.nodup_cons.2 hnd)) ?_ (bubble_sorted hcur hrne hrord hb')
    intro k
    rw [h2.mem_iff]
    by_cases hk : k = cur
    · subst hk
      exact ⟨fun _ => hcur, fun _ => by simp⟩
    · rw [if_neg hk]
      exact hrlive k

theorem eqLoop_exact {nL : Nat} {D : List EInst} (hD : ∀ e ∈ D, e.inst.label < nL) (fuel : Nat) {s s' : EqSt}
    {done run rem : List EInst} (hi : ExInv nL D s done run rem) (hf : rem.length ≤ fuel)
    (hs : eqLoop nL fuel s = some s') : s'.lb + runErrors nL s'.n s'.counts = groupErrors nL D := by
  have fin : ∀ {s : EqSt} {done run rem : List EInst}, ExInv nL D s done run rem → rem = [] →
      s.lb + runErrors nL s.n s.counts = groupErrors nL D := by
    intro s done run rem hi h
    subst h
    rw [← groupErrors_perm nL hi.perm, List.append_nil,
      groupErrors_append hi.ne (fun e he => hD e (hi.perm.mem_iff.1 (by simp [he]))) hi.counts hi.group
        (fun e he => by have := hi.past e he; omega), hi.lb, hi.n]
  induction fuel generalizing s done run rem with
  | zero =>
    cases hs
    exact fin hi (List.length_eq_zero_iff.1 (Nat.le_zero.1 hf))
  | succ fuel ih =>
    unfold eqLoop at hs
    split at hs
    · next hl =>
      cases hs
      refine fin hi ?_
      by_contra hne
      obtain ⟨e, es, rfl⟩ := List.exists_cons_of_ne_nil hne
      have := (hi.live e.inst.label).2 (by rw [hi.its]; simp)
      rw [hl] at this
      simp at this
    · next cur rest hl =>
      split at hs
      · next hx =>
        exact absurd hx ((hi.live cur).1 (by rw [hl]; simp))
      · next x xs hx =>
        split at hs
        · cases hs
        · next s1 h1 =>
          obtain ⟨d1, r1, m1, hi1, hm⟩ := eqStep_exact hD hi hl hx h1
          exact ih hi1 (by omega) hs

/-- If the first instance and a later one agree in group and label, the bound is the number of instances outside the
largest class of their group. -/
theorem equivBound_exact {nL : Nat} {D : List EInst} (hD : ∀ e ∈ D, e.inst.label < nL)
    (hid : D.Pairwise (fun a b => a.inst.id < b.inst.id)) (hgid : D.Pairwise (fun a b => a.gid ≤ b.gid))
    {e0 : EInst} {D' : List EInst} (h0 : D = e0 :: D')
    (h1 : ∃ e ∈ D', e.inst.label = e0.inst.label ∧ e.gid = e0.gid) : equivBound nL D = some (groupErrors nL D) := by
  obtain ⟨b, hb⟩ := equivBound_some (nL := nL) (D := D) ⟨e0, by rw [h0]; simp, hD e0 (by rw [h0]; simp)⟩
  rw [hb]
  congr 1
  unfold equivBound at hb
  dsimp only at hb
  have tot : Std.Total (fun a b => compEnd (fun k => D.filter (fun e => e.inst.label == k)) b a = false) :=
    ⟨compEnd_total _⟩
  have trn : IsTrans Nat (fun a b => compEnd (fun k => D.filter (fun e => e.inst.label == k)) b a = false) :=
    ⟨compEnd_trans _⟩
  have hsort := List.pairwise_insertionSort
    (fun a b => compEnd (fun k => D.filter (fun e => e.inst.label == k)) b a = false) (List.range nL)
  have hperm := List.perm_insertionSort
    (fun a b => compEnd (fun k => D.filter (fun e => e.inst.label == k)) b a = false) (List.range nL)
  have hnd := hperm.nodup_iff.2 List.nodup_range
  generalize List.insertionSort (fun a b => compEnd (fun k => D.filter (fun e => e.inst.label == k)) b a = false)
    (List.range nL) = L at hb hsort hperm hnd
  have hpop : ∀ l : List Nat, ∀ r, popEmptyRev (fun k => D.filter (fun e => e.inst.label == k)) l = some r →
      (∀ k ∈ l, D.filter (fun e => e.inst.label == k) ≠ [] → k ∈ r) := by
    intro l
    induction l with
    | nil => simp
    | cons k ks ih =>
      intro r hr j hj hne
      unfold popEmptyRev at hr
      split at hr
      · next hk =>
        rcases List.mem_cons.1 hj with rfl | hj
        · exact absurd (by simpa using hk) hne
        · exact ih r hr j hj hne
      · cases hr
        exact hj
  rcases popEmptyRev_spec _ _ (List.pairwise_reverse.2 hsort) with ⟨h2, -⟩ | ⟨r, h2, h3, h4, h5⟩
  · rw [h2] at hb
    cases hb
  rw [h2] at hb
  dsimp only at hb
  have hr := (h4.nodup (List.nodup_reverse.2 hnd))
  have hrord : r.reverse.Pairwise
      (fun a b => compEnd (fun k => D.filter (fun e => e.inst.label == k)) b a = false) := by
    rw [List.pairwise_reverse]
    exact (List.pairwise_reverse.2 hsort).sublist h4
  have hlive : ∀ k, k ∈ r.reverse ↔ D.filter (fun e => e.inst.label == k) ≠ [] := by
    intro k
    rw [List.mem_reverse]
    refine ⟨h5 k, fun hk => ?_⟩
    refine hpop _ r h2 k ?_ hk
    obtain ⟨e, es, he⟩ := List.exists_cons_of_ne_nil hk
    have hm : e ∈ D.filter (fun e => e.inst.label == k) := by rw [he]; simp
    obtain ⟨h6, h7⟩ := List.mem_filter.1 hm
    have h7 : e.inst.label = k := by simpa using h7
    rw [List.mem_reverse, hperm.mem_iff, List.mem_range, ← h7]
    exact hD e h6
  rw [← List.nodup_reverse] at hr
  generalize r.reverse = R at hb hr hrord hlive
  have hf0 : D.filter (fun e => e.inst.label == e0.inst.label) =
      e0 :: D'.filter (fun e => e.inst.label == e0.inst.label) := by
    rw [h0]
    simp
  have hmin : ∀ e ∈ D', e0.inst.id < e.inst.id := by
    rw [h0] at hid
    exact (List.pairwise_cons.1 hid).1
  cases R with
  | nil => cases hb
  | cons cur rest =>
    dsimp only at hb
    obtain ⟨x, xs, hx⟩ := List.exists_cons_of_ne_nil ((hlive cur).1 (by simp))
    have hxm : x ∈ D.filter (fun e => e.inst.label == cur) := by rw [hx]; simp
    obtain ⟨hxD, hxl⟩ := List.mem_filter.1 hxm
    have hxl : x.inst.label = cur := by simpa using hxl
    have hx0 : x = e0 := by
      have hin : e0.inst.label ∈ cur :: rest := (hlive _).2 (by rw [hf0]; simp)
      have hle : x.inst.id ≤ e0.inst.id := by
        rcases List.mem_cons.1 hin with h | h
        · rw [h, hx] at hf0
          cases hf0
          exact Nat.le_refl _
        · exact (compEnd_head (its := fun k => D.filter (fun e => e.inst.label == k)) (a := cur) hx hf0).1
            ((List.pairwise_cons.1 hrord).1 _ h)
      rw [h0] at hxD
      rcases List.mem_cons.1 hxD with h | h
      · exact h
      · have := hmin x h
        omega
    subst hx0
    rw [hxl] at hf0
    rw [hf0] at hb
    dsimp only at hb
    obtain ⟨s', hs', rfl⟩ := Option.map_eq_some_iff.1 hb
    have hinit : ExInv nL D ⟨fun k => if k = cur then D'.filter (fun e => e.inst.label == cur)
        else D.filter (fun e => e.inst.label == k), cur :: rest, fun k => if k = cur then 1 else 0, x, 1, 0⟩
        [] [x] D' := by
      have hits : ∀ k, (if k = cur then D'.filter (fun e => e.inst.label == cur)
          else D.filter (fun e => e.inst.label == k)) = D'.filter (fun e => e.inst.label == k) := by
        intro k
        by_cases hk : k = cur
        · rw [if_pos hk, hk]
        · rw [if_neg hk, h0, List.filter_cons, if_neg (by simp only [hxl, beq_iff_eq]; omega)]
      obtain ⟨e, he, hel, heg⟩ := h1
      rw [List.nodup_cons] at hr
      have hcur : D'.filter (fun e => e.inst.label == cur) ≠ [] := by
        refine List.ne_nil_of_mem (a := e) (List.mem_filter.2 ⟨he, ?_⟩)
        simpa using hel.trans hxl
      have hidD := hid
      have hgD := hgid
      rw [h0, List.pairwise_cons] at hidD hgD
      refine ⟨by rw [h0]; rfl, hits, hidD.2, hgD.2, hgD.1, by simp, by simp, ?_, rfl, ?_, rfl,
        List.nodup_cons.2 hr, ?_, ?_, ?_⟩
      · intro e he
        rw [List.mem_singleton.1 he]
      · intro k
        simp only [List.countP_cons, List.countP_nil, hxl, beq_iff_eq, Nat.zero_add]
        exact if_congr eq_comm rfl rfl
      · intro k
        dsimp only
        by_cases hk : k = cur
        · rw [if_pos hk, hk]
          exact ⟨fun _ => hcur, fun _ => by simp⟩
        · rw [if_neg hk]
          exact hlive k
      · rw [List.tail_cons]
        refine List.Pairwise.imp_of_mem (fun {p q} hp hq h => ?_) (List.pairwise_cons.1 hrord).2
        rw [← h]
        exact compEnd_congr (if_neg (fun h : p = cur => hr.1 (h ▸ hp)))
          (if_neg (fun h : q = cur => hr.1 (h ▸ hq)))
      · intro c rs y ys hc hy
        left
        obtain ⟨rfl, rfl⟩ := List.cons.inj hc
        dsimp only at hy ⊢
        rw [if_pos rfl] at hy
        have hem : e ∈ D'.filter (fun e => e.inst.label == cur) :=
          List.mem_filter.2 ⟨he, by simpa using hel.trans hxl⟩
        have hys := hgD.2.filter (fun e => e.inst.label == cur)
        rw [hy] at hem hys
        have hyD : y ∈ D'.filter (fun e => e.inst.label == cur) := by rw [hy]; simp
        have h8 := hgD.1 y (List.mem_of_mem_filter hyD)
        rcases List.mem_cons.1 hem with h | h
        · rw [← h]
          exact heg
        · have := (List.pairwise_cons.1 hys).1 e h
          omega
    exact eqLoop_exact hD _ hinit (by rw [h0]; simp) hs'

/-! ### Ids and groups of the preprocessed data -/

theorem assignLoop_order (nF : Nat) (S : List Inst) (prev : Inst) (g id : Nat) :
    (∀ e ∈ assignLoop nF prev g id S, id ≤ e.inst.id) ∧
    (assignLoop nF prev g id S).Pairwise (fun a b => a.inst.id < b.inst.id) ∧
    (assignLoop nF prev g id S).Pairwise (fun a b => a.gid ≤ b.gid) := by
  induction S generalizing prev g id with
  | nil => simp [assignLoop]
  | cons i is ih =>
    have key : ∀ p g', (∀ e ∈ (⟨{ i with id := id }, g'⟩ : EInst) :: assignLoop nF p g' (id + 1) is, id ≤ e.inst.id) ∧
        ((⟨{ i with id := id }, g'⟩ : EInst) :: assignLoop nF p g' (id + 1) is).Pairwise
          (fun a b => a.inst.id < b.inst.id) ∧
        ((⟨{ i with id := id }, g'⟩ : EInst) :: assignLoop nF p g' (id + 1) is).Pairwise (fun a b => a.gid ≤ b.gid) := by
      intro p g'
      obtain ⟨h1, h2, h3⟩ := ih p g' (id + 1)
      refine ⟨?_, List.pairwise_cons.2 ⟨fun e he => ?_, h2⟩,
        List.pairwise_cons.2 ⟨fun e he => (assignLoop_groups nF is p g' (id + 1)).1 e he, h3⟩⟩
      · intro e he
        rcases List.mem_cons.1 he with rfl | he
        · exact Nat.le_refl _
        · have := h1 e he
          omega
      · have := h1 e he
        dsimp only
        omega
    unfold assignLoop
    split
    · exact key prev g
    · exact key i (g + 1)

theorem assignGroups_order (nF : Nat) (S : List Inst) :
    (assignGroups nF S).Pairwise (fun a b => a.inst.id < b.inst.id) ∧
    (assignGroups nF S).Pairwise (fun a b => a.gid ≤ b.gid) := by
  cases S with
  | nil => simp [assignGroups]
  | cons i is =>
    unfold assignGroups
    obtain ⟨h1, h2, h3⟩ := assignLoop_order nF is i 0 1
    exact ⟨List.pairwise_cons.2 ⟨fun e he => h1 e he, h2⟩,
      List.pairwise_cons.2 ⟨fun e _ => Nat.zero_le _, h3⟩⟩

end Streed
