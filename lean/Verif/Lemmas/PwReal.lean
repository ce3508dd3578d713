import Verif.PwSpec
import Verif.Model.PwSearch
import Verif.Lemmas.TolSound
import Verif.Lemmas.ApxRank

/-! Solutions of the search with fitted leaves, and what the state holds. -/

namespace Streed.Pw
open Apx (tol tol_pos tol_one varying)

/-- The trees that a task is about. -/
def Task.fitting (p : Task) : Fitting := ⟨p.c.P.nF, p.c.P.bc, p.c.mls, p.leaf, p.weight⟩

/-- `v` describes a legal tree of depth at most `d` with the cost `v` claims. -/
def Real (p : Task) (d : Nat) (D : Data) (v : Node) : Prop :=
  ∃ t, Rep v t ∧ t.depth ≤ d ∧ p.fitting.Legal t D ∧ p.fitting.cost t D = v.sol

theorem Real.nonempty {p : Task} {d : Nat} {D : Data} {v : Node} (h : Real p d D v) : v.isEmpty = false := by
  obtain ⟨t, h, _⟩ := h; exact h.nonempty

theorem Real.mono {p : Task} {d d' : Nat} {D : Data} {v : Node} (h : Real p d D v) (hd : d ≤ d') : Real p d' D v := by
  obtain ⟨t, h1, h2, h3, h4⟩ := h; exact ⟨t, h1, by omega, h3, h4⟩

theorem Real.depth_min {p : Task} {d d' : Nat} {D : Data} {v : Node} (h : Real p d D v) (hd : min d v.numNodes ≤ d') :
    Real p d' D v := by
  obtain ⟨t, h1, h2, h3, h4⟩ := h
  have := t.depth_le_nodes
  have := h1.nodes
  exact ⟨t, h1, by omega, h3, h4⟩

theorem Real.combine {p : Task} {d f : Nat} {D : Data} {l r : Node} (hf : f < p.c.P.nF)
    (hl : Real p d (without f D) l) (hr : Real p d (having f D) r) : Real p (d + 1) D (Node.combine f l r p.c.P.bc) := by
  obtain ⟨tl, a1, a2, a3, a4⟩ := hl
  obtain ⟨tr, b1, b2, b3, b4⟩ := hr
  refine ⟨.node f tl tr, ⟨rfl, rfl, a1.nodes, b1.nodes⟩, ?_, ⟨hf, a3, b3⟩, ?_⟩
  · simp only [Tree.depth]; omega
  · simp only [Fitting.cost, a4, b4]
    simp only [Task.fitting, Node.combine, Node.branch]

theorem Real.leaf {p : Task} {d : Nat} {D : Data} {v : Int} (hm : p.c.mls ≤ p.weight D) (h : p.leaf D = some v) :
    Real p d D (Node.leaf 0 v) := by
  refine ⟨.leaf 0, ⟨rfl, rfl⟩, Nat.zero_le _, ⟨hm, ?_⟩, ?_⟩
  · simp only [Task.fitting, h, Option.isSome_some]
  · simp only [Fitting.cost, Task.fitting, h, Option.getD_some]; rfl

/-- Nothing found, or a legal tree within the limits. -/
def Sound (p : Task) (d n : Nat) (D : Data) (v : Node) : Prop := v = Node.empty p.c.worst ∨ (Real p d D v ∧ v.numNodes ≤ n)

theorem Sound.mono {p : Task} {d n d' n' : Nat} {D : Data} {v : Node} (h : Sound p d n D v) (hd : d ≤ d') (hn : n ≤ n') :
    Sound p d' n' D v := by
  rcases h with h | ⟨h, h'⟩
  · exact .inl h
  · exact .inr ⟨h.mono hd, by omega⟩

theorem Sound.real {p : Task} {d n : Nat} {D : Data} {v : Node} (h : Sound p d n D v) (hv : v.isEmpty = false) :
    Real p d D v ∧ v.numNodes ≤ n := by
  rcases h with rfl | h
  · simp [Node.empty, Node.isEmpty] at hv
  · exact h

theorem Sound.emp {p : Task} {d n : Nat} {D : Data} {v : Node} (h : Sound p d n D v) (hv : v.isEmpty = true) :
    v = Node.empty p.c.worst := by
  rcases h with h | h
  · exact h
  · rw [h.1.nonempty] at hv; simp at hv

theorem Sound.addMin {p : Task} {d n : Nat} {D : Data} {a b : Node} (ha : Sound p d n D a) (hb : Sound p d n D b) :
    Sound p d n D (Node.addMin a b) := by
  rcases addMin_cases a b with h | h <;> rw [h] <;> assumption

/-- What every search needs. -/
structure Fair (p : Task) (T : Data) : Prop where
  sorted : IdSorted T
  labels : ∀ i ∈ T, i.label < p.c.P.nL
  order : ∀ D f, f ∈ p.c.order D → f < p.c.P.nF

/-- Under these conditions the search is close to optimal. -/
structure Open (p : Task) (T : Data) : Prop where
  noLB : p.c.useLB = false
  ub : p.c.useUB = true
  md : p.c.md = 0
  bc : 0 ≤ p.c.P.bc
  mls : 1 ≤ p.c.mls
  q : 0 ≤ p.q
  nil : p.weight [] = 0
  split : ∀ f D, ViewOf T D → p.weight D = p.weight (without f D) + p.weight (having f D)
  leaf : ∀ D, ViewOf T D → p.c.mls ≤ p.weight D → ∃ v, p.leaf D = some v ∧ 0 ≤ v
  all : ∀ D f, f < p.c.P.nF → f ∈ p.c.order D
  redundant : ∀ f, p.c.redundant f = true → without f T = [] ∨ having f T = []
  big : ∀ D, ViewOf T D → ∀ t, p.fitting.Legal t D → tol ^ (p.c.P.nF + 1) * (p.fitting.cost t D : ℚ) < (p.c.worst : ℚ)

/-- The factor lost on `D`. -/
def loss (p : Task) (D : Data) : ℚ := tol ^ varying p.c.P.nF D

theorem loss_one (p : Task) (D : Data) : 1 ≤ loss p D := one_le_pow₀ tol_one

theorem loss_le (p : Task) (D : Data) : loss p D ≤ tol ^ p.c.P.nF := pow_le_pow_right₀ tol_one (Apx.varying_le _ D)

theorem loss_side {p : Task} {D : Data} {f : Nat} (hf : f < p.c.P.nF) (h0 : without f D ≠ []) (h1 : having f D ≠ []) (x : Bool) :
    tol * loss p (side f x D) ≤ loss p D := by
  have h := Apx.countP_lt (l := List.range p.c.P.nF) (p := Apx.varies (side f x D)) (q := Apx.varies D)
    (fun g _ hg => Apx.varies_mono (Apx.side_sublist f x _) hg) (List.mem_range.2 hf) (Apx.side_not_varies f x _)
    (Apx.varies_iff.2 ⟨h0, h1⟩)
  unfold loss varying
  rw [← pow_succ']
  exact pow_le_pow_right₀ tol_one h

section
variable {p : Task} {T : Data}

theorem Open.legal_weight (O : Open p T) {t : Tree} {D : Data} (hD : ViewOf T D) (h : p.fitting.Legal t D) : p.c.mls ≤ p.weight D := by
  induction t generalizing D with
  | leaf k => exact h.1
  | node f l r ihl ihr =>
    have h1 := ihl ((without_sublist f D).trans hD) h.2.1
    rw [O.split f D hD]; omega

theorem Open.cost_nonneg (O : Open p T) {t : Tree} {D : Data} (hD : ViewOf T D) (h : p.fitting.Legal t D) : 0 ≤ p.fitting.cost t D := by
  induction t generalizing D with
  | leaf k =>
    obtain ⟨v, h1, h2⟩ := O.leaf D hD h.1
    simp only [Fitting.cost, Task.fitting, h1, Option.getD_some]; exact h2
  | node f l r ihl ihr =>
    have h1 := ihl ((without_sublist f D).trans hD) h.2.1
    have h2 := ihr ((having_sublist f D).trans hD) h.2.2
    have := O.bc
    have e : p.fitting.bc = p.c.P.bc := rfl
    simp only [Fitting.cost]; omega

theorem Open.real_nonneg (O : Open p T) {d : Nat} {D : Data} (hD : ViewOf T D) {v : Node} (h : Real p d D v) : 0 ≤ v.sol := by
  obtain ⟨t, _, _, h3, h4⟩ := h
  rw [← h4]; exact O.cost_nonneg hD h3

/-- A cost with its factor stays below "no solution". -/
theorem Open.big' (O : Open p T) {D : Data} (hD : ViewOf T D) {t : Tree} (h : p.fitting.Legal t D) :
    tol * (loss p D * (p.fitting.cost t D : ℚ)) < (p.c.worst : ℚ) := by
  refine lt_of_le_of_lt ?_ (O.big D hD t h)
  have h0 : (0 : ℚ) ≤ p.fitting.cost t D := by exact_mod_cast O.cost_nonneg hD h
  rw [← mul_assoc, pow_succ', ]
  exact mul_le_mul_of_nonneg_right (mul_le_mul_of_nonneg_left (loss_le p D) (le_of_lt tol_pos)) h0

theorem Open.real_big (O : Open p T) {d : Nat} {D : Data} (hD : ViewOf T D) {v : Node} (h : Real p d D v) :
    tol * (v.sol : ℚ) < (p.c.worst : ℚ) := by
  have h0 := O.real_nonneg hD h
  obtain ⟨t, _, _, h3, h4⟩ := h
  refine lt_of_le_of_lt ?_ (O.big' hD h3)
  rw [h4]
  have h0 : (0 : ℚ) ≤ v.sol := by exact_mod_cast h0
  have h1 := loss_one p D
  have : (v.sol : ℚ) ≤ loss p D * v.sol := by nlinarith
  exact mul_le_mul_of_nonneg_left this (le_of_lt tol_pos)

theorem Open.real_small (O : Open p T) {d : Nat} {D : Data} (hD : ViewOf T D) {v : Node} (h : Real p d D v) : v.sol < p.c.worst := by
  have h0 : (0 : ℚ) ≤ v.sol := by exact_mod_cast O.real_nonneg hD h
  have h1 := O.real_big hD h
  have := tol_one
  have : (v.sol : ℚ) < p.c.worst := by nlinarith
  exact_mod_cast this

/-- A cache entry for `D`: `k` counts the time checks so far. -/
def QS (p : Task) (T : Data) (k : Nat) (D : Data) (e : Entry) : Prop :=
  e.opt.isEmpty = false → Real p e.depth D e.opt ∧ e.opt.numNodes ≤ e.nodes ∧
    (Open p T → AllOK p.c k → ∀ t, p.fitting.Allowed e.depth e.nodes D t → (e.opt.sol : ℚ) ≤ tol * (loss p D * (p.fitting.cost t D : ℚ)))

/-- State invariant. -/
structure SOK (p : Task) (T : Data) (s : St) : Prop where
  cache : CAll T (QS p T s.tick) s.cache
  arch : ∀ d, ∀ x ∈ Tbl.get s.arch d [], x.1 = sel x.2 T

theorem callMono {Q Q' : Data → Entry → Prop} {C : Cache} (h : CAll T Q C) (hq : ∀ D e, Q D e → Q' D e) : CAll T Q' C :=
  ⟨fun b es hf e he => hq _ _ (h.br b es hf e he), fun D es hv hf e he => hq _ _ (h.ds D es hv hf e he)⟩

theorem QS.later {k k' : Nat} (hk : k ≤ k') {D : Data} {e : Entry} (h : QS p T k D e) : QS p T k' D e :=
  fun he => ⟨(h he).1, (h he).2.1, fun O hA => (h he).2.2 O (hA.mono hk)⟩

theorem SOK.next {s : St} (h : SOK p T s) : SOK p T s.next := ⟨callMono h.cache fun _ _ => QS.later (Nat.le_succ _), h.arch⟩

theorem SOK.setCache {s : St} (h : SOK p T s) {C : Cache} (hC : CAll T (QS p T s.tick) C) : SOK p T { s with cache := C } := ⟨hC, h.arch⟩

theorem SOK.init : SOK p T St.init := ⟨CAll.init, fun d x hx => by simp [St.init, Tbl.get] at hx⟩

theorem qs_fresh (k : Nat) (D : Data) (w : Int) (d n : Nat) : QS p T k D (Entry.fresh w d n) :=
  fun h => by simp [Entry.fresh, Node.empty, Node.isEmpty] at h

theorem Allowed.mono {F : Fitting} {d n d' n' : Nat} {D : Data} {t : Tree} (h : F.Allowed d n D t) (hd : d ≤ d') (hn : n ≤ n') :
    F.Allowed d' n' D t := ⟨Nat.le_trans h.1 hd, Nat.le_trans h.2.1 hn, h.2.2⟩

/-- Storing a solution. -/
theorem store_all (G : Fair p T) {k : Nat} {C : Cache} (h : CAll T (QS p T k) C) {D : Data} {b : Branch} (hD : D = sel b T) {v : Node}
    {d n : Nat} (hr : Real p d D v) (hn : v.numNodes ≤ n)
    (hl : Open p T → AllOK p.c k → ∀ t, p.fitting.Allowed d n D t → (v.sol : ℚ) ≤ tol * (loss p D * (p.fitting.cost t D : ℚ))) :
    CAll T (QS p T k) (C.storeOpt p.c.cc D b v d n) :=
  h.storeOpt G.sorted hD hr.nonempty hn fun _ _ h1 h2 h3 h4 _ =>
    ⟨(hr.depth_min (Nat.le_refl _)).mono h1, h3, fun O hA t ht => hl O hA t (Allowed.mono ht h2 h4)⟩

theorem upd_all (G : Fair p T) {k : Nat} {C : Cache} (h : CAll T (QS p T k) C) {D : Data} {b : Branch} (hD : D = sel b T) (v : Node)
    (d n : Nat) : CAll T (QS p T k) (C.updateLB p.c.cc D b v d n) :=
  h.updateLB G.sorted hD (qs_fresh k D _ d n) fun _ _ _ hq => hq

theorem SOK.hit {s : St} (hs : SOK p T s) {D : Data} {b : Branch} (hD : D = sel b T) (d n : Nat) :
    Sound p d n D (s.cache.retrieveOpt p.c.cc D b d n) ∧
    (Open p T → AllOK p.c s.tick → (s.cache.retrieveOpt p.c.cc D b d n).isEmpty = false → ∀ t, p.fitting.Allowed d n D t →
      ((s.cache.retrieveOpt p.c.cc D b d n).sol : ℚ) ≤ tol * (loss p D * (p.fitting.cost t D : ℚ))) := by
  cases h : (s.cache.retrieveOpt p.c.cc D b d n).isEmpty with
  | true => exact ⟨.inl (retrieveOpt_empty h), fun _ _ h => by simp at h⟩
  | false =>
    obtain ⟨e, h1, h2, h3, h4⟩ := hs.cache.retrieveOpt hD h
    have := h1 (by rw [h4]; exact h)
    rw [h2, h3, h4] at this
    exact ⟨.inr ⟨this.1, this.2.1⟩, fun O hA _ => this.2.2 O hA⟩

theorem lowerCached_sound {s : St} (hs : SOK p T s) {D : Data} {b : Branch} (hD : D = sel b T) (n m : Nat)
    {l : Nat} {w : Node} (h : lowerCached p.c s D b n m = some (l, w)) : Real p m D w ∧ w.numNodes ≤ n := by
  induction m with
  | zero => simp [lowerCached] at h
  | succ m ih =>
    unfold lowerCached at h
    dsimp only at h
    split at h
    · rename_i hc
      simp only [Option.some.injEq, Prod.mk.injEq] at h
      obtain ⟨rfl, rfl⟩ := h
      have := (hs.hit hD (m + 1) (min n (2 ^ m))).1.real (isOptCached_retrieve hc)
      exact ⟨this.1, by omega⟩
    · exact ⟨(ih h).1.mono (Nat.le_succ _), (ih h).2⟩

theorem updateArchive_sound {s : St} (hs : SOK p T s) {D : Data} {b : Branch} (hD : D = sel b T) (d : Nat) :
    SOK p T (updateArchive p.c s D b d) ∧ (updateArchive p.c s D b d).tick = s.tick := by
  unfold updateArchive
  split
  · exact ⟨hs, rfl⟩
  · refine ⟨⟨hs.cache, ?_⟩, rfl⟩
    intro d' x hx
    simp only at hx
    rw [Tbl.get_set] at hx
    split at hx
    · split at hx
      · rcases List.mem_append.1 hx with hx | hx
        · exact hs.arch d x hx
        · rw [List.mem_singleton.1 hx]; exact hD
      · rcases mem_replaceSimilar hx with hx | hx
        · exact hs.arch d x hx
        · rw [hx]; exact hD
    · exact hs.arch d' x hx

theorem diff_zero (G : Fair p T) {D E : Data} (hD : ViewOf T D) (hE : ViewOf T E) (h : totalDifference p.c.P.nL D E = 0) : D = E := by
  have hl : ∀ i ∈ D ++ E, i.label < p.c.P.nL := by
    intro i hi
    rcases List.mem_append.1 hi with h | h
    · exact G.labels i (hD.subset h)
    · exact G.labels i (hE.subset h)
  have hc := (difference_counts p.c.P.nL D E).1
  have e1 : (computeDifference p.c.P.nL D E).1 = [] := List.length_eq_zero_iff.1 (by omega)
  have e2 : (computeDifference p.c.P.nL D E).2 = [] := List.length_eq_zero_iff.1 (by omega)
  have hp := difference_apply p.c.P.nL D E (hD.sorted G.sorted) (hE.sorted G.sorted) hl (hD.consistent hE G.sorted)
  rw [e1, e2, List.append_nil, List.append_nil] at hp
  exact sorted_ext (hD.sorted G.sorted) (hE.sorted G.sorted) fun i => hp.symm.mem_iff

theorem simLoop_all {Q : Data → Entry → Prop} (G : Fair p T) {D : Data} {b : Branch} (hD : D = sel b T) (d n : Nat)
    (es : List (Data × Branch)) (hes : ∀ x ∈ es, x.1 = sel x.2 T) (lb : Node) (C : Cache) (hC : CAll T Q C) :
    CAll T Q (Tol.simLoop p.c D b d n es lb C).2.2 := by
  have hv : ViewOf T D := by rw [hD]; exact sel_view b T
  induction es generalizing lb C with
  | nil => exact hC
  | cons x es ih =>
    obtain ⟨D', b'⟩ := x
    have hD' : D' = sel b' T := hes (D', b') (List.mem_cons_self ..)
    have hv' : ViewOf T D' := by rw [hD']; exact sel_view b' T
    have hes' := fun x hx => hes x (List.mem_cons_of_mem _ hx)
    unfold Tol.simLoop
    split
    · exact ih hes' lb C hC
    · split
      · exact ih hes' lb C hC
      · dsimp only
        split
        · rename_i h0
          have heq : sel b' T = sel b T := by rw [← hD', ← hD]; exact diff_zero G hv' hv h0
          have hC' := Tol.callTransfer hC p.c.cc heq
          split
          · exact hC'
          · exact ih hes' _ _ hC'
        · exact ih hes' _ _ hC

theorem useSimilarity_sound (G : Fair p T) {s : St} (hs : SOK p T s) {D : Data} {b : Branch} (hD : D = sel b T) (d n : Nat) :
    SOK p T (Tol.useSimilarity p.c s D b d n).2 ∧ (Tol.useSimilarity p.c s D b d n).2.tick = s.tick := by
  unfold Tol.useSimilarity
  split
  · exact ⟨hs, rfl⟩
  · have h1 := simLoop_all G hD d n (Tbl.get s.arch d []) (hs.arch d) (Node.value 0) s.cache hs.cache
    dsimp only
    split
    · exact ⟨⟨h1, hs.arch⟩, rfl⟩
    · split
      · exact ⟨⟨h1, hs.arch⟩, rfl⟩
      · split
        · exact ⟨⟨upd_all G h1 hD _ _ _, hs.arch⟩, rfl⟩
        · exact ⟨⟨h1, hs.arch⟩, rfl⟩

end
end Streed.Pw
