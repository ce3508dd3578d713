import Verif.Model.Pareto
import Verif.Props.Front
import Verif.Lemmas.CacheInv
import Verif.Lemmas.Search

/-! The search for partially ordered tasks without bounds: the fronts are realised by trees and cover every tree. -/

namespace Streed

variable {S : Type}

/-- The trees of a partially ordered task: `nF` features, `nL` labels. -/
def PTask.prob (T : PTask S) : Problem := ⟨T.nF, T.nL, T.may, fun _ _ => 0, 0⟩

/-- The value of a tree. -/
def PTask.eval (T : PTask S) : Tree → Data → S
  | .leaf k, D => T.leaf D k
  | .node f l r, D => T.comb f (T.eval l (without f D)) (T.eval r (having f D))

/-- The values of trees on `D`. -/
def PVal (c : PCfg S) (D : Data) (s : S) : Prop := ∃ t : Tree, t.Legal c.T.prob c.mls D ∧ c.T.eval t D = s

/-- `cmp` is a preorder on the values `V`, and equal keys mean equally good. -/
structure GoodOn (V : S → Prop) (cmp key : S → S → Bool) : Prop where
  refl : ∀ a, V a → cmp a a = true
  trans : ∀ a b c, V a → V b → V c → cmp a b = true → cmp b c = true → cmp a c = true
  key : ∀ a b, V a → V b → key a b = true → cmp a b = true

/-- What the search without bounds needs. -/
structure PGood (c : PCfg S) (T : Data) : Prop where
  order : ∀ D, ViewOf T D → GoodOn (PVal c D) c.T.o.dom c.T.o.key
  order0 : GoodOn (PVal c T) c.T.domD0 c.T.o.key
  combMono : ∀ D f a a' b b', ViewOf T D → PVal c (without f D) a → PVal c (without f D) a' → PVal c (having f D) b →
    PVal c (having f D) b' → c.T.o.dom a a' = true → c.T.o.dom b b' = true →
    c.T.o.dom (c.T.comb f a b) (c.T.comb f a' b') = true
  best : ∀ D a b, ViewOf T D → PVal c D a → PVal c D b → c.T.o.eq c.T.best a = true → c.T.o.dom a b = true
  weaker : ∀ a b, PVal c T a → PVal c T b → c.T.ok a = true → c.T.ok b = true → c.T.o.dom a b = true → c.T.domD0 a b = true
  okSub : ∀ D f a b, ViewOf T D → PVal c (without f D) a → PVal c (having f D) b → c.T.ok (c.T.comb f a b) = true →
    c.T.ok a = true ∧ c.T.ok b = true
  okMono : ∀ D a b, ViewOf T D → PVal c D a → PVal c D b → c.T.o.dom a b = true → c.T.ok b = true → c.T.ok a = true
  okLeaf : ∀ D k, ViewOf T D → k < c.T.nL → c.T.ok (c.T.leaf D k) = true
  labels : 0 < c.T.nL
  mls : 1 ≤ c.mls
  noUB : c.useUB = false
  noLB : c.useLB = false
  noTerm : c.useTerm = false
  feats : ∀ D f, f ∈ c.order D ↔ f < c.T.nF
  red : ∀ f, c.redundant f = false
  sorted : IdSorted T

/-- A node of a front stands for a tree. -/
def PReal (c : PCfg S) (D : Data) (d n : Nat) (m : PNode S) : Prop :=
  ∃ t, Allowed c.T.prob c.mls d n D t ∧ c.T.eval t D = m.sol ∧ t.nodes = m.size ∧ c.T.ok m.sol = true

/-- Some member of the front is at least as good as `x`. -/
def PCov (cmp : S → S → Bool) (F : Front S) (x : S) : Prop := ∃ m ∈ F.sols, cmp m.sol x = true

/-- Every tree of the budget that satisfies the constraint is covered. -/
def PComplete (c : PCfg S) (cmp : S → S → Bool) (D : Data) (d n : Nat) (F : Front S) : Prop :=
  ∀ t, Allowed c.T.prob c.mls d n D t → c.T.ok (c.T.eval t D) = true → PCov cmp F (c.T.eval t D)

/-- The order used for data `D`: scores at the root, dominance elsewhere. -/
def levelCmp (c : PCfg S) (T : Data) (D : Data) : S → S → Bool :=
  if D.length = T.length then c.T.domD0 else c.T.o.dom

theorem PReal.mono {c : PCfg S} {D : Data} {d n d' n' : Nat} {m : PNode S} (h : PReal c D d n m) (hd : d ≤ d')
    (hn : n ≤ n') : PReal c D d' n' m := by
  obtain ⟨t, h1, h2, h3⟩ := h
  exact ⟨t, ⟨Nat.le_trans h1.1 hd, Nat.le_trans h1.2.1 hn, h1.2.2⟩, h2, h3⟩

theorem PReal.val {c : PCfg S} {D : Data} {d n : Nat} {m : PNode S} (h : PReal c D d n m) : PVal c D m.sol := by
  obtain ⟨t, h1, h2, _⟩ := h
  exact ⟨t, h1.2.2, h2⟩

theorem PReal.isOk {c : PCfg S} {D : Data} {d n : Nat} {m : PNode S} (h : PReal c D d n m) : c.T.ok m.sol = true := by
  obtain ⟨t, _, _, _, h⟩ := h
  exact h

/-- Adding a valid node to a front of valid nodes. -/
theorem add_inv_on {V : S → Prop} {cmp key : S → S → Bool} (check : Bool) (hg : GoodOn V cmp key)
    (F : Front S) (added : List (PNode S)) (n : PNode S) (h : FInv cmp F added) (ha : ∀ m ∈ added, V m.sol)
    (hu : ∀ p ∈ F.uniq, V p.1) (hn : V n.sol) :
    FInv cmp (F.add cmp key check n) (added ++ [n]) ∧ ∀ p ∈ (F.add cmp key check n).uniq, V p.1 := by
  have hV : ∀ m ∈ F.sols, V m.sol := fun m hm => ha m (h.nd.inserted m hm)
  unfold Front.add
  split
  · rename_i he
    have hadd : added = [] := by
      cases added with
      | nil => rfl
      | cons a as =>
        obtain ⟨m, hm, _⟩ := h.nd.covered a (by simp)
        rw [he] at hm; simp at hm
    have hu : ∀ p ∈ F.uniq, False := by
      intro p hp
      obtain ⟨m, hm, _⟩ := h.keys p hp
      rw [he] at hm; simp at hm
    subst hadd
    have hk : ∀ p ∈ (if check = true then Front.setKey key n.sol n.size F.uniq else F.uniq), p.1 = n.sol := by
      intro p hp
      split at hp
      · rcases setKey_mem key _ _ _ _ hp with h1 | ⟨q, hq, _⟩
        · exact h1
        · exact (hu q hq).elim
      · exact (hu p hp).elim
    refine ⟨⟨⟨by simp, by simp, ?_⟩, ?_⟩, ?_⟩
    · intro m hm
      exact ⟨n, by simp, by simp at hm; rw [hm]; exact hg.refl _ hn⟩
    · intro p hp
      exact ⟨n, by simp, by rw [hk p hp]; exact hg.refl _ hn⟩
    · intro p hp
      rw [hk p hp]; exact hn
  · split
    · rename_i hne hs
      refine ⟨⟨⟨?_, h.nd.antichain, ?_⟩, h.keys⟩, hu⟩
      · intro m hm
        exact List.mem_append_left _ (h.nd.inserted m hm)
      · intro m hm
        rcases List.mem_append.1 hm with hm | hm
        · exact h.nd.covered m hm
        · have hm : m = n := by simpa using hm
          subst hm
          cases check with
          | false => simp at hs
          | true =>
            simp only [if_true] at hs
            obtain ⟨p, hp, hk⟩ := uniqStep_none key _ _ hs
            obtain ⟨x, hx, hc⟩ := h.keys p hp
            exact ⟨x, hx, hg.trans _ _ _ (hV x hx) (hu p hp) hn hc (hg.key _ _ (hu p hp) hn hk)⟩
    · rename_i hne u hs
      have hkeys := step_some key check F.uniq u n hs
      have hu' : ∀ p ∈ u, V p.1 := by
        intro p hp
        rcases hkeys p hp with h1 | ⟨q, hq, h1⟩
        · rw [h1]; exact hn
        · rw [← h1]; exact hu q hq
      split
      · rename_i hany
        obtain ⟨x, hx, hc⟩ := List.any_eq_true.1 hany
        refine ⟨⟨⟨?_, h.nd.antichain, ?_⟩, ?_⟩, hu'⟩
        · intro m hm
          exact List.mem_append_left _ (h.nd.inserted m hm)
        · intro m hm
          rcases List.mem_append.1 hm with hm | hm
          · exact h.nd.covered m hm
          · have hm : m = n := by simpa using hm
            subst hm
            exact ⟨x, hx, hc⟩
        · intro p hp
          rcases hkeys p hp with h1 | ⟨q, hq, h1⟩
          · exact ⟨x, hx, by rw [h1]; exact hc⟩
          · rw [← h1]; exact h.keys q hq
      · rename_i hany
        have hno : ∀ m ∈ F.sols, cmp m.sol n.sol = false := by
          intro m hm
          by_contra hc
          exact hany (List.any_eq_true.2 ⟨m, hm, by simpa using hc⟩)
        have keep : ∀ s, V s → (∃ m ∈ F.sols, cmp m.sol s = true) →
            ∃ m ∈ (F.sols.filter fun m => !cmp n.sol m.sol) ++ [n], cmp m.sol s = true := by
          rintro s hs ⟨m, hm, hc⟩
          by_cases hd : cmp n.sol m.sol = true
          · exact ⟨n, by simp, hg.trans _ _ _ hn (hV m hm) hs hd hc⟩
          · exact ⟨m, by simp [List.mem_filter, hm, hd], hc⟩
        refine ⟨⟨⟨?_, ?_, ?_⟩, ?_⟩, hu'⟩
        · intro m hm
          rcases List.mem_append.1 hm with hm | hm
          · exact List.mem_append_left _ (h.nd.inserted m (List.mem_filter.1 hm).1)
          · exact List.mem_append_right _ hm
        · refine List.pairwise_append.2 ⟨h.nd.antichain.filter _, by simp, ?_⟩
          intro a ha b hb
          have hb : b = n := by simpa using hb
          subst hb
          obtain ⟨ha, hd⟩ := List.mem_filter.1 ha
          exact ⟨hno a ha, by simpa using hd⟩
        · intro m hm
          rcases List.mem_append.1 hm with hm | hm
          · exact keep m.sol (ha m hm) (h.nd.covered m hm)
          · have hm : m = n := by simpa using hm
            subst hm
            exact ⟨m, by simp, hg.refl _ hn⟩
        · intro p hp
          rcases hkeys p hp with h1 | ⟨q, hq, h1⟩
          · exact ⟨n, by simp, by rw [h1]; exact hg.refl _ hn⟩
          · exact keep p.1 (hu' p hp) (by rw [← h1]; exact h.keys q hq)

/-- A front under construction: what was added has property `R`, keys are valid. -/
def PAcc (V : S → Prop) (cmp : S → S → Bool) (R : PNode S → Prop) (F : Front S) : Prop :=
  ∃ added, FInv cmp F added ∧ (∀ m ∈ added, R m) ∧ ∀ p ∈ F.uniq, V p.1

theorem PAcc.empty (V : S → Prop) (cmp : S → S → Bool) (R : PNode S → Prop) : PAcc V cmp R (Front.empty : Front S) :=
  ⟨[], ⟨⟨by simp [Front.empty], by simp [Front.empty], by simp⟩, by simp [Front.empty]⟩, by simp, by simp [Front.empty]⟩

theorem PAcc.real {V : S → Prop} {cmp : S → S → Bool} {R : PNode S → Prop} {F : Front S} (h : PAcc V cmp R F) :
    ∀ m ∈ F.sols, R m := by
  obtain ⟨added, h1, h2, _⟩ := h
  exact fun m hm => h2 m (h1.nd.inserted m hm)

theorem PAcc.mono {V : S → Prop} {cmp : S → S → Bool} {R R' : PNode S → Prop} {F : Front S} (h : PAcc V cmp R F)
    (hR : ∀ m, R m → R' m) : PAcc V cmp R' F := by
  obtain ⟨added, h1, h2, h3⟩ := h
  exact ⟨added, h1, fun m hm => hR m (h2 m hm), h3⟩

theorem PAcc.add {V : S → Prop} {cmp key : S → S → Bool} (hg : GoodOn V cmp key) (check : Bool) {R : PNode S → Prop}
    (hR : ∀ m, R m → V m.sol) {F : Front S} (h : PAcc V cmp R F) {n : PNode S} (hn : R n) :
    PAcc V cmp R (F.add cmp key check n) ∧ PCov cmp (F.add cmp key check n) n.sol ∧
      ∀ x, V x → PCov cmp F x → PCov cmp (F.add cmp key check n) x := by
  obtain ⟨added, h1, h2, h4⟩ := h
  obtain ⟨h3, h5⟩ := add_inv_on check hg F added n h1 (fun m hm => hR m (h2 m hm)) h4 (hR n hn)
  have h6 : ∀ m ∈ added ++ [n], R m := by
    intro m hm
    rcases List.mem_append.1 hm with hm | hm
    · exact h2 m hm
    · rw [List.mem_singleton.1 hm]; exact hn
  refine ⟨⟨_, h3, h6, h5⟩, h3.nd.covered n (by simp), ?_⟩
  rintro x hx ⟨m, hm, hc⟩
  obtain ⟨m', hm', hc'⟩ := h3.nd.covered m (List.mem_append_left _ (h1.nd.inserted m hm))
  exact ⟨m', hm', hg.trans _ _ _ (hR _ (h6 _ (h3.nd.inserted m' hm'))) (hR _ (h2 m (h1.nd.inserted m hm))) hx hc' hc⟩

section
variable {c : PCfg S} {T : Data} (G : PGood c T)
include G

/-- Where a call is made: the data are those of the path, and only the root sees all of them. -/
structure At (c : PCfg S) (T : Data) (D : Data) (b : Branch) : Prop where
  sel : D = sel b T
  root : b.length = 0 ↔ D.length = T.length
  size : c.mls ≤ D.length

omit G in
theorem At.view {D : Data} {b : Branch} (h : At c T D b) : ViewOf T D := by rw [h.sel]; exact sel_view b T

omit G in
theorem At.root_eq {D : Data} {b : Branch} (h : At c T D b) (h0 : b.length = 0) : D = T := by
  rw [h.sel, List.length_eq_zero_iff.1 h0, sel_nil]

omit G in
theorem At.cmp_root {D : Data} {b : Branch} (h : At c T D b) (h0 : b.length = 0) : levelCmp c T D = c.T.domD0 := by
  rw [levelCmp, if_pos (h.root.1 h0)]

omit G in
theorem At.cmp_inner {D : Data} {b : Branch} (h : At c T D b) (h0 : b.length ≠ 0) : levelCmp c T D = c.T.o.dom := by
  rw [levelCmp, if_neg fun e => h0 (h.root.2 e)]

/-- Dominance implies the order of the level, for values of trees that satisfy the constraint. -/
theorem At.weaken {D : Data} {b : Branch} (h : At c T D b) {x y : S} (hx : PVal c D x) (hy : PVal c D y)
    (ox : c.T.ok x = true) (oy : c.T.ok y = true) (hd : c.T.o.dom x y = true) : levelCmp c T D x y = true := by
  by_cases h0 : b.length = 0
  · rw [h.cmp_root h0]
    have e := h.root_eq h0
    subst e
    exact G.weaker _ _ hx hy ox oy hd
  · rw [h.cmp_inner h0]; exact hd

theorem At.good {D : Data} {b : Branch} (h : At c T D b) : GoodOn (PVal c D) (levelCmp c T D) c.T.o.key := by
  by_cases h0 : b.length = 0
  · rw [h.cmp_root h0]
    have e := h.root_eq h0
    subst e
    exact G.order0
  · rw [h.cmp_inner h0]; exact G.order D h.view

/-- Adding one node at the level of the call. -/
theorem putAt_spec {D : Data} {b : Branch} (h : At c T D b) {d n : Nat} {F : Front S}
    (hF : PAcc (PVal c D) (levelCmp c T D) (PReal c D d n) F) {m : PNode S} (hm : PReal c D d n m) :
    PAcc (PVal c D) (levelCmp c T D) (PReal c D d n) (c.T.putAt b.length F m) ∧
      PCov (levelCmp c T D) (c.T.putAt b.length F m) m.sol ∧
      ∀ x, PVal c D x → PCov (levelCmp c T D) F x → PCov (levelCmp c T D) (c.T.putAt b.length F m) x := by
  have hg := At.good G h
  unfold PTask.putAt
  by_cases h0 : b.length = 0
  · rw [if_pos h0]
    rw [h.cmp_root h0] at *
    exact hF.add hg true (fun _ h => h.val) hm
  · rw [if_neg h0]
    rw [h.cmp_inner h0] at *
    exact hF.add hg _ (fun _ h => h.val) hm

/-- Adding several nodes. -/
theorem filterAdd_spec {D : Data} {b : Branch} (h : At c T D b) {d n : Nat} (ns : List (PNode S)) (F UB : Front S)
    (hF : PAcc (PVal c D) (levelCmp c T D) (PReal c D d n) F) (hns : ∀ m ∈ ns, PReal c D d n m) :
    PAcc (PVal c D) (levelCmp c T D) (PReal c D d n) (pFilterAdd c b.length ns F UB).1 ∧
      (∀ m ∈ ns, PCov (levelCmp c T D) (pFilterAdd c b.length ns F UB).1 m.sol) ∧
      (∀ x, PVal c D x → PCov (levelCmp c T D) F x → PCov (levelCmp c T D) (pFilterAdd c b.length ns F UB).1 x) := by
  induction ns generalizing F UB with
  | nil => exact ⟨hF, by simp, fun x _ hx => hx⟩
  | cons m ns ih =>
    rw [pFilterAdd, G.noUB]
    simp only [Bool.false_and, Bool.false_eq_true, if_false]
    obtain ⟨h1, h2, h3⟩ := putAt_spec G h hF (hns m (by simp))
    obtain ⟨i1, i2, i3⟩ := ih (c.T.putAt b.length F m) (pUpdateUB c UB m) h1 fun x hx => hns x (by simp [hx])
    refine ⟨i1, ?_, fun x hv hx => i3 x hv (h3 x hv hx)⟩
    intro x hx
    rcases List.mem_cons.1 hx with rfl | hx
    · exact i3 _ (hns _ (by simp)).val h2
    · exact i2 x hx

/-- The leaves of a call. -/
theorem solveLeaf_pspec {D : Data} {b : Branch} (h : At c T D b) (d n : Nat) (UB : Front S) :
    PAcc (PVal c D) (levelCmp c T D) (PReal c D d n) (pSolveLeaf c D b.length UB).1 ∧
      ∀ k, k < c.T.nL → PCov (levelCmp c T D) (pSolveLeaf c D b.length UB).1 (c.T.eval (.leaf k) D) := by
  unfold pSolveLeaf
  rw [if_neg (by have := h.size; omega)]
  obtain ⟨h1, h2, _⟩ := filterAdd_spec G h (d := d) (n := n)
    (((List.range c.T.nL).map fun k => (⟨c.T.leaf D k, 0⟩ : PNode S)).filter fun m => c.T.ok m.sol)
    Front.empty UB (PAcc.empty _ _ _) (by
      intro m hm
      obtain ⟨hm, ho⟩ := List.mem_filter.1 hm
      obtain ⟨k, hk, rfl⟩ := List.mem_map.1 hm
      exact ⟨.leaf k, ⟨Nat.zero_le _, Nat.zero_le _, List.mem_range.1 hk, h.size⟩, rfl, rfl, ho⟩)
  exact ⟨h1, fun k hk => h2 (⟨c.T.leaf D k, 0⟩ : PNode S)
    (List.mem_filter.2 ⟨List.mem_map.2 ⟨k, List.mem_range.2 hk, rfl⟩, G.okLeaf D k h.view hk⟩)⟩

/-! ### The caches -/

/-- A stored front answers its budget. -/
def PEntryOK (c : PCfg S) (T : Data) (D : Data) (e : PEntry S) : Prop :=
  e.opt.sols ≠ [] → (∀ m ∈ e.opt.sols, PReal c D e.depth e.nodes m) ∧
    PComplete c (levelCmp c T D) D e.depth e.nodes e.opt

/-- All stored fronts answer their budgets. -/
structure PInv (c : PCfg S) (T : Data) (C : PCache S) : Prop where
  br : ∀ b es, C.br.get b = some es → ∀ e ∈ es, PEntryOK c T (sel b T) e
  ds : ∀ D es, ViewOf T D → C.ds.get (dataKey D) = some es → ∀ e ∈ es, PEntryOK c T D e

omit G in
theorem PInv.init : PInv c T (PCache.init : PCache S) :=
  ⟨by intro b es h; simp [PCache.init, PStore.get] at h, by intro b es _ h; simp [PCache.init, PStore.get] at h⟩

omit G in
theorem PStore.get_put {K : Type} [DecidableEq K] (m : PStore S K) (k j : K) (es : List (PEntry S)) :
    (m.put k es).get j = if j = k then some es else m.get j := by
  unfold PStore.get
  induction m with
  | nil =>
    by_cases h : j = k
    · simp [PStore.put, h]
    · simp [PStore.put, h, Ne.symm h]
  | cons p m ih =>
    unfold PStore.put
    by_cases hp : p.1 = k
    · rw [if_pos hp]
      by_cases h : j = k
      · simp [h]
      · simp [h, Ne.symm h, hp]
    · rw [if_neg hp]
      simp only [List.find?_cons]
      by_cases h : p.1 = j
      · have : j ≠ k := fun e => hp (h.trans e)
        simp [h, this]
      · simp only [h, decide_false]
        exact ih

omit G in
theorem pStore_ok {D : Data} {old : Option (List (PEntry S))} {F : Front S} {d n : Nat}
    (hold : ∀ es, old = some es → ∀ e ∈ es, PEntryOK c T D e) (hF : PEntryOK c T D ⟨d, n, F, F⟩) :
    ∀ e ∈ pStore old F d n, PEntryOK c T D e := by
  intro e he
  unfold pStore at he
  cases old with
  | none =>
    simp only at he
    split at he
    · rw [List.mem_singleton.1 he]; exact hF
    · simp at he
  | some es =>
    simp only at he
    split at he
    · obtain ⟨e', he', rfl⟩ := List.mem_map.1 he
      split
      · exact hF
      · exact hold es rfl e' he'
    · split at he
      · rcases List.mem_append.1 he with he | he
        · exact hold es rfl e he
        · rw [List.mem_singleton.1 he]; exact hF
      · exact hold es rfl e he

theorem storeOpt_pinv {C : PCache S} (h : PInv c T C) {D : Data} {b : Branch} (ha : At c T D b) {F : Front S} {d n : Nat}
    (hr : ∀ m ∈ F.sols, PReal c D d n m) (hc : PComplete c (levelCmp c T D) D d n F) :
    PInv c T (C.storeOpt c D b F d n) := by
  have hF : PEntryOK c T D ⟨d, n, F.removeTemp, F.removeTemp⟩ := fun _ => ⟨hr, hc⟩
  constructor
  · intro b' es hes e he
    simp only [PCache.storeOpt] at hes
    split at hes
    · rw [PStore.get_put] at hes
      split at hes
      · rename_i hb
        rw [hb, ← ha.sel]
        rw [← Option.some.inj hes] at he
        exact pStore_ok (fun es h' => by rw [ha.sel]; exact h.br b es h') hF e he
      · exact h.br b' es hes e he
    · exact h.br b' es hes e he
  · intro D' es hv hes e he
    simp only [PCache.storeOpt] at hes
    split at hes
    · rw [PStore.get_put] at hes
      split at hes
      · rename_i hb
        rw [dataKey_inj G.sorted hv ha.view hb]
        rw [← Option.some.inj hes] at he
        exact pStore_ok (fun es h' => h.ds D es ha.view h') hF e he
      · exact h.ds D' es hv hes e he
    · exact h.ds D' es hv hes e he

omit G in
theorem pRetrieve_spec {D : Data} {es : List (PEntry S)} {d n : Nat} (hes : ∀ e ∈ es, PEntryOK c T D e)
    (hne : (pRetrieve es d n).isNil = false) : (∀ m ∈ (pRetrieve es d n).sols, PReal c D d n m) ∧
      PComplete c (levelCmp c T D) D d n (pRetrieve es d n) := by
  unfold pRetrieve at hne ⊢
  split
  · rename_i e he
    have h1 := List.find?_some he
    simp only [Bool.and_eq_true, beq_iff_eq] at h1
    obtain ⟨⟨h1, h2⟩, h3⟩ := h1
    subst h1 h2
    refine hes e (List.mem_of_find?_eq_some he) ?_
    intro h0
    simp [PEntry.isOpt, Front.isNil, h0] at h3
  · rename_i he
    rw [he] at hne
    simp [Front.isNil, Front.empty] at hne

omit G in
theorem retrieveOpt_pspec {C : PCache S} (h : PInv c T C) {D : Data} {b : Branch} (ha : At c T D b) {d n : Nat}
    (hne : (C.retrieveOpt c D b d n).isNil = false) : (∀ m ∈ (C.retrieveOpt c D b d n).sols, PReal c D d n m) ∧
      PComplete c (levelCmp c T D) D d n (C.retrieveOpt c D b d n) := by
  have hb : ∀ e ∈ (C.br.get b).getD [], PEntryOK c T D e := by
    intro e he
    cases hg : C.br.get b with
    | none => rw [hg] at he; simp at he
    | some es => rw [hg] at he; rw [ha.sel]; exact h.br b es hg e he
  have hd : ∀ e ∈ (C.ds.get (dataKey D)).getD [], PEntryOK c T D e := by
    intro e he
    cases hg : C.ds.get (dataKey D) with
    | none => rw [hg] at he; simp at he
    | some es => rw [hg] at he; exact h.ds D es ha.view hg e he
  unfold PCache.retrieveOpt at hne ⊢
  cases hu : c.useBr <;> cases hv : c.useDs <;> simp only [hu, hv, if_true, Bool.false_eq_true, if_false] at hne ⊢
  · simp [Front.isNil, Front.empty] at hne
  · have e : (Front.empty : Front S).isNil = true := rfl
    rw [e, if_pos rfl] at hne ⊢
    exact pRetrieve_spec hd hne
  · split at hne
    · simp [Front.isNil, Front.empty] at hne
    · rename_i h1
      rw [if_neg h1]
      exact pRetrieve_spec hb hne
  · split at hne
    · rename_i h1
      rw [if_pos h1]
      exact pRetrieve_spec hd hne
    · rename_i h1
      rw [if_neg h1]
      exact pRetrieve_spec hb hne

/-! ### The search -/

/-- What is known of the result of a call. -/
structure PPost (c : PCfg S) (T : Data) (D : Data) (d n : Nat) (r : Front S × Front S × PSt S) : Prop where
  st : PInv c T r.2.2.cache
  real : ∀ m ∈ r.1.sols, PReal c D d n m
  cov : PComplete c (levelCmp c T D) D d n r.1

/-- The recursive call meets its specification up to depth `k`. -/
def PRecOK (c : PCfg S) (T : Data) (rec : PRec S) (k : Nat) : Prop :=
  ∀ D b UB d n s, d ≤ k → At c T D b → n + 1 ≤ 2 ^ d → PInv c T s.cache →
    PPost c T D d n (rec D b UB d n s)

omit G in
theorem lowerCached_pspec {s : PSt S} (h : PInv c T s.cache) {D : Data} {b : Branch} (ha : At c T D b) (n l d : Nat)
    (hl : l ≤ d) : ∀ m ∈ (pLowerCached c s D b n l).sols, PReal c D d n m := by
  induction l with
  | zero => simp [pLowerCached, Front.empty]
  | succ l ih =>
    intro m hm
    rw [pLowerCached] at hm
    split at hm
    · have hne : (s.cache.retrieveOpt c D b (l + 1) (min n (2 ^ l))).isNil = false := by
        unfold Front.isNil
        cases hs : (s.cache.retrieveOpt c D b (l + 1) (min n (2 ^ l))).sols with
        | nil => rw [hs] at hm; simp at hm
        | cons => rfl
      exact ((retrieveOpt_pspec h ha hne).1 m hm).mono hl (Nat.min_le_left _ _)
    · exact ih (by omega) m hm

/-- A front equal to the trivial bound covers every tree. -/
theorem same_covers {D : Data} {b : Branch} (ha : At c T D b) {d n : Nat} {F : Front S} (hF : ∀ m ∈ F.sols, PReal c D d n m)
    (h : c.T.same c.T.lb0 F = true) (t : Tree) (ht : t.Legal c.T.prob c.mls D) (ho : c.T.ok (c.T.eval t D) = true) :
    PCov (levelCmp c T D) F (c.T.eval t D) := by
  have e : c.T.lb0.sols = [⟨c.T.best, 0⟩] := by simp [PTask.lb0, PTask.put, Front.add, Front.empty]
  unfold PTask.same at h
  rw [e] at h
  simp only [Bool.and_eq_true, beq_iff_eq, List.length_singleton] at h
  obtain ⟨⟨_, h1⟩, h2⟩ := h
  match hs : F.sols with
  | [] => rw [hs] at h1; simp at h1
  | [m] =>
    rw [hs] at h2
    simp only [List.zip_cons_cons, List.zip_nil_right, List.all_cons, List.all_nil, Bool.and_true] at h2
    have hm := hF m (by rw [hs]; simp)
    exact ⟨m, by rw [hs]; simp, At.weaken G ha hm.val ⟨t, ht, rfl⟩ hm.isOk ho (G.best D _ _ ha.view hm.val ⟨t, ht, rfl⟩ h2)⟩
  | _ :: _ :: _ => rw [hs] at h1; simp at h1

/-- A split of `D` on `f` whose sides are `L` and `R`. -/
structure PSplit (c : PCfg S) (T : Data) (D : Data) (d n : Nat) (L R : PSide) (sw : Bool) (f : Nat) : Prop where
  aL : At c T L.D L.b
  aR : At c T R.D R.b
  inL : L.b.length ≠ 0
  inR : R.b.length ≠ 0
  feat : f < c.T.nF
  may : c.T.may f = true
  data : if sw then L.D = having f D ∧ R.D = without f D else L.D = without f D ∧ R.D = having f D

omit G in
theorem products_real {D : Data} {d n nl nr f : Nat} {l r : Front S} (hf : f < c.T.nF) (hy : c.T.may f = true) (hd : 1 ≤ d)
    (hn : nl + nr + 1 ≤ n) (hl : ∀ m ∈ l.sols, PReal c (without f D) (d - 1) nl m)
    (hr : ∀ m ∈ r.sols, PReal c (having f D) (d - 1) nr m) :
    ∀ m ∈ (pProducts c.T f l r).filter (fun m => c.T.ok m.sol), PReal c D d n m := by
  intro m hm
  obtain ⟨hm, ho⟩ := List.mem_filter.1 hm
  unfold pProducts at hm
  obtain ⟨a, ha, hm⟩ := List.mem_flatMap.1 hm
  obtain ⟨b, hb, rfl⟩ := List.mem_map.1 hm
  obtain ⟨tl, al, el, sl, _⟩ := hl a ha
  obtain ⟨tr, ar, er, sr, _⟩ := hr b hb
  refine ⟨.node f tl tr, ⟨?_, ?_, hf, hy, al.2.2, ar.2.2⟩, ?_, ?_, ho⟩
  · have := al.1; have := ar.1; simp only [Tree.depth]; omega
  · have := al.2.1; have := ar.2.1; simp only [Tree.nodes]; omega
  · simp only [PTask.eval]; rw [el, er]
  · simp only [Tree.nodes, sl, sr]; omega

/-- Among the products is one at least as good as a tree whose sides are covered. -/
theorem products_cov {D : Data} {b : Branch} (ha : At c T D b) {f nl nr d' : Nat} {l r : Front S} {tl tr : Tree}
    (hf : (Tree.node f tl tr).Legal c.T.prob c.mls D) (ho : c.T.ok (c.T.eval (.node f tl tr) D) = true)
    (rl : ∀ m ∈ l.sols, PReal c (without f D) d' nl m) (rr : ∀ m ∈ r.sols, PReal c (having f D) d' nr m)
    (hl : c.T.ok (c.T.eval tl (without f D)) = true → PCov c.T.o.dom l (c.T.eval tl (without f D)))
    (hr : c.T.ok (c.T.eval tr (having f D)) = true → PCov c.T.o.dom r (c.T.eval tr (having f D))) :
    ∃ m ∈ (pProducts c.T f l r).filter (fun m => c.T.ok m.sol), levelCmp c T D m.sol (c.T.eval (.node f tl tr) D) = true := by
  have vl : PVal c (without f D) (c.T.eval tl (without f D)) := ⟨tl, hf.2.2.1, rfl⟩
  have vr : PVal c (having f D) (c.T.eval tr (having f D)) := ⟨tr, hf.2.2.2, rfl⟩
  obtain ⟨o1, o2⟩ := G.okSub D f _ _ ha.view vl vr ho
  obtain ⟨a, ha1, h1⟩ := hl o1
  obtain ⟨x, hb, h2⟩ := hr o2
  have va : PVal c (without f D) a.sol := (rl a ha1).val
  have vb : PVal c (having f D) x.sol := (rr x hb).val
  have hdom := G.combMono D f _ _ _ _ ha.view va vl vb vr h1 h2
  have vab : PVal c D (c.T.comb f a.sol x.sol) := by
    obtain ⟨t1, g1, e1⟩ := va
    obtain ⟨t2, g2, e2⟩ := vb
    exact ⟨.node f t1 t2, ⟨hf.1, hf.2.1, g1, g2⟩, by simp only [PTask.eval]; rw [e1, e2]⟩
  have vt : PVal c D (c.T.eval (.node f tl tr) D) := ⟨_, hf, rfl⟩
  have hok := G.okMono D _ _ ha.view vab vt hdom ho
  exact ⟨⟨c.T.comb f a.sol x.sol, a.size + x.size + 1⟩,
    List.mem_filter.2 ⟨List.mem_flatMap.2 ⟨a, ha1, List.mem_map.2 ⟨x, hb, rfl⟩⟩, hok⟩, At.weaken G ha vab vt hok ho hdom⟩

/-- Local variables of a call. -/
def PLocOK (c : PCfg S) (T : Data) (D : Data) (d n : Nat) (v : PLoc S) : Prop :=
  PAcc (PVal c D) (levelCmp c T D) (PReal c D d n) v.sols

/-- What is known after a part of the loops that deals with the trees `Q`. -/
def PLoopPost (c : PCfg S) (T : Data) (D : Data) (d n : Nat) (v : PLoc S) (Q : Tree → Prop)
    (r : PLoc S × PSt S) : Prop :=
  PInv c T r.2.cache ∧ PLocOK c T D d n r.1 ∧
    (∀ x, PVal c D x → PCov (levelCmp c T D) v.sols x → PCov (levelCmp c T D) r.1.sols x) ∧
    ∀ t, Q t → Allowed c.T.prob c.mls d n D t → c.T.ok (c.T.eval t D) = true → PCov (levelCmp c T D) r.1.sols (c.T.eval t D)

theorem sizeStep_pspec {rec : PRec S} {D : Data} {b : Branch} {d n ls f : Nat} {L R : PSide} {sw : Bool} {v : PLoc S} {s : PSt S}
    (hrec : PRecOK c T rec (d - 1)) (ha : At c T D b) (hsp : PSplit c T D d n L R sw f) (hd : 1 ≤ d) (hls : ls + 1 ≤ n)
    (hp1 : ls + 1 ≤ 2 ^ (min (d - 1) ls)) (hp2 : n - ls - 1 + 1 ≤ 2 ^ (min (d - 1) (n - ls - 1)))
    (hs : PInv c T s.cache) (hv : PLocOK c T D d n v) :
    PLoopPost c T D d n v (fun t => ∃ l r, t = .node f l r ∧
      (if sw then r.nodes ≤ ls ∧ l.nodes ≤ n - ls - 1 else l.nodes ≤ ls ∧ r.nodes ≤ n - ls - 1))
      (pSizeStep c rec b.length f L R sw d n ls v s) := by
  have hlr : pComputeLRLB c s f L.D L.b (min (d - 1) ls) ls R.D R.b (min (d - 1) (n - ls - 1)) (n - ls - 1) =
      (c.T.lb0, c.T.lb0, c.T.lb0) := by
    unfold pComputeLRLB; rw [G.noLB]; rfl
  have pL := fun UB => hrec L.D L.b UB (min (d - 1) ls) ls s (Nat.min_le_left _ _) hsp.aL hp1 hs
  have cL : levelCmp c T L.D = c.T.o.dom := hsp.aL.cmp_inner hsp.inL
  have cR : levelCmp c T R.D = c.T.o.dom := hsp.aR.cmp_inner hsp.inR
  -- fronts of the sides are not empty
  have ne : ∀ {E : Data} {bb : Branch} {d' n' : Nat} {r : Front S × Front S × PSt S}, At c T E bb →
      PPost c T E d' n' r → r.1.isNil = false := by
    intro E bb d' n' r hE hr
    obtain ⟨m, hm, _⟩ := hr.cov (.leaf 0) ⟨Nat.zero_le _, Nat.zero_le _, G.labels, hE.size⟩ (G.okLeaf E 0 hE.view G.labels)
    unfold Front.isNil
    cases h : r.1.sols with
    | nil => rw [h] at hm; simp at hm
    | cons => rfl
  unfold pSizeStep
  simp only [hlr, G.noUB, Bool.false_and, Bool.false_eq_true, if_false]
  by_cases hsame : c.T.same c.T.lb0 v.sols = true
  · rw [if_pos hsame]
    refine ⟨hs, hv, fun x _ hx => hx, ?_⟩
    intro t _ hal ho
    exact same_covers G ha hv.real hsame t hal.2.2 ho
  · rw [if_neg hsame]
    have qL := pL (pSubtract c b.length v.UB c.T.lb0 v.sols)
    generalize rec L.D L.b (pSubtract c b.length v.UB c.T.lb0 v.sols) (min (d - 1) ls) ls s = lr at qL
    rw [ne hsp.aL qL]
    simp only [Bool.false_eq_true, if_false]
    have qR := hrec R.D R.b (pSubtract c b.length v.UB lr.1 v.sols) (min (d - 1) (n - ls - 1)) (n - ls - 1) lr.2.2 (Nat.min_le_left _ _)
      hsp.aR hp2 qL.st
    generalize rec R.D R.b (pSubtract c b.length v.UB lr.1 v.sols) (min (d - 1) (n - ls - 1)) (n - ls - 1) lr.2.2 = rr at qR
    rw [ne hsp.aR qR]
    simp only [Bool.false_eq_true, if_false]
    have rl : ∀ m ∈ lr.1.sols, PReal c L.D (d - 1) ls m := fun m hm => (qL.real m hm).mono (Nat.min_le_left _ _) (Nat.le_refl _)
    have rr' : ∀ m ∈ rr.1.sols, PReal c R.D (d - 1) (n - ls - 1) m := fun m hm =>
      (qR.real m hm).mono (Nat.min_le_left _ _) (Nat.le_refl _)
    have kL : ∀ t : Tree, t.depth ≤ d - 1 → t.nodes ≤ ls → t.Legal c.T.prob c.mls L.D →
        c.T.ok (c.T.eval t L.D) = true → PCov c.T.o.dom lr.1 (c.T.eval t L.D) := by
      intro t h1 h2 h3
      rw [← cL]
      exact qL.cov t ⟨by have := t.depth_le_nodes; omega, h2, h3⟩
    have kR : ∀ t : Tree, t.depth ≤ d - 1 → t.nodes ≤ n - ls - 1 → t.Legal c.T.prob c.mls R.D →
        c.T.ok (c.T.eval t R.D) = true → PCov c.T.o.dom rr.1 (c.T.eval t R.D) := by
      intro t h1 h2 h3
      rw [← cR]
      exact qR.cov t ⟨by have := t.depth_le_nodes; omega, h2, h3⟩
    have hdat := hsp.data
    cases sw with
    | false =>
      simp only [Bool.false_eq_true, if_false] at hdat ⊢
      rw [hdat.1] at rl kL
      rw [hdat.2] at rr' kR
      obtain ⟨h1, h2, h3⟩ := filterAdd_spec G ha (d := d) (n := n) ((pProducts c.T f lr.1 rr.1).filter fun m => c.T.ok m.sol)
        v.sols v.UB hv (products_real hsp.feat hsp.may hd (by omega) rl rr')
      refine ⟨qR.st, h1, h3, ?_⟩
      rintro t ⟨l, r, rfl, hl, hr⟩ hal ho
      have hdep := hal.1
      simp only [Tree.depth] at hdep
      have hleg := hal.2.2
      obtain ⟨m, hm, hc⟩ := products_cov G ha hleg ho rl rr' (kL l (by omega) hl hleg.2.2.1) (kR r (by omega) hr hleg.2.2.2)
      obtain ⟨m', hm', hc'⟩ := h2 m hm
      have am := products_real (n := n) hsp.feat hsp.may hd (by omega) rl rr' m hm
      exact ⟨m', hm', (At.good G ha).trans _ _ _ (h1.real m' hm').val am.val ⟨_, hleg, rfl⟩ hc' hc⟩
    | true =>
      simp only [if_true] at hdat ⊢
      rw [hdat.1] at rl kL
      rw [hdat.2] at rr' kR
      obtain ⟨h1, h2, h3⟩ := filterAdd_spec G ha (d := d) (n := n) ((pProducts c.T f rr.1 lr.1).filter fun m => c.T.ok m.sol)
        v.sols v.UB hv (products_real hsp.feat hsp.may hd (by omega) rr' rl)
      refine ⟨qR.st, h1, h3, ?_⟩
      rintro t ⟨l, r, rfl, hr, hl⟩ hal ho
      have hdep := hal.1
      simp only [Tree.depth] at hdep
      have hleg := hal.2.2
      obtain ⟨m, hm, hc⟩ := products_cov G ha hleg ho rr' rl (kR l (by omega) hl hleg.2.2.1) (kL r (by omega) hr hleg.2.2.2)
      obtain ⟨m', hm', hc'⟩ := h2 m hm
      have am := products_real (n := n) hsp.feat hsp.may hd (by omega) rr' rl m hm
      exact ⟨m', hm', (At.good G ha).trans _ _ _ (h1.real m' hm').val am.val ⟨_, hleg, rfl⟩ hc' hc⟩

theorem sizeLoop_pspec {rec : PRec S} {D : Data} {b : Branch} {d n f : Nat} {L R : PSide} {sw : Bool}
    (hrec : PRecOK c T rec (d - 1)) (ha : At c T D b) (hsp : PSplit c T D d n L R sw f) (hd : 1 ≤ d) (lss : List Nat)
    (hls : ∀ ls ∈ lss, ls + 1 ≤ n ∧ ls + 1 ≤ 2 ^ (min (d - 1) ls) ∧ n - ls - 1 + 1 ≤ 2 ^ (min (d - 1) (n - ls - 1)))
    (v : PLoc S) (s : PSt S) (hs : PInv c T s.cache) (hv : PLocOK c T D d n v) :
    PLoopPost c T D d n v (fun t => ∃ ls ∈ lss, ∃ l r, t = .node f l r ∧
      (if sw then r.nodes ≤ ls ∧ l.nodes ≤ n - ls - 1 else l.nodes ≤ ls ∧ r.nodes ≤ n - ls - 1))
      (pSizeLoop c rec b.length f L R sw d n lss v s) := by
  induction lss generalizing v s with
  | nil => exact ⟨hs, hv, fun x _ hx => hx, by rintro t ⟨ls, h, _⟩; simp at h⟩
  | cons ls lss ih =>
    rw [pSizeLoop]
    obtain ⟨h1, h2, h3⟩ := hls ls (by simp)
    obtain ⟨a1, a2, a3, a4⟩ := sizeStep_pspec G hrec ha hsp hd h1 h2 h3 hs hv
    generalize pSizeStep c rec b.length f L R sw d n ls v s = r at *
    obtain ⟨b1, b2, b3, b4⟩ := ih (fun x hx => hls x (by simp [hx])) r.1 r.2 a1 a2
    refine ⟨b1, b2, fun x hv hx => b3 x hv (a3 x hv hx), ?_⟩
    rintro t ⟨ls', hm, hq⟩ hal ho
    rcases List.mem_cons.1 hm with rfl | hm
    · exact b3 _ ⟨t, hal.2.2, rfl⟩ (a4 t hq hal ho)
    · exact b4 t ⟨ls', hm, hq⟩ hal ho

omit G in
theorem sizes_pok {d n : Nat} (hd : 1 ≤ d) (hn : 1 ≤ n) (hp : n + 1 ≤ 2 ^ d) (ls : Nat) (h : ls ∈ sizes d n) :
    ls + 1 ≤ n ∧ ls + 1 ≤ 2 ^ (min (d - 1) ls) ∧ n - ls - 1 + 1 ≤ 2 ^ (min (d - 1) (n - ls - 1)) := by
  obtain ⟨e, rfl⟩ : ∃ e, d = e + 1 := ⟨d - 1, by omega⟩
  have hpow : 2 ^ (e + 1) = 2 * 2 ^ e := by rw [Nat.pow_succ]; omega
  unfold sizes at h
  simp only [Nat.add_sub_cancel] at *
  obtain ⟨h1, h2⟩ := List.mem_range'_1.1 h
  have pw : ∀ k, k + 1 ≤ 2 ^ e → k + 1 ≤ 2 ^ (min e k) := by
    intro k hk
    rcases Nat.le_total e k with h | h
    · rw [Nat.min_eq_left h]; exact hk
    · rw [Nat.min_eq_right h]; exact Nat.lt_two_pow_self
  exact ⟨by omega, pw _ (by omega), pw _ (by omega)⟩

omit G in
theorem insertCode_length (x : Nat) (b : List Nat) : (insertCode x b).length = b.length + 1 := by
  induction b with
  | nil => rfl
  | cons y b ih =>
    unfold insertCode
    split
    · simp
    · simp [ih]

/-- The place of a child. -/
theorem At.child {D : Data} {b : Branch} (ha : At c T D b) (f : Nat) (x : Bool) (h0 : c.mls ≤ (without f D).length)
    (h1 : c.mls ≤ (having f D).length) : At c T (if x then having f D else without f D) (b.child f x) ∧
      (b.child f x).length ≠ 0 := by
  have hlen : (b.child f x).length = b.length + 1 := insertCode_length _ _
  have hm := G.mls
  have hs := length_split f D
  have hle : D.length ≤ T.length := ha.view.length_le
  refine ⟨⟨?_, ?_, ?_⟩, by omega⟩
  · rw [sel_child, ← ha.sel]
    cases x
    · rw [side_false]; rfl
    · rw [side_true]; rfl
  · constructor
    · intro h; omega
    · intro h
      cases x
      · simp only [Bool.false_eq_true, if_false] at h; omega
      · simp only [if_true] at h; omega
  · cases x
    · exact h0
    · exact h1

theorem featLoop_pspec {rec : PRec S} {D : Data} {b : Branch} {d n : Nat} (hrec : PRecOK c T rec (d - 1)) (ha : At c T D b)
    (hd : 1 ≤ d) (hn : 1 ≤ n) (hp : n + 1 ≤ 2 ^ d) (blb : Front S) (fs : List Nat) (hfs : ∀ f ∈ fs, f < c.T.nF)
    (v : PLoc S) (s : PSt S) (hs : PInv c T s.cache) (hv : PLocOK c T D d n v) :
    PLoopPost c T D d n v (fun t => ∃ f ∈ fs, ∃ l r, t = .node f l r) (pFeatLoop c rec D b d n blb fs v s) := by
  induction fs generalizing v s with
  | nil => exact ⟨hs, hv, fun x _ hx => hx, by rintro t ⟨f, h, _⟩; simp at h⟩
  | cons f fs ih =>
    have hfs' : ∀ g ∈ fs, g < c.T.nF := fun g hg => hfs g (by simp [hg])
    -- a feature that no legal tree tests at the root
    have skip : (∀ l r : Tree, ¬ (Tree.node f l r).Legal c.T.prob c.mls D) →
        PLoopPost c T D d n v (fun t => ∃ f' ∈ f :: fs, ∃ l r, t = .node f' l r) (pFeatLoop c rec D b d n blb fs v s) := by
      intro hno
      obtain ⟨b1, b2, b3, b4⟩ := ih hfs' v s hs hv
      refine ⟨b1, b2, b3, ?_⟩
      rintro t ⟨g, hg, l, r, rfl⟩ hal ho
      rcases List.mem_cons.1 hg with rfl | hg
      · exact absurd hal.2.2 (hno l r)
      · exact b4 _ ⟨g, hg, l, r, rfl⟩ hal ho
    rw [pFeatLoop, G.noLB, G.red]
    simp only [Bool.false_and, Bool.false_eq_true, if_false, Bool.or_false]
    split
    · rename_i hb
      apply skip
      intro l r hl
      rcases Bool.or_eq_true _ _ ▸ hb with hb | hb
      swap
      · rw [show c.T.may f = true from hl.2.1] at hb; simp at hb
      have h1 := hl.2.2.1.length
      have h2 := hl.2.2.2.length
      have hm := G.mls
      have := sel_pathOK b T
      rw [← ha.sel] at this
      rcases this f hb with h | h <;> have h := congrArg List.length h <;> simp only [List.length_nil] at h <;> omega
    · rename_i hb
      have hmay : c.T.may f = true := by
        cases h : c.T.may f with
        | true => rfl
        | false => rw [h] at hb; simp at hb
      split
      · rename_i hsz
        apply skip
        intro l r hl
        have h1 := hl.2.2.1.length
        have h2 := hl.2.2.2.length
        omega
      · rename_i hsz
        have m0 : c.mls ≤ (without f D).length := by omega
        have m1 : c.mls ≤ (having f D).length := by omega
        have c0 := At.child G ha f false m0 m1
        have c1 := At.child G ha f true m0 m1
        simp only [Bool.false_eq_true, if_false] at c0
        simp only [if_true] at c1
        have hstep : PLoopPost c T D d n v (fun t => ∃ l r, t = .node f l r)
            (if (without f D).length < (having f D).length then
              pSizeLoop c rec b.length f ⟨having f D, b.child f true⟩ ⟨without f D, b.child f false⟩ true d n (sizes d n) v s
            else pSizeLoop c rec b.length f ⟨without f D, b.child f false⟩ ⟨having f D, b.child f true⟩ false d n (sizes d n) v s) := by
          have dec : ∀ {l r : Tree}, Allowed c.T.prob c.mls d n D (.node f l r) →
              l.nodes + r.nodes + 1 ≤ n ∧ l.nodes + 1 ≤ 2 ^ (d - 1) ∧ r.nodes + 1 ≤ 2 ^ (d - 1) := by
            intro l r h
            have h1 := h.1
            have h2 := h.2.1
            simp only [Tree.depth, Tree.nodes] at h1 h2
            have pw : ∀ t : Tree, t.depth ≤ d - 1 → t.nodes + 1 ≤ 2 ^ (d - 1) := fun t ht =>
              Nat.le_trans t.nodes_lt_pow (Nat.pow_le_pow_right (by decide) ht)
            exact ⟨by omega, pw _ (by omega), pw _ (by omega)⟩
          split
          · obtain ⟨b1, b2, b3, b4⟩ := sizeLoop_pspec G (L := ⟨having f D, b.child f true⟩) (R := ⟨without f D, b.child f false⟩)
              (sw := true) (f := f) hrec ha ⟨c1.1, c0.1, c1.2, c0.2, hfs f (by simp), hmay, ⟨rfl, rfl⟩⟩ hd (sizes d n)
              (sizes_pok hd hn hp) v s hs hv
            refine ⟨b1, b2, b3, ?_⟩
            rintro t ⟨l, r, rfl⟩ hal ho
            obtain ⟨e1, e2, e3⟩ := dec hal
            obtain ⟨ls, hls, g1, g2⟩ := sizes_cover hn hp hd e3 e2 (by omega)
            exact b4 _ ⟨ls, hls, l, r, rfl, by simp only [if_true]; exact ⟨g1, g2⟩⟩ hal ho
          · obtain ⟨b1, b2, b3, b4⟩ := sizeLoop_pspec G (L := ⟨without f D, b.child f false⟩) (R := ⟨having f D, b.child f true⟩)
              (sw := false) (f := f) hrec ha ⟨c0.1, c1.1, c0.2, c1.2, hfs f (by simp), hmay, ⟨rfl, rfl⟩⟩ hd (sizes d n)
              (sizes_pok hd hn hp) v s hs hv
            refine ⟨b1, b2, b3, ?_⟩
            rintro t ⟨l, r, rfl⟩ hal ho
            obtain ⟨e1, e2, e3⟩ := dec hal
            obtain ⟨ls, hls, g1, g2⟩ := sizes_cover hn hp hd e2 e3 (by omega)
            exact b4 _ ⟨ls, hls, l, r, rfl, by simp only [Bool.false_eq_true, if_false]; exact ⟨g1, g2⟩⟩ hal ho
        obtain ⟨a1, a2, a3, a4⟩ := hstep
        generalize (if (without f D).length < (having f D).length then
              pSizeLoop c rec b.length f ⟨having f D, b.child f true⟩ ⟨without f D, b.child f false⟩ true d n (sizes d n) v s
            else pSizeLoop c rec b.length f ⟨without f D, b.child f false⟩ ⟨having f D, b.child f true⟩ false d n (sizes d n) v s) = q at *
        obtain ⟨b1, b2, b3, b4⟩ := ih hfs' q.1 q.2 a1 a2
        refine ⟨b1, b2, fun x hv hx => b3 x hv (a3 x hv hx), ?_⟩
        rintro t ⟨g, hg, l, r, rfl⟩ hal ho
        rcases List.mem_cons.1 hg with rfl | hg
        · exact b3 _ ⟨_, hal.2.2, rfl⟩ (a4 _ ⟨l, r, rfl⟩ hal ho)
        · exact b4 _ ⟨g, hg, l, r, rfl⟩ hal ho

omit G in
theorem updateArchive_cache (s : PSt S) (D : Data) (b : Branch) (d : Nat) : (pUpdateArchive c s D b d).cache = s.cache := by
  unfold pUpdateArchive; split <;> rfl

theorem general_pspec {rec : PRec S} {D : Data} {b : Branch} {d n : Nat} (hrec : PRecOK c T rec (d - 1)) (ha : At c T D b)
    (hd : 1 ≤ d) (hn : 1 ≤ n) (hp : n + 1 ≤ 2 ^ d) (UB : Front S) (s : PSt S) (hs : PInv c T s.cache) :
    PPost c T D d n (pGeneral c rec D b UB d n s) := by
  obtain ⟨l1, l2⟩ := solveLeaf_pspec G ha d n UB
  unfold pGeneral
  simp only
  split
  · rename_i hsmall
    refine ⟨hs, l1.real, ?_⟩
    intro t hal ho
    cases t with
    | leaf k => exact l2 k hal.2.2.1
    | node f l r =>
      have h1 := hal.2.2.2.2.1.length
      have h2 := hal.2.2.2.2.2.length
      have := length_split f D
      omega
  · obtain ⟨f1, _, f3⟩ := filterAdd_spec G ha (pLowerCached c s D b n (d - 1)).sols (pSolveLeaf c D b.length UB).1
      (pSolveLeaf c D b.length UB).2 l1 (lowerCached_pspec hs ha n (d - 1) d (by omega))
    generalize pFilterAdd c b.length (pLowerCached c s D b n (d - 1)).sols (pSolveLeaf c D b.length UB).1
      (pSolveLeaf c D b.length UB).2 = st at *
    obtain ⟨g1, g2, g3, g4⟩ := featLoop_pspec G hrec ha hd hn hp (pComputeLB c s D b d n) (c.order D)
      (fun f hf => (G.feats D f).1 hf) ⟨st.1, st.2, Front.empty⟩ s hs f1
    generalize pFeatLoop c rec D b d n (pComputeLB c s D b d n) (c.order D) ⟨st.1, st.2, Front.empty⟩ s = q at *
    have hcomp : PComplete c (levelCmp c T D) D d n q.1.sols := by
      intro t hal ho
      cases t with
      | leaf k => exact g3 _ ⟨_, hal.2.2, rfl⟩ (f3 _ ⟨_, hal.2.2, rfl⟩ (l2 k hal.2.2.1))
      | node f l r => exact g4 _ ⟨f, (G.feats D f).2 hal.2.2.1, l, r, rfl⟩ hal ho
    have hne : q.1.sols.isNil = false := by
      obtain ⟨m, hm, _⟩ := hcomp (.leaf 0) ⟨Nat.zero_le _, Nat.zero_le _, G.labels, ha.size⟩
        (G.okLeaf D 0 ha.view G.labels)
      unfold Front.isNil
      cases h : q.1.sols.sols with
      | nil => rw [h] at hm; simp at hm
      | cons => rfl
    refine ⟨?_, g2.real, hcomp⟩
    simp only
    rw [updateArchive_cache, hne]
    exact storeOpt_pinv G g1 ha g2.real hcomp

theorem subTree_pspec {rec : PRec S} {D : Data} {b : Branch} {d n : Nat} (hrec : 1 ≤ d → PRecOK c T rec (d - 1))
    (ha : At c T D b) (hp : n + 1 ≤ 2 ^ d) (UB : Front S) (s : PSt S) (hs : PInv c T s.cache) :
    PPost c T D d n (pSubTree c rec D b UB d n s) := by
  unfold pSubTree
  split
  · rename_i h0
    obtain ⟨l1, l2⟩ := solveLeaf_pspec G ha d n UB.removeTemp
    refine ⟨hs, l1.real, ?_⟩
    intro t hal ho
    cases t with
    | leaf k => exact l2 k hal.2.2.1
    | node f l r =>
      have h1 := hal.1
      have h2 := hal.2.1
      simp only [Tree.depth, Tree.nodes] at h1 h2
      omega
  · rename_i h0
    simp only
    split
    · rename_i hhit
      obtain ⟨h1, h2⟩ := retrieveOpt_pspec hs ha hhit
      exact ⟨hs, h1, h2⟩
    · simp only [G.noLB, G.noTerm, Bool.false_eq_true, if_false, false_and]
      exact general_pspec G (hrec (by omega)) ha (by omega) (by omega) hp UB s hs

theorem solveSub_pspec (fuel : Nat) : PRecOK c T (pSolveSub c fuel) fuel := by
  induction fuel with
  | zero =>
    intro D b UB d n s hd ha hp hs
    exact subTree_pspec G (fun h => by omega) ha hp UB s hs
  | succ k ih =>
    intro D b UB d n s hd ha hp hs
    refine subTree_pspec G (fun h => ?_) ha hp UB s hs
    intro D b UB d' n s hd'
    exact ih D b UB d' n s (by omega)

/-- The result of the calls so far. -/
structure PRunOK (c : PCfg S) (T : Data) (md mn : Nat) (r : PRun S) : Prop where
  st : PInv c T r.st.cache
  acc : PAcc (PVal c T) c.T.domD0 (PReal c T md mn) r.result

theorem putAllAt_pspec (hm : c.mls ≤ T.length) {d n : Nat} (ns : List (PNode S)) (F : Front S) (hF : PAcc (PVal c T) c.T.domD0 (PReal c T d n) F)
    (hns : ∀ m ∈ ns, PReal c T d n m) :
    PAcc (PVal c T) c.T.domD0 (PReal c T d n) (c.T.putAllAt 0 F ns) ∧ (∀ m ∈ ns, PCov c.T.domD0 (c.T.putAllAt 0 F ns) m.sol) ∧
      ∀ x, PVal c T x → PCov c.T.domD0 F x → PCov c.T.domD0 (c.T.putAllAt 0 F ns) x := by
  have ha : At c T T [] := ⟨(sel_nil T).symm, by simp, hm⟩
  have hc : levelCmp c T T = c.T.domD0 := ha.cmp_root rfl
  induction ns generalizing F with
  | nil => exact ⟨hF, by simp, fun x _ hx => hx⟩
  | cons m ns ih =>
    rw [PTask.putAllAt]
    have h := putAt_spec G ha (F := F) (by rw [hc]; exact hF) (hns m (by simp))
    rw [hc] at h
    obtain ⟨h1, h2, h3⟩ := h
    obtain ⟨i1, i2, i3⟩ := ih (c.T.putAt 0 F m) h1 fun x hx => hns x (by simp [hx])
    refine ⟨i1, ?_, fun x hv hx => i3 x hv (h3 x hv hx)⟩
    intro x hx
    rcases List.mem_cons.1 hx with rfl | hx
    · exact i3 _ (hns _ (by simp)).val h2
    · exact i2 x hx

theorem rootRun_pspec (hm : c.mls ≤ T.length) (md mn : Nat) (r : PRun S) (hr : PRunOK c T md mn r) (dn : Nat × Nat)
    (hd : dn.1 ≤ md) (hn : dn.2 ≤ mn) (hp : dn.2 + 1 ≤ 2 ^ dn.1) :
    PRunOK c T md mn (pRootRun c md T r dn) ∧
      (∀ x, PVal c T x → PCov c.T.domD0 r.result x → PCov c.T.domD0 (pRootRun c md T r dn).result x) ∧
      ∀ t, Allowed c.T.prob c.mls dn.1 dn.2 T t → c.T.ok (c.T.eval t T) = true → PCov c.T.domD0 (pRootRun c md T r dn).result (c.T.eval t T) := by
  have ha : At c T T [] := ⟨(sel_nil T).symm, by simp, hm⟩
  have hc : levelCmp c T T = c.T.domD0 := ha.cmp_root rfl
  have h := solveSub_pspec G md T [] r.gUB dn.1 dn.2 r.st hd ha hp hr.st
  unfold pRootRun
  simp only
  generalize pSolveSub c md T [] r.gUB dn.1 dn.2 r.st = x at h
  obtain ⟨h1, h2, h3⟩ := putAllAt_pspec G hm x.1.sols r.result hr.acc fun m hm => (h.real m hm).mono hd hn
  refine ⟨⟨h.st, h1⟩, h3, ?_⟩
  intro t hal ho
  obtain ⟨m, hm, hc1⟩ := h.cov t hal ho
  obtain ⟨m', hm', hc2⟩ := h2 m hm
  rw [hc] at hc1
  exact ⟨m', hm', G.order0.trans _ _ _ (h1.real m' hm').val (h.real m hm).val ⟨t, hal.2.2, rfl⟩ hc2 hc1⟩

theorem runs_pspec (hm : c.mls ≤ T.length) (md mn : Nat) (bs : List (Nat × Nat))
    (hbs : ∀ p ∈ bs, p.1 ≤ md ∧ p.2 ≤ mn ∧ p.2 + 1 ≤ 2 ^ p.1) (r : PRun S) (hr : PRunOK c T md mn r) :
    PRunOK c T md mn (bs.foldl (pRootRun c md T) r) ∧
      (∀ x, PVal c T x → PCov c.T.domD0 r.result x → PCov c.T.domD0 (bs.foldl (pRootRun c md T) r).result x) ∧
      ∀ p ∈ bs, ∀ t, Allowed c.T.prob c.mls p.1 p.2 T t → c.T.ok (c.T.eval t T) = true →
        PCov c.T.domD0 (bs.foldl (pRootRun c md T) r).result (c.T.eval t T) := by
  induction bs generalizing r with
  | nil => exact ⟨hr, fun x _ hx => hx, by simp⟩
  | cons p bs ih =>
    obtain ⟨h1, h2, h3⟩ := hbs p (by simp)
    obtain ⟨a1, a2, a3⟩ := rootRun_pspec G hm md mn r hr p h1 h2 h3
    obtain ⟨b1, b2, b3⟩ := ih (fun q hq => hbs q (by simp [hq])) _ a1
    refine ⟨b1, fun x hv hx => b2 x hv (a2 x hv hx), ?_⟩
    intro q hq t hal ho
    rcases List.mem_cons.1 hq with rfl | hq
    · exact b2 _ ⟨t, hal.2.2, rfl⟩ (a3 t hal ho)
    · exact b3 q hq t hal ho

/-- The result of the whole search: trees within the limits, and no tree within the limits is better. -/
theorem pSolve_spec (hm : c.mls ≤ T.length) (md mn : Nat) (hp : mn + 1 ≤ 2 ^ md) (allTrees : Bool) :
    PAcc (PVal c T) c.T.domD0 (PReal c T md mn) (pSolve c md mn allTrees T).result ∧
      ∀ t, Allowed c.T.prob c.mls md mn T t → c.T.ok (c.T.eval t T) = true →
        PCov c.T.domD0 (pSolve c md mn allTrees T).result (c.T.eval t T) := by
  have ha : At c T T [] := ⟨(sel_nil T).symm, by simp, hm⟩
  have hc : levelCmp c T T = c.T.domD0 := ha.cmp_root rfl
  have hl := solveLeaf_pspec G ha md mn Front.empty
  rw [hc] at hl
  obtain ⟨l1, l2⟩ := hl
  have pw : ∀ k, k + 1 ≤ 2 ^ md → k + 1 ≤ 2 ^ (min md k) := by
    intro k hk
    rcases Nat.le_total md k with h | h
    · rw [Nat.min_eq_left h]; exact hk
    · rw [Nat.min_eq_right h]; exact Nat.lt_two_pow_self
  have hbs : ∀ p ∈ pBudgets md mn allTrees, p.1 ≤ md ∧ p.2 ≤ mn ∧ p.2 + 1 ≤ 2 ^ p.1 := by
    intro p h
    unfold pBudgets at h
    split at h
    · obtain ⟨k, hk, rfl⟩ := List.mem_map.1 h
      obtain ⟨h1, h2⟩ := List.mem_range'_1.1 hk
      exact ⟨Nat.min_le_left _ _, by simp only; omega, pw k (by omega)⟩
    · obtain ⟨k, hk, rfl⟩ := List.mem_map.1 h
      obtain ⟨h1, h2⟩ := List.mem_range'_1.1 hk
      have : 1 ≤ 2 ^ k := Nat.one_le_two_pow
      exact ⟨by simp only; omega, Nat.min_le_left _ _, by simp only; omega⟩
  obtain ⟨h1, h2, h3⟩ := runs_pspec G hm md mn (pBudgets md mn allTrees) hbs
    ⟨(pSolveLeaf c T 0 Front.empty).1, (pSolveLeaf c T 0 Front.empty).2, PSt.init⟩ ⟨PInv.init, l1⟩
  refine ⟨h1.acc, ?_⟩
  intro t hal ho
  cases t with
  | leaf k => exact h2 _ ⟨_, hal.2.2, rfl⟩ (l2 k hal.2.2.1)
  | node f l r =>
    have hdn := (Tree.node f l r).depth_le_nodes
    have hn1 : 1 ≤ (Tree.node f l r).nodes := by simp only [Tree.nodes]; omega
    have hpow := (Tree.node f l r).nodes_lt_pow
    generalize Tree.node f l r = t at *
    have a1 := hal.1
    have a2 := hal.2.1
    by_cases hc : allTrees = true ∨ mn = 1
    · refine h3 (min md mn, mn) ?_ t ⟨by simp only; omega, a2, hal.2.2⟩ ho
      unfold pBudgets
      rw [if_pos hc]
      exact List.mem_map.2 ⟨mn, List.mem_range'_1.2 ⟨by omega, by omega⟩, rfl⟩
    · have hle : 2 ^ t.depth ≤ 2 ^ (min md mn) := Nat.pow_le_pow_right (by decide) (by omega)
      refine h3 (min md mn, min mn (2 ^ (min md mn) - 1)) ?_ t ⟨by simp only; omega, by simp only; omega, hal.2.2⟩ ho
      unfold pBudgets
      rw [if_neg hc]
      exact List.mem_map.2 ⟨min md mn, List.mem_range'_1.2 ⟨by omega, by omega⟩, rfl⟩

/-- If all values can be compared at the root, the search ends with one value, and no tree within the limits is better. -/
theorem pSolve_best (htot : ∀ a b, PVal c T a → PVal c T b → c.T.domD0 a b = true ∨ c.T.domD0 b a = true)
    (hm : c.mls ≤ T.length) (md mn : Nat) (hp : mn + 1 ≤ 2 ^ md) (allTrees : Bool) :
    ∃ m, (pSolve c md mn allTrees T).result.sols = [m] ∧ PReal c T md mn m ∧
      ∀ t, Allowed c.T.prob c.mls md mn T t → c.T.ok (c.T.eval t T) = true → c.T.domD0 m.sol (c.T.eval t T) = true := by
  obtain ⟨⟨added, hinv, hreal, _⟩, hcov⟩ := pSolve_spec G hm md mn hp allTrees
  generalize (pSolve c md mn allTrees T).result = F at *
  match hF : F.sols, hinv.nd.antichain with
  | [], _ =>
    obtain ⟨m, hm, _⟩ := hcov (.leaf 0) ⟨Nat.zero_le _, Nat.zero_le _, G.labels, hm⟩ (G.okLeaf T 0 (List.Sublist.refl T) G.labels)
    rw [hF] at hm; simp at hm
  | [m], _ =>
    refine ⟨m, rfl, hreal m (hinv.nd.inserted m (by rw [hF]; simp)), ?_⟩
    intro t ht ho
    obtain ⟨x, hx, hc⟩ := hcov t ht ho
    rw [hF] at hx
    rwa [List.mem_singleton.1 hx] at hc
  | a :: b :: l, h =>
    have h1 := (List.pairwise_cons.1 h).1 b (by simp)
    have va := (hreal a (hinv.nd.inserted a (by rw [hF]; simp))).val
    have vb := (hreal b (hinv.nd.inserted b (by rw [hF]; simp))).val
    rcases htot _ _ va vb with h2 | h2
    · rw [h2] at h1; exact absurd h1.1 (by simp)
    · rw [h2] at h1; exact absurd h1.2 (by simp)

end

end Streed
