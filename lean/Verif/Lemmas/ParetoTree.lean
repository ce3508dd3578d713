import Verif.Model.ParetoTree
import Verif.Lemmas.ParetoSound

/-! The construction of the trees of partially ordered tasks. -/

namespace Streed

variable {S : Type}

theorem mem_filterNodes {F : Front S} {k : Nat} {m : PNode S} : m ∈ (F.filterNodes k).sols ↔ m ∈ F.sols ∧ m.size ≤ k := by
  simp [Front.filterNodes, List.mem_filter]

/-! ### Fields of nodes -/

/-- The fields of the node of a tree. -/
theorem tag_numNodes (T : PTask S) (t : Tree) (D : Data) : (T.tagged.eval t D).2.numNodes = t.nodes := by
  induction t generalizing D with
  | leaf k => rfl
  | node f l r ihl ihr =>
    have e : (T.tagged.eval (.node f l r) D).2.numNodes =
        (T.tagged.eval l (without f D)).2.numNodes + (T.tagged.eval r (having f D)).2.numNodes + 1 := rfl
    rw [e, ihl, ihr, Tree.nodes]
    omega

/-- The value of a tree, without the fields of its node. -/
theorem tagged_eval (T : PTask S) (t : Tree) (D : Data) : (T.tagged.eval t D).1 = T.eval t D := by
  induction t generalizing D with
  | leaf k => rfl
  | node f l r ihl ihr =>
    simp only [PTask.eval]
    rw [← ihl, ← ihr]
    rfl

/-- Only features with property `p` are tested. -/
def Tree.Only (p : Nat → Bool) : Tree → Prop
  | .leaf _ => True
  | .node f l r => p f = true ∧ l.Only p ∧ r.Only p

/-- Every node of the front stands for some tree. -/
def FSome (c : PCfg S) (D : Data) (F : Front S) : Prop := ∀ m ∈ F.sols, ∃ d n, PReal c D d n m

theorem FReal.some {c : PCfg S} {D : Data} {d n : Nat} {F : Front S} (h : FReal c D d n F) : FSome c D F :=
  fun m hm => ⟨d, n, h m hm⟩

theorem FSome.filterNodes {c : PCfg S} {D : Data} {F : Front S} (h : FSome c D F) (k : Nat) : FSome c D (F.filterNodes k) :=
  fun m hm => h m (mem_filterNodes.1 hm).1

/-- The pair found is one of the candidates, and its sum is the value sought. -/
theorem firstPair_mem {α β : Type} {T : PTask S} {v : S} {ls : List (S × α)} {rs : List (S × β)} {p : (S × α) × (S × β)}
    (h : T.firstPair v ls rs = some p) : p.1 ∈ ls ∧ p.2 ∈ rs ∧ T.o.eq v (T.add p.1.1 p.2.1) = true := by
  unfold PTask.firstPair at h
  have h1 := List.mem_of_find?_eq_some h
  have h2 := List.find?_some h
  obtain ⟨l, hl, h1⟩ := List.mem_flatMap.1 h1
  obtain ⟨r, hr, h1⟩ := List.mem_map.1 h1
  subst h1
  exact ⟨hl, hr, h2⟩

theorem firstPair_isSome {α β : Type} {T : PTask S} {v : S} {ls : List (S × α)} {rs : List (S × β)} {l : S × α} {r : S × β}
    (hl : l ∈ ls) (hr : r ∈ rs) (h : T.o.eq v (T.add l.1 r.1) = true) : ∃ p, T.firstPair v ls rs = some p := by
  unfold PTask.firstPair
  have : ((ls.flatMap fun l => rs.map fun r => (l, r)).find? fun p => T.o.eq v (T.add p.1.1 p.2.1)).isSome = true := by
    rw [List.find?_isSome]
    exact ⟨(l, r), List.mem_flatMap.2 ⟨l, hl, List.mem_map.2 ⟨r, hr, rfl⟩⟩, h⟩
  exact Option.isSome_iff_exists.1 this

/-! ### Features of the constructed trees, for all options without the depth-two solver -/

section Sound
variable {c : PCfg (S × Tag)} {T : Data} (G : PSound c T)
include G

omit G in
theorem childLookup_sound {UB : Front (S × Tag)} {s : PSt (S × Tag)} (hs : PSInv c T s) {D : Data} {b : Branch} (ha : D = sel b T)
    (d : Nat) (zs : List Nat) : FSome c D (pChildLookup c UB s D b d zs).1 := by
  induction zs with
  | nil => exact (FReal.empty c D 0 0).some
  | cons z zs ih =>
    have hF : FSome c D (if z = 0 then (pSolveLeaf c D b.length UB).1 else s.cache.retrieveOpt c D b (min (d - 1) z) z) := by
      split
      · exact (solveLeaf_psound c D b.length 0 0 UB).some
      · exact (hs.cache.retrieveOpt ha _ _).some
    unfold pChildLookup
    simp only
    generalize (if z = 0 then (pSolveLeaf c D b.length UB).1 else s.cache.retrieveOpt c D b (min (d - 1) z) z) = F at hF
    split
    · exact ih
    · exact hF

theorem child_sound (hterm : c.useTerm = false) {UB : Front (S × Tag)} {s : PSt (S × Tag)} (hs : PSInv c T s) {D : Data} {b : Branch}
    (ha : D = sel b T) (d z : Nat) {look : Front (S × Tag) × Nat} (hl : FSome c D look.1) :
    PSInv c T (pChild c UB D b d z look s).2 ∧ FSome c D (pChild c UB D b d z look s).1.1 := by
  have h0 : ∀ {n d : Nat}, c.useTerm = true → n + 1 ≤ 2 ^ d := by
    intro n d h; rw [hterm] at h; simp at h
  unfold pChild
  split
  · unfold pChildSolve
    simp only
    have q := solveSub_psound G (min (d - 1) z) D b UB (min (d - 1) z) z s ha h0 hs
    generalize pSolveSub c (min (d - 1) z) D b UB (min (d - 1) z) z s = r at q
    split
    · have q2 := solveSub_psound G (min (d - 1) z) D b r.2.1 (min (d - 1) z) z r.2.2 ha h0 q.st
      exact ⟨q2.st, q2.real.some.filterNodes _⟩
    · exact ⟨q.st, q.real.some.filterNodes _⟩
  · exact ⟨hs, hl⟩

omit G in
/-- The feature of the node of a tree is allowed. -/
theorem tag_feat {T0 : PTask S} (hT : c.T = T0.tagged) {D : Data} {m : PNode (S × Tag)} (h : ∃ d n, PReal c D d n m) :
    ∀ f, m.sol.2.feat = some f → c.T.may f = true := by
  obtain ⟨d, n, t, ht, he, _⟩ := h
  intro f hf
  rw [← he, hT] at hf
  cases t with
  | leaf k => simp [PTask.eval, PTask.tagged] at hf
  | node g l r =>
    simp only [PTask.eval, PTask.tagged, Option.some.injEq] at hf
    rw [← hf]
    exact ht.2.2.2.1

/-- Without the depth-two solver only allowed features are tested. -/
theorem construct_only {T0 : PTask S} (hT : c.T = T0.tagged) (hterm : c.useTerm = false) (w : S) (fuel : Nat) :
    ∀ (v : S × Tag) (D : Data) (b : Branch) (d n : Nat) (s : PSt (S × Tag)), D = sel b T → PSInv c T s →
      (∀ f, v.2.feat = some f → c.T.may f = true) →
      PSInv c T (pConstruct c w fuel v D b d n s).2 ∧
        ∀ t, (pConstruct c w fuel v D b d n s).1 = some t → t.Only c.T.may := by
  induction fuel with
  | zero =>
    intro v D b d n s _ hs _
    refine ⟨hs, ?_⟩
    intro t ht
    rw [pConstruct] at ht
    rw [← Option.some.inj ht]
    trivial
  | succ fuel ih =>
    intro v D b d0 n0 s ha hs hv
    have leafCase : PSInv c T (some (Tree.leaf v.2.label), s).2 ∧
        ∀ t, (some (Tree.leaf v.2.label), s).1 = some t → t.Only c.T.may := by
      refine ⟨hs, ?_⟩
      intro t ht
      rw [← Option.some.inj ht]
      trivial
    rw [pConstruct]
    simp only [hterm, Bool.false_eq_true, and_false, false_and, if_false]
    generalize min d0 n0 = d
    generalize min n0 (2 ^ d - 1) = n
    cases hf : v.2.feat with
    | none => exact leafCase
    | some f =>
      simp only
      split
      · exact leafCase
      · have hmay := hv f hf
        obtain ⟨e0, e1⟩ := sel_side ha f
        generalize c.T.put Front.empty ⟨(w, Tag.plain), 0⟩ = UB
        have lookOK : ∀ {E : Data} {e : Branch} {z : Nat} {x : Front (S × Tag) × Nat}, E = sel e T →
            (if (c.useBr || c.useDs) = true then pChildCached c UB s E e d n z else some (Front.empty, z)) = some x →
            FSome c E x.1 := by
          intro E e z x hE h
          split at h
          · unfold pChildCached at h
            simp only at h
            split at h
            · exact absurd h (by simp)
            · rw [← Option.some.inj h]
              exact (childLookup_sound hs hE d _).filterNodes _
          · rw [← Option.some.inj h]
            exact (FReal.empty c E 0 0).some
        split
        · rename_i ll lr h1 h2
          have k1 := lookOK e0 h1
          have k2 := lookOK e1 h2
          obtain ⟨a1, a2⟩ := child_sound G hterm (UB := UB) hs e0 d v.2.nl k1
          generalize pChild c UB (without f D) (b.child f false) d v.2.nl ll s = x at a1 a2
          obtain ⟨b1, b2⟩ := child_sound G hterm (UB := UB) a1 e1 d v.2.nr k2
          generalize pChild c UB (having f D) (b.child f true) d v.2.nr lr x.2 = y at b1 b2
          have hp : ∀ p, (c.T.firstPair v (x.1.1.sols.map fun m => (m.sol, ())) (y.1.1.sols.map fun m => (m.sol, ()))).getD
              (((w, Tag.plain), ()), ((w, Tag.plain), ())) = p →
              (∀ f, p.1.1.2.feat = some f → c.T.may f = true) ∧ (∀ f, p.2.1.2.feat = some f → c.T.may f = true) := by
            intro p hp
            cases hq : c.T.firstPair v (x.1.1.sols.map fun m => (m.sol, ())) (y.1.1.sols.map fun m => (m.sol, ())) with
            | none =>
              rw [hq, Option.getD_none] at hp
              rw [← hp]
              exact ⟨fun f hf => by simp [Tag.plain] at hf, fun f hf => by simp [Tag.plain] at hf⟩
            | some q =>
              rw [hq, Option.getD_some] at hp
              rw [← hp]
              obtain ⟨h1, h2, _⟩ := firstPair_mem hq
              obtain ⟨m1, hm1, e1⟩ := List.mem_map.1 h1
              obtain ⟨m2, hm2, e2⟩ := List.mem_map.1 h2
              rw [← e1, ← e2]
              exact ⟨tag_feat hT (a2 m1 hm1), tag_feat hT (b2 m2 hm2)⟩
          generalize (c.T.firstPair v (x.1.1.sols.map fun m => (m.sol, ())) (y.1.1.sols.map fun m => (m.sol, ()))).getD
              (((w, Tag.plain), ()), ((w, Tag.plain), ())) = p at hp
          obtain ⟨g1, g2⟩ := hp p rfl
          obtain ⟨i1, i2⟩ := ih p.1.1 (without f D) (b.child f false) x.1.2.1 x.1.2.2 y.2 e0 b1 g1
          generalize pConstruct c w fuel p.1.1 (without f D) (b.child f false) x.1.2.1 x.1.2.2 y.2 = tl at i1 i2
          obtain ⟨j1, j2⟩ := ih p.2.1 (having f D) (b.child f true) y.1.2.1 y.1.2.2 tl.2 e1 i1 g2
          generalize pConstruct c w fuel p.2.1 (having f D) (b.child f true) y.1.2.1 y.1.2.2 tl.2 = tr at j1 j2
          refine ⟨j1, ?_⟩
          intro t ht
          simp only at ht
          cases h1 : tl.1 with
          | none => rw [h1] at ht; simp at ht
          | some a =>
            cases h2 : tr.1 with
            | none => rw [h1, h2] at ht; simp at ht
            | some b' =>
              rw [h1, h2] at ht
              simp only [Option.bind_some, Option.map_some, Option.some.injEq] at ht
              rw [← ht]
              exact ⟨hmay, i2 a h1, j2 b' h2⟩
        · exact ⟨hs, by intro t ht; simp at ht⟩

theorem constructAll_only {T0 : PTask S} (hT : c.T = T0.tagged) (hterm : c.useTerm = false) (w : S) (d n : Nat)
    (ms : List (PNode (S × Tag))) (hms : ∀ m ∈ ms, ∃ d n, PReal c T d n m) (s : PSt (S × Tag)) (hs : PSInv c T s) :
    ∀ t, some t ∈ pConstructAll c w T d n ms s → t.Only c.T.may := by
  induction ms generalizing s with
  | nil => intro t ht; simp [pConstructAll] at ht
  | cons m ms ih =>
    intro t ht
    rw [pConstructAll] at ht
    obtain ⟨h1, h2⟩ := construct_only G hT hterm w (d + 1) m.sol T [] d n s (sel_nil T).symm hs (tag_feat hT (hms m (by simp)))
    rcases List.mem_cons.1 ht with ht | ht
    · exact h2 t ht.symm
    · exact ih (fun x hx => hms x (by simp [hx])) _ h1 t ht

/-- The returned trees test only allowed features, for all options without the depth-two solver. -/
theorem returned_only {T0 : PTask S} (hT : c.T = T0.tagged) (hterm : c.useTerm = false) (w : S) (md mn : Nat) (hp : mn + 1 ≤ 2 ^ md)
    (allTrees : Bool) : ∀ t, some t ∈ pReturned c w md mn allTrees T → t.Only c.T.may := by
  obtain ⟨h1, h2⟩ := pSolve_sound G md mn hp allTrees
  exact constructAll_only G hT hterm w _ _ _ h2.some _ h1

end Sound

/-! ### The constructed trees have the values found, without bounds -/

/-- No tree of the budget is better than `v`. -/
def PMin (c : PCfg (S × Tag)) (D : Data) (d n : Nat) (v : S × Tag) : Prop :=
  ∀ t, Allowed c.T.prob c.mls d n D t → c.T.ok (c.T.eval t D) = true → c.T.o.dom (c.T.eval t D) v = true →
    (c.T.eval t D).1 = v.1

/-- What the construction needs. -/
structure PTreeGood (c : PCfg (S × Tag)) (T0 : PTask S) (T : Data) : Prop where
  task : c.T = T0.tagged
  good : PGood c T
  eqv : ∀ D a b, ViewOf T D → PVal c D a → PVal c D b → (c.T.o.eq a b = true ↔ a.1 = b.1)
  add : ∀ f a b, T0.add a b = T0.comb f a b
  cancelL : ∀ f D a a' b, ViewOf T D → PVal c (without f D) a → PVal c (without f D) a' → PVal c (having f D) b →
    T0.comb f a.1 b.1 = T0.comb f a'.1 b.1 → a.1 = a'.1
  cancelR : ∀ f D a b b', ViewOf T D → PVal c (without f D) a → PVal c (having f D) b → PVal c (having f D) b' →
    T0.comb f a.1 b.1 = T0.comb f a.1 b'.1 → b.1 = b'.1

/-- Caching is off, or the node limit does not bind. -/
def PMode (c : PCfg S) (d n : Nat) : Prop := (c.useBr || c.useDs) = false ∨ 2 ^ (min d n) - 1 ≤ n

/-- What is known of the front of a child, for a call with budget `d`; `l` is a tree it must cover. -/
structure ChildPost (c : PCfg (S × Tag)) (T E : Data) (d : Nat) (l : Tree)
    (y : (Front (S × Tag) × Nat × Nat) × PSt (S × Tag)) : Prop where
  st : PInv c T y.2.cache
  depth : min y.1.2.1 y.1.2.2 ≤ d - 1
  mode : PMode c y.1.2.1 y.1.2.2
  real : FReal c E (min y.1.2.1 y.1.2.2) (min y.1.2.2 (2 ^ min y.1.2.1 y.1.2.2 - 1)) y.1.1
  cov : PCov c.T.o.dom y.1.1 (c.T.eval l E)
  size : (c.useBr || c.useDs) = false → min y.1.2.2 (2 ^ min y.1.2.1 y.1.2.2 - 1) ≤ l.nodes

section Good
variable {c : PCfg (S × Tag)} {T : Data} (G : PGood c T)
include G

theorem pcomplete_nonnil {E : Data} {e : Branch} (hE : At c T E e) {d n : Nat} {F : Front (S × Tag)}
    (h : PComplete c (levelCmp c T E) E d n F) : F.isNil = false := by
  obtain ⟨m, hm, _⟩ := h (.leaf 0) ⟨Nat.zero_le _, Nat.zero_le _, G.labels, hE.size⟩ (G.okLeaf E 0 hE.view G.labels)
  unfold Front.isNil
  cases hs : F.sols with
  | nil => rw [hs] at hm; simp at hm
  | cons => rfl

omit G in
theorem FReal.fit {E : Data} {d n ls : Nat} {F : Front (S × Tag)} (h : FReal c E d n F) (hd : d ≤ ls) (hn : n ≤ ls) :
    FReal c E (min d ls) (min ls (2 ^ min d ls - 1)) F := by
  intro m hm
  obtain ⟨t, h1, h2⟩ := h m hm
  refine ⟨t, ⟨?_, ?_, h1.2.2⟩, h2⟩
  · have := h1.1; omega
  · have h3 := h1.2.1
    have h4 : 2 ^ t.depth ≤ 2 ^ min d ls := Nat.pow_le_pow_right (by decide) (by have := h1.1; omega)
    have h5 := t.nodes_lt_pow
    omega

omit G in
theorem FReal.filter_cov {E : Data} {d n k : Nat} {F : Front (S × Tag)} (h : FReal c E d n F) (hk : n ≤ k) {x : S × Tag}
    (hx : PCov c.T.o.dom F x) : PCov c.T.o.dom (F.filterNodes k) x := by
  obtain ⟨m, hm, hd⟩ := hx
  refine ⟨m, mem_filterNodes.2 ⟨hm, ?_⟩, hd⟩
  obtain ⟨t, h1, _, h3, _⟩ := h m hm
  have := h1.2.1
  omega

omit G in
theorem PCov.nonnil {F : Front (S × Tag)} {cmp : S × Tag → S × Tag → Bool} {x : S × Tag} (h : PCov cmp F x) : F.isNil = false := by
  obtain ⟨m, hm, _⟩ := h
  unfold Front.isNil
  cases hs : F.sols with
  | nil => rw [hs] at hm; simp at hm
  | cons => rfl

/-- The front of a child solved again. -/
theorem childSolve_pspec {E : Data} {e : Branch} (hE : At c T E e) (hin : e.length ≠ 0) {d n : Nat} {l : Tree}
    (hl : Allowed c.T.prob c.mls (d - 1) n E l) (ho : c.T.ok (c.T.eval l E) = true) (UB : Front (S × Tag)) (s : PSt (S × Tag))
    (hs : PInv c T s.cache) {ls : Nat}
    (hls : ((c.useBr || c.useDs) = false ∧ ls = l.nodes) ∨ (2 ^ (d - 1) - 1 ≤ ls ∧ (c.useBr || c.useDs) = true)) :
    ChildPost c T E d l (((pChildSolve c UB E e d l.nodes s).1, min (d - 1) l.nodes, ls), (pChildSolve c UB E e d l.nodes s).2) := by
  have hdep := hl.1
  have hdn := l.depth_le_nodes
  have hpow := l.nodes_lt_pow
  have hp1 : 2 ^ l.depth ≤ 2 ^ (min (d - 1) l.nodes) := Nat.pow_le_pow_right (by decide) (by omega)
  have hp2 : 2 ^ l.depth ≤ 2 ^ (d - 1) := Nat.pow_le_pow_right (by decide) hdep
  have hp3 : 2 ^ (min (d - 1) l.nodes) ≤ 2 ^ (d - 1) := Nat.pow_le_pow_right (by decide) (by omega)
  have q := solveSub_pspec G (min (d - 1) l.nodes) E e UB (min (d - 1) l.nodes) l.nodes s (Nat.le_refl _) hE (by omega) hs
  have hnl : l.nodes ≤ ls := by
    rcases hls with h | h <;> omega
  unfold pChildSolve
  simp only
  generalize pSolveSub c (min (d - 1) l.nodes) E e UB (min (d - 1) l.nodes) l.nodes s = r at q
  rw [pcomplete_nonnil G hE q.cov]
  simp only [Bool.false_eq_true, if_false]
  have hr : FReal c E (min (d - 1) l.nodes) l.nodes r.1 := q.real
  have hmin : min (min (d - 1) l.nodes) ls = min (d - 1) l.nodes := by omega
  refine ⟨q.st, ?_, ?_, ?_, ?_, ?_⟩
  · simp only; omega
  · unfold PMode
    simp only [hmin]
    rcases hls with h | h
    · exact .inl h.1
    · right; omega
  · intro m hm
    exact hr.fit (by omega) hnl m (mem_filterNodes.1 hm).1
  · refine hr.filter_cov (Nat.le_refl _) ?_
    have h := q.cov l ⟨by omega, Nat.le_refl _, hl.2.2⟩ ho
    rwa [hE.cmp_inner hin] at h
  · intro hoff
    rcases hls with h | h
    · simp only; omega
    · rw [hoff] at h; simp at h

/-- The front of a child. -/
theorem child_pspec {E : Data} {e : Branch} (hE : At c T E e) (hin : e.length ≠ 0) {d n : Nat} {l : Tree} (hd : 1 ≤ d)
    (hl : Allowed c.T.prob c.mls (d - 1) (n - 1) E l) (ho : c.T.ok (c.T.eval l E) = true) (UB : Front (S × Tag))
    (s : PSt (S × Tag)) (hs : PInv c T s.cache) (hm : (c.useBr || c.useDs) = false ∨ n = 2 ^ d - 1) :
    ∃ x, (if (c.useBr || c.useDs) = true then pChildCached c UB s E e d n l.nodes else some (Front.empty, l.nodes)) = some x ∧
      ∀ s', PInv c T s'.cache → ChildPost c T E d l (pChild c UB E e d l.nodes x s') := by
  cases hc : (c.useBr || c.useDs) with
  | false =>
    refine ⟨(Front.empty, l.nodes), by simp, ?_⟩
    intro s' hs'
    unfold pChild
    rw [if_pos (show (Front.empty : Front (S × Tag)).isNil = true from rfl)]
    exact childSolve_pspec G hE hin hl ho UB s' hs' (.inl ⟨hc, rfl⟩)
  | true =>
    have hn : n = 2 ^ d - 1 := hm.resolve_left (by rw [hc]; simp)
    have hpow : 2 ^ d = 2 * 2 ^ (d - 1) := by
      rw [← Nat.pow_succ']; congr 1; omega
    have hpos : 1 ≤ 2 ^ (d - 1) := Nat.one_le_two_pow
    have hlp : 2 ^ l.depth ≤ 2 ^ (d - 1) := Nat.pow_le_pow_right (by decide) hl.1
    have hlt := l.nodes_lt_pow
    have hdn := l.depth_le_nodes
    generalize hM : 2 ^ (d - 1) - 1 = M
    have e1 : min M (n - 1) = M := by omega
    have e2 : max l.nodes (n - 1 - M) = M := by omega
    have e3 : M + 1 - M = 1 := by omega
    simp only [if_true]
    unfold pChildCached
    simp only [hM, e1, e2, e3, Nat.lt_irrefl, if_false]
    refine ⟨_, rfl, ?_⟩
    intro s' hs'
    have e4 : List.range' M 1 = [M] := rfl
    rw [e4, pChildLookup]
    have hF : ∀ F, (if M = 0 then (pSolveLeaf c E e.length UB).1 else s.cache.retrieveOpt c E e (min (d - 1) M) M) = F →
        F.isNil = false → FReal c E (min (d - 1) M) M F ∧ PCov c.T.o.dom F (c.T.eval l E) := by
      intro F h1 hne
      by_cases h0 : M = 0
      · rw [if_pos h0] at h1
        subst h1
        obtain ⟨a1, a2⟩ := solveLeaf_pspec G hE (min (d - 1) M) M UB
        refine ⟨a1.real, ?_⟩
        cases l with
        | leaf k =>
          have := a2 k hl.2.2.1
          rwa [hE.cmp_inner hin] at this
        | node f a b => simp only [Tree.nodes] at hlt; omega
      · rw [if_neg h0] at h1
        subst h1
        obtain ⟨a1, a2⟩ := retrieveOpt_pspec hs hE hne
        refine ⟨a1, ?_⟩
        have := a2 l ⟨by have := hl.1; omega, by omega, hl.2.2⟩ ho
        rwa [hE.cmp_inner hin] at this
    generalize (if M = 0 then (pSolveLeaf c E e.length UB).1 else s.cache.retrieveOpt c E e (min (d - 1) M) M) = F at hF
    cases hnil : F.isNil with
    | true =>
      simp only [if_true, pChildLookup, Option.getD_none]
      unfold pChild
      rw [if_pos (show ((Front.empty : Front (S × Tag)).filterNodes M).isNil = true from rfl)]
      exact childSolve_pspec G hE hin hl ho UB s' hs' (.inr ⟨by simp only; omega, hc⟩)
    | false =>
      simp only [Bool.false_eq_true, if_false, Option.getD_some]
      obtain ⟨a1, a2⟩ := hF F rfl hnil
      have a3 := a1.filter_cov (Nat.le_refl M) a2
      unfold pChild
      rw [if_neg (by rw [a3.nonnil]; simp)]
      refine ⟨hs', ?_, ?_, ?_, a3, ?_⟩
      · simp only; omega
      · right
        simp only
        have : 2 ^ min (min (d - 1) M) M ≤ 2 ^ (d - 1) := Nat.pow_le_pow_right (by decide) (by omega)
        omega
      · intro m hm'
        exact a1.fit (by omega) (Nat.le_refl _) m (mem_filterNodes.1 hm').1
      · intro h; rw [hc] at h; simp at h

end Good

section Build
variable {c : PCfg (S × Tag)} {T0 : PTask S} {T : Data} (G : PTreeGood c T0 T)
include G

/-- The tree constructed for a value that no tree of the budget improves has that value and lies within the budget. -/
theorem construct_pspec (w : S) (fuel : Nat) :
    ∀ (v : S × Tag) (D : Data) (b : Branch) (d n z : Nat) (s : PSt (S × Tag)), At c T D b → PInv c T s.cache → min d n < fuel →
      PMode c d n → PReal c D (min d n) (min n (2 ^ min d n - 1)) ⟨v, z⟩ → PMin c D (min d n) (min n (2 ^ min d n - 1)) v →
      PInv c T (pConstruct c w fuel v D b d n s).2.cache ∧ ∃ t, (pConstruct c w fuel v D b d n s).1 = some t ∧
        Allowed c.T.prob c.mls (min d n) (min n (2 ^ min d n - 1)) D t ∧ (c.T.eval t D).1 = v.1 := by
  induction fuel with
  | zero => intro v D b d n z s _ _ h; omega
  | succ fuel ih =>
    intro v D b d0 n0 z s ha hs hfuel hmode hreal hmin
    have hG := G.good
    rw [pConstruct]
    simp only [hG.noTerm, Bool.false_eq_true, and_false, false_and, if_false]
    have hmode' : (c.useBr || c.useDs) = false ∨ min n0 (2 ^ min d0 n0 - 1) = 2 ^ min d0 n0 - 1 := by
      rcases hmode with h | h
      · exact .inl h
      · right; omega
    generalize min d0 n0 = d at *
    generalize min n0 (2 ^ d - 1) = n at *
    obtain ⟨t0, h1, h2, h3, h4⟩ := hreal
    simp only at h2 h3 h4
    cases t0 with
    | leaf k =>
      have e : v = (T0.leaf D k, ⟨none, k, 0, 0⟩) := by rw [← h2, G.task]; rfl
      have hf : v.2.feat = none := by rw [e]
      have hk : v.2.label = k := by rw [e]
      simp only [hf]
      refine ⟨hs, .leaf k, by rw [hk], h1, by rw [h2]⟩
    | node f l r =>
      have hdep := h1.1
      have hnod := h1.2.1
      simp only [Tree.depth, Tree.nodes] at hdep hnod
      have hleg := h1.2.2
      have ev : v = c.T.comb f (c.T.eval l (without f D)) (c.T.eval r (having f D)) := h2.symm
      have nl' : (c.T.eval l (without f D)).2.numNodes = l.nodes := by rw [G.task]; exact tag_numNodes T0 l _
      have nr' : (c.T.eval r (having f D)).2.numNodes = r.nodes := by rw [G.task]; exact tag_numNodes T0 r _
      have hf : v.2.feat = some f := by rw [ev, G.task]; rfl
      have hnl : v.2.nl = l.nodes := by rw [← nl', ev, G.task]; rfl
      have hnr : v.2.nr = r.nodes := by rw [← nr', ev, G.task]; rfl
      simp only [hf, hnl, hnr]
      rw [if_neg (by omega)]
      have m0 : c.mls ≤ (without f D).length := hleg.2.2.1.length
      have m1 : c.mls ≤ (having f D).length := hleg.2.2.2.length
      obtain ⟨aL, iL⟩ := At.child hG ha f false m0 m1
      obtain ⟨aR, iR⟩ := At.child hG ha f true m0 m1
      simp only [Bool.false_eq_true, if_false] at aL
      simp only [if_true] at aR
      have vl : PVal c (without f D) (c.T.eval l (without f D)) := ⟨l, hleg.2.2.1, rfl⟩
      have vr : PVal c (having f D) (c.T.eval r (having f D)) := ⟨r, hleg.2.2.2, rfl⟩
      obtain ⟨o1, o2⟩ := hG.okSub D f _ _ ha.view vl vr (by rw [← ev]; exact h4)
      generalize c.T.put Front.empty ⟨(w, Tag.plain), 0⟩ = UB
      obtain ⟨x0, ex, hx⟩ := child_pspec hG aL iL (d := d) (n := n) (by omega) (l := l) ⟨by omega, by omega, hleg.2.2.1⟩ o1 UB s hs hmode'
      obtain ⟨y0, ey, hy⟩ := child_pspec hG aR iR (d := d) (n := n) (by omega) (l := r) ⟨by omega, by omega, hleg.2.2.2⟩ o2 UB s hs hmode'
      rw [ex, ey]
      simp only
      have px := hx s hs
      generalize pChild c UB (without f D) (b.child f false) d l.nodes x0 s = x at px
      have py := hy x.2 px.st
      generalize pChild c UB (having f D) (b.child f true) d r.nodes y0 x.2 = y at py
      -- budgets of the children
      generalize hdl : min x.1.2.1 x.1.2.2 = dl at *
      generalize hdr : min y.1.2.1 y.1.2.2 = dr at *
      have hxr := px.real
      have hyr := py.real
      have hxd := px.depth
      have hyd := py.depth
      have hxs := px.size
      have hys := py.size
      rw [hdl] at hxr hxd hxs
      rw [hdr] at hyr hyd hys
      generalize hzl : min x.1.2.2 (2 ^ dl - 1) = zl at *
      generalize hzr : min y.1.2.2 (2 ^ dr - 1) = zr at *
      -- a tree made of two trees of the children's budgets lies within the budget
      have fits : ∀ a b' : Tree, Allowed c.T.prob c.mls dl zl (without f D) a → Allowed c.T.prob c.mls dr zr (having f D) b' →
          Allowed c.T.prob c.mls d n D (.node f a b') := by
        intro a b' h5 h6
        refine ⟨?_, ?_, hleg.1, hleg.2.1, h5.2.2, h6.2.2⟩
        · have := h5.1; have := h6.1; simp only [Tree.depth]; omega
        · simp only [Tree.nodes]
          rcases hmode' with h | h
          · have := hxs h; have := hys h
            have := h5.2.1; have := h6.2.1
            omega
          · have p1 : 2 ^ a.depth ≤ 2 ^ (d - 1) := Nat.pow_le_pow_right (by decide) (by have := h5.1; omega)
            have p2 : 2 ^ b'.depth ≤ 2 ^ (d - 1) := Nat.pow_le_pow_right (by decide) (by have := h6.1; omega)
            have q1 := a.nodes_lt_pow
            have q2 := b'.nodes_lt_pow
            have hpow : 2 ^ d = 2 * 2 ^ (d - 1) := by
              rw [← Nat.pow_succ']; congr 1; omega
            omega
      have eqT : ∀ p q : S × Tag, c.T.o.eq v (c.T.add p q) = c.T.o.eq v (c.T.comb f p q) := by
        intro p q
        rw [G.task]
        simp only [PTask.tagged, G.add f]
      have combVal : ∀ {p q : S × Tag}, PVal c (without f D) p → PVal c (having f D) q → PVal c D (c.T.comb f p q) := by
        rintro p q ⟨t1, g1, e1⟩ ⟨t2, g2, e2⟩
        exact ⟨.node f t1 t2, ⟨hleg.1, hleg.2.1, g1, g2⟩, by simp only [PTask.eval]; rw [e1, e2]⟩
      have vv : PVal c D v := ⟨_, h1.2.2, h2⟩
      -- some pair has the value sought
      obtain ⟨a, ha1, ha2⟩ := px.cov
      obtain ⟨b', hb1, hb2⟩ := py.cov
      obtain ⟨ta, la, ea, _, oa⟩ := hxr a ha1
      obtain ⟨tb, lb, eb, _, ob⟩ := hyr b' hb1
      have va : PVal c (without f D) a.sol := ⟨ta, la.2.2, ea⟩
      have vb : PVal c (having f D) b'.sol := ⟨tb, lb.2.2, eb⟩
      have hdom : c.T.o.dom (c.T.comb f a.sol b'.sol) v = true := by
        rw [ev]; exact hG.combMono D f _ _ _ _ ha.view va vl vb vr ha2 hb2
      have evab : c.T.eval (.node f ta tb) D = c.T.comb f a.sol b'.sol := by
        simp only [PTask.eval]; rw [ea, eb]
      have hab : (c.T.comb f a.sol b'.sol).1 = v.1 := by
        have := hmin (.node f ta tb) (fits ta tb la lb)
          (by rw [evab]; exact hG.okMono D _ _ ha.view (combVal va vb) vv hdom h4) (by rw [evab]; exact hdom)
        rwa [evab] at this
      have hsome := firstPair_isSome (T := c.T) (v := v) (ls := x.1.1.sols.map fun m => (m.sol, ()))
        (rs := y.1.1.sols.map fun m => (m.sol, ())) (l := (a.sol, ())) (r := (b'.sol, ()))
        (List.mem_map.2 ⟨a, ha1, rfl⟩) (List.mem_map.2 ⟨b', hb1, rfl⟩)
        (by rw [eqT]; exact (G.eqv D _ _ ha.view vv (combVal va vb)).2 hab.symm)
      obtain ⟨p, hp⟩ := hsome
      rw [hp, Option.getD_some]
      obtain ⟨p1, p2, p3⟩ := firstPair_mem hp
      obtain ⟨m1', hm1, ep1⟩ := List.mem_map.1 p1
      obtain ⟨m2', hm2, ep2⟩ := List.mem_map.1 p2
      rw [← ep1, ← ep2] at p3 ⊢
      simp only at p3 ⊢
      obtain ⟨t1, l1, e1, s1, k1⟩ := hxr m1' hm1
      obtain ⟨t2, l2, e2, s2, k2⟩ := hyr m2' hm2
      have v1 : PVal c (without f D) m1'.sol := ⟨t1, l1.2.2, e1⟩
      have v2 : PVal c (having f D) m2'.sol := ⟨t2, l2.2.2, e2⟩
      have hsum : v.1 = (c.T.comb f m1'.sol m2'.sol).1 := by
        rw [eqT] at p3
        exact (G.eqv D _ _ ha.view vv (combVal v1 v2)).1 p3
      have comb1 : ∀ p q : S × Tag, (c.T.comb f p q).1 = T0.comb f p.1 q.1 := by intro p q; rw [G.task]; rfl
      have domv : ∀ q q' : S × Tag, q.1 = q'.1 → ∀ p, c.T.o.dom p q = c.T.o.dom p q' := by
        intro q q' hq p; rw [G.task]; simp only [PTask.tagged]; rw [hq]
      -- both parts are as good as possible
      have min1 : PMin c (without f D) dl zl m1'.sol := by
        intro t ht hto htd
        have hc := hG.combMono D f _ _ _ _ ha.view ⟨t, ht.2.2, rfl⟩ v1 v2 v2 htd ((hG.order _ aR.view).refl _ v2)
        rw [domv _ v hsum.symm] at hc
        have ee : c.T.eval (.node f t t2) D = c.T.comb f (c.T.eval t (without f D)) m2'.sol := by
          simp only [PTask.eval]; rw [e2]
        have h5 := hmin (.node f t t2) (fits t t2 ht l2)
          (by rw [ee]; exact hG.okMono D _ _ ha.view (combVal ⟨t, ht.2.2, rfl⟩ v2) vv hc h4) (by rw [ee]; exact hc)
        rw [ee, hsum, comb1, comb1] at h5
        exact G.cancelL f D _ _ _ ha.view ⟨t, ht.2.2, rfl⟩ v1 v2 h5
      have min2 : PMin c (having f D) dr zr m2'.sol := by
        intro t ht hto htd
        have hc := hG.combMono D f _ _ _ _ ha.view v1 v1 ⟨t, ht.2.2, rfl⟩ v2 ((hG.order _ aL.view).refl _ v1) htd
        rw [domv _ v hsum.symm] at hc
        have ee : c.T.eval (.node f t1 t) D = c.T.comb f m1'.sol (c.T.eval t (having f D)) := by
          simp only [PTask.eval]; rw [e1]
        have h5 := hmin (.node f t1 t) (fits t1 t l1 ht)
          (by rw [ee]; exact hG.okMono D _ _ ha.view (combVal v1 ⟨t, ht.2.2, rfl⟩) vv hc h4) (by rw [ee]; exact hc)
        rw [ee, hsum, comb1, comb1] at h5
        exact G.cancelR f D _ _ _ ha.view v1 ⟨t, ht.2.2, rfl⟩ v2 h5
      obtain ⟨i1, tl, i2, i3, i4⟩ := ih m1'.sol (without f D) (b.child f false) x.1.2.1 x.1.2.2 m1'.size y.2 aL py.st
        (by rw [hdl]; omega) px.mode (by rw [hdl, hzl]; exact hxr m1' hm1) (by rw [hdl, hzl]; exact min1)
      rw [hdl, hzl] at i3
      generalize pConstruct c w fuel m1'.sol (without f D) (b.child f false) x.1.2.1 x.1.2.2 y.2 = rl at *
      obtain ⟨j1, tr, j2, j3, j4⟩ := ih m2'.sol (having f D) (b.child f true) y.1.2.1 y.1.2.2 m2'.size rl.2 aR i1
        (by rw [hdr]; omega) py.mode (by rw [hdr, hzr]; exact hyr m2' hm2) (by rw [hdr, hzr]; exact min2)
      rw [hdr, hzr] at j3
      generalize pConstruct c w fuel m2'.sol (having f D) (b.child f true) y.1.2.1 y.1.2.2 rl.2 = rr at *
      refine ⟨j1, .node f tl tr, ?_, fits tl tr i3 j3, ?_⟩
      · rw [i2, j2]; rfl
      · simp only [PTask.eval]
        rw [comb1, i4, j4, hsum, comb1]

/-- The state after the search. -/
theorem pSolve_inv (hm : c.mls ≤ T.length) (md mn : Nat) (hp : mn + 1 ≤ 2 ^ md) (allTrees : Bool) :
    PInv c T (pSolve c md mn allTrees T).st.cache := by
  have hG := G.good
  have ha : At c T T [] := ⟨(sel_nil T).symm, by simp, hm⟩
  have hc : levelCmp c T T = c.T.domD0 := ha.cmp_root rfl
  have hl := solveLeaf_pspec hG ha md mn Front.empty
  rw [hc] at hl
  exact (runs_pspec hG hm md mn (pBudgets md mn allTrees) (fun p h => pBudgets_ok hp h)
    ⟨(pSolveLeaf c T 0 Front.empty).1, (pSolveLeaf c T 0 Front.empty).2, PSt.init⟩ ⟨PInv.init, hl.1⟩).1.st

omit G in
/-- The depth at which the construction starts. -/
theorem depthSearched_eq {md mn : Nat} (allTrees : Bool) : min (pDepthSearched md mn allTrees) mn = min md mn := by
  unfold pDepthSearched pBudgets
  split
  · rw [List.map_map]
    cases mn with
    | zero => simp
    | succ k =>
      rw [List.range'_concat]
      simp
      omega
  · simp only [List.map_map]
    have e : min md mn + 1 - min 2 (min md mn) = (min md mn - min 2 (min md mn)) + 1 := by omega
    rw [e, List.range'_concat]
    simp

/-- One tree for each value, within the limits and with that value. -/
theorem returned_values (hm : c.mls ≤ T.length) (w : S) (md mn : Nat) (hp : mn + 1 ≤ 2 ^ md) (allTrees : Bool)
    (hmode : (c.useBr || c.useDs) = false ∨ mn + 1 = 2 ^ md)
    (hreal : ∀ m ∈ (pSolve c md mn allTrees T).result.sols, PReal c T md mn m)
    (hmin : ∀ m ∈ (pSolve c md mn allTrees T).result.sols, PMin c T md mn m.sol) :
    List.Forall₂ (fun m x => ∃ t, x = some t ∧ Allowed c.T.prob c.mls md mn T t ∧ (c.T.eval t T).1 = m.sol.1)
      (pSolve c md mn allTrees T).result.sols (pReturned c w md mn allTrees T) := by
  have ha : At c T T [] := ⟨(sel_nil T).symm, by simp, hm⟩
  have hst := pSolve_inv G hm md mn hp allTrees
  have hd := depthSearched_eq (md := md) (mn := mn) allTrees
  have hn : min mn (2 ^ min md mn - 1) = mn := by
    rcases Nat.le_total md mn with h | h
    · rw [Nat.min_eq_left h]; omega
    · rw [Nat.min_eq_right h]
      have : mn < 2 ^ mn := Nat.lt_two_pow_self
      omega
  have hmode2 : PMode c (pDepthSearched md mn allTrees) mn := by
    unfold PMode
    rw [hd]
    rcases hmode with h | h
    · exact .inl h
    · right
      have : 2 ^ min md mn ≤ 2 ^ md := Nat.pow_le_pow_right (by decide) (Nat.min_le_left _ _)
      omega
  unfold pReturned
  simp only
  generalize (pSolve c md mn allTrees T).st = s at *
  generalize (pSolve c md mn allTrees T).result.sols = ms at *
  induction ms generalizing s with
  | nil => exact .nil
  | cons m ms ih =>
    rw [pConstructAll]
    have hr := hreal m (by simp)
    have hk := hmin m (by simp)
    obtain ⟨h1, t, h2, h3, h4⟩ := construct_pspec G w (pDepthSearched md mn allTrees + 1) m.sol T [] (pDepthSearched md mn allTrees) mn
      m.size s ha hst (by omega) hmode2
      (by
        rw [hd, hn]
        obtain ⟨t, a, b⟩ := hr
        exact ⟨t, ⟨by have := t.depth_le_nodes; have := a.1; have := a.2.1; omega, a.2⟩, b⟩)
      (by
        rw [hd, hn]
        intro t a
        exact hk t ⟨by have := a.1; omega, a.2⟩)
    rw [hd, hn] at h3
    refine .cons ⟨t, h2, ⟨by have := h3.1; omega, h3.2⟩, h4⟩ ?_
    exact ih _ h1 (fun m hm => hreal m (by simp [hm])) (fun m hm => hmin m (by simp [hm]))

end Build

/-! ### Values with and without the other fields -/

/-- The search with values that carry the other fields of their node. -/
def PCfg.tag (c : PCfg S) : PCfg (S × Tag) where
  T := c.T.tagged
  mls := c.mls
  useLB := c.useLB
  useUB := c.useUB
  subUB := c.subUB
  simLB := c.simLB
  useTerm := c.useTerm
  useBr := c.useBr
  useDs := c.useDs
  order := c.order
  redundant := c.redundant

theorem PVal.untag {c : PCfg S} {D : Data} {x : S × Tag} (h : PVal c.tag D x) : PVal c D x.1 := by
  obtain ⟨t, h1, rfl⟩ := h
  exact ⟨t, h1, (tagged_eval c.T t D).symm⟩

theorem PGood.tag {c : PCfg S} {T : Data} (G : PGood c T) : PGood c.tag T where
  order D hD := ⟨fun a ha => (G.order D hD).refl a.1 ha.untag,
    fun a b e ha hb he => (G.order D hD).trans a.1 b.1 e.1 ha.untag hb.untag he.untag,
    fun a b ha hb => (G.order D hD).key a.1 b.1 ha.untag hb.untag⟩
  order0 := ⟨fun a ha => G.order0.refl a.1 ha.untag,
    fun a b e ha hb he => G.order0.trans a.1 b.1 e.1 ha.untag hb.untag he.untag,
    fun a b ha hb => G.order0.key a.1 b.1 ha.untag hb.untag⟩
  combMono D f a a' b b' hD h1 h2 h3 h4 := G.combMono D f a.1 a'.1 b.1 b'.1 hD h1.untag h2.untag h3.untag h4.untag
  best D a b hD ha hb := G.best D a.1 b.1 hD ha.untag hb.untag
  weaker a b ha hb := G.weaker a.1 b.1 ha.untag hb.untag
  okSub D f a b hD ha hb := G.okSub D f a.1 b.1 hD ha.untag hb.untag
  okMono D a b hD ha hb := G.okMono D a.1 b.1 hD ha.untag hb.untag
  okLeaf D k := G.okLeaf D k
  labels := G.labels
  mls := G.mls
  noUB := G.noUB
  noLB := G.noLB
  noTerm := G.noTerm
  feats := G.feats
  red := G.red
  sorted := G.sorted

/-- The tree returned by a search that ends with one value. -/
theorem returned_best {c : PCfg S} {T : Data} (G : PGood c T)
    (heq : ∀ D a b, ViewOf T D → PVal c D a → PVal c D b → (c.T.o.eq a b = true ↔ a = b))
    (hadd : ∀ f a b, c.T.add a b = c.T.comb f a b)
    (hcL : ∀ f D a a' b, ViewOf T D → PVal c (without f D) a → PVal c (without f D) a' → PVal c (having f D) b →
      c.T.comb f a b = c.T.comb f a' b → a = a')
    (hcR : ∀ f D a b b', ViewOf T D → PVal c (without f D) a → PVal c (having f D) b → PVal c (having f D) b' →
      c.T.comb f a b = c.T.comb f a b' → b = b')
    (htot : ∀ a b, PVal c T a → PVal c T b → c.T.domD0 a b = true ∨ c.T.domD0 b a = true)
    (hm : c.mls ≤ T.length) (w : S) (md mn : Nat) (hp : mn + 1 ≤ 2 ^ md) (allTrees : Bool)
    (hmode : (c.useBr || c.useDs) = false ∨ mn + 1 = 2 ^ md)
    (hmin : ∀ v, (∃ t, Allowed c.T.prob c.mls md mn T t ∧ c.T.eval t T = v ∧ c.T.ok v = true) →
      (∀ t, Allowed c.T.prob c.mls md mn T t → c.T.ok (c.T.eval t T) = true → c.T.domD0 v (c.T.eval t T) = true) →
      ∀ t, Allowed c.T.prob c.mls md mn T t → c.T.ok (c.T.eval t T) = true → c.T.o.dom (c.T.eval t T) v = true → c.T.eval t T = v) :
    ∃ t, pReturned c.tag w md mn allTrees T = [some t] ∧ Allowed c.T.prob c.mls md mn T t ∧ c.T.ok (c.T.eval t T) = true ∧
      ∀ t', Allowed c.T.prob c.mls md mn T t' → c.T.ok (c.T.eval t' T) = true →
        c.T.domD0 (c.T.eval t T) (c.T.eval t' T) = true := by
  have ev : ∀ (t : Tree) (D : Data), (c.tag.T.eval t D).1 = c.T.eval t D := fun t D => tagged_eval c.T t D
  have hok : ∀ x : S × Tag, c.tag.T.ok x = c.T.ok x.1 := fun _ => rfl
  have hd0 : ∀ x y : S × Tag, c.tag.T.domD0 x y = c.T.domD0 x.1 y.1 := fun _ _ => rfl
  have GT : PTreeGood c.tag c.T T := ⟨rfl, G.tag, fun D a b hD ha hb => heq D a.1 b.1 hD ha.untag hb.untag, hadd,
    fun f D a a' b hD h1 h2 h3 => hcL f D a.1 a'.1 b.1 hD h1.untag h2.untag h3.untag,
    fun f D a b b' hD h1 h2 h3 => hcR f D a.1 b.1 b'.1 hD h1.untag h2.untag h3.untag⟩
  obtain ⟨m, e, hr, hb⟩ := pSolve_best G.tag (fun a b ha hb => htot a.1 b.1 ha.untag hb.untag) hm md mn hp allTrees
  have hv := returned_values GT hm w md mn hp allTrees hmode (by rw [e]; simpa using hr) (by
    rw [e]
    intro m' hm'
    rw [List.mem_singleton.1 hm']
    intro t ht ho hd
    rw [hok, ev] at ho
    have hd : c.T.o.dom (c.tag.T.eval t T).1 m.sol.1 = true := hd
    rw [ev] at hd ⊢
    obtain ⟨t0, h1, h2, _, h4⟩ := hr
    refine hmin m.sol.1 ⟨t0, h1, by rw [← ev, h2], h4⟩ ?_ t ht ho hd
    intro t' ht' ho'
    have := hb t' ht' (by rw [hok, ev]; exact ho')
    rwa [hd0, ev] at this)
  rw [e] at hv
  generalize pReturned c.tag w md mn allTrees T = r at hv
  cases hv with
  | cons h1 h2 =>
    cases h2
    obtain ⟨t, rfl, h3, h4⟩ := h1
    rw [ev] at h4
    refine ⟨t, rfl, h3, ?_, ?_⟩
    · obtain ⟨_, _, _, _, h5⟩ := hr
      rw [h4]; exact h5
    · intro t' ht' ho'
      have := hb t' ht' (by rw [hok, ev]; exact ho')
      rwa [hd0, ev, ← h4] at this

end Streed
