import Verif.Model.ClfDraw
import Verif.Props.ClfEst
import Verif.Props.Colours

/-!
# C109: graphs of a classifier over calls of `fit` and `export_dot`
-/

namespace Streed

variable {tests : Column → List (Rat → Bool)} {cuts : Column → List Rat}

/-- The labels of the leaves from left to right. -/
def Tree.leafSeq : Tree → List Nat
  | .leaf k => [k]
  | .node _ l r => l.leafSeq ++ r.leafSeq

/-- What `export_dot` should draw for a tree with `n` classes: every leaf in the colour of its label among `n` colours. -/
def IsDrawing (n : Nat) (t : Tree) (cs : List Colour) : Prop :=
  ∃ pal, colorBrew n = some pal ∧ cs.map some = t.leafSeq.map fun k => pal[k]?

namespace Draw

/-- Drawing with a list of colours. -/
theorem draw_kept {n w : Nat} {pal : List Colour} (t : Tree) (kept : Option (List Colour)) (hk : kept.or (colorBrew n) = some pal)
    (hw : t.testsBelow w = true) :
    (∀ cs, (drawLeaves n w t kept).2 = some cs ↔ cs.map some = t.leafSeq.map fun k => pal[k]?) ∧ (drawLeaves n w t kept).1 = some pal := by
  induction t generalizing kept with
  | leaf k =>
    unfold drawLeaves
    rw [hk]
    refine ⟨fun cs => ?_, rfl⟩
    show (pal[k]?.map fun c => [c]) = some cs ↔ cs.map some = [pal[k]?]
    cases pal[k]? with
    | none =>
      refine ⟨fun h => by simp at h, fun h => ?_⟩
      cases cs with
      | nil => simp at h
      | cons a l => simp at h
    | some c =>
      constructor
      · intro h
        rw [← Option.some.inj h]; rfl
      · intro h
        cases cs with
        | nil => simp at h
        | cons a l =>
          simp only [List.map_cons, List.cons.injEq, Option.some.injEq, List.map_eq_nil_iff] at h
          rw [h.1, h.2]; rfl
  | node f l r ihl ihr =>
    simp only [Tree.testsBelow, Bool.and_eq_true, decide_eq_true_eq] at hw
    obtain ⟨hl, hl'⟩ := ihl kept hk hw.1.2
    obtain ⟨hr, hr'⟩ := ihr (some pal) rfl hw.2
    unfold drawLeaves
    rw [if_pos hw.1.1]
    cases el : drawLeaves n w l kept with
    | mk k1 a =>
      rw [el] at hl hl'
      dsimp only at hl hl'
      subst hl'
      cases a with
      | none =>
        refine ⟨fun cs => ⟨fun h => by simp at h, fun h => ?_⟩, rfl⟩
        exfalso
        rw [Tree.leafSeq, List.map_append] at h
        obtain ⟨c1, c2, -, h1, -⟩ := List.map_eq_append_iff.1 h
        have := (hl c1).2 h1
        simp at this
      | some a =>
        dsimp only
        have ha := (hl a).1 rfl
        cases er : drawLeaves n w r (some pal) with
        | mk k2 b =>
          rw [er] at hr hr'
          dsimp only at hr hr'
          subst hr'
          cases b with
          | none =>
            refine ⟨fun cs => ⟨fun h => by simp at h, fun h => ?_⟩, rfl⟩
            exfalso
            rw [Tree.leafSeq, List.map_append] at h
            obtain ⟨c1, c2, -, -, h2⟩ := List.map_eq_append_iff.1 h
            have := (hr c2).2 h2
            simp at this
          | some b =>
            have hb := (hr b).1 rfl
            refine ⟨fun cs => ?_, rfl⟩
            dsimp only
            rw [Tree.leafSeq, List.map_append, ← ha, ← hb, ← List.map_append, Option.some.injEq]
            constructor
            · rintro rfl; rfl
            · intro h
              exact (List.map_injective_iff.2 (Option.some_injective _) h).symm

theorem seq_some (pal : List Colour) (ks : List Nat) : (∃ cs : List Colour, cs.map some = ks.map fun k => pal[k]?) ↔ ∀ k ∈ ks, k < pal.length := by
  induction ks with
  | nil => exact ⟨fun _ => by simp, fun _ => ⟨[], rfl⟩⟩
  | cons k ks ih =>
    constructor
    · rintro ⟨cs, h⟩
      cases cs with
      | nil => simp at h
      | cons c cs =>
        rw [List.map_cons, List.map_cons, List.cons.injEq] at h
        have := ih.1 ⟨cs, h.2⟩
        intro j hj
        rcases List.mem_cons.1 hj with rfl | hj
        · exact (List.getElem?_eq_some_iff.1 h.1.symm).1
        · exact this j hj
    · intro h
      obtain ⟨cs, hc⟩ := ih.2 fun j hj => h j (List.mem_cons_of_mem _ hj)
      have hk : k < pal.length := h k (by simp)
      exact ⟨pal[k] :: cs, by rw [List.map_cons, List.map_cons, hc, List.getElem?_eq_getElem hk]⟩

theorem drawn_kept (n w : Nat) (t : Tree) (pal : List Colour) : (drawLeaves n w t (some pal)).1 = some pal := by
  induction t with
  | leaf k => rfl
  | node f l r ihl ihr =>
    unfold drawLeaves
    split
    · cases el : drawLeaves n w l (some pal) with
      | mk k1 a =>
        rw [el] at ihl
        dsimp only at ihl
        subst ihl
        cases a with
        | none => rfl
        | some a =>
          dsimp only
          cases er : drawLeaves n w r (some pal) with
          | mk k2 b =>
            rw [er] at ihr
            dsimp only at ihr
            subst ihr
            cases b <;> rfl
    · rfl

theorem drawn_new (n w : Nat) (t : Tree) : (drawLeaves n w t none).1 = none ∨ (drawLeaves n w t none).1 = colorBrew n := by
  induction t with
  | leaf k =>
    unfold drawLeaves
    rw [Option.none_or]
    cases colorBrew n with
    | none => exact .inl rfl
    | some cs => exact .inr rfl
  | node f l r ihl ihr =>
    unfold drawLeaves
    split
    · cases el : drawLeaves n w l none with
      | mk k1 a =>
        rw [el] at ihl
        dsimp only at ihl
        cases a with
        | none => exact ihl
        | some a =>
          dsimp only
          have hr : (drawLeaves n w r k1).1 = none ∨ (drawLeaves n w r k1).1 = colorBrew n := by
            cases k1 with
            | none => exact ihr
            | some pal =>
              rw [drawn_kept]
              exact ihl
          cases er : drawLeaves n w r k1 with
          | mk k2 b =>
            rw [er] at hr
            cases b <;> exact hr
    · exact .inl rfl

theorem drawn_same {n : Nat} {pal : List Colour} (hb : colorBrew n = some pal) (w : Nat) (t : Tree) :
    (drawLeaves n w t none).2 = (drawLeaves n w t (some pal)).2 := by
  induction t with
  | leaf k => unfold drawLeaves; rw [hb]; rfl
  | node f l r ihl ihr =>
    have hk := drawn_kept n w l pal
    have hn := drawn_new n w l
    unfold drawLeaves
    split
    · cases el : drawLeaves n w l none with
      | mk k1 a =>
        cases el' : drawLeaves n w l (some pal) with
        | mk k2 b =>
          rw [el, el'] at ihl
          rw [el'] at hk
          rw [el, hb] at hn
          dsimp only at ihl hk hn
          subst ihl hk
          cases a with
          | none => rfl
          | some a =>
            dsimp only
            have : (drawLeaves n w r k1).2 = (drawLeaves n w r (some pal)).2 := by
              rcases hn with rfl | rfl
              · exact ihr
              · rfl
            cases e1 : drawLeaves n w r k1 with
            | mk _ b1 =>
              cases e2 : drawLeaves n w r (some pal) with
              | mk _ b2 =>
                rw [e1, e2] at this
                dsimp only at this
                subst this
                cases b1 <;> rfl
    · rfl

theorem drawn_again (n w : Nat) (t : Tree) (kept : Option (List Colour)) :
    (drawLeaves n w t (drawLeaves n w t kept).1).2 = (drawLeaves n w t kept).2 := by
  cases kept with
  | some pal => rw [drawn_kept]
  | none =>
    rcases drawn_new n w t with h | h
    · rw [h]
    · rw [h]
      cases hb : colorBrew n with
      | none => rfl
      | some pal => exact (drawn_same hb w t).symm

theorem calls_snoc (e : DrawEst) (cs : List DrawCall) (c : DrawCall) : e.calls tests cuts (cs ++ [c]) = match c with
    | .fit c => ((e.calls tests cuts cs).fit tests cuts c).1
    | .export => (e.calls tests cuts cs).export.1 := by
  unfold DrawEst.calls; rw [List.foldl_append]; cases c <;> rfl

end Draw

/-- Once colours are kept, no call changes them. -/
theorem colours_never_renewed (e : DrawEst) (pal : List Colour) (h : e.colours = some pal) (cs : List DrawCall) :
    (e.calls tests cuts cs).colours = some pal := by
  induction cs using List.reverseRecOn with
  | nil => exact h
  | append_singleton cs c ih =>
    rw [Draw.calls_snoc]
    cases c with
    | fit c => exact ih
    | «export» =>
      dsimp only
      unfold DrawEst.export
      split
      · exact ih
      · split
        · dsimp only; rw [ih, Draw.drawn_kept]
        · exact ih

/-- Drawing again gives the same graph, or the same exception, and changes nothing but the kept colours. -/
theorem draw_again (e : DrawEst) (m : Nat) :
    (e.calls tests cuts (List.replicate m .export)).export.2 = e.export.2 ∧ (e.calls tests cuts (List.replicate m .export)).clf = e.clf := by
  have one : ∀ e : DrawEst, e.export.1.export.2 = e.export.2 ∧ e.export.1.clf = e.clf := by
    intro e
    unfold DrawEst.export
    cases ht : e.clf.base.tree with
    | none => dsimp only; rw [ht]; exact ⟨rfl, rfl⟩
    | some t =>
      dsimp only
      cases hn : e.clf.nC with
      | none => dsimp only; rw [ht]; dsimp only; rw [hn]; exact ⟨rfl, rfl⟩
      | some n =>
        cases hT : e.clf.train with
        | none => dsimp only; rw [ht]; dsimp only; rw [hn, hT]; exact ⟨rfl, rfl⟩
        | some T =>
          dsimp only
          rw [ht]
          dsimp only
          rw [hn, hT]
          dsimp only
          rw [Draw.drawn_again]
          exact ⟨rfl, rfl⟩
  induction m with
  | zero => exact ⟨rfl, rfl⟩
  | succ m ih =>
    rw [List.replicate_succ', Draw.calls_snoc]
    dsimp only
    obtain ⟨h1, h2⟩ := one (e.calls tests cuts (List.replicate m .export))
    exact ⟨h1.trans ih.1, h2.trans ih.2⟩

/-- Exact behaviour after a call of `fit` that found tree `t`, with kept colours: a graph is written exactly if there is a kept colour for every
leaf, whatever the number of classes now is. -/
theorem draw_kept_iff (e : DrawEst) (c : ClfStep) (F : FittedBin) (t : Tree) (T : Nat × List (IntRow × Nat)) (pal : List Colour)
    (h : (e.fit tests cuts c).2 = .fitted F t) (hT : c.rows tests cuts = some T) (ht : t.testsBelow T.1 = true) (hp : e.colours = some pal) :
    (∀ cs, (e.fit tests cuts c).1.export.2 = .graph cs ↔ cs.map some = t.leafSeq.map fun k => pal[k]?) ∧
    ((e.fit tests cuts c).1.export.2 = .raises ↔ ∃ k ∈ t.leafSeq, pal.length ≤ k) := by
  have h' : (e.clf.fit tests cuts c).2 = .fitted F t := h
  obtain ⟨-, -, T', h3, h4⟩ := ClfEst.fit_fitted h'
  rw [hT] at h3
  obtain rfl := Option.some.inj h3
  have e1 : (e.fit tests cuts c).1 = ⟨(e.clf.fit tests cuts c).1, e.colours⟩ := rfl
  rw [e1, h4, hp]
  have hd := (Draw.draw_kept (n := c.y.dedup.length) t (some pal) rfl ht).1
  have hs := Draw.seq_some pal t.leafSeq
  unfold DrawEst.export
  dsimp only
  cases hr : (drawLeaves c.y.dedup.length T.1 t (some pal)).2 with
  | none =>
    rw [hr] at hd
    have hn : ¬ ∃ cs : List Colour, cs.map some = t.leafSeq.map fun k => pal[k]? := by
      rintro ⟨cs, hc⟩
      have := (hd cs).2 hc
      simp at this
    refine ⟨fun cs => ⟨fun h => DrawAnswer.noConfusion h, fun h => absurd ⟨cs, h⟩ hn⟩, fun _ => ?_, fun _ => rfl⟩
    rw [hs] at hn
    by_contra hc
    exact hn fun k hk => by
      by_contra hk'
      exact hc ⟨k, hk, by omega⟩
  | some a =>
    rw [hr] at hd
    refine ⟨fun cs => ?_, fun h => DrawAnswer.noConfusion h, ?_⟩
    · rw [← hd cs]
      constructor
      · intro h; injection h with h; rw [h]
      · intro h; rw [Option.some.inj h]
    · rintro ⟨k, hk, hl⟩
      have := hs.1 ⟨a, (hd a).1 rfl⟩ k hk
      omega

/-- The first graph, after a call of `fit` that found tree `t`: it is the drawing of the tree with the colours for the number of different labels,
and is written exactly if the labels of the leaves are below that number. -/
theorem draw_first (e : DrawEst) (c : ClfStep) (F : FittedBin) (t : Tree) (T : Nat × List (IntRow × Nat))
    (h : (e.fit tests cuts c).2 = .fitted F t) (hT : c.rows tests cuts = some T) (ht : t.testsBelow T.1 = true) (hp : e.colours = none)
    (hy : c.y ≠ []) :
    (∀ cs, (e.fit tests cuts c).1.export.2 = .graph cs ↔ IsDrawing c.y.dedup.length t cs) ∧
    ((e.fit tests cuts c).1.export.2 = .raises ↔ ∃ k ∈ t.leafSeq, c.y.dedup.length ≤ k) := by
  have hpos : 0 < c.y.dedup.length := by
    rw [List.length_pos_iff]; intro hd; exact hy ((List.dedup_eq_nil _).1 hd)
  obtain ⟨pal, hb, hlen, -⟩ := brew_ok hpos
  -- the same answer as with these colours kept
  have key := draw_kept_iff (tests := tests) (cuts := cuts) ⟨e.clf, some pal⟩ c F t T pal h hT ht rfl
  have h' : (e.clf.fit tests cuts c).2 = .fitted F t := h
  obtain ⟨-, -, T', h3, h4⟩ := ClfEst.fit_fitted h'
  rw [hT] at h3
  obtain rfl := Option.some.inj h3
  have same : (e.fit tests cuts c).1.export.2 = ((⟨e.clf, some pal⟩ : DrawEst).fit tests cuts c).1.export.2 := by
    have e1 : (e.fit tests cuts c).1 = ⟨(e.clf.fit tests cuts c).1, e.colours⟩ := rfl
    have e2 : ((⟨e.clf, some pal⟩ : DrawEst).fit tests cuts c).1 = ⟨(e.clf.fit tests cuts c).1, some pal⟩ := rfl
    rw [e1, e2, h4, hp]
    unfold DrawEst.export
    dsimp only
    have d1 := (Draw.draw_kept (n := c.y.dedup.length) t none (by rw [Option.none_or, hb]) ht).1
    have d2 := (Draw.draw_kept (n := c.y.dedup.length) t (some pal) rfl ht).1
    have : (drawLeaves c.y.dedup.length T.1 t none).2 = (drawLeaves c.y.dedup.length T.1 t (some pal)).2 :=
      Option.ext fun cs => (d1 cs).trans (d2 cs).symm
    rw [this]
  rw [same, ← hlen]
  refine ⟨fun cs => (key.1 cs).trans ⟨fun h => ⟨pal, by rw [hlen]; exact hb, h⟩, ?_⟩, key.2⟩
  rintro ⟨pal', hb', h⟩
  rw [hlen, hb] at hb'
  obtain rfl := Option.some.inj hb'
  exact h

/-- All calls of `fit` have labels of `n` classes. -/
def SameClasses (n : Nat) (cs : List DrawCall) : Prop := ∀ c, DrawCall.fit c ∈ cs → c.y.dedup.length = n

theorem kept_same {n : Nat} (cs : List DrawCall) (h : SameClasses n cs) :
    ((DrawEst.init.calls tests cuts cs).colours = none ∨ (DrawEst.init.calls tests cuts cs).colours = colorBrew n) ∧
    ((DrawEst.init.calls tests cuts cs).clf.nC = none ∨ (DrawEst.init.calls tests cuts cs).clf.nC = some n) := by
  induction cs using List.reverseRecOn with
  | nil => exact ⟨.inl rfl, .inl rfl⟩
  | append_singleton cs c ih =>
    obtain ⟨i1, i2⟩ := ih fun c hc => h c (List.mem_append_left _ hc)
    rw [Draw.calls_snoc]
    cases c with
    | fit c =>
      refine ⟨i1, .inr ?_⟩
      show some c.y.dedup.length = some n
      rw [h c (by simp)]
    | «export» =>
      dsimp only
      unfold DrawEst.export
      split
      · exact ⟨i1, i2⟩
      · split
        · rename_i m T hm hT
          refine ⟨?_, i2⟩
          rw [hm] at i2
          have hn : m = n := by
            rcases i2 with i2 | i2
            · cases i2
            · exact Option.some.inj i2
          subst hn
          dsimp only
          cases hk : (DrawEst.init.calls tests cuts cs).colours with
          | none => exact Draw.drawn_new ..
          | some pal =>
            rw [hk] at i1
            rw [Draw.drawn_kept]
            exact i1
        · exact ⟨i1, i2⟩

/-- **C109** for sequences of calls with labels of the same number of classes, numbered from 0: whatever was fitted and drawn before, a
graph is written and is that of a new classifier. Missing: other numbers of classes (`draw_more_classes_raises`, `draw_depends_on_history`) and gaps
in the labels (`draw_gap_raises`). -/
theorem draw_same_classes_partial {n : Nat} (hist : List DrawCall) (c : ClfStep) (F : FittedBin) (t : Tree) (T : Nat × List (IntRow × Nat))
    (hs : SameClasses n hist) (hc : c.y.dedup.length = n) (hn : 0 < n)
    (h : ((DrawEst.init.calls tests cuts hist).fit tests cuts c).2 = .fitted F t) (hT : c.rows tests cuts = some T)
    (ht : t.testsBelow T.1 = true) (hl : ∀ k ∈ t.leafSeq, k < n) :
    ∃ cs, (DrawEst.init.calls tests cuts (hist ++ [.fit c])).export.2 = .graph cs ∧ IsDrawing n t cs := by
  rw [Draw.calls_snoc]
  dsimp only
  obtain ⟨pal, hb, hlen, -⟩ := brew_ok hn
  obtain ⟨cs, hcs⟩ := (Draw.seq_some pal t.leafSeq).2 fun k hk => by rw [hlen]; exact hl k hk
  refine ⟨cs, ?_, pal, hb, hcs⟩
  rcases (kept_same (tests := tests) (cuts := cuts) hist hs).1 with hk | hk
  · have hy : c.y ≠ [] := by rintro hy; rw [hy] at hc; simp at hc; omega
    refine ((draw_first _ c F t T h hT ht hk hy).1 cs).2 ⟨pal, by rw [hc]; exact hb, hcs⟩
  · rw [hb] at hk
    exact ((draw_kept_iff _ c F t T pal h hT ht hk).1 cs).2 hcs

/-- Leaves with different labels then have different colours, up to 360 classes. -/
theorem drawing_differs_partial {n : Nat} {t : Tree} {cs : List Colour} (h : IsDrawing n t cs) (hn : n ≤ 360) {i j k l : Nat}
    (hi : t.leafSeq[i]? = some k) (hj : t.leafSeq[j]? = some l) (hkl : k ≠ l) : cs[i]? ≠ cs[j]? := by
  obtain ⟨pal, hb, hc⟩ := h
  have hd := (brew_distinct_iff hb).2 hn
  have get : ∀ {i k : Nat}, t.leafSeq[i]? = some k → ∃ c, cs[i]? = some c ∧ pal[k]? = some c := by
    intro i k hi
    have := congrArg (fun l => l[i]?) hc
    simp only [List.getElem?_map, hi, Option.map_some] at this
    cases hcs : cs[i]? with
    | none => rw [hcs] at this; simp at this
    | some c =>
      rw [hcs] at this
      simp only [Option.map_some, Option.some.injEq] at this
      exact ⟨c, rfl, this.symm⟩
  obtain ⟨c, e1, e2⟩ := get hi
  obtain ⟨d, e3, e4⟩ := get hj
  rw [e1, e3]
  intro hcd
  obtain rfl := Option.some.inj hcd
  obtain ⟨hk, ek⟩ := List.getElem?_eq_some_iff.1 e2
  obtain ⟨hl, el⟩ := List.getElem?_eq_some_iff.1 e4
  exact hkl ((List.Nodup.getElem_inj_iff hd).1 (ek.trans el.symm))

/-! ### Where it fails -/

/-- With the binarisers of `estFit`. -/
def drawCalls (cs : List DrawCall) : DrawEst :=
  DrawEst.init.calls (fun c => [fun v => decide (v = c.vals.headD 0)]) (fun c => [c.vals.headD 0]) cs

/-- Three classes, of which two have a leaf. -/
def drawThree : ClfStep := ⟨[2, 0, 2, 1], { estGood with answer := some (.node 0 (.leaf 0) (.leaf 2)) }, false⟩

/-- Labels 0 and 2 only. -/
def drawGap : ClfStep := ⟨[2, 0, 2, 0], { estGood with answer := some (.node 0 (.leaf 0) (.leaf 2)) }, false⟩

set_option maxRecDepth 100000 in
/-- **C109**, violated: after a graph of a tree with two classes, the graph of a tree for three classes cannot be written, although a new classifier
writes it. -/
theorem draw_more_classes_raises : ∃ c d : ClfStep, (∃ cs, (drawCalls [.fit d]).export.2 = .graph cs) ∧
    (drawCalls [.fit c, .export, .fit d]).clf.base.predict [⟨0, true, [3, 5]⟩] 2 = (drawCalls [.fit d]).clf.base.predict [⟨0, true, [3, 5]⟩] 2 ∧
    (drawCalls [.fit c, .export, .fit d]).export.2 = .raises :=
  ⟨clfGood, drawThree, ⟨[(229, 129, 57), (129, 57, 229)], by decide +kernel⟩, by decide +kernel, by decide +kernel⟩

set_option maxRecDepth 100000 in
/-- **C109**, violated: with fewer classes than before, the colours are not those of a new classifier. -/
theorem draw_depends_on_history : ∃ c d : ClfStep, ∃ x y, x ≠ y ∧ (drawCalls [.fit d]).export.2 = .graph x ∧
    (drawCalls [.fit c, .export, .fit d]).export.2 = .graph y :=
  ⟨drawThree, clfGood, [(229, 129, 57), (57, 157, 229)], [(229, 129, 57), (57, 229, 129)], by decide, by decide +kernel, by decide +kernel⟩

set_option maxRecDepth 100000 in
/-- **C109**, violated: with a gap in the labels the graph cannot be written, although predictions are made. -/
theorem draw_gap_raises : ∃ c : ClfStep, (drawCalls [.fit c]).clf.base.predict [⟨0, true, [3, 5]⟩] 2 = .labels [2, 0] ∧
    (drawCalls [.fit c]).export.2 = .raises :=
  ⟨drawGap, by decide +kernel, by decide +kernel⟩

/-- The hypotheses are met: two fits of two classes with graphs in between. -/
example : SameClasses 2 [.fit clfGood, .export, .fit clfGood] ∧ clfGood.y.dedup.length = 2 ∧
    (Tree.node 0 (.leaf 0) (.leaf 1)).testsBelow 1 = true ∧ ∀ k ∈ (Tree.node 0 (.leaf 0) (.leaf 1)).leafSeq, k < 2 := by
  refine ⟨fun c hc => ?_, rfl, rfl, by decide⟩
  simp only [List.mem_cons, DrawCall.fit.injEq, reduceCtorEq, List.not_mem_nil, or_false, false_or, or_self] at hc
  rw [hc]; rfl

example : ∃ F t, ((drawCalls [.fit clfGood, .export]).fit (fun c => [fun v => decide (v = c.vals.headD 0)]) (fun c => [c.vals.headD 0]) clfGood).2 =
    .fitted F t := ⟨_, _, rfl⟩

end Streed
