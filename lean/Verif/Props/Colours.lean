import Verif.Model.Colours
import Verif.Props.CostVecs
import Mathlib.Tactic.Linarith
import Mathlib.Tactic.IntervalCases
import Mathlib.Algebra.Order.BigOperators.Group.List

/-!
# C106: colours in exported graphs
-/

namespace Streed

/-- The value of a lower-case hexadecimal digit. -/
def hexVal (c : Char) : Option Nat :=
  let l := "0123456789abcdef".toList
  if c ∈ l then some (l.idxOf c) else none

/-- How a colour of a graph is read: the sign `#` and two hexadecimal digits for each of red, green and blue. -/
def readColour : List Char → Option (Nat × Nat × Nat)
  | ['#', a, b, c, d, e, f] => do
    let a ← hexVal a; let b ← hexVal b; let c ← hexVal c; let d ← hexVal d; let e ← hexVal e; let f ← hexVal f
    pure (16 * a + b, 16 * c + d, 16 * e + f)
  | _ => none

namespace Col

/-- One component of the colour of an integer hue, with integers only. -/
def partNat (h : Nat) : Nat := (27 * (if h % 120 ≤ 60 then h % 120 else 120 - h % 120) + 540) * 17 / 160

/-- The colour of an integer hue, with integers only. -/
def colourNat (h : Nat) : Nat × Nat × Nat :=
  match h / 60 with
  | 0 => (229, partNat h, 57)
  | 1 => (partNat h, 229, 57)
  | 2 => (57, 229, partNat h)
  | 3 => (57, partNat h, 229)
  | 4 => (partNat h, 57, 229)
  | 5 => (229, 57, partNat h)
  | _ => (229, partNat h, 57)

/-- The hue of a colour. -/
def hueOf (c : Nat × Nat × Nat) : Nat := ((List.range 360).find? fun i => colourNat (25 + i) == c).getD 0

/-- All components lie between two numbers. -/
def Between (lo hi : Nat) (c : Nat × Nat × Nat) : Prop :=
  (lo ≤ c.1 ∧ c.1 ≤ hi) ∧ (lo ≤ c.2.1 ∧ c.2.1 ≤ hi) ∧ (lo ≤ c.2.2 ∧ c.2.2 ≤ hi)

instance (lo hi : Nat) (c : Nat × Nat × Nat) : Decidable (Between lo hi c) := by unfold Between; infer_instance

set_option maxRecDepth 100000 in
theorem hues_eq : ∀ i < 360, brewColour (25 + i) = some (colourNat (25 + i)) := by decide +kernel

set_option maxRecDepth 100000 in
theorem hues_between : ∀ i < 360, Between 57 229 (colourNat (25 + i)) := by decide +kernel

set_option maxRecDepth 100000 in
theorem hues_inj : ∀ i < 360, hueOf (colourNat (25 + i)) = i := by decide +kernel

theorem hue_lt {n k : Nat} (h : k < n) : 360 * k / n < 360 := by
  rw [Nat.div_lt_iff_lt_mul (by omega)]; omega

theorem brewHues_eq {n : Nat} (h : 0 < n) : brewHues n = (List.range n).map (brewHue n) := by
  unfold brewHues
  have hn : (n : Rat) ≠ 0 := by exact_mod_cast h.ne'
  have e : (385 - 25 : Rat) / (360 / n) = ((n : Int) : Rat) := by
    rw [div_div_eq_mul_div]; push_cast; norm_num
  rw [e, Int.ceil_intCast]; simp

theorem brew_eq {n : Nat} (h : 0 < n) : colorBrew n = some ((List.range n).map fun k => colourNat (brewHue n k)) := by
  unfold colorBrew
  rw [if_neg h.ne', brewHues_eq h]
  have : ∀ l : List Nat, (∀ k ∈ l, k < n) → (l.map (brewHue n)).mapM brewColour = some (l.map fun k => colourNat (brewHue n k)) := by
    intro l
    induction l with
    | nil => intro _; rfl
    | cons a l ih =>
      intro hl
      rw [List.map_cons, List.mapM_cons, ih fun k hk => hl k (by simp [hk])]
      have := hues_eq _ (hue_lt (hl a (by simp)))
      unfold brewHue at *
      rw [this]; rfl
  exact this _ fun k hk => List.mem_range.1 hk

set_option maxRecDepth 100000 in
theorem hex02_read : ∀ a < 256, ∃ x ∈ hex02 a, ∃ y ∈ hex02 a, hex02 a = [x, y] ∧ (do let p ← hexVal x; let q ← hexVal y; pure (16 * p + q)) = some a := by
  decide +kernel

set_option maxRecDepth 100000 in
theorem hexSpace_eq : ∀ a < 256, 16 ≤ a → hexSpace a = hex02 a := by decide +kernel

theorem read_fill {c : Nat × Nat × Nat} (h : c.1 < 256 ∧ c.2.1 < 256 ∧ c.2.2 < 256) : readColour (fillText c) = some c := by
  obtain ⟨a, b, d⟩ := c
  obtain ⟨x, _, y, _, e1, r1⟩ := hex02_read a h.1
  obtain ⟨z, _, w, _, e2, r2⟩ := hex02_read b h.2.1
  obtain ⟨u, _, v, _, e3, r3⟩ := hex02_read d h.2.2
  unfold fillText
  rw [e1, e2, e3]
  simp only [List.cons_append, List.nil_append, readColour]
  cases hx : hexVal x with
  | none => rw [hx] at r1; cases r1
  | some p =>
  cases hy : hexVal y with
  | none => rw [hx, hy] at r1; cases r1
  | some q =>
  cases hz : hexVal z with
  | none => rw [hz] at r2; cases r2
  | some p2 =>
  cases hw : hexVal w with
  | none => rw [hz, hw] at r2; cases r2
  | some q2 =>
  cases hu : hexVal u with
  | none => rw [hu] at r3; cases r3
  | some p3 =>
  cases hv : hexVal v with
  | none => rw [hu, hv] at r3; cases r3
  | some q3 =>
    rw [hx, hy] at r1; rw [hz, hw] at r2; rw [hu, hv] at r3
    simp only [Option.pure_def, Option.bind_eq_bind, Option.bind_some, Option.some.injEq] at r1 r2 r3 ⊢
    rw [r1, r2, r3]

theorem linePart_le (a : Nat) : linePart a ≤ a := by
  unfold linePart
  have h0 : (0 : Rat) ≤ a := by exact_mod_cast Nat.zero_le a
  have : ⌊(2 / 5 : Rat) * a⌋ ≤ (a : Int) := by
    have h1 := Int.floor_le ((2 / 5 : Rat) * a)
    have : ((⌊(2 / 5 : Rat) * a⌋ : Int) : Rat) ≤ ((a : Int) : Rat) := by push_cast; linarith
    exact_mod_cast this
  omega

theorem nearestEven_between {x : Rat} {lo hi : Int} (h1 : (lo : Rat) ≤ x) (h2 : x ≤ hi) : lo ≤ nearestEven x ∧ nearestEven x ≤ hi := by
  have hf : lo ≤ ⌊x⌋ := Int.le_floor.2 h1
  have hfx := Int.floor_le x
  have hg : ⌊x⌋ ≤ hi := by
    have : ((⌊x⌋ : Int) : Rat) ≤ hi := le_trans hfx h2
    exact_mod_cast this
  have up : ¬ x - ⌊x⌋ < 1 / 2 → ⌊x⌋ + 1 ≤ hi := by
    intro h
    by_contra hc
    have e : ⌊x⌋ = hi := by omega
    rw [e] at h
    apply h; linarith
  unfold nearestEven
  dsimp only
  split
  · exact ⟨hf, hg⟩
  · rename_i h
    have := up h
    split
    · omega
    · split <;> omega

theorem mix_between {alpha : Rat} (h0 : 0 ≤ alpha) (h1 : alpha ≤ 1) {c : Nat} (hc : 57 ≤ c ∧ c ≤ 229) :
    57 ≤ mixPart alpha c ∧ mixPart alpha c ≤ 255 := by
  have hc1 : (57 : Rat) ≤ c := by exact_mod_cast hc.1
  have hc2 : (c : Rat) ≤ 229 := by exact_mod_cast hc.2
  refine nearestEven_between (lo := 57) (hi := 255) ?_ ?_
  · push_cast; nlinarith
  · push_cast; nlinarith

theorem hexSpaceInt_eq {a : Int} (h : 57 ≤ a ∧ a ≤ 255) : hexSpaceInt a = hex02 a.toNat := by
  unfold hexSpaceInt
  rw [if_pos (by omega), hexSpace_eq _ (by omega) (by omega)]

/-- The two least of a list of at least two numbers. -/
theorem sorted_two (sums : List Rat) (h : 2 ≤ sums.length) : ∃ a b l, sums.insertionSort (· ≤ ·) = a :: b :: l ∧ a ≤ b ∧
    (∀ x ∈ sums, a ≤ x) ∧ a ∈ sums ∧ (∀ x ∈ l, b ≤ x) ∧ sums.sum = a + (b + l.sum) := by
  have hs := List.pairwise_insertionSort (α := Rat) (· ≤ ·) sums
  have hp := List.perm_insertionSort (α := Rat) (· ≤ ·) sums
  cases e : sums.insertionSort (· ≤ ·) with
  | nil => rw [e] at hp; have := hp.length_eq; simp at this; omega
  | cons a m =>
    cases m with
    | nil => rw [e] at hp; have := hp.length_eq; simp at this; omega
    | cons b l =>
      rw [e] at hs hp
      have h1 := (List.pairwise_cons.1 hs).1
      have h2 := (List.pairwise_cons.1 (List.pairwise_cons.1 hs).2).1
      refine ⟨a, b, l, rfl, h1 b (by simp), ?_, hp.mem_iff.1 (by simp), h2, ?_⟩
      · intro x hx
        rcases List.mem_cons.1 (hp.mem_iff.2 hx) with hx | hx
        · rw [hx]
        · exact h1 x hx
      · rw [← hp.sum_eq]; simp

theorem alpha_between {sums : List Rat} (h : 2 ≤ sums.length) {best : Nat} (hb : argminVec sums = some best) :
    ∃ alpha, branchAlpha best sums = some alpha ∧ 0 ≤ alpha ∧ alpha ≤ 1 := by
  obtain ⟨m, hm, hle⟩ := argminVec_least hb
  obtain ⟨a, b, l, e, hab, hal, ham, hbl, hsum⟩ := sorted_two sums h
  have hma : m = a := le_antisymm (hle a ham) (hal m (List.mem_of_getElem? hm))
  unfold branchAlpha
  rw [List.getD_eq_getElem?_getD, hm, e]
  simp only [Option.getD_some, List.getElem?_cons_zero, List.getElem?_cons_succ]
  by_cases c1 : m < 1 / 100 * sums.sum
  · exact ⟨0, by rw [if_pos c1], le_refl _, zero_le_one⟩
  · rw [if_neg c1]
    by_cases c2 : b < 1 / 100
    · exact ⟨0, by rw [if_pos c2], le_refl _, zero_le_one⟩
    · rw [if_neg c2]
      have hb0 : 0 < b := by have := not_lt.1 c2; linarith
      have hl : 0 ≤ l.sum := List.sum_nonneg fun x hx => le_trans hb0.le (hbl x hx)
      have ha : 0 ≤ a := by
        by_contra hc
        apply c1
        rw [hma, hsum]
        have := not_le.1 hc
        linarith
      refine ⟨_, rfl, div_nonneg (by linarith) hb0.le, ?_⟩
      rw [div_le_one hb0]; linarith

end Col

open Col

/-- Making colours for one or more classes never raises; there is one colour for each class, and no component is below 57 or above 229. -/
theorem brew_ok {n : Nat} (h : 0 < n) : ∃ cs, colorBrew n = some cs ∧ cs.length = n ∧ ∀ c ∈ cs, Between 57 229 c := by
  refine ⟨_, brew_eq h, by simp, fun c hc => ?_⟩
  obtain ⟨k, hk, rfl⟩ := List.mem_map.1 hc
  exact hues_between _ (hue_lt (List.mem_range.1 hk))

example : colorBrew 2 = some [(229, 129, 57), (57, 157, 229)] := by decide +kernel

/-- What a leaf of any class is drawn with is a colour: both texts are read as colours, and the fill colour is that of the class. -/
theorem leaf_colours_read {n : Nat} {cs : List (Nat × Nat × Nat)} (h : colorBrew n = some cs) {k : Nat} (hk : k < n) :
    ∃ c, cs[k]? = some c ∧ readColour (fillText c) = some c ∧ ∃ d, readColour (lineText c) = some d := by
  obtain ⟨cs', h', hl, hb⟩ := brew_ok (n := n) (by omega)
  rw [h] at h'
  obtain rfl := Option.some.inj h'
  have hk' : k < cs.length := by omega
  refine ⟨cs[k], List.getElem?_eq_getElem hk', ?_⟩
  obtain ⟨⟨_, h1⟩, ⟨_, h2⟩, _, h3⟩ := hb cs[k] (List.getElem_mem hk')
  refine ⟨read_fill ⟨by omega, by omega, by omega⟩, _, read_fill ⟨?_, ?_, ?_⟩⟩
  · have := linePart_le cs[k].1; dsimp only; omega
  · have := linePart_le cs[k].2.1; dsimp only; omega
  · have := linePart_le cs[k].2.2; dsimp only; omega

example : fillText (229, 129, 57) = "#e58139".toList ∧ lineText (229, 129, 57) = "#5b3316".toList := by decide +kernel

/-- The classes have different colours exactly if there are at most 360 of them. -/
theorem brew_distinct_iff {n : Nat} {cs : List (Nat × Nat × Nat)} (h : colorBrew n = some cs) : cs.Nodup ↔ n ≤ 360 := by
  have hn : 0 < n := by
    by_contra hc
    have : n = 0 := by omega
    subst this; simp [colorBrew] at h
  rw [brew_eq hn] at h
  obtain rfl := Option.some.inj h
  constructor
  · intro hd
    have hsub : ((List.range n).map fun k => colourNat (brewHue n k)) ⊆ (List.range 360).map fun i => colourNat (25 + i) := by
      intro c hc
      obtain ⟨k, hk, rfl⟩ := List.mem_map.1 hc
      exact List.mem_map.2 ⟨_, List.mem_range.2 (hue_lt (List.mem_range.1 hk)), rfl⟩
    have := (hd.subperm hsub).length_le
    simpa using this
  · intro hle
    refine (List.nodup_map_iff_inj_on List.nodup_range).2 fun a ha b hb hab => ?_
    have ha := List.mem_range.1 ha
    have hb := List.mem_range.1 hb
    have e := congrArg hueOf hab
    unfold brewHue at e
    rw [hues_inj _ (hue_lt ha), hues_inj _ (hue_lt hb)] at e
    have key : ∀ a b : Nat, a < b → 360 * a / n < 360 * b / n := by
      intro a b hab
      have : 360 * a + n ≤ 360 * b := by nlinarith
      have h1 : (360 * a + n) / n ≤ 360 * b / n := Nat.div_le_div_right this
      rw [Nat.add_div_right _ hn] at h1
      omega
    rcases Nat.lt_trichotomy a b with h | h | h
    · have := key a b h; omega
    · exact h
    · have := key b a h; omega

/-- So with at most 360 classes, leaves of two classes are drawn differently. Partial: not so for more classes, `many_classes_share`. -/
theorem leaf_colours_differ_partial {n : Nat} {cs : List (Nat × Nat × Nat)} (h : colorBrew n = some cs) (hn : n ≤ 360) {i j : Nat}
    {c d : Nat × Nat × Nat} (hi : cs[i]? = some c) (hj : cs[j]? = some d) (hij : i ≠ j) : fillText c ≠ fillText d := by
  intro hc
  have hd := (brew_distinct_iff h).2 hn
  obtain ⟨hi', ei⟩ := List.getElem?_eq_some_iff.1 hi
  obtain ⟨hj', ej⟩ := List.getElem?_eq_some_iff.1 hj
  have h0 : 0 < n := by
    by_contra hc
    have : n = 0 := by omega
    subst this; simp [colorBrew] at h
  obtain ⟨cs', h', hl, _⟩ := brew_ok h0
  rw [h] at h'
  obtain rfl := Option.some.inj h'
  obtain ⟨c', e1, r1, _⟩ := leaf_colours_read h (k := i) (by omega)
  obtain ⟨d', e2, r2, _⟩ := leaf_colours_read h (k := j) (by omega)
  rw [hi] at e1; rw [hj] at e2
  obtain rfl := Option.some.inj e1
  obtain rfl := Option.some.inj e2
  rw [hc, r2] at r1
  have hcd := Option.some.inj r1
  rw [← ei, ← ej] at hcd
  exact hij ((List.Nodup.getElem_inj_iff hd).1 hcd.symm)

/-- With 361 classes two of them share a colour. -/
theorem many_classes_share : ∃ cs, colorBrew 361 = some cs ∧ ¬ cs.Nodup := by
  obtain ⟨cs, h, _⟩ := brew_ok (n := 361) (by omega)
  exact ⟨cs, h, fun hd => absurd ((brew_distinct_iff h).1 hd) (by omega)⟩

/-- With two or more classes and any costs, also negative ones, a branching node is drawn with a text that is read as a colour, although
short numbers would be filled up with spaces. -/
theorem branch_colour_read {n : Nat} {cs : List (Nat × Nat × Nat)} (h : colorBrew n = some cs) {sums : List Rat} (hs : sums.length = n)
    (h2 : 2 ≤ n) : ∃ txt c, branchText cs sums = some txt ∧ readColour txt = some c ∧ Between 57 255 c := by
  obtain ⟨cs', h', hl, hb⟩ := brew_ok (n := n) (by omega)
  rw [h] at h'
  obtain rfl := Option.some.inj h'
  cases hbest : argminVec sums with
  | none => cases sums with
    | nil => simp at hs; omega
    | cons x xs => simp [argminVec] at hbest
  | some best =>
    obtain ⟨m, hm, _⟩ := argminVec_least hbest
    obtain ⟨hlt, _⟩ := List.getElem?_eq_some_iff.1 hm
    have hk : best < cs.length := by omega
    obtain ⟨alpha, ha, h0, h1⟩ := alpha_between (by omega) hbest
    obtain ⟨b1, b2, b3⟩ := hb cs[best] (List.getElem_mem hk)
    have m1 := mix_between h0 h1 b1
    have m2 := mix_between h0 h1 b2
    have m3 := mix_between h0 h1 b3
    refine ⟨fillText ((mixPart alpha cs[best].1).toNat, (mixPart alpha cs[best].2.1).toNat, (mixPart alpha cs[best].2.2).toNat), _, ?_,
      read_fill ⟨?_, ?_, ?_⟩, ?_⟩
    · unfold branchText
      rw [hbest]
      dsimp only
      rw [List.getElem?_eq_getElem hk, ha]
      dsimp only
      rw [hexSpaceInt_eq m1, hexSpaceInt_eq m2, hexSpaceInt_eq m3]
      rfl
    · dsimp only; omega
    · dsimp only; omega
    · dsimp only; omega
    · unfold Between; dsimp only; omega

example : branchText [(229, 129, 57), (57, 157, 229)] [1, 9] = some "#e88f4f".toList ∧
    branchText [(229, 129, 57), (57, 157, 229)] [-1, 9] = some "#ffffff".toList := by decide +kernel

/-- A component below 16 would not be read: the format fills up with a space. -/
theorem short_component_unreadable : readColour ('#' :: (hexSpace 15 ++ (hexSpace 200 ++ hexSpace 200))) = none := by decide +kernel

/-- With a single class a branching node raises unless its costs are negative. -/
theorem one_class_branch_raises (cs : List (Nat × Nat × Nat)) {x : Rat} (h : 0 ≤ x) : branchText cs [x] = none := by
  have : branchAlpha 0 [x] = none := by
    unfold branchAlpha
    simp; linarith
  unfold branchText
  simp only [argminVec, argminFrom]
  rw [this]
  cases cs[0]? <;> rfl

/-- The strength of the colour of a branching node, where the least costs are at least a hundredth of the total and the second least at
least 0.01: the part of the second least costs that the best class saves. Partial: not so elsewhere, `clear_choice_white`. -/
theorem branch_strength_partial {sums : List Rat} {best : Nat} {a b : Rat} {l : List Rat} (hb : argminVec sums = some best)
    (hp : sums.Perm (a :: b :: l)) (hab : a ≤ b) (hl : ∀ x ∈ l, b ≤ x) (h1 : sums.sum / 100 ≤ a) (h2 : 1 / 100 ≤ b) :
    branchAlpha best sums = some ((b - a) / b) := by
  have hlen : 2 ≤ sums.length := by rw [hp.length_eq]; simp
  obtain ⟨m, hm, hle⟩ := argminVec_least hb
  have hs : (a :: b :: (l.insertionSort (· ≤ ·))).Pairwise (· ≤ ·) := by
    refine List.pairwise_cons.2 ⟨fun x hx => ?_, List.pairwise_cons.2 ⟨fun x hx => ?_, List.pairwise_insertionSort ..⟩⟩
    · rcases List.mem_cons.1 hx with hx | hx
      · rw [hx]; exact hab
      · exact le_trans hab (hl x ((List.mem_insertionSort _).1 hx))
    · exact hl x ((List.mem_insertionSort _).1 hx)
  have e : sums.insertionSort (· ≤ ·) = a :: b :: (l.insertionSort (· ≤ ·)) := by
    refine List.Perm.eq_of_pairwise (fun x y _ _ h1 h2 => le_antisymm h1 h2) (List.pairwise_insertionSort ..) hs ?_
    exact (List.perm_insertionSort ..).trans (hp.trans (((List.perm_insertionSort _ l).symm.cons b).cons a))
  have hma : m = a := by
    have ha : a ∈ sums := hp.mem_iff.2 (by simp)
    refine le_antisymm (hle a ha) ?_
    have := hp.mem_iff.1 (List.mem_of_getElem? hm)
    rcases List.mem_cons.1 this with h | h
    · rw [h]
    · rcases List.mem_cons.1 h with h | h
      · rw [h]; exact hab
      · exact le_trans hab (hl m h)
  unfold branchAlpha
  rw [List.getD_eq_getElem?_getD, hm, e]
  simp only [Option.getD_some, List.getElem?_cons_zero, List.getElem?_cons_succ]
  rw [if_neg (by rw [hma]; linarith), if_neg (by linarith)]

example : branchAlpha 1 [9, 1, 10] = some (8 / 9) := by decide +kernel

/-- Where the best class has less than a hundredth of the total costs, so that it is clearest, the node is drawn white, as if no class was
better than another. -/
theorem clear_choice_white {cs : List (Nat × Nat × Nat)} {sums : List Rat} {best : Nat} (hb : argminVec sums = some best)
    (hc : best < cs.length) {m : Rat} (hm : sums[best]? = some m) (h : m < sums.sum / 100) : branchText cs sums = some "#ffffff".toList := by
  have ha : branchAlpha best sums = some 0 := by
    unfold branchAlpha
    rw [List.getD_eq_getElem?_getD, hm, Option.getD_some, if_pos (by linarith)]
  have hx : ∀ c, mixPart 0 c = 255 := by
    intro c
    unfold mixPart
    have : (0 : Rat) * c + (1 - 0) * 255 = 255 := by ring
    rw [this]; decide +kernel
  unfold branchText
  rw [hb]
  dsimp only
  rw [List.getElem?_eq_getElem hc, ha]
  dsimp only
  rw [hx, hx, hx]
  decide +kernel

/-- So the colour does not get fuller with the advantage of the best class: a saving of eight ninths is coloured, a saving of everything is
drawn like a tie. -/
theorem strength_not_monotone : branchAlpha 0 [1, 9] = some (8 / 9) ∧ branchAlpha 0 [0, 9] = some 0 ∧ branchAlpha 0 [9, 9] = some 0 := by
  decide +kernel

end Streed
