import Verif.Model.PwGlm
import Verif.Lemmas.PwLine
import Verif.Lemmas.PwReturned

/-! Tasks with rational values are instances of the search with fitted leaves. -/

namespace Streed.Pw
open Apx (tol tol_pos tol_one)

/-- The unit divides the price and all costs. -/
def Whole (q : Nat) (F : Lines) (T : Data) : Prop :=
  (∃ z : Int, q * F.price = z) ∧ ∀ D, ViewOf T D → ∀ x, F.fit D = some x → ∃ z : Int, (q : Rat) * x = z

section
variable {nF mls q : Nat} {price : Rat} {fit : Data → Option Rat} {worst : Inst → Rat} {T : Data} {o : Options}
  {red : Nat → Bool}

theorem rat_legal (t : Tree) (D : Data) :
    (ratTask nF mls q price fit worst o red).fitting.Legal t D ↔
      (⟨nF, price, mls, fit, List.length⟩ : Lines).Legal t D ∧ (⟨nF, price, mls, fit, List.length⟩ : Lines).Fitted t D := by
  induction t generalizing D with
  | leaf k =>
    show mls ≤ D.length ∧ ((fit D).map _).isSome = true ↔ mls ≤ D.length ∧ (fit D).isSome = true
    rw [Option.isSome_map]
  | node f l r ihl ihr =>
    show f < nF ∧ _ ∧ _ ↔ (f < nF ∧ _ ∧ _) ∧ (_ ∧ _)
    rw [ihl, ihr]; tauto

theorem rat_cost (hx : Whole q ⟨nF, price, mls, fit, List.length⟩ T) (t : Tree) {D : Data} (hD : ViewOf T D) :
    ((ratTask nF mls q price fit worst o red).fitting.cost t D : Rat) = q * (⟨nF, price, mls, fit, List.length⟩ : Lines).cost t D := by
  induction t generalizing D with
  | leaf k =>
    show ((((fit D).map fun x => (q * x : Rat).floor).getD 0 : Int) : Rat) = q * (fit D).getD 0
    cases h : fit D with
    | none => simp
    | some l => exact exact_floor (hx.2 D hD l h)
  | node f l r ihl ihr =>
    have h1 := ihl ((without_sublist f D).trans hD)
    have h2 := ihr ((having_sublist f D).trans hD)
    have h3 : (((ratTask nF mls q price fit worst o red).fitting.bc : Int) : Rat) = q * price := exact_floor hx.1
    simp only [Fitting.cost, Lines.cost]
    push_cast
    rw [h1, h2, h3]
    ring

theorem rat_fair (hs : IdSorted T) (hl : ∀ i ∈ T, i.label = 0) (ho : ∀ D f, f ∈ o.order D → f < nF) :
    Fair (ratTask nF mls q price fit worst o red) T :=
  ⟨hs, fun i hi => by rw [hl i hi]; exact Nat.one_pos, ho⟩

theorem rat_worst : (((ratTask nF mls q price fit worst o red).c.worst : Int) : Rat) = q * largestDouble := by
  show (((q * largestDouble : Nat) : Int) : Rat) = _
  push_cast; rfl

/-- There is a model wherever a leaf may be, and costs are between `0` and `M`. -/
structure Fits (m : Nat) (fit : Data → Option Rat) (M : Rat) (T : Data) : Prop where
  mls : 1 ≤ m
  ex : ∀ D, ViewOf T D → m ≤ D.length → (fit D).isSome = true
  bound : ∀ D, ViewOf T D → ∀ x, fit D = some x → 0 ≤ x ∧ x ≤ M
  pos : 0 ≤ M

theorem length_sides (f : Nat) (D : Data) : D.length = (without f D).length + (having f D).length := by
  induction D with
  | nil => rfl
  | cons i D ih =>
    unfold without having at *
    cases h : i.feat f
    · rw [List.filter_cons_of_pos (by rw [h]; rfl), List.filter_cons_of_neg (by rw [h]; simp)]; simp only [List.length_cons]; omega
    · rw [List.filter_cons_of_neg (by rw [h]; simp), List.filter_cons_of_pos (by simpa using h)]; simp only [List.length_cons]; omega

theorem Fits.cost {M : Rat} (F : Fits mls fit M T) (hp : 0 ≤ price) {D : Data} (hD : ViewOf T D) {t : Tree}
    (ht : (ratTask nF mls q price fit worst o red).fitting.Legal t D) :
    ((ratTask nF mls q price fit worst o red).fitting.cost t D : Rat) ≤ q * (T.length * (price + M)) := by
  have hq' : (0 : Rat) ≤ q := by exact_mod_cast Nat.zero_le _
  obtain ⟨bc0, bc1⟩ := floor_bounds (mul_nonneg hq' hp)
  obtain ⟨M0, M1⟩ := floor_bounds (mul_nonneg hq' F.pos)
  obtain ⟨h1, h2⟩ := cost_bound (T := T) (p := ratTask nF mls q price fit worst o red) (M := (q * M : Rat).floor) bc0 F.mls M0
    (fun f D _ => length_sides f D)
    (fun D hD v hv => by
      obtain ⟨l, hl, rfl⟩ := Option.map_eq_some_iff.1 hv
      exact Rat.floor_monotone (mul_le_mul_of_nonneg_left (F.bound D hD l hl).2 hq')) t hD ht
  have e1 : (ratTask nF mls q price fit worst o red).c.P.bc = (q * price).floor := rfl
  have e2 : (ratTask nF mls q price fit worst o red).weight D = D.length := rfl
  rw [e1, e2] at h1
  generalize (ratTask nF mls q price fit worst o red).fitting.cost t D = C at h1
  have h1 : (C : Rat) ≤ D.length * ((q * price).floor + (q * M : Rat).floor) := by
    have h5 : C ≤ D.length * ((q * price).floor + (q * M : Rat).floor) := by omega
    exact_mod_cast h5
  have h3 : (D.length : Rat) ≤ T.length := by exact_mod_cast List.Sublist.length_le hD
  have h0 : (0 : Rat) ≤ D.length := by exact_mod_cast Nat.zero_le _
  have h6 : (0 : Rat) ≤ q * (price + M) := mul_nonneg hq' (add_nonneg hp F.pos)
  calc (C : Rat) ≤ _ := h1
    _ ≤ D.length * (q * (price + M)) := mul_le_mul_of_nonneg_left (by linarith) h0
    _ ≤ T.length * (q * (price + M)) := mul_le_mul_of_nonneg_right h3 h6
    _ = _ := by ring

theorem rat_open {M : Rat} (F : Fits mls fit M T) (hq : 0 < q) (hp : 0 ≤ price)
    (hlb : o.useLB = false) (hub : o.useUB = true) (hall : ∀ D f, f < nF → f ∈ o.order D)
    (hred : ∀ f, red f = true → without f T = [] ∨ having f T = [])
    (hbig : tol ^ (nF + 1) * (T.length * (price + M)) < largestDouble) : Open (ratTask nF mls q price fit worst o red) T := by
  have hq' : (0 : Rat) < q := by exact_mod_cast hq
  refine ⟨hlb, hub, rfl, (floor_bounds (mul_nonneg hq'.le hp)).1, F.mls, Nat.zero_le _, rfl, fun f D _ => length_sides f D,
    fun D hD hw => ?_, hall, hred, fun D hD t ht => ?_⟩
  · obtain ⟨v, hv⟩ := Option.isSome_iff_exists.1 (F.ex D hD hw)
    exact ⟨_, by show (fit D).map _ = _; rw [hv]; rfl, (floor_bounds (mul_nonneg hq'.le (F.bound D hD v hv).1)).1⟩
  · rw [rat_worst]
    have h7 : (0 : Rat) ≤ tol ^ (nF + 1) := pow_nonneg tol_pos.le _
    calc tol ^ (nF + 1) * _ ≤ tol ^ (nF + 1) * (q * (T.length * (price + M))) := mul_le_mul_of_nonneg_left (F.cost hp hD ht) h7
      _ = q * (tol ^ (nF + 1) * (T.length * (price + M))) := by ring
      _ < q * largestDouble := mul_lt_mul_of_pos_left hbig hq'

theorem rat_base {M : Rat} (F : Fits mls fit M T) (hq : 0 < q) (hp : 0 ≤ price) (hw : ∀ i, 0 ≤ worst i)
    (hs : IdSorted T) (hl : ∀ i ∈ T, i.label = 0) (ho : ∀ D f, f ∈ o.order D → f < nF)
    (hbig : T.length * (price + M) < largestDouble) : Feas.Base (ratTask nF mls q price fit worst o red) T := by
  have hq' : (0 : Rat) < q := by exact_mod_cast hq
  refine ⟨(floor_bounds (mul_nonneg hq'.le hp)).1, ?_, le_refl _, fun D hD v hv => ?_, fun D hD hw => ?_,
    fun f D _ => length_sides f D, fun D hD t ht => ?_, rat_fair hs hl ho, _, rfl, fun i _ => ?_⟩
  · rw [← Rat.intCast_le_intCast, rat_worst]
    have : (0 : Rat) ≤ T.length * (price + M) := mul_nonneg (by exact_mod_cast Nat.zero_le _) (add_nonneg hp F.pos)
    exact mul_nonneg hq'.le (le_of_lt (lt_of_le_of_lt this hbig))
  · obtain ⟨l, hl, rfl⟩ := Option.map_eq_some_iff.1 hv
    exact (floor_bounds (mul_nonneg hq'.le (F.bound D hD l hl).1)).1
  · show ((fit D).map _).isSome = true
    rw [Option.isSome_map]; exact F.ex D hD hw
  · rw [← Rat.intCast_lt_intCast, rat_worst]
    exact lt_of_le_of_lt (F.cost hp hD ht) (mul_lt_mul_of_pos_left hbig hq')
  · rw [← Rat.intCast_le_intCast]
    exact le_trans (by exact_mod_cast mul_nonneg hq'.le (hw i)) Rat.le_ceil

end
end Streed.Pw
