import Verif.Model.ReaderX
import Verif.Props.Reader
import Mathlib.Tactic.Linarith
import Mathlib.Tactic.Ring
import Mathlib.Tactic.FieldSimp

/-!
# C48 for real-valued labels and extra columns

Writing a dataset of any task in the documented format, label, extra columns and binary features, and reading it gives it back.
-/

namespace Streed

/-! ### Specification -/

/-- A number in decimal notation: sign, digits before and behind the point, exponent. -/
structure Dec where
  neg : Bool
  whole : Nat
  frac : List Nat
  exp : Option Int
  deriving DecidableEq, Repr

/-- As text, such as `-12.50e-3`. -/
def Dec.text (d : Dec) : List Char :=
  (if d.neg then ['-'] else []) ++ Nat.toDigits 10 d.whole ++
    (if d.frac = [] then [] else '.' :: d.frac.map Nat.digitChar) ++
    (match d.exp with
      | none => []
      | some e => 'e' :: (if e < 0 then ['-'] else []) ++ Nat.toDigits 10 e.natAbs)

/-- The digits behind the point as a number. -/
def fracVal : List Nat → Rat
  | [] => 0
  | d :: ds => (d + fracVal ds) / 10

/-- The number. -/
def Dec.val (d : Dec) : Rat :=
  (if d.neg then -(d.whole + fracVal d.frac) else d.whole + fracVal d.frac) *
    (match d.exp with
      | none => 1
      | some e => if e < 0 then 1 / 10 ^ e.natAbs else 10 ^ e.natAbs)

/-- An entry of a file. -/
inductive FileEntry
  | int (z : Int)
  | dec (d : Dec)
  deriving DecidableEq, Repr

def FileEntry.text : FileEntry → List Char
  | .int z => (toString z).toList
  | .dec d => d.text

def FileEntry.val : FileEntry → Rat
  | .int z => z
  | .dec d => d.val

/-- The entry can stand in a column of this type: an integer of 32 bits, or a number that a double can hold. -/
def FileEntry.Fits (sl : Slot) (e : FileEntry) : Prop :=
  match sl with
  | .int _ => ∃ z, e = .int z ∧ -2147483648 ≤ z ∧ z ≤ 2147483647
  | _ => (∀ d, e = .dec d → ∀ x ∈ d.frac, x < 10) ∧ -(largestDouble : Rat) ≤ e.val ∧ e.val ≤ largestDouble

/-- One row. -/
structure XRow where
  label : FileEntry
  extra : List FileEntry
  feats : List Bool
  deriving DecidableEq, Repr

/-- The extra columns as text, each with the separator before it. -/
def extraChars (sep : Char) (es : List FileEntry) : List Char := es.flatMap fun e => sep :: e.text

/-- A row as text. -/
def writeRowX (sep : Char) (tail : List Char) (r : XRow) : List Char :=
  r.label.text ++ extraChars sep r.extra ++ featChars sep r.feats ++ tail

/-- The file: every row ends with a newline. -/
def writeFileX (sep : Char) (tail : List Char) (rows : List XRow) : List Char := rows.flatMap fun r => writeRowX sep tail r ++ ['\n']

/-- What a user expects to have read, with the first `m` features. -/
def XRow.data (m : Nat) (r : XRow) : LineData := ⟨r.label.val, r.extra.map FileEntry.val, r.feats.take m⟩

/-- A dataset with `n ≥ 1` features whose labels and extra columns have these types. -/
structure DatasetX (realLabel : Bool) (slots : List Slot) (n : Nat) (rows : List XRow) : Prop where
  pos : 1 ≤ n
  feats : ∀ r ∈ rows, r.feats.length = n
  label : ∀ r ∈ rows, r.label.Fits (if realLabel then .real false else .int false)
  extra : ∀ r ∈ rows, List.Forall₂ FileEntry.Fits slots r.extra

/-! ### Numbers -/

theorem takeWhile_digits_rest (ds rest : List Char) (hd : ∀ c ∈ ds, c.isDigit = true) (hr : ∀ c, rest.head? = some c → c.isDigit = false) :
    (ds ++ rest).takeWhile Char.isDigit = ds ∧ (ds ++ rest).dropWhile Char.isDigit = rest := by
  induction ds with
  | nil =>
    cases rest with
    | nil => exact ⟨rfl, rfl⟩
    | cons c l =>
      have := hr c rfl
      exact ⟨List.takeWhile_cons_of_neg (by simp [this]), List.dropWhile_cons_of_neg (by simp [this])⟩
  | cons d ds ih =>
    have h := ih fun c hc => hd c (List.mem_cons_of_mem _ hc)
    have h1 := hd d (List.mem_cons_self ..)
    rw [List.cons_append, List.takeWhile_cons_of_pos h1, List.dropWhile_cons_of_pos h1, h.1, h.2]
    exact ⟨rfl, rfl⟩

theorem digits_allDigits (n : Nat) : ∀ c ∈ Nat.toDigits 10 n, c.isDigit = true :=
  fun _ hc => Nat.isDigit_of_mem_toDigits (by omega) (by omega) hc

theorem digitsVal_nat (n : Nat) : digitsVal (Nat.toDigits 10 n) = n := foldl_toDigits n

theorem digitChar_isDigit {n : Nat} (h : n < 10) : (Nat.digitChar n).isDigit = true := by
  match n, h with
  | 0, _ => rfl
  | 1, _ => rfl
  | 2, _ => rfl
  | 3, _ => rfl
  | 4, _ => rfl
  | 5, _ => rfl
  | 6, _ => rfl
  | 7, _ => rfl
  | 8, _ => rfl
  | 9, _ => rfl

theorem digitsVal_frac (fs : List Nat) (h : ∀ x ∈ fs, x < 10) (a : Nat) :
    (((fs.map Nat.digitChar).foldl (fun a c => a * 10 + (c.toNat - 48)) a : Nat) : Rat) = (a + fracVal fs) * 10 ^ fs.length := by
  induction fs generalizing a with
  | nil => simp [fracVal]
  | cons x fs ih =>
    rw [List.map_cons, List.foldl_cons, ih (fun y hy => h y (List.mem_cons_of_mem _ hy)), digit_toNat x (h x (List.mem_cons_self ..)),
      List.length_cons, fracVal, pow_succ]
    push_cast
    ring

/-- White space or the end ends every number. -/
def Ends (rest : List Char) : Prop := ∀ c, rest.head? = some c → isSpaceC c = true

theorem space_not_special {c : Char} (h : isSpaceC c = true) : c ≠ '.' ∧ c ≠ 'e' ∧ c ≠ 'E' ∧ c ≠ '-' ∧ c ≠ '+' := by
  refine ⟨?_, ?_, ?_, ?_, ?_⟩ <;> rintro rfl <;> revert h <;> decide

theorem scanExp_none {b : Bool} {rest : List Char} (hr : Ends rest) : scanExp b rest = (none, rest) := by
  cases rest with
  | nil => rfl
  | cons c t =>
    have := space_not_special (hr c rfl)
    simp [scanExp, this.2.1, this.2.2.1]

theorem scanSign_digits (n : Nat) (rest : List Char) : scanSign (Nat.toDigits 10 n ++ rest) = (false, Nat.toDigits 10 n ++ rest) := by
  obtain ⟨d, ds, hds⟩ := List.exists_cons_of_ne_nil (toDigits_ne_nil n)
  have hd : d.isDigit = true := digits_allDigits n d (by rw [hds]; exact List.mem_cons_self ..)
  have := digit_not_sign d hd
  rw [hds, List.cons_append]
  simp [scanSign, this.1, this.2.1]

theorem scanExp_some (e : Int) {rest : List Char} (hr : Ends rest) :
    scanExp true ('e' :: (if e < 0 then ['-'] else []) ++ Nat.toDigits 10 e.natAbs ++ rest) =
      (some (decide (e < 0), Nat.toDigits 10 e.natAbs), rest) := by
  have h := takeWhile_digits_rest (Nat.toDigits 10 e.natAbs) rest (digits_allDigits _) fun c hc => space_not_digit c (hr c hc)
  have hs : scanSign ((if e < 0 then ['-'] else []) ++ (Nat.toDigits 10 e.natAbs ++ rest)) =
      (decide (e < 0), Nat.toDigits 10 e.natAbs ++ rest) := by
    by_cases he : e < 0
    · simp [he, scanSign]
    · rw [if_neg he, List.nil_append, scanSign_digits]
      simp [he]
  rw [List.cons_append, List.cons_append, List.append_assoc]
  unfold scanExp
  simp only [Bool.true_and, decide_true, Bool.true_or, if_true, hs, h.1, h.2]

theorem scanReal_dec (d : Dec) (hd : ∀ x ∈ d.frac, x < 10) {rest : List Char} (hr : Ends rest) :
    scanReal (d.text ++ rest) = ⟨d.neg, Nat.toDigits 10 d.whole, d.frac.map Nat.digitChar,
      d.exp.map fun e => (decide (e < 0), Nat.toDigits 10 e.natAbs), rest⟩ := by
  obtain ⟨neg, whole, frac, exp⟩ := d
  dsimp only at hd ⊢
  generalize hE : (match exp with
      | none => []
      | some e => 'e' :: (if e < 0 then ['-'] else []) ++ Nat.toDigits 10 e.natAbs) = E
  have hText : Dec.text ⟨neg, whole, frac, exp⟩ ++ rest = (if neg then ['-'] else []) ++ (Nat.toDigits 10 whole ++
      ((if frac = [] then [] else '.' :: frac.map Nat.digitChar) ++ (E ++ rest))) := by
    unfold Dec.text
    dsimp only
    rw [hE]
    simp only [List.append_assoc]
  have hsign : scanSign (Dec.text ⟨neg, whole, frac, exp⟩ ++ rest) = (neg, Nat.toDigits 10 whole ++
      ((if frac = [] then [] else '.' :: frac.map Nat.digitChar) ++ (E ++ rest))) := by
    rw [hText]
    cases neg
    · exact scanSign_digits _ _
    · rfl
  have hEhead : ∀ c, (E ++ rest).head? = some c → c.isDigit = false ∧ c ≠ '.' := by
    intro c hc
    subst hE
    cases exp with
    | none =>
      have := hr c hc
      exact ⟨space_not_digit c this, (space_not_special this).1⟩
    | some e =>
      cases hc
      exact ⟨by decide, by decide⟩
  have hmid : ∀ c, ((if frac = [] then [] else '.' :: frac.map Nat.digitChar) ++ (E ++ rest)).head? = some c → c.isDigit = false := by
    intro c hc
    by_cases hf : frac = []
    · rw [if_pos hf] at hc; exact (hEhead c hc).1
    · rw [if_neg hf] at hc
      cases hc
      decide
  have hw := takeWhile_digits_rest (Nat.toDigits 10 whole) _ (digits_allDigits _) hmid
  have hf : scanFrac ((if frac = [] then [] else '.' :: frac.map Nat.digitChar) ++ (E ++ rest)) = (frac.map Nat.digitChar, E ++ rest) := by
    by_cases hf : frac = []
    · subst hf
      rw [if_pos rfl, List.nil_append]
      cases h : E ++ rest with
      | nil => rfl
      | cons c t =>
        have := (hEhead c (by rw [h]; rfl)).2
        simp [scanFrac, this]
    · rw [if_neg hf]
      have := takeWhile_digits_rest (frac.map Nat.digitChar) (E ++ rest) (by
        intro c hc
        obtain ⟨x, hx, rfl⟩ := List.mem_map.1 hc
        exact digitChar_isDigit (hd x hx)) fun c hc => (hEhead c hc).1
      show scanFrac ('.' :: (frac.map Nat.digitChar ++ (E ++ rest))) = _
      simp only [scanFrac, if_true, this.1, this.2]
  have he : scanExp (!(Nat.toDigits 10 whole ++ frac.map Nat.digitChar).isEmpty) (E ++ rest) =
      (exp.map fun e => (decide (e < 0), Nat.toDigits 10 e.natAbs), rest) := by
    have : (!(Nat.toDigits 10 whole ++ frac.map Nat.digitChar).isEmpty) = true := by
      obtain ⟨d, ds, hds⟩ := List.exists_cons_of_ne_nil (toDigits_ne_nil whole)
      rw [hds]; rfl
    rw [this]
    subst hE
    cases exp with
    | none => exact scanExp_none hr
    | some e => exact scanExp_some e hr
  unfold scanReal
  simp only [hsign, hw.1, hw.2, hf, he]

theorem val_dec (d : Dec) (hd : ∀ x ∈ d.frac, x < 10) (rest : List Char) :
    RealTok.val ⟨d.neg, Nat.toDigits 10 d.whole, d.frac.map Nat.digitChar,
      d.exp.map fun e => (decide (e < 0), Nat.toDigits 10 e.natAbs), rest⟩ = some d.val := by
  obtain ⟨neg, whole, frac, exp⟩ := d
  dsimp only at hd ⊢
  have hne : (Nat.toDigits 10 whole ++ frac.map Nat.digitChar).isEmpty = false := by
    obtain ⟨d, ds, hds⟩ := List.exists_cons_of_ne_nil (toDigits_ne_nil whole)
    rw [hds]; rfl
  have hm : ((digitsVal (Nat.toDigits 10 whole ++ frac.map Nat.digitChar) : Nat) : Rat) / 10 ^ (frac.map Nat.digitChar).length =
      whole + fracVal frac := by
    unfold digitsVal
    rw [List.foldl_append, foldl_toDigits, digitsVal_frac frac hd, List.length_map]
    field_simp
  unfold RealTok.val Dec.val
  dsimp only
  rw [hne, hm]
  rw [if_neg (by decide)]
  cases exp with
  | none => simp
  | some e =>
    obtain ⟨x, xs, hds⟩ := List.exists_cons_of_ne_nil (toDigits_ne_nil e.natAbs)
    have hv := digitsVal_nat e.natAbs
    rw [hds] at hv
    by_cases he : e < 0
    · simp only [Option.map_some, he, decide_true, hds, if_true, hv]
      rw [mul_one_div]
    · simp only [Option.map_some, he, decide_false, hds, if_false, hv]

/-- An integer as a decimal number. -/
def decOf (z : Int) : Dec := ⟨decide (z < 0), z.natAbs, [], none⟩

theorem decOf_text (z : Int) : (decOf z).text = (toString z).toList := by
  rw [toString_int]
  unfold decOf Dec.text
  by_cases h : z < 0 <;> simp [h]

theorem decOf_val (z : Int) : (decOf z).val = z := by
  unfold decOf Dec.val fracVal
  by_cases h : z < 0
  · simp only [h, decide_true, if_true, add_zero, mul_one]
    have : (z.natAbs : Int) = -z := by omega
    have : ((z.natAbs : Int) : Rat) = -z := by rw [this]; push_cast; rfl
    rw [← Int.cast_natCast, this]
    ring
  · simp only [h, decide_false, add_zero, mul_one]
    have : (z.natAbs : Int) = z := by omega
    rw [if_neg (by decide), ← Int.cast_natCast, this]

theorem dec_head (d : Dec) : ∃ c l, d.text = c :: l ∧ isSpaceC c = false := by
  obtain ⟨x, xs, hds⟩ := List.exists_cons_of_ne_nil (toDigits_ne_nil d.whole)
  have hx : x.isDigit = true := digits_allDigits d.whole x (by rw [hds]; exact List.mem_cons_self ..)
  cases h : d.neg with
  | true => exact ⟨'-', _, by unfold Dec.text; rw [h]; rfl, by decide⟩
  | false => exact ⟨x, _, by unfold Dec.text; rw [h, hds]; rfl, digit_not_space x hx⟩

theorem readReal_dec (d : Dec) (hd : ∀ x ∈ d.frac, x < 10) (h1 : -(largestDouble : Rat) ≤ d.val) (h2 : d.val ≤ largestDouble)
    (pre rest : List Char) (hp : ∀ c ∈ pre, isSpaceC c = true) (hr : Ends rest) :
    IStr.readReal ⟨pre ++ d.text ++ rest, true⟩ = (some d.val, ⟨rest, !rest.isEmpty⟩) := by
  obtain ⟨c, l, hcl, hc⟩ := dec_head d
  have hdw : (pre ++ d.text ++ rest).dropWhile isSpaceC = c :: (l ++ rest) := by
    rw [hcl, List.append_assoc, List.dropWhile_append_of_pos hp, List.cons_append, List.dropWhile_cons_of_neg (by simp [hc])]
  have hs := scanReal_dec d hd hr
  rw [hcl, List.cons_append] at hs
  unfold IStr.readReal
  simp only [if_true, hdw, hs, val_dec d hd rest]
  rw [if_neg (not_lt.2 h2), if_neg (not_lt.2 h1)]

theorem readInt_int (z : Int) (hz : -2147483648 ≤ z ∧ z ≤ 2147483647) (sep : Char) (hs : isSpaceC sep = true) (rest : List Char) :
    IStr.readInt ⟨(toString z).toList ++ sep :: rest, true⟩ = (some (z : Rat), ⟨sep :: rest, true⟩) := by
  unfold IStr.readInt
  rw [extract_int z sep hs]
  have hout : outInt32 (decide (z < 0)) z.natAbs = false := by
    unfold outInt32
    by_cases h : z < 0 <;> simp only [h, decide_true, decide_false, if_true, if_false, Bool.false_eq_true] <;>
      rw [decide_eq_false_iff_not] <;> omega
  have hint : toInt32 (decide (z < 0)) z.natAbs = z := by
    unfold toInt32
    by_cases h : z < 0 <;> simp only [h, decide_true, decide_false, if_true, if_false, Bool.false_eq_true] <;>
      rw [if_neg (by omega)] <;> omega
  simp only [hout, hint, Bool.not_false, Bool.and_self]

theorem readInt_sep (sep : Char) (hs : isSpaceC sep = true) (l : List Char) :
    IStr.readInt ⟨sep :: l, true⟩ = IStr.readInt ⟨l, true⟩ := by
  unfold IStr.readInt IStr.extract
  simp only [if_true, List.dropWhile_cons_of_pos hs]

theorem readReal_entry {e : FileEntry} (hd : ∀ d, e = .dec d → ∀ x ∈ d.frac, x < 10) (h1 : -(largestDouble : Rat) ≤ e.val) (h2 : e.val ≤ largestDouble)
    (pre rest : List Char) (hp : ∀ c ∈ pre, isSpaceC c = true) (hr : Ends rest) :
    IStr.readReal ⟨pre ++ e.text ++ rest, true⟩ = (some e.val, ⟨rest, !rest.isEmpty⟩) := by
  cases e with
  | dec d => exact readReal_dec d (hd d rfl) h1 h2 pre rest hp hr
  | int z =>
    have h := readReal_dec (decOf z) (by simp [decOf]) (by rw [decOf_val]; exact h1) (by rw [decOf_val]; exact h2) pre rest hp hr
    rw [decOf_text, decOf_val] at h
    exact h

/-- Reading an entry into a variable of its type, at the start of a line or behind a separator. -/
theorem slot_read {sl : Slot} {e : FileEntry} (h : e.Fits sl) {sep : Char} (hs : isSpaceC sep = true) (rest : List Char) :
    sl.read ⟨e.text ++ sep :: rest, true⟩ = (some e.val, ⟨sep :: rest, true⟩) ∧
    sl.read ⟨sep :: (e.text ++ sep :: rest), true⟩ = (some e.val, ⟨sep :: rest, true⟩) := by
  have hr : Ends (sep :: rest) := fun c hc => by cases hc; exact hs
  have real : ∀ (_ : (∀ d, e = .dec d → ∀ x ∈ d.frac, x < 10) ∧ -(largestDouble : Rat) ≤ e.val ∧ e.val ≤ largestDouble),
      IStr.readReal ⟨e.text ++ sep :: rest, true⟩ = (some e.val, ⟨sep :: rest, true⟩) ∧
      IStr.readReal ⟨sep :: (e.text ++ sep :: rest), true⟩ = (some e.val, ⟨sep :: rest, true⟩) := fun h =>
    ⟨readReal_entry h.1 h.2.1 h.2.2 [] _ (by simp) hr, by
      have := readReal_entry h.1 h.2.1 h.2.2 [sep] _ (by simpa using hs) hr
      exact this⟩
  cases sl with
  | int b =>
    obtain ⟨z, rfl, h1, h2⟩ := h
    exact ⟨readInt_int z ⟨h1, h2⟩ sep hs rest, (readInt_sep sep hs _).trans (readInt_int z ⟨h1, h2⟩ sep hs rest)⟩
  | real b => exact real h
  | shared => exact real h

theorem readExtra_written {sep : Char} (hs : isSpaceC sep = true) (rest : List Char) :
    ∀ (sls : List Slot) (es : List FileEntry) (tmp : Option Rat), List.Forall₂ FileEntry.Fits sls es →
    readExtra sls tmp ⟨extraChars sep es ++ sep :: rest, true⟩ = .ok (es.map FileEntry.val, ⟨sep :: rest, true⟩)
  | [], es, tmp, h => by cases h; rfl
  | sl :: sls, es, tmp, h => by
    cases h with
    | cons h1 h2 =>
      rename_i e es
      obtain ⟨tl, htl⟩ : ∃ tl, extraChars sep es ++ sep :: rest = sep :: tl := by
        cases es with
        | nil => exact ⟨_, rfl⟩
        | cons a as => exact ⟨_, rfl⟩
      have hchars : extraChars sep (e :: es) ++ sep :: rest = sep :: (e.text ++ sep :: tl) := by
        rw [← htl]
        simp [extraChars]
      have ih := fun tmp => readExtra_written hs rest sls es tmp h2
      rw [htl] at ih
      rw [hchars]
      unfold readExtra
      simp only [(slot_read h1 hs tl).2, ih]
      rfl

/-! ### Lines and files -/

theorem readLineX_written {sep : Char} {tail : List Char} (hf : Format sep tail) {realLabel : Bool} {slots : List Slot} (r : XRow)
    (dataNF maxNF : Nat) (nf : Option Nat) (hp : 1 ≤ r.feats.length) (hl : r.label.Fits (if realLabel then .real false else .int false))
    (he : List.Forall₂ FileEntry.Fits slots r.extra) (hd : min r.feats.length maxNF ≤ dataNF)
    (hn : nf = none ∨ nf = some (min r.feats.length maxNF)) :
    readLineX realLabel slots dataNF maxNF nf (writeRowX sep tail r) =
      .ok (r.data (min r.feats.length maxNF), min r.feats.length maxNF) := by
  obtain ⟨label, es, fs⟩ := r
  dsimp only at *
  obtain ⟨b, bs, rfl⟩ : ∃ b bs, fs = b :: bs := by
    cases fs with
    | nil => simp at hp
    | cons b bs => exact ⟨b, bs, rfl⟩
  obtain ⟨F, hF⟩ : ∃ F, featChars sep (b :: bs) ++ tail = sep :: F := ⟨_, rfl⟩
  obtain ⟨E, hE⟩ : ∃ E, extraChars sep es ++ sep :: F = sep :: E := by
    cases es with
    | nil => exact ⟨_, rfl⟩
    | cons a as => exact ⟨_, rfl⟩
  have hw : writeRowX sep tail ⟨label, es, b :: bs⟩ = label.text ++ sep :: E := by
    rw [← hE, ← hF]
    simp [writeRowX]
  have h2 := readExtra_written hf.space F slots es none he
  rw [hE] at h2
  unfold readLineX
  rw [hw]
  simp only [(slot_read hl hf.space E).1, h2, Outcome.bind, if_true]
  rw [← hF]
  have hlen : (featChars sep (b :: bs) ++ tail).length / 2 = (b :: bs).length := by
    rw [List.length_append, featChars_length]
    have := hf.short
    omega
  have hmin : min (nf.getD ((featChars sep (b :: bs) ++ tail).length / 2)) maxNF = min (b :: bs).length maxNF := by
    rw [hlen]
    rcases hn with rfl | rfl
    · rfl
    · simp only [Option.getD_some]
      omega
  rw [hmin, readFeats_written dataNF sep hf.space tail ?_ (b :: bs) _ 0 (Nat.min_le_left _ _) (by omega)]
  · rfl
  · intro c hc
    refine (hf.tailSpace c ?_).1
    cases tail with
    | nil => cases hc
    | cons c' l => cases hc; exact List.mem_cons_self ..

theorem copiesX_eq {α : Type} (init : Nat) (num : Option Nat) (a : α) : ∀ dup count, (∀ m, num = some m → count < m) →
    copiesX init num a dup count = (List.range' count (match num with | none => dup | some m => min dup (m - count))).map fun j => (init + j, a)
  | 0, count, _ => by cases num <;> simp [copiesX]
  | dup + 1, count, h => by
    unfold copiesX
    cases num with
    | none =>
      have ih := copiesX_eq init none a dup (count + 1) (by simp)
      simp only [Option.any_none, Bool.false_eq_true, if_false, List.range'_succ, List.map_cons, ih]
    | some m =>
      have hm := h m rfl
      have hmin : min (dup + 1) (m - count) = min dup (m - (count + 1)) + 1 := by omega
      dsimp only
      rw [hmin, List.range'_succ, List.map_cons]
      congr 1
      by_cases hc : count + 1 ≥ m
      · have : m - (count + 1) = 0 := by omega
        simp [hc, this]
      · have ih := copiesX_eq init (some m) a dup (count + 1) (by simp; omega)
        simp only [Option.any_some, hc, decide_false, Bool.false_eq_true, if_false, ih]

variable {α ρ : Type} {rd : Option Nat → List Char → Outcome (α × Nat)} {w : ρ → List Char} {pay : ρ → α} {k : Nat}

/-- The ids and contents that are expected from these rows. -/
def numbered (init : Nat) (pay : ρ → α) (start : Nat) (rows : List ρ) : List (Nat × α) := (rows.zipIdx start).map fun p => (init + p.2, pay p.1)

theorem numbered_append (init : Nat) (pay : ρ → α) (start : Nat) (l l' : List ρ) :
    numbered init pay start (l ++ l') = numbered init pay start l ++ numbered init pay (start + l.length) l' := by
  unfold numbered
  rw [List.zipIdx_append, List.map_append]

theorem numbered_replicate (init : Nat) (pay : ρ → α) (start n : Nat) (r : ρ) :
    numbered init pay start (List.replicate n r) = (List.range' start n).map fun j => (init + j, pay r) :=
  zipIdx_replicate (fun x j => (init + j, pay x)) r n start

theorem readLinesX_all (init dup : Nat) (num : Option Nat) : ∀ (rows : List ρ), (∀ r ∈ rows, ∀ nf, nf = none ∨ nf = some k → rd nf (w r) = .ok (pay r, k)) →
    ∀ no nf (acc : List (Nat × α)), nf = none ∨ nf = some k → (∀ m, num = some m → acc.length < m) →
    readLinesX rd init dup num (rows.map w) no none nf acc =
      .ok (acc ++ numbered init pay acc.length (match num with
          | none => rows.flatMap (List.replicate dup)
          | some m => (rows.flatMap (List.replicate dup)).take (m - acc.length)),
        if rows.isEmpty then nf else some k)
  | [], _, no, nf, acc, _, _ => by cases num <;> simp [readLinesX, numbered]
  | r :: rows, hrd, no, nf, acc, hnf, hlt => by
    have hline := hrd r (List.mem_cons_self ..) nf hnf
    have hcop := copiesX_eq init num (pay r) dup acc.length hlt
    rw [← numbered_replicate (ρ := ρ) init pay] at hcop
    have ih := readLinesX_all init dup num rows (fun x hx => hrd x (List.mem_cons_of_mem _ hx)) (no + 1) (some k)
      (acc ++ copiesX init num (pay r) dup acc.length) (Or.inr rfl)
    rw [List.map_cons]
    unfold readLinesX
    simp only [hline, Outcome.bind]
    cases num with
    | none =>
      dsimp only at hcop ih ⊢
      rw [hcop] at ih ⊢
      simp only [Option.any_none, Bool.false_eq_true, if_false]
      rw [ih (by simp)]
      simp only [List.flatMap_cons, numbered_append, List.append_assoc, List.length_append]
      simp [numbered]
    | some m =>
      have hm := hlt m rfl
      dsimp only at hcop ih ⊢
      rw [hcop] at ih ⊢
      have hlen : (numbered init pay acc.length (List.replicate (min dup (m - acc.length)) r)).length = min dup (m - acc.length) := by
        simp [numbered]
      have htake : ((r :: rows).flatMap (List.replicate dup)).take (m - acc.length) =
          List.replicate (min dup (m - acc.length)) r ++
            (rows.flatMap (List.replicate dup)).take (m - (acc.length + min dup (m - acc.length))) := by
        rw [List.flatMap_cons, List.take_append, List.take_replicate, List.length_replicate, Nat.min_comm]
        congr 2
        omega
      rw [htake, numbered_append, List.length_replicate]
      simp only [Option.any_some, List.length_append, hlen, decide_eq_true_eq]
      by_cases hstop : acc.length + min dup (m - acc.length) ≥ m
      · rw [if_pos hstop]
        have h0 : m - (acc.length + min dup (m - acc.length)) = 0 := by omega
        rw [h0, List.take_zero]
        simp [numbered]
      · rw [if_neg hstop]
        rw [ih (by rintro m' ⟨⟩; rw [List.length_append, hlen]; omega), List.length_append, hlen, List.append_assoc]
        simp

theorem readLinesX_selected (init dup m : Nat) (hdup : 1 ≤ dup) (all : List ρ) : ∀ (rows : List ρ),
    (∀ r ∈ rows, ∀ nf, nf = none ∨ nf = some k → rd nf (w r) = .ok (pay r, k)) →
    ∀ no nf (acc : List (Nat × α)) sel, nf = none ∨ nf = some k → all.drop no = rows → no ≤ all.length →
    sel.Pairwise (· < ·) → (∀ k ∈ sel, no ≤ k ∧ k < all.length) → acc.length < m → m ≤ acc.length + sel.length →
    readLinesX rd init dup (some m) (rows.map w) no (some sel) nf acc =
      .ok (acc ++ numbered init pay acc.length (((sel.filterMap (all[·]?)).flatMap (List.replicate dup)).take (m - acc.length)), some k)
  | [], _, no, nf, acc, sel, _, hdrop, hno, _, hin, hlt, hm => by
    exfalso
    obtain ⟨k, ks, rfl⟩ := List.exists_cons_of_ne_nil (show sel ≠ [] by rintro rfl; simp at hm; omega)
    have := hin k (List.mem_cons_self ..)
    have : all.length ≤ no := by simpa using hdrop
    omega
  | r :: rows, hrd, no, nf, acc, sel, hnf, hdrop, hno, hsort, hin, hlt', hm => by
    obtain ⟨j, ks, rfl⟩ := List.exists_cons_of_ne_nil (show sel ≠ [] by rintro rfl; simp at hm; omega)
    have hlt : no < all.length := by
      have := congrArg List.length hdrop
      simp at this
      omega
    have hget : all[no]? = some r := by
      have : (all.drop no)[0]? = some r := by rw [hdrop]; rfl
      simpa using this
    have hdrop' : all.drop (no + 1) = rows := by
      rw [← List.drop_drop, hdrop]
      rfl
    have hrd' : ∀ r ∈ rows, ∀ nf, nf = none ∨ nf = some k → rd nf (w r) = .ok (pay r, k) := fun x hx => hrd x (List.mem_cons_of_mem _ hx)
    rw [List.map_cons]
    unfold readLinesX
    dsimp only
    by_cases hk : no = j
    · subst hk
      have hline := hrd r (List.mem_cons_self ..) nf hnf
      have hcop := copiesX_eq init (some m) (pay r) dup acc.length (by rintro m' ⟨⟩; exact hlt')
      rw [← numbered_replicate (ρ := ρ) init pay] at hcop
      dsimp only at hcop
      have hlen : (numbered init pay acc.length (List.replicate (min dup (m - acc.length)) r)).length = min dup (m - acc.length) := by
        simp [numbered]
      have htake : ((r :: ks.filterMap (all[·]?)).flatMap (List.replicate dup)).take (m - acc.length) =
          List.replicate (min dup (m - acc.length)) r ++
            ((ks.filterMap (all[·]?)).flatMap (List.replicate dup)).take (m - (acc.length + min dup (m - acc.length))) := by
        rw [List.flatMap_cons, List.take_append, List.take_replicate, List.length_replicate, Nat.min_comm]
        congr 2
        omega
      have hfm : (no :: ks).filterMap (all[·]?) = r :: ks.filterMap (all[·]?) := by simp [hget]
      rw [hfm, htake, numbered_append, List.length_replicate]
      simp only [ne_eq, not_true_eq_false, if_false, hline, Outcome.bind, hcop, Option.any_some, List.length_append, hlen, decide_eq_true_eq]
      by_cases hstop : acc.length + min dup (m - acc.length) ≥ m
      · rw [if_pos hstop]
        have h0 : m - (acc.length + min dup (m - acc.length)) = 0 := by omega
        rw [h0, List.take_zero]
        simp [numbered]
      · rw [if_neg hstop]
        have ih := readLinesX_selected init dup m hdup all rows hrd' (no + 1) (some k)
            (acc ++ numbered init pay acc.length (List.replicate (min dup (m - acc.length)) r)) ks (Or.inr rfl)
            hdrop' hlt (List.pairwise_cons.1 hsort).2
            (fun k hk => ⟨(List.pairwise_cons.1 hsort).1 k hk, (hin k (List.mem_cons_of_mem _ hk)).2⟩)
            (by rw [List.length_append, hlen]; omega)
            (by rw [List.length_append, hlen]; simp only [List.length_cons] at hm; omega)
        rw [ih, List.length_append, hlen, List.append_assoc]
    · rw [if_pos (by simpa using hk)]
      exact readLinesX_selected init dup m hdup all rows hrd' (no + 1) nf acc (j :: ks) hnf hdrop' hlt hsort
        (fun i hi => by
          have h1 := (hin j (List.mem_cons_self ..)).1
          refine ⟨?_, (hin i hi).2⟩
          rcases List.mem_cons.1 hi with rfl | hi
          · omega
          · have := (List.pairwise_cons.1 hsort).1 i hi
            omega) hlt' hm

/-! ### The property -/

theorem newline_not_in_entry {sep : Char} {tail : List Char} (_hf : Format sep tail) {sl : Slot} {e : FileEntry} (h : e.Fits sl) : '\n' ∉ e.text := by
  have dec : ∀ d : Dec, (∀ x ∈ d.frac, x < 10) → '\n' ∉ d.text := by
    intro d hd hm
    have dig : ∀ n, '\n' ∉ Nat.toDigits 10 n := fun n h => (digit_not_sign _ (digits_allDigits n _ h)).2.2 rfl
    unfold Dec.text at hm
    rcases List.mem_append.1 hm with hm | hm
    · rcases List.mem_append.1 hm with hm | hm
      · rcases List.mem_append.1 hm with hm | hm
        · split at hm <;> simp at hm
        · exact dig _ hm
      · split at hm
        · cases hm
        · rcases List.mem_cons.1 hm with h | h
          · cases h
          · obtain ⟨x, hx, h⟩ := List.mem_map.1 h
            exact (digit_not_sign _ (digitChar_isDigit (hd x hx))).2.2 h
    · split at hm
      · cases hm
      · rcases List.mem_append.1 hm with hm | hm
        · rcases List.mem_cons.1 hm with h | h
          · cases h
          · split at h <;> simp at h
        · exact dig _ hm
  cases e with
  | int z =>
    have := dec (decOf z) (by simp [decOf])
    rw [decOf_text] at this
    exact this
  | dec d =>
    refine dec d ?_
    cases sl with
    | int b => obtain ⟨z, h1, _⟩ := h; cases h1
    | real b => exact h.1 d rfl
    | shared => exact h.1 d rfl

theorem fits_mem {slots : List Slot} {es : List FileEntry} (h : List.Forall₂ FileEntry.Fits slots es) : ∀ e ∈ es, ∃ sl : Slot, e.Fits sl := by
  induction h with
  | nil => intro e he; cases he
  | cons h3 _ ih =>
    intro e he
    rcases List.mem_cons.1 he with rfl | he
    · exact ⟨_, h3⟩
    · exact ih e he

theorem fileLines_writtenX {sep : Char} {tail : List Char} (hf : Format sep tail) {realLabel : Bool} {slots : List Slot} {n : Nat} :
    ∀ rows, DatasetX realLabel slots n rows → fileLines (writeFileX sep tail rows) [] = rows.map (writeRowX sep tail)
  | [], _ => rfl
  | r :: rows, hD => by
    have h : writeFileX sep tail (r :: rows) = writeRowX sep tail r ++ '\n' :: writeFileX sep tail rows := by simp [writeFileX]
    have hnl : '\n' ∉ writeRowX sep tail r := by
      intro hm
      unfold writeRowX at hm
      rcases List.mem_append.1 hm with hm | hm
      · rcases List.mem_append.1 hm with hm | hm
        · rcases List.mem_append.1 hm with hm | hm
          · exact newline_not_in_entry hf (hD.label r (List.mem_cons_self ..)) hm
          · obtain ⟨e, he, hm⟩ := List.mem_flatMap.1 hm
            rcases List.mem_cons.1 hm with h | hm
            · exact hf.notNewline h.symm
            · have : ∃ sl, e.Fits sl := fits_mem (hD.extra r (List.mem_cons_self ..)) e he
              obtain ⟨sl, h2⟩ := this
              exact newline_not_in_entry hf h2 hm
        · obtain ⟨b, _, hb⟩ := List.mem_flatMap.1 hm
          rcases List.mem_cons.1 hb with h | h
          · exact hf.notNewline h.symm
          · cases b <;> simp at h
      · exact (hf.tailSpace _ hm).2 rfl
    rw [h, fileLines_append _ _ _ hnl, fileLines_writtenX hf rows ⟨hD.pos, fun x hx => hD.feats x (List.mem_cons_of_mem _ hx),
      fun x hx => hD.label x (List.mem_cons_of_mem _ hx), fun x hx => hD.extra x (List.mem_cons_of_mem _ hx)⟩]
    rfl

theorem rows_readX {sep : Char} {tail : List Char} (hf : Format sep tail) {realLabel : Bool} {slots : List Slot} {n : Nat} {rows : List XRow}
    (hD : DatasetX realLabel slots n rows) {dataNF maxNF : Nat} (hd : min n maxNF ≤ dataNF) :
    ∀ r ∈ rows, ∀ nf, nf = none ∨ nf = some (min n maxNF) →
      readLineX realLabel slots dataNF maxNF nf (writeRowX sep tail r) = .ok (r.data (min n maxNF), min n maxNF) := by
  intro r hr nf hnf
  have h := hD.feats r hr
  have := readLineX_written hf (realLabel := realLabel) (slots := slots) r dataNF maxNF nf (by rw [h]; exact hD.pos) (hD.label r hr) (hD.extra r hr)
    (by rw [h]; exact hd) (by rw [h]; exact hnf)
  rw [h] at this
  exact this

/-- **C48** for every task: reading a written dataset returns its rows in order, each `dup` times, with consecutive numbers from `init`, with
the labels, the extra columns and the first `maxNF` features, and the number of features. -/
theorem read_written_any_task (sep : Char) (tail : List Char) (hf : Format sep tail) (realLabel : Bool) (slots : List Slot) (n : Nat)
    (rows : List XRow) (hD : DatasetX realLabel slots n rows) (hne : rows ≠ []) (dataNF maxNF init dup : Nat)
    (hd : min n maxNF ≤ dataNF) (sel : List Nat) :
    readFileX realLabel slots dataNF maxNF init dup none sel (writeFileX sep tail rows) =
      .ok (numbered init (XRow.data (min n maxNF)) 0 (rows.flatMap (List.replicate dup)), min n maxNF) := by
  unfold readFileX
  simp only [fileLines_writtenX hf rows hD]
  rw [readLinesX_all init dup none rows (rows_readX hf hD hd) 0 none [] (Or.inl rfl) (by simp)]
  have : rows.isEmpty = false := by cases rows <;> simp_all
  simp only [this, Bool.false_eq_true, if_false, Outcome.bind, List.nil_append, List.length_nil]
  congr 2
  split <;> omega

/-- **C48** for every task, more instances asked for than there are rows: the rows in order, each `dup` times, until there are `m`. -/
theorem read_short_any_task (sep : Char) (tail : List Char) (hf : Format sep tail) (realLabel : Bool) (slots : List Slot) (n : Nat)
    (rows : List XRow) (hD : DatasetX realLabel slots n rows) (hne : rows ≠ []) (dataNF maxNF init dup : Nat)
    (hd : min n maxNF ≤ dataNF) (m : Nat) (hm : rows.length < m) (sel : List Nat) :
    readFileX realLabel slots dataNF maxNF init dup (some m) sel (writeFileX sep tail rows) =
      .ok (numbered init (XRow.data (min n maxNF)) 0 ((rows.flatMap (List.replicate dup)).take m), min n maxNF) := by
  unfold readFileX
  simp only [fileLines_writtenX hf rows hD, List.length_map]
  rw [if_pos (by omega), readLinesX_all init dup (some m) rows (rows_readX hf hD hd) 0 none [] (Or.inl rfl)
    (by rintro m' ⟨⟩; simp only [List.length_nil]; omega)]
  have : rows.isEmpty = false := by cases rows <;> simp_all
  simp only [this, Bool.false_eq_true, if_false, Outcome.bind, List.nil_append, List.length_nil, Nat.sub_zero]
  congr 2
  split <;> omega

/-- **C48** for every task, with a selection of lines: the selected rows, in the order of the file, each `dup` times, until there are `m`. -/
theorem read_selected_any_task (sep : Char) (tail : List Char) (hf : Format sep tail) (realLabel : Bool) (slots : List Slot) (n : Nat)
    (rows : List XRow) (hD : DatasetX realLabel slots n rows) (dataNF maxNF init dup : Nat) (hdup : 1 ≤ dup)
    (hd : min n maxNF ≤ dataNF) (m : Nat) (hm : 1 ≤ m ∧ m ≤ rows.length) (sel : List Nat)
    (hsort : sel.Pairwise (· < ·)) (hlen : sel.length = m) (hin : ∀ k ∈ sel, k < rows.length) :
    readFileX realLabel slots dataNF maxNF init dup (some m) sel (writeFileX sep tail rows) =
      .ok (numbered init (XRow.data (min n maxNF)) 0 (((sel.filterMap (rows[·]?)).flatMap (List.replicate dup)).take m), min n maxNF) := by
  unfold readFileX
  simp only [fileLines_writtenX hf rows hD, List.length_map]
  rw [if_neg (by omega), readLinesX_selected init dup m hdup rows rows (rows_readX hf hD hd) 0 none [] sel (Or.inl rfl) rfl (Nat.zero_le _)
    hsort (fun k hk => ⟨Nat.zero_le _, hin k hk⟩) (by simp; omega) (by simp; omega)]
  simp only [Outcome.bind, List.nil_append, List.length_nil, Nat.sub_zero]
  congr 2
  split <;> omega

/-- For real-valued labels the view holds every instance with a number in the range, in order. -/
theorem view_complete_real (lo hi : Nat) (rs : List (Nat × LineData)) :
    fillViewX lo hi rs = [rs.filter fun r => decide (lo ≤ r.1 ∧ r.1 < hi)] := by
  unfold fillViewX
  congr 2
  funext r
  simp

/-- Integer labels and no extra columns: the reader of `Model/Reader.lean`. -/
theorem readLineX_plain (dataNF maxNF : Nat) (nf : Option Nat) (line : List Char) :
    readLineX false [] dataNF maxNF nf line =
      (readLine dataNF maxNF nf line).bind fun r => .ok (⟨r.1, [], r.2.1⟩, r.2.2) := by
  unfold readLineX readLine Slot.read IStr.readInt
  rcases h : IStr.extract ⟨line, true⟩ with ⟨ex, s⟩
  cases ex with
  | untouched => simp [Outcome.bind]
  | failed =>
    simp only [Bool.false_eq_true, if_false, readExtra, Outcome.bind, Bool.and_true]
    cases readFeats dataNF _ 0 _ <;> simp
  | value neg v =>
    simp only [Bool.false_eq_true, if_false, readExtra, Outcome.bind]
    cases readFeats dataNF _ 0 _ <;> simp

/-! ### Malformed files -/

/-- A row with a cost missing is accepted: its feature is the label. The file has one feature and two costs per row; the second row should be
`1 1 0` followed by a feature. -/
theorem missing_cost_accepted :
    readFileX false (TaskExtra.costs.slots 2) 100 100 0 1 none [] "0 2.5 3 0\n1 1 0\n".toList =
      .ok ([(0, ⟨0, [5/2, 3], [false]⟩), (1, ⟨1, [1, 0], [true]⟩)], 1) := by
  decide +kernel

/-- Costs that are not there are taken from the cost before, and all features from the start of the line. -/
theorem missing_costs_repeated :
    readFileX false (TaskExtra.costs.slots 3) 100 100 0 1 none [] "0 2 3 4 1\n1 7\n".toList =
      .ok ([(0, ⟨0, [2, 3, 4], [true]⟩), (1, ⟨1, [7, 7, 7], [true]⟩)], 1) := by
  decide +kernel

/-- Without the number of extra columns set, costs are read as features; costs of 0 and 1 are not noticed. -/
theorem costs_read_as_features :
    readFileX false (TaskExtra.costs.slots 0) 100 100 0 1 none [] "0 1 0 1\n".toList = .ok ([(0, ⟨0, [], [true, false, true]⟩)], 3) := by
  decide +kernel

/-- A real-valued label in a file for classification is undefined behaviour. -/
theorem real_label_undefined : readFileX false [] 100 100 0 1 none [] "1.5 0 1\n".toList = .undef := by decide +kernel

/-- A missing continuous feature in the only column of a short row is undefined behaviour. -/
theorem missing_feature_undefined :
    readFileX true (TaskExtra.continuous.slots 2) 100 100 0 1 none [] "0.5 1 2 1\n1.5 3\n".toList = .undef := by decide +kernel

/-! ### Instances -/

example : DatasetX true (TaskExtra.continuous.slots 1) 2 [⟨.dec ⟨true, 12, [5, 0], some (-3)⟩, [.int 7], [true, false]⟩] := by
  refine ⟨by decide, by decide, ?_, ?_⟩
  · intro r hr
    simp only [List.mem_singleton] at hr
    subst hr
    exact ⟨by rintro d ⟨⟩; decide, by decide +kernel, by decide +kernel⟩
  · intro r hr
    simp only [List.mem_singleton] at hr
    subst hr
    exact .cons ⟨by rintro d ⟨⟩, by decide +kernel, by decide +kernel⟩ .nil

example : writeFileX ' ' [] [⟨.dec ⟨true, 12, [5, 0], some (-3)⟩, [.int 7], [true, false]⟩] = "-12.50e-3 7 1 0\n".toList ∧
    (Dec.mk true 12 [5, 0] (some (-3))).val = -1/80 ∧
    readFileX true (TaskExtra.continuous.slots 1) 100 100 0 1 none [] "-12.50e-3 7 1 0\n".toList = .ok ([(0, ⟨-1/80, [7], [true, false]⟩)], 2) ∧
    readFileX false (TaskExtra.policy.slots 2) 100 100 0 1 none [] "0 1 2.5 0.5 1 3 1 4 5 1 0\n".toList =
      .ok ([(0, ⟨0, [1, 5/2, 1/2, 1, 3, 1, 4, 5], [true, false]⟩)], 2) ∧
    readFileX true (TaskExtra.event.slots 0) 100 100 0 1 none [] "2.25 1 0 1\n".toList = .ok ([(0, ⟨9/4, [1], [false, true]⟩)], 2) := by
  decide +kernel

end Streed
