import Verif.Model.Reader

/-! Helpers for `Props/Reader.lean`. -/

namespace Streed

theorem spanNum_append (rest : List Char) (hr : ∀ c, rest.head? = some c → c.isDigit = false) :
    ∀ (ds : List Char), (∀ c ∈ ds, c.isDigit = true) → ∀ acc seen,
    spanNum (ds ++ rest) acc seen =
      (ds.foldl (fun a c => a * 10 + (c.toNat - 48)) acc, seen || !ds.isEmpty, rest)
  | [], _, acc, seen => by
    cases rest with
    | nil => simp [spanNum]
    | cons c l => simp [spanNum, hr c rfl]
  | d :: ds, hd, acc, seen => by
    rw [List.cons_append, spanNum, if_pos (hd d (List.mem_cons_self ..)),
      spanNum_append rest hr ds (fun c hc => hd c (List.mem_cons_of_mem _ hc))]
    simp

theorem digit_toNat (n : Nat) (hn : n < 10) : (Nat.digitChar n).toNat - 48 = n := by
  match n, hn with
  | 0, _ => rfl
  | 1, _ => rfl
  | 2, _ => rfl
  | 3, _ => rfl
  | 4, _ => rfl
  | 5, _ => rfl
  | 6, _ => rfl
  | 7, _ => rfl
  | 8, _ => rfl
  | 9, _ => rfl

theorem foldl_toDigits (n : Nat) :
    (Nat.toDigits 10 n).foldl (fun a c => a * 10 + (c.toNat - 48)) 0 = n := by
  induction n using Nat.strongRecOn with
  | _ n ih =>
    rw [Nat.toDigits_eq_if (by omega)]
    split
    next h => simp only [List.foldl_cons, List.foldl_nil, digit_toNat n h]; omega
    next h =>
      rw [List.foldl_append, ih (n / 10) (by omega)]
      simp only [List.foldl_cons, List.foldl_nil, digit_toNat (n % 10) (by omega)]
      omega

theorem toDigits_ne_nil (n : Nat) : Nat.toDigits 10 n ≠ [] := by
  rw [Nat.toDigits_eq_if (by omega)]
  split <;> simp

theorem spanNum_nat (n : Nat) (rest : List Char)
    (hr : ∀ c, rest.head? = some c → c.isDigit = false) :
    spanNum (Nat.toDigits 10 n ++ rest) 0 false = (n, true, rest) := by
  rw [spanNum_append rest hr _ (fun c hc => Nat.isDigit_of_mem_toDigits (by omega) (by omega) hc),
    foldl_toDigits]
  simp

theorem digit_not_space (c : Char) (h : c.isDigit = true) : isSpaceC c = false := by
  have h1 : 48 ≤ c.toNat ∧ c.toNat ≤ 57 := by
    simp only [Char.isDigit, Bool.and_eq_true, decide_eq_true_eq] at h
    exact ⟨h.1, h.2⟩
  cases hs : isSpaceC c with
  | false => rfl
  | true =>
    exfalso
    simp only [isSpaceC, Bool.or_eq_true, beq_iff_eq] at hs
    rcases hs with ((((rfl | rfl) | rfl) | rfl) | rfl) | rfl <;> revert h1 <;> decide

theorem digit_not_sign (c : Char) (h : c.isDigit = true) : c ≠ '-' ∧ c ≠ '+' ∧ c ≠ '\n' := by
  refine ⟨?_, ?_, ?_⟩ <;> rintro rfl <;> revert h <;> decide

theorem space_not_digit (c : Char) (h : isSpaceC c = true) : c.isDigit = false := by
  cases hd : c.isDigit with
  | false => rfl
  | true => rw [digit_not_space c hd] at h; cases h

theorem toString_int (z : Int) : (toString z).toList =
    if z < 0 then '-' :: Nat.toDigits 10 z.natAbs else Nat.toDigits 10 z.natAbs := by
  cases z with
  | ofNat n =>
    rw [if_neg (by simp)]
    show (Nat.repr n).toList = _
    simp [Nat.repr]
  | negSucc n =>
    rw [if_pos (by omega)]
    show ("-" ++ Nat.repr (n + 1)).toList = _
    simp [Nat.repr]

/-- Extraction of a written integer that is followed by white space. -/
theorem extract_int (z : Int) (sep : Char) (hs : isSpaceC sep = true) (rest : List Char) :
    IStr.extract ⟨(toString z).toList ++ sep :: rest, true⟩ =
      (.value (decide (z < 0)) z.natAbs, ⟨sep :: rest, true⟩) := by
  have hr : ∀ c, (sep :: rest).head? = some c → c.isDigit = false := by
    intro c hc
    cases hc
    exact space_not_digit sep hs
  have hsp := spanNum_nat z.natAbs (sep :: rest) hr
  rw [toString_int]
  obtain ⟨d, ds, hds⟩ := List.exists_cons_of_ne_nil (toDigits_ne_nil z.natAbs)
  have hd : d.isDigit = true := Nat.isDigit_of_mem_toDigits (b := 10) (n := z.natAbs) (by omega)
    (by omega) (by rw [hds]; exact List.mem_cons_self ..)
  by_cases hz : z < 0
  · rw [if_pos hz]
    have : List.dropWhile isSpaceC ('-' :: Nat.toDigits 10 z.natAbs ++ sep :: rest) =
        '-' :: (Nat.toDigits 10 z.natAbs ++ sep :: rest) := by
      rw [List.cons_append, List.dropWhile_cons_of_neg (by decide)]
    simp only [IStr.extract, if_true, this, beq_self_eq_true, Bool.true_or, hsp, hz, decide_true]
    rfl
  · rw [if_neg hz]
    have : List.dropWhile isSpaceC (Nat.toDigits 10 z.natAbs ++ sep :: rest) =
        d :: (ds ++ sep :: rest) := by
      rw [hds, List.cons_append, List.dropWhile_cons_of_neg (by simp [digit_not_space d hd])]
    have hsg := digit_not_sign d hd
    have h1 : (d == '-') = false := by simpa using hsg.1
    have h2 : (d == '+') = false := by simpa using hsg.2.1
    rw [hds, List.cons_append] at hsp
    simp only [IStr.extract, if_true, this, h1, h2, Bool.or_self, Bool.false_eq_true, if_false, hsp,
      hz, decide_false]
    rfl

/-- The characters of the features of a row. -/
def featChars (sep : Char) (fs : List Bool) : List Char :=
  fs.flatMap fun b => [sep, if b then '1' else '0']

theorem featChars_length (sep : Char) : ∀ fs, (featChars sep fs).length = 2 * fs.length
  | [] => rfl
  | b :: fs => by
    have := featChars_length sep fs
    simp only [featChars, List.flatMap_cons, List.length_append, List.length_cons,
      List.length_nil] at this ⊢
    omega

theorem extract_bit (b : Bool) (sep : Char) (hs : isSpaceC sep = true) (rest : List Char)
    (hr : ∀ c, rest.head? = some c → c.isDigit = false) :
    IStr.extract ⟨sep :: (if b then '1' else '0') :: rest, true⟩ =
      (.value false (if b then 1 else 0), ⟨rest, !rest.isEmpty⟩) := by
  have h1 : List.dropWhile isSpaceC (sep :: (if b then '1' else '0') :: rest) =
      (if b then '1' else '0') :: rest := by
    rw [List.dropWhile_cons_of_pos hs, List.dropWhile_cons_of_neg (by cases b <;> decide)]
  have h2 := spanNum_nat (if b then 1 else 0) rest hr
  have h3 : Nat.toDigits 10 (if b then 1 else 0) = [if b then '1' else '0'] := by cases b <;> rfl
  rw [h3] at h2
  cases b <;> simp_all [IStr.extract]

/-- Reading the written features gives them back; a trailing part that starts with white space is
left alone. -/
theorem readFeats_written (dataNF : Nat) (sep : Char) (hs : isSpaceC sep = true)
    (tail : List Char) (ht : ∀ c, tail.head? = some c → isSpaceC c = true) :
    ∀ (fs : List Bool) (n i : Nat), n ≤ fs.length → i + n ≤ dataNF →
    readFeats dataNF n i ⟨featChars sep fs ++ tail, true⟩ = .ok (fs.take n)
  | fs, 0, i, _, _ => by simp [readFeats]
  | [], n + 1, i, h, _ => by simp at h
  | b :: fs, n + 1, i, h, hd => by
    have hlist : featChars sep (b :: fs) ++ tail =
        sep :: (if b then '1' else '0') :: (featChars sep fs ++ tail) := by
      simp [featChars]
    have hhead : ∀ c, (featChars sep fs ++ tail).head? = some c → c.isDigit = false := by
      intro c hc
      cases fs with
      | nil => exact space_not_digit c (ht c hc)
      | cons b' fs =>
        have : (featChars sep (b' :: fs) ++ tail).head? = some sep := by simp [featChars]
        rw [this] at hc
        cases hc
        exact space_not_digit _ hs
    have ih := readFeats_written dataNF sep hs tail ht fs n (i + 1) (by simpa using h) (by omega)
    rw [hlist]
    unfold readFeats
    rw [extract_bit b sep hs _ hhead]
    have hv : toUInt32 false (if b then 1 else 0) = if b then 1 else 0 := by cases b <;> rfl
    have hb : ¬ ((if b then 1 else 0 : Nat) ≠ 0 ∧ (if b then 1 else 0 : Nat) ≠ 1) := by
      cases b <;> simp
    have hbig : ¬ ((if b then 1 else 0 : Nat) > 4294967295) := by cases b <;> simp
    simp only [hv, if_neg hb, if_neg hbig]
    have hrest : readFeats dataNF n (i + 1) ⟨featChars sep fs ++ tail,
        !(featChars sep fs ++ tail).isEmpty⟩ = .ok (fs.take n) := by
      cases he : (featChars sep fs ++ tail).isEmpty with
      | false => exact ih
      | true =>
        have : fs = [] := by
          cases fs with
          | nil => rfl
          | cons b' fs => simp [featChars] at he
        subst this
        have : n = 0 := by simpa using h
        subst this
        simp [readFeats]
    rw [hrest]
    have hi : ¬ (i ≥ dataNF) := by omega
    cases b <;> simp [Outcome.bind, hi]

theorem fileLines_append (rest : List Char) : ∀ (cs cur : List Char), '\n' ∉ cs →
    fileLines (cs ++ '\n' :: rest) cur = (cur.reverse ++ cs) :: fileLines rest []
  | [], cur, _ => by simp [fileLines]
  | c :: cs, cur, h => by
    have hc : c ≠ '\n' := fun h' => h (h' ▸ List.mem_cons_self ..)
    rw [List.cons_append, fileLines, if_neg hc, fileLines_append rest cs (c :: cur)
      (fun hm => h (List.mem_cons_of_mem _ hm))]
    simp

theorem spanNum_mono : ∀ (l : List Char) acc, acc ≤ (spanNum l acc true).1 ∧
    (spanNum l acc true).2.1 = true
  | [], acc => by simp [spanNum]
  | c :: l, acc => by
    unfold spanNum
    split
    · have := spanNum_mono l (acc * 10 + (c.toNat - 48))
      exact ⟨by omega, this.2⟩
    · simp

/-- A feature that starts with a digit other than 0 and 1 ends the process. -/
theorem readFeats_digit (dataNF : Nat) (sep d : Char) (hs : isSpaceC sep = true)
    (hd : d.isDigit = true) (h0 : d ≠ '0') (h1 : d ≠ '1') (rest : List Char) :
    ∀ (fs : List Bool) (n i : Nat), fs.length < n →
    readFeats dataNF n i ⟨featChars sep fs ++ sep :: d :: rest, true⟩ = .stop
  | fs, 0, i, h => by omega
  | [], n + 1, i, _ => by
    have hdw : List.dropWhile isSpaceC (sep :: d :: rest) = d :: rest := by
      rw [List.dropWhile_cons_of_pos hs, List.dropWhile_cons_of_neg (by simp [digit_not_space d hd])]
    have hsg := digit_not_sign d hd
    have e1 : (d == '-') = false := by simpa using hsg.1
    have e2 : (d == '+') = false := by simpa using hsg.2.1
    have hm := spanNum_mono rest (d.toNat - 48)
    have hsp : spanNum (d :: rest) 0 false = spanNum rest (d.toNat - 48) true := by
      rw [spanNum, if_pos hd, Nat.zero_mul, Nat.zero_add]
    have h2 : 2 ≤ d.toNat - 48 := by
      have hr : 48 ≤ d.toNat ∧ d.toNat ≤ 57 := by
        simp only [Char.isDigit, Bool.and_eq_true, decide_eq_true_eq] at hd
        exact ⟨hd.1, hd.2⟩
      have a0 : d.toNat ≠ 48 := fun h => h0 (Char.ext (UInt32.toNat_inj.1 h))
      have a1 : d.toNat ≠ 49 := fun h => h1 (Char.ext (UInt32.toNat_inj.1 h))
      omega
    have hex : IStr.extract ⟨sep :: d :: rest, true⟩ =
        (.value false (spanNum rest (d.toNat - 48) true).1,
          ⟨(spanNum rest (d.toNat - 48) true).2.2,
            !(spanNum rest (d.toNat - 48) true).2.2.isEmpty⟩) := by
      simp only [IStr.extract, if_true, hdw, e1, e2, Bool.or_self, Bool.false_eq_true, if_false,
        hsp, hm.2]
    show readFeats dataNF (n + 1) i ⟨sep :: d :: rest, true⟩ = .stop
    unfold readFeats
    rw [hex]
    dsimp only
    rw [if_pos]
    unfold toUInt32
    generalize (spanNum rest (d.toNat - 48) true).1 = v at hm
    split
    · omega
    · simp; omega
  | b :: fs, n + 1, i, h => by
    have hlist : featChars sep (b :: fs) ++ sep :: d :: rest =
        sep :: (if b then '1' else '0') :: (featChars sep fs ++ sep :: d :: rest) := by
      simp [featChars]
    have hhead : ∀ c, (featChars sep fs ++ sep :: d :: rest).head? = some c → c.isDigit = false := by
      intro c hc
      have : (featChars sep fs ++ sep :: d :: rest).head? = some sep := by
        cases fs <;> simp [featChars]
      rw [this] at hc
      cases hc
      exact space_not_digit _ hs
    have hemp : (featChars sep fs ++ sep :: d :: rest).isEmpty = false := by
      cases fs <;> simp [featChars]
    have ih := readFeats_digit dataNF sep d hs hd h0 h1 rest fs n (i + 1) (by simpa using h)
    rw [hlist]
    unfold readFeats
    rw [extract_bit b sep hs _ hhead]
    have hv : toUInt32 false (if b then 1 else 0) = if b then 1 else 0 := by cases b <;> rfl
    have hb : ¬ ((if b then 1 else 0 : Nat) ≠ 0 ∧ (if b then 1 else 0 : Nat) ≠ 1) := by
      cases b <;> simp
    have hbig : ¬ ((if b then 1 else 0 : Nat) > 4294967295) := by cases b <;> simp
    simp only [hv, if_neg hb, if_neg hbig, hemp, Bool.not_false, ih, Outcome.bind]

end Streed
