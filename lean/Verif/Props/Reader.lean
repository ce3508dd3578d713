import Verif.Lemmas.Reader

/-!
# C48: input files are read faithfully

A data file has one row per instance: the label, then the binary features, separated by white space.
Writing any dataset in this format and reading it gives the dataset back (`read_written`), also when
instances are duplicated, when only the first features are wanted and when lines are selected
(`read_selected`).  A digit other than 0 and 1 is rejected (`digit_rejected`).

Other malformed files are not rejected: text is read as the feature value zero
(`letter_accepted`), a row that is too short or empty is undefined behaviour
(`short_row_undefined`, `blank_line_undefined`), a row that is too long is cut
(`long_row_cut`), and a negative label is undefined behaviour (`negative_label_undefined`).
-/

namespace Streed

/-! ### Specification -/

/-- One instance of a dataset. -/
structure Row where
  label : Int
  feats : List Bool
  deriving DecidableEq, Repr

/-- A row of the documented format: the label in decimal, each feature preceded by the separator,
and `tail` (nothing, or one white space character such as a carriage return) at the end. -/
def writeRow (sep : Char) (tail : List Char) (r : Row) : List Char :=
  (toString r.label).toList ++ (r.feats.flatMap fun b => [sep, if b then '1' else '0']) ++ tail

/-- The file: every row ends with a newline. -/
def writeFile (sep : Char) (tail : List Char) (rows : List Row) : List Char :=
  rows.flatMap fun r => writeRow sep tail r ++ ['\n']

/-- The instances a user expects: each row `dup` times in order, numbered from `init`, with the
first `m` features. -/
def expected (init dup m : Nat) (rows : List Row) : List ReadInst :=
  (rows.flatMap (List.replicate dup)).zipIdx.map fun p => ⟨init + p.2, p.1.label, p.1.feats.take m⟩

/-- Separators and line ends of the format. -/
structure Format (sep : Char) (tail : List Char) : Prop where
  space : isSpaceC sep = true
  notNewline : sep ≠ '\n'
  short : tail.length ≤ 1
  tailSpace : ∀ c ∈ tail, isSpaceC c = true ∧ c ≠ '\n'

/-- Datasets: `n ≥ 1` features in every row, labels that fit an `int`. -/
structure Dataset (n : Nat) (rows : List Row) : Prop where
  pos : 1 ≤ n
  feats : ∀ r ∈ rows, r.feats.length = n
  label : ∀ r ∈ rows, -2147483648 ≤ r.label ∧ r.label ≤ 2147483647

/-! ### Reading one line -/

theorem readLine_written {sep : Char} {tail : List Char} (hf : Format sep tail) (r : Row)
    (dataNF maxNF : Nat) (nf : Option Nat) (hp : 1 ≤ r.feats.length)
    (hl : -2147483648 ≤ r.label ∧ r.label ≤ 2147483647)
    (hd : min r.feats.length maxNF ≤ dataNF)
    (hn : nf = none ∨ nf = some (min r.feats.length maxNF)) :
    readLine dataNF maxNF nf (writeRow sep tail r) =
      .ok (r.label, r.feats.take (min r.feats.length maxNF), min r.feats.length maxNF) := by
  obtain ⟨label, fs⟩ := r
  dsimp only at *
  obtain ⟨b, bs, rfl⟩ : ∃ b bs, fs = b :: bs := by
    cases fs with
    | nil => simp at hp
    | cons b bs => exact ⟨b, bs, rfl⟩
  have hw : writeRow sep tail ⟨label, b :: bs⟩ =
      (toString label).toList ++ sep :: ((if b then '1' else '0') :: (featChars sep bs ++ tail)) := by
    simp [writeRow, featChars]
  have hrest : sep :: ((if b then '1' else '0') :: (featChars sep bs ++ tail)) =
      featChars sep (b :: bs) ++ tail := by simp [featChars]
  unfold readLine
  rw [hw, extract_int label sep hf.space]
  have hout : outInt32 (decide (label < 0)) label.natAbs = false := by
    unfold outInt32
    split <;> simp_all <;> omega
  have hint : toInt32 (decide (label < 0)) label.natAbs = label := by
    unfold toInt32
    by_cases hz : label < 0 <;> simp only [hz, decide_true, decide_false, if_true, if_false,
      Bool.false_eq_true] <;> rw [if_neg (by omega)] <;> omega
  simp only [hout, Bool.not_false, Bool.and_self, if_true, hint, hrest]
  have hlen : (featChars sep (b :: bs) ++ tail).length / 2 = (b :: bs).length := by
    rw [List.length_append, featChars_length]
    have := hf.short
    omega
  have hmin : min (nf.getD ((featChars sep (b :: bs) ++ tail).length / 2)) maxNF =
      min (b :: bs).length maxNF := by
    rw [hlen]
    rcases hn with rfl | rfl
    · rfl
    · simp only [Option.getD_some]
      omega
  rw [hmin, readFeats_written dataNF sep hf.space tail ?_ (b :: bs) _ 0 (Nat.min_le_left _ _)
    (by omega)]
  · rfl
  · intro c hc
    refine (hf.tailSpace c ?_).1
    cases tail with
    | nil => cases hc
    | cons c' l => cases hc; exact List.mem_cons_self ..

theorem copies_all (init : Nat) (label : Int) (fs : List Bool) : ∀ dup count,
    copies init none label fs dup count =
      (List.range' count dup).map fun j => ⟨init + j, label, fs⟩
  | 0, count => rfl
  | dup + 1, count => by
    simp only [copies, Option.any_none, Bool.false_eq_true, if_false, List.range'_succ,
      List.map_cons]
    rw [copies_all init label fs dup (count + 1)]

theorem zipIdx_replicate {α β : Type} (f : α → Nat → β) (a : α) : ∀ dup k,
    ((List.replicate dup a).zipIdx k).map (fun p => f p.1 p.2) =
      (List.range' k dup).map fun j => f a j
  | 0, k => rfl
  | dup + 1, k => by
    simp only [List.replicate_succ, List.zipIdx_cons, List.map_cons, List.range'_succ]
    rw [zipIdx_replicate f a dup (k + 1)]

theorem readLines_written {sep : Char} {tail : List Char} (hf : Format sep tail)
    (dataNF maxNF init dup n : Nat) (hp : 1 ≤ n) (hd : min n maxNF ≤ dataNF) :
    ∀ (rows : List Row), Dataset n rows → ∀ no nf acc,
    (nf = none ∨ nf = some (min n maxNF)) →
    readLines dataNF maxNF init dup none (rows.map (writeRow sep tail)) no none nf acc =
      .ok (acc ++ ((rows.flatMap (List.replicate dup)).zipIdx acc.length).map
          (fun p => ⟨init + p.2, p.1.label, p.1.feats.take (min n maxNF)⟩),
        if rows = [] then nf else some (min n maxNF))
  | [], _, no, nf, acc, _ => by simp [readLines]
  | r :: rows, hD, no, nf, acc, hnf => by
    have hr := hD.feats r (List.mem_cons_self ..)
    have hline := readLine_written hf r dataNF maxNF nf (by omega)
      (hD.label r (List.mem_cons_self ..)) (by rw [hr]; exact hd) (by rw [hr]; exact hnf)
    rw [hr] at hline
    have ih := readLines_written hf dataNF maxNF init dup n hp hd rows
      ⟨hp, fun x hx => hD.feats x (List.mem_cons_of_mem _ hx),
        fun x hx => hD.label x (List.mem_cons_of_mem _ hx)⟩ (no + 1) (some (min n maxNF))
      (acc ++ copies init none r.label (r.feats.take (min n maxNF)) dup acc.length) (Or.inr rfl)
    rw [List.map_cons]
    unfold readLines
    simp only [hline, Outcome.bind, Option.any_none, Bool.false_eq_true, if_false]
    rw [ih]
    have hlen : (copies init none r.label (r.feats.take (min n maxNF)) dup acc.length).length =
        dup := by rw [copies_all]; simp
    simp only [List.flatMap_cons, List.zipIdx_append, List.map_append, List.length_append, hlen,
      List.length_replicate, List.append_assoc, reduceCtorEq, if_false, ite_self]
    rw [zipIdx_replicate (fun (x : Row) j => (⟨init + j, x.label, x.feats.take (min n maxNF)⟩ : ReadInst)),
      copies_all]

theorem newline_not_written {sep : Char} {tail : List Char} (hf : Format sep tail) (r : Row) :
    '\n' ∉ writeRow sep tail r := by
  intro hm
  unfold writeRow at hm
  rcases List.mem_append.1 hm with hm | hm
  · rcases List.mem_append.1 hm with hm | hm
    · rw [toString_int] at hm
      split at hm
      · rcases List.mem_cons.1 hm with h | h
        · cases h
        · exact (digit_not_sign _ (Nat.isDigit_of_mem_toDigits (by omega) (by omega) h)).2.2 rfl
      · exact (digit_not_sign _ (Nat.isDigit_of_mem_toDigits (by omega) (by omega) hm)).2.2 rfl
    · obtain ⟨b, _, hb⟩ := List.mem_flatMap.1 hm
      rcases List.mem_cons.1 hb with h | h
      · exact hf.notNewline h.symm
      · cases b <;> simp at h
  · exact (hf.tailSpace _ hm).2 rfl

theorem fileLines_written {sep : Char} {tail : List Char} (hf : Format sep tail) :
    ∀ rows, fileLines (writeFile sep tail rows) [] = rows.map (writeRow sep tail)
  | [] => rfl
  | r :: rows => by
    have h : writeFile sep tail (r :: rows) =
        writeRow sep tail r ++ '\n' :: writeFile sep tail rows := by
      simp [writeFile]
    rw [h, fileLines_append _ _ _ (newline_not_written hf r), fileLines_written hf rows]
    rfl

/-! ### The property -/

/-- Reading a written dataset returns its rows in order, each `dup` times, with consecutive numbers
from `init`, with the labels and the first `maxNF` features (all of them when there are not more),
and the number of features.  `dataNF` is the number of features of the data before: the limit itself
for the first file, and the number of features of the training data for the test file. -/
theorem read_written (sep : Char) (tail : List Char) (hf : Format sep tail) (n : Nat)
    (rows : List Row) (hD : Dataset n rows) (hne : rows ≠ []) (dataNF maxNF init dup : Nat)
    (hd : min n maxNF ≤ dataNF) (sel : List Nat) :
    readFile dataNF maxNF init dup none sel (writeFile sep tail rows) =
      .ok (expected init dup (min n maxNF) rows, min n maxNF) := by
  unfold readFile
  simp only [fileLines_written hf]
  rw [readLines_written hf dataNF maxNF init dup n hD.pos hd rows hD 0 none [] (Or.inl rfl)]
  simp only [hne, if_false, Outcome.bind, List.nil_append, List.length_nil, expected]
  congr 2
  split <;> omega

theorem copies_some (init m : Nat) (label : Int) (fs : List Bool) : ∀ dup count, count < m →
    copies init (some m) label fs dup count =
      (List.range' count (min dup (m - count))).map fun j => ⟨init + j, label, fs⟩
  | 0, count, _ => by simp [copies]
  | dup + 1, count, h => by
    rw [copies]
    have hmin : min (dup + 1) (m - count) = min dup (m - (count + 1)) + 1 := by omega
    rw [hmin, List.range'_succ, List.map_cons]
    congr 1
    by_cases hc : count + 1 ≥ m
    · have : m - (count + 1) = 0 := by omega
      simp [hc, this]
    · simp only [Option.any_some, hc, decide_false, Bool.false_eq_true, if_false]
      exact copies_some init m label fs dup (count + 1) (by omega)

/-- With a selection of lines (made at random by the code, sorted, one entry per wanted instance)
the selected rows are returned, in the order of the file, each `dup` times, until there are `m`. -/
theorem readLines_selected {sep : Char} {tail : List Char} (hf : Format sep tail)
    (dataNF maxNF init dup n m : Nat) (hp : 1 ≤ n) (hdup : 1 ≤ dup) (hd : min n maxNF ≤ dataNF) (all : List Row) :
    ∀ (rows : List Row), Dataset n rows → ∀ no nf acc sel,
    (nf = none ∨ nf = some (min n maxNF)) → all.drop no = rows → no ≤ all.length →
    sel.Pairwise (· < ·) → (∀ k ∈ sel, no ≤ k ∧ k < all.length) → acc.length < m →
    m ≤ acc.length + sel.length →
    readLines dataNF maxNF init dup (some m) (rows.map (writeRow sep tail)) no (some sel) nf acc =
      .ok (acc ++ ((((sel.filterMap (all[·]?)).flatMap (List.replicate dup)).take (m - acc.length)).zipIdx acc.length).map
          (fun p => ⟨init + p.2, p.1.label, p.1.feats.take (min n maxNF)⟩),
        some (min n maxNF))
  | [], _, no, nf, acc, sel, _, hdrop, hno, _, hin, hlt, hm => by
    exfalso
    obtain ⟨k, ks, rfl⟩ := List.exists_cons_of_ne_nil (show sel ≠ [] by rintro rfl; simp at hm; omega)
    have := hin k (List.mem_cons_self ..)
    have : all.length ≤ no := by simpa using hdrop
    omega
  | r :: rows, hD, no, nf, acc, sel, hnf, hdrop, hno, hsort, hin, hlt', hm => by
    obtain ⟨k, ks, rfl⟩ := List.exists_cons_of_ne_nil (show sel ≠ [] by rintro rfl; simp at hm; omega)
    have hlt : no < all.length := by
      have := congrArg List.length hdrop
      simp at this
      omega
    have hget : all[no]? = some r := by
      have : (all.drop no)[0]? = some r := by rw [hdrop]; rfl
      simpa using this
    have hdrop' : all.drop (no + 1) = rows := by
      rw [← List.drop_drop, hdrop]
      rfl
    have hD' : Dataset n rows := ⟨hp, fun x hx => hD.feats x (List.mem_cons_of_mem _ hx),
        fun x hx => hD.label x (List.mem_cons_of_mem _ hx)⟩
    rw [List.map_cons]
    unfold readLines
    dsimp only
    by_cases hk : no = k
    · subst hk
      have hr := hD.feats r (List.mem_cons_self ..)
      have hline := readLine_written hf r dataNF maxNF nf (by omega)
        (hD.label r (List.mem_cons_self ..)) (by rw [hr]; exact hd) (by rw [hr]; exact hnf)
      rw [hr] at hline
      have hcop := copies_some init m r.label (r.feats.take (min n maxNF)) dup acc.length hlt'
      have hrep := zipIdx_replicate (fun (x : Row) j => (⟨init + j, x.label, x.feats.take (min n maxNF)⟩ : ReadInst)) r
        (min dup (m - acc.length)) acc.length
      have hlen : (copies init (some m) r.label (r.feats.take (min n maxNF)) dup acc.length).length = min dup (m - acc.length) := by
        rw [hcop]; simp
      simp only [ne_eq, not_true_eq_false, if_false, hline, Outcome.bind, Option.any_some,
        List.length_append, hlen, decide_eq_true_eq]
      have htake : ((r :: ks.filterMap (all[·]?)).flatMap (List.replicate dup)).take (m - acc.length) =
          List.replicate (min dup (m - acc.length)) r ++
            ((ks.filterMap (all[·]?)).flatMap (List.replicate dup)).take (m - (acc.length + min dup (m - acc.length))) := by
        rw [List.flatMap_cons, List.take_append, List.take_replicate, List.length_replicate, Nat.min_comm]
        congr 2
        omega
      have hfm : (no :: ks).filterMap (all[·]?) = r :: ks.filterMap (all[·]?) := by simp [hget]
      rw [hfm, htake]
      by_cases hstop : acc.length + min dup (m - acc.length) ≥ m
      · rw [if_pos hstop]
        have h0 : m - (acc.length + min dup (m - acc.length)) = 0 := by omega
        rw [h0, List.take_zero, List.append_nil, hrep, hcop]
      · rw [if_neg hstop]
        have ih := readLines_selected hf dataNF maxNF init dup n m hp hdup hd all rows hD' (no + 1)
            (some (min n maxNF))
            (acc ++ copies init (some m) r.label (r.feats.take (min n maxNF)) dup acc.length) ks (Or.inr rfl)
            hdrop' hlt (List.pairwise_cons.1 hsort).2
            (fun k hk => ⟨(List.pairwise_cons.1 hsort).1 k hk,
              (hin k (List.mem_cons_of_mem _ hk)).2⟩)
            (by rw [List.length_append, hlen]; omega)
            (by rw [List.length_append, hlen]; simp only [List.length_cons] at hm; omega)
        rw [ih, List.length_append, hlen, List.zipIdx_append, List.map_append, hrep, hcop, List.length_replicate,
          List.append_assoc]
    · rw [if_pos (by simpa using hk)]
      exact readLines_selected hf dataNF maxNF init dup n m hp hdup hd all rows hD' (no + 1) nf acc
        (k :: ks) hnf hdrop' hlt hsort
        (fun j hj => by
          have h1 := (hin k (List.mem_cons_self ..)).1
          refine ⟨?_, (hin j hj).2⟩
          rcases List.mem_cons.1 hj with rfl | hj
          · omega
          · have := (List.pairwise_cons.1 hsort).1 j hj
            omega) hlt' hm

/-- When `m` instances are asked for and the file has at least that many rows, the selected rows are
read, each `dup` times, until there are `m`, numbered consecutively. -/
theorem read_selected (sep : Char) (tail : List Char) (hf : Format sep tail) (n : Nat)
    (rows : List Row) (hD : Dataset n rows) (dataNF maxNF init dup : Nat) (hdup : 1 ≤ dup)
    (hd : min n maxNF ≤ dataNF) (m : Nat) (hm : 1 ≤ m ∧ m ≤ rows.length) (sel : List Nat)
    (hsort : sel.Pairwise (· < ·)) (hlen : sel.length = m) (hin : ∀ k ∈ sel, k < rows.length) :
    readFile dataNF maxNF init dup (some m) sel (writeFile sep tail rows) =
      .ok ((((sel.filterMap (rows[·]?)).flatMap (List.replicate dup)).take m).zipIdx.map
        (fun p => ⟨init + p.2, p.1.label, p.1.feats.take (min n maxNF)⟩), min n maxNF) := by
  unfold readFile
  simp only [fileLines_written hf, List.length_map]
  rw [if_neg (by omega), readLines_selected hf dataNF maxNF init dup n m hD.pos hdup hd rows rows hD 0 none
    [] sel (Or.inl rfl) rfl (Nat.zero_le _) hsort (fun k hk => ⟨Nat.zero_le _, hin k hk⟩)
    (by simp; omega) (by simp; omega)]
  simp only [Outcome.bind, List.nil_append, List.length_nil, Nat.sub_zero]
  congr 2
  split <;> omega

theorem readLines_limited {sep : Char} {tail : List Char} (hf : Format sep tail)
    (dataNF maxNF init dup n m : Nat) (hp : 1 ≤ n) (hd : min n maxNF ≤ dataNF) :
    ∀ (rows : List Row), Dataset n rows → ∀ no nf acc,
    (nf = none ∨ nf = some (min n maxNF)) → acc.length < m →
    readLines dataNF maxNF init dup (some m) (rows.map (writeRow sep tail)) no none nf acc =
      .ok (acc ++ (((rows.flatMap (List.replicate dup)).take (m - acc.length)).zipIdx acc.length).map
          (fun p => ⟨init + p.2, p.1.label, p.1.feats.take (min n maxNF)⟩),
        if rows = [] then nf else some (min n maxNF))
  | [], _, no, nf, acc, _, _ => by simp [readLines]
  | r :: rows, hD, no, nf, acc, hnf, hlt' => by
    have hr := hD.feats r (List.mem_cons_self ..)
    have hline := readLine_written hf r dataNF maxNF nf (by omega)
      (hD.label r (List.mem_cons_self ..)) (by rw [hr]; exact hd) (by rw [hr]; exact hnf)
    rw [hr] at hline
    have hcop := copies_some init m r.label (r.feats.take (min n maxNF)) dup acc.length hlt'
    have hrep := zipIdx_replicate (fun (x : Row) j => (⟨init + j, x.label, x.feats.take (min n maxNF)⟩ : ReadInst)) r
      (min dup (m - acc.length)) acc.length
    have hlen : (copies init (some m) r.label (r.feats.take (min n maxNF)) dup acc.length).length = min dup (m - acc.length) := by
      rw [hcop]; simp
    have htake : ((r :: rows).flatMap (List.replicate dup)).take (m - acc.length) =
        List.replicate (min dup (m - acc.length)) r ++
          (rows.flatMap (List.replicate dup)).take (m - (acc.length + min dup (m - acc.length))) := by
      rw [List.flatMap_cons, List.take_append, List.take_replicate, List.length_replicate, Nat.min_comm]
      congr 2
      omega
    rw [List.map_cons, htake]
    unfold readLines
    simp only [hline, Outcome.bind, Option.any_some, List.length_append, hlen, decide_eq_true_eq, reduceCtorEq, if_false]
    by_cases hstop : acc.length + min dup (m - acc.length) ≥ m
    · rw [if_pos hstop]
      have h0 : m - (acc.length + min dup (m - acc.length)) = 0 := by omega
      rw [h0, List.take_zero, List.append_nil, hrep, hcop]
    · rw [if_neg hstop]
      have ih := readLines_limited hf dataNF maxNF init dup n m hp hd rows
        ⟨hp, fun x hx => hD.feats x (List.mem_cons_of_mem _ hx),
          fun x hx => hD.label x (List.mem_cons_of_mem _ hx)⟩ (no + 1) (some (min n maxNF))
        (acc ++ copies init (some m) r.label (r.feats.take (min n maxNF)) dup acc.length) (Or.inr rfl)
        (by rw [List.length_append, hlen]; omega)
      rw [ih, List.length_append, hlen, List.zipIdx_append, List.map_append, hrep, hcop, List.length_replicate,
        List.append_assoc, ite_self]

/-- When more instances are asked for than the file has rows, the rows are read in order, each `dup` times, until there are
as many as asked for. -/
theorem read_short (sep : Char) (tail : List Char) (hf : Format sep tail) (n : Nat)
    (rows : List Row) (hD : Dataset n rows) (hne : rows ≠ []) (dataNF maxNF init dup : Nat)
    (hd : min n maxNF ≤ dataNF) (m : Nat) (hm : rows.length < m) (sel : List Nat) :
    readFile dataNF maxNF init dup (some m) sel (writeFile sep tail rows) =
      .ok (((rows.flatMap (List.replicate dup)).take m).zipIdx.map
        (fun p => ⟨init + p.2, p.1.label, p.1.feats.take (min n maxNF)⟩), min n maxNF) := by
  unfold readFile
  simp only [fileLines_written hf, List.length_map]
  rw [if_pos (by omega), readLines_limited hf dataNF maxNF init dup n m hD.pos hd rows hD 0 none
    [] (Or.inl rfl) (by simp; omega)]
  simp only [hne, if_false, Outcome.bind, List.nil_append, List.length_nil, Nat.sub_zero]
  congr 2
  split <;> omega

/-! ### Malformed files -/

/-- A feature that starts with a digit from 2 to 9, after any number of proper features, is
rejected, whatever follows on the line. -/
theorem digit_rejected (sep : Char) (hs : isSpaceC sep = true) (label : Int) (fs : List Bool)
    (d : Char) (hd : d.isDigit = true) (h0 : d ≠ '0') (h1 : d ≠ '1') (rest : List Char)
    (hl : -2147483648 ≤ label ∧ label ≤ 2147483647) (dataNF maxNF : Nat) (nf : Option Nat)
    (hm : fs.length < maxNF) (hn : ∀ k, nf = some k → fs.length < k) :
    readLine dataNF maxNF nf ((toString label).toList ++ featChars sep fs ++ sep :: d :: rest) =
      .stop := by
  obtain ⟨tl, htl⟩ : ∃ tl, featChars sep fs ++ sep :: d :: rest = sep :: tl := by
    cases fs <;> simp [featChars]
  unfold readLine
  rw [List.append_assoc, htl, extract_int label sep hs]
  have hout : outInt32 (decide (label < 0)) label.natAbs = false := by
    unfold outInt32
    split <;> simp_all <;> omega
  simp only [hout, Bool.not_false, Bool.and_self, if_true]
  rw [← htl, readFeats_digit dataNF sep d hs hd h0 h1 rest fs _ 0]
  · rfl
  · have hlen : (featChars sep fs ++ sep :: d :: rest).length / 2 ≥ fs.length + 1 := by
      rw [List.length_append, featChars_length]
      simp only [List.length_cons]
      omega
    cases nf with
    | none => simp only [Option.getD_none]; omega
    | some k => have := hn k rfl; simp only [Option.getD_some]; omega

/-- A consequence of the claim that malformed files are rejected: a file that is accepted consists of
digits, white space and minus signs. -/
def MalformedRejected : Prop :=
  ∀ (text : List Char) (rs : List ReadInst) (nf : Nat),
    readFile 100 100 0 1 none [] text = .ok (rs, nf) →
    ∀ line ∈ fileLines text [], ∀ c ∈ line, c.isDigit = true ∨ isSpaceC c = true ∨ c = '-'

/-- A letter in place of the last feature is read as the feature 0. -/
theorem letter_accepted : readFile 100 100 0 1 none [] "1 0 1\n0 1 x\n".toList =
    .ok ([⟨0, 1, [false, true]⟩, ⟨1, 0, [true, false]⟩], 2) := by
  decide +kernel

theorem malformed_not_rejected : ¬ MalformedRejected := by
  intro h
  have := h _ _ _ letter_accepted "0 1 x".toList (by decide +kernel) 'x' (by decide +kernel)
  revert this
  decide

/-- A row with fewer features than the first one uses a variable that was never set. -/
theorem short_row_undefined : readFile 100 100 0 1 none [] "1 0 1\n0 1\n".toList = .undef := by
  decide +kernel

/-- So does an empty line. -/
theorem blank_line_undefined : readFile 100 100 0 1 none [] "1 0 1\n\n".toList = .undef := by
  decide +kernel

/-- And two spaces instead of one: the number of features is half the length of the first line. -/
theorem wide_separator_undefined : readFile 100 100 0 1 none [] "1  0  1\n".toList = .undef := by
  decide +kernel

/-- The features of a row beyond those of the first row are dropped silently. -/
theorem long_row_cut : readFile 100 100 0 1 none [] "1 0 1\n0 1 1 1\n".toList =
    .ok ([⟨0, 1, [false, true]⟩, ⟨1, 0, [true, true]⟩], 2) := by
  decide +kernel

/-! ### From the file to the view the solver uses -/

/-- The view holds the instances with a number in the range, each once, grouped by label, in the
order of the file. -/
theorem view_complete (lo hi : Nat) (rs : List ReadInst) (hpos : ∀ r ∈ rs, 0 ≤ r.label) :
    ∃ gs, fillView lo hi rs = .ok gs ∧
      (∀ (l : Nat) g, gs[l]? = some g →
        g = rs.filter fun r => decide (lo ≤ r.id ∧ r.id < hi ∧ r.label = (l : Int))) ∧
      ∀ r ∈ rs, lo ≤ r.id → r.id < hi → ∃ g, gs[r.label.toNat]? = some g ∧ r ∈ g := by
  have hany : ((rs.filter fun r => decide (lo ≤ r.id) && decide (r.id < hi)).any
      fun r => decide (r.label < 0)) = false := by
    rw [List.any_eq_false]
    intro r hr
    have := hpos r (List.mem_filter.1 hr).1
    simp only [decide_eq_true_eq]
    omega
  unfold fillView
  simp only [hany, Bool.false_eq_true, if_false]
  refine ⟨_, rfl, ?_, ?_⟩
  · intro l g hg
    rw [List.getElem?_map] at hg
    cases hr : (List.range ((rs.filter fun r => decide (lo ≤ r.id) && decide (r.id < hi)).foldl
        (fun k r => max k (r.label.toNat + 1)) 0))[l]? with
    | none => rw [hr] at hg; cases hg
    | some l' =>
      rw [hr] at hg
      have hl : l' = l := by
        rw [List.getElem?_eq_some_iff] at hr
        obtain ⟨_, hr⟩ := hr
        simpa using hr.symm
      subst hl
      cases hg
      dsimp only
      rw [List.filter_filter]
      apply List.filter_congr
      intro r _
      simp
      grind
  · intro r hr h1 h2
    have hmem : r ∈ rs.filter fun r => decide (lo ≤ r.id) && decide (r.id < hi) :=
      List.mem_filter.2 ⟨hr, by simp [h1, h2]⟩
    have hbound : ∀ (l : List ReadInst) (k : Nat), (∀ r ∈ l, r.label.toNat + 1 ≤
        l.foldl (fun k r => max k (r.label.toNat + 1)) k) ∧
        k ≤ l.foldl (fun k r => max k (r.label.toNat + 1)) k := by
      intro l
      induction l with
      | nil => intro k; simp
      | cons a l ih =>
        intro k
        have := ih (max k (a.label.toNat + 1))
        simp only [List.foldl_cons, List.mem_cons, forall_eq_or_imp]
        refine ⟨⟨by omega, this.1⟩, by omega⟩
    have hlt := (hbound _ 0).1 r hmem
    refine ⟨(rs.filter fun r => decide (lo ≤ r.id) && decide (r.id < hi)).filter
      fun x => x.label == (r.label.toNat : Int), ?_, ?_⟩
    · rw [List.getElem?_map, List.getElem?_range (by omega)]
      rfl
    · rw [List.mem_filter]
      refine ⟨hmem, ?_⟩
      have := hpos r hr
      simp only [beq_iff_eq]
      omega

/-- A negative label, which the reader accepts, indexes a vector out of its range. -/
theorem negative_label_undefined :
    ∃ rs, readFile 100 100 0 1 none [] "-1 0 1\n".toList = .ok (rs, 2) ∧
      fillView 0 1 rs = .undef := by
  refine ⟨[⟨0, -1, [false, true]⟩], by decide +kernel, by decide +kernel⟩

/-! ### Instances -/

example : Format ' ' [] ∧ Format '\t' ['\r'] := by
  constructor <;> constructor <;> decide

example : Dataset 3 [⟨1, [true, false, true]⟩, ⟨-12, [false, false, true]⟩] := by
  constructor <;> decide

example : readFile 100 100 0 2 none [] "1 1 0 1\n-12 0 0 1\n".toList =
    .ok ([⟨0, 1, [true, false, true]⟩, ⟨1, 1, [true, false, true]⟩, ⟨2, -12, [false, false, true]⟩,
      ⟨3, -12, [false, false, true]⟩], 3) ∧
    writeFile ' ' [] [⟨1, [true, false, true]⟩, ⟨-12, [false, false, true]⟩] =
      "1 1 0 1\n-12 0 0 1\n".toList ∧
    readFile 2 2 0 1 (some 1) [1] "1 1 0 1\n-12 0 0 1\n".toList = .ok ([⟨0, -12, [false, false]⟩], 2) := by
  decide +kernel

end Streed
