import Verif.Model.Params

/-!
# The file reader

Models `FileReader::ReadFromFile` and `FillDataView` (src/utils/file_reader.cpp) for tasks with
integer labels and no extra columns (`ExtraData::ReadData` reads nothing, data.h:13), at the level
of characters.  Input streams are modelled as far as the reader uses them: a stream is a list of
characters and the state "good".  A variable that is used although no value was stored in it
(extraction from a stream that is not good leaves the variable untouched) is the outcome `undef`.
Real-valued labels and extra columns are in `Model/ReaderX.lean`.
-/

namespace Streed

/-- An input string stream: the characters left, and whether neither `eofbit` nor `failbit` is
set. -/
structure IStr where
  rest : List Char
  good : Bool := true
  deriving DecidableEq, Repr

/-- What an extraction `stream >> x` stores: nothing, zero because the text is not a number (the
stream fails), or a number. -/
inductive Extract
  | untouched
  | failed
  | value (neg : Bool) (v : Nat)
  deriving DecidableEq, Repr

/-- Digits at the front: the number, whether there was a digit, and the characters behind. -/
def spanNum : List Char → Nat → Bool → Nat × Bool × List Char
  | [], acc, seen => (acc, seen, [])
  | c :: l, acc, seen =>
    if c.isDigit then spanNum l (acc * 10 + (c.toNat - 48)) true else (acc, seen, c :: l)

/-- `stream >> x` for an integer type: the sentry skips white space and stores nothing when the
stream is not good or ends there; a sign is allowed; reaching the end while reading digits sets
`eofbit`. -/
def IStr.extract (s : IStr) : Extract × IStr :=
  if s.good then
    match s.rest.dropWhile isSpaceC with
    | [] => (.untouched, ⟨[], false⟩)
    | c :: l =>
      let neg := c == '-'
      let l' := if c == '-' || c == '+' then l else c :: l
      let r := spanNum l' 0 false
      if r.2.1 then (.value neg r.1, ⟨r.2.2, !r.2.2.isEmpty⟩) else (.failed, ⟨r.2.2, false⟩)
  else (.untouched, s)

/-- The `int` stored for an extraction; out of range values become the nearest bound. -/
def toInt32 (neg : Bool) (v : Nat) : Int :=
  if neg then (if (v : Int) > 2147483648 then -2147483648 else -(v : Int))
  else (if (v : Int) > 2147483647 then 2147483647 else (v : Int))

/-- An out of range value also sets `failbit`. -/
def outInt32 (neg : Bool) (v : Nat) : Bool :=
  if neg then decide ((v : Int) > 2147483648) else decide ((v : Int) > 2147483647)

/-- The `uint32_t` stored for an extraction: a minus sign negates modulo `2^32`. -/
def toUInt32 (neg : Bool) (v : Nat) : Nat :=
  if v > 4294967295 then 4294967295
  else if neg then (4294967296 - v) % 4294967296 else v

/-- One instance as read. -/
structure ReadInst where
  id : Nat
  label : Int
  feats : List Bool
  deriving DecidableEq, Repr

/-- The loop over the features of a line (file_reader.cpp:130-140), for features `i ..`.  `nf` is the
number of features still to read, `dataNF` is `data.NumFeatures()`: features beyond it are checked
but stay false. -/
def readFeats (dataNF : Nat) : Nat → Nat → IStr → Outcome (List Bool)
  | 0, _, _ => .ok []
  | nf + 1, i, s =>
    match s.extract with
    | (.untouched, _) => .undef
    | (.failed, s') => (readFeats dataNF nf (i + 1) s').bind fun bs => .ok (false :: bs)
    | (.value neg v, s') =>
      let t := toUInt32 neg v
      if t ≠ 0 ∧ t ≠ 1 then .stop
      else
        let s'' : IStr := if v > 4294967295 then ⟨s'.rest, false⟩ else s'
        (readFeats dataNF nf (i + 1) s'').bind fun bs =>
          .ok ((if i ≥ dataNF then false else t == 1) :: bs)

/-- One line (file_reader.cpp:111-140): the label, the number of features (from the length of the
first line read, `nf = none` standing for `INT32_MAX`), and the features. -/
def readLine (dataNF maxNF : Nat) (nf : Option Nat) (line : List Char) :
    Outcome (Int × List Bool × Nat) :=
  match IStr.extract ⟨line, true⟩ with
  | (.untouched, _) => .undef
  | (ex, s) =>
    let label : Int := match ex with
      | .value neg v => toInt32 neg v
      | _ => 0
    let good := s.good && (match ex with
      | .value neg v => !outInt32 neg v
      | _ => true)
    -- `std::getline(iss, line)` leaves `line` as it was when the stream is not good
    let rest := if good then s.rest else line
    let n := min (nf.getD (rest.length / 2)) maxNF
    (readFeats dataNF n 0 ⟨rest, true⟩).bind fun fs => .ok (label, fs, n)

/-- The copies of one instance (file_reader.cpp:142-147): `count` instances are there already, and
`num` is the largest number wanted (`none` for `INT32_MAX`, which is never reached). -/
def copies (init : Nat) (num : Option Nat) (label : Int) (fs : List Bool) : Nat → Nat → List ReadInst
  | 0, _ => []
  | k + 1, count =>
    ⟨init + count, label, fs⟩ ::
      (if num.any (fun m => decide (count + 1 ≥ m)) then []
       else copies init num label fs k (count + 1))

/-- The loop over the lines (file_reader.cpp:103-149).  `idx` are the selected line numbers that are
still to come, `none` when every line is included. -/
def readLines (dataNF maxNF init dup : Nat) (num : Option Nat) :
    List (List Char) → Nat → Option (List Nat) → Option Nat → List ReadInst →
    Outcome (List ReadInst × Option Nat)
  | [], _, _, nf, acc => .ok (acc, nf)
  | line :: lines, no, idx, nf, acc =>
    match idx with
    | some [] => .undef
    | some (k :: ks) =>
      if no ≠ k then readLines dataNF maxNF init dup num lines (no + 1) (some (k :: ks)) nf acc
      else
        (readLine dataNF maxNF nf line).bind fun r =>
          let acc' := acc ++ copies init num r.1 r.2.1 dup acc.length
          if num.any (fun m => decide (acc'.length ≥ m)) then .ok (acc', some r.2.2)
          else readLines dataNF maxNF init dup num lines (no + 1) (some ks) (some r.2.2) acc'
    | none =>
      (readLine dataNF maxNF nf line).bind fun r =>
        let acc' := acc ++ copies init num r.1 r.2.1 dup acc.length
        if num.any (fun m => decide (acc'.length ≥ m)) then .ok (acc', some r.2.2)
        else readLines dataNF maxNF init dup num lines (no + 1) none (some r.2.2) acc'

/-- `std::getline` on the whole file: the pieces between newlines; nothing after a final newline. -/
def fileLines : List Char → List Char → List (List Char)
  | [], [] => []
  | [], cur => [cur.reverse]
  | c :: cs, cur => if c = '\n' then cur.reverse :: fileLines cs [] else fileLines cs (c :: cur)

/-- `ReadFromFile` (file_reader.cpp:74-153): the instances added to the data, and the new number of
features of the data.  `sel` is the sorted random selection of lines, which the code makes when a
number of instances is given and the file has at least that many lines. -/
def readFile (dataNF maxNF init dup : Nat) (num : Option Nat) (sel : List Nat) (text : List Char) :
    Outcome (List ReadInst × Nat) :=
  let lines := fileLines text []
  let idx := match num with
    | none => none
    | some m => if lines.length < m then none else some sel
  (readLines dataNF maxNF init dup num lines 0 idx none []).bind fun r =>
    .ok (r.1, match r.2 with
      | some n => if dataNF > n then n else dataNF
      | none => dataNF)

/-- `FillDataView` (file_reader.cpp:55-74) for integer labels: the instances with `lo ≤ id < hi`, by
label, in order.  A negative label indexes the vector out of its range. -/
def fillView (lo hi : Nat) (rs : List ReadInst) : Outcome (List (List ReadInst)) :=
  let rs' := rs.filter fun r => decide (lo ≤ r.id) && decide (r.id < hi)
  if rs'.any (fun r => decide (r.label < 0)) then .undef
  else
    let k := rs'.foldl (fun k r => max k (r.label.toNat + 1)) 0
    .ok ((List.range k).map fun l : Nat => rs'.filter fun r => r.label == (l : Int))

end Streed
