import Verif.Model.Reader
import Verif.Model.InstCosts

/-!
# The file reader for real-valued labels and extra columns

`FileReader::ReadFromFile` (src/utils/file_reader.cpp:74-153) for every task: the label is an integer or a double, and the extra
columns are those that the task's `ReadData` extracts. Streams are those of `Model/Reader.lean`. Rounding of decimal numbers to doubles
is not modelled.
-/

namespace Streed

/-- The value of decimal digits. -/
def digitsVal (l : List Char) : Nat := l.foldl (fun a c => a * 10 + (c.toNat - 48)) 0

/-- The characters that `stream >> x` collects for a `double`. -/
structure RealTok where
  neg : Bool
  whole : List Char
  frac : List Char
  exp : Option (Bool × List Char)
  rest : List Char
  deriving DecidableEq, Repr

/-- An optional sign. -/
def scanSign (l : List Char) : Bool × List Char :=
  match l with
  | [] => (false, [])
  | c :: t => if c = '-' then (true, t) else if c = '+' then (false, t) else (false, c :: t)

/-- A point and the digits behind it. -/
def scanFrac (l : List Char) : List Char × List Char :=
  match l with
  | [] => ([], [])
  | c :: t => if c = '.' then (t.takeWhile Char.isDigit, t.dropWhile Char.isDigit) else ([], c :: t)

/-- An exponent, if there are digits before it. -/
def scanExp (mantissa : Bool) (l : List Char) : Option (Bool × List Char) × List Char :=
  match l with
  | [] => (none, [])
  | c :: t =>
    if mantissa && (c = 'e' || c = 'E') then
      let s := scanSign t
      (some (s.1, s.2.takeWhile Char.isDigit), s.2.dropWhile Char.isDigit)
    else (none, c :: t)

/-- The accumulation of characters for a floating-point number (`std::num_get`, used by file_reader.cpp:116): sign, digits, point, digits,
exponent. -/
def scanReal (l : List Char) : RealTok :=
  let s := scanSign l
  let whole := s.2.takeWhile Char.isDigit
  let f := scanFrac (s.2.dropWhile Char.isDigit)
  let e := scanExp (!(whole ++ f.1).isEmpty) f.2
  ⟨s.1, whole, f.1, e.1, e.2⟩

/-- The number the characters stand for; `none`: they are not a number (no digits before the exponent, or none in it). -/
def RealTok.val (t : RealTok) : Option Rat :=
  if (t.whole ++ t.frac).isEmpty then none
  else
    let m : Rat := digitsVal (t.whole ++ t.frac) / 10 ^ t.frac.length
    let m := if t.neg then -m else m
    match t.exp with
    | none => some m
    | some (_, []) => none
    | some (true, ds) => some (m / 10 ^ digitsVal ds)
    | some (false, ds) => some (m * 10 ^ digitsVal ds)

/-- `stream >> x` for a double: what is stored (`none`: nothing), and the stream. Text that is not a number stores zero; a number out of range
stores the largest double; both make the stream fail. -/
def IStr.readReal (s : IStr) : Option Rat × IStr :=
  if s.good then
    match s.rest.dropWhile isSpaceC with
    | [] => (none, ⟨[], false⟩)
    | c :: l =>
      let t := scanReal (c :: l)
      match t.val with
      | none => (some 0, ⟨t.rest, false⟩)
      | some v =>
        if v > largestDouble then (some largestDouble, ⟨t.rest, false⟩)
        else if v < -largestDouble then (some (-largestDouble), ⟨t.rest, false⟩)
        else (some v, ⟨t.rest, !t.rest.isEmpty⟩)
  else (none, s)

/-- `stream >> x` for an `int`. -/
def IStr.readInt (s : IStr) : Option Rat × IStr :=
  match s.extract with
  | (.untouched, s') => (none, s')
  | (.failed, s') => (some 0, s')
  | (.value neg v, s') => (some (toInt32 neg v), ⟨s'.rest, s'.good && !outInt32 neg v⟩)

/-- A variable that is read: its type, and what it holds if nothing is stored: nothing, zero, or the value of the last variable read into the
same memory. -/
inductive Slot
  | int (preset : Bool)
  | real (preset : Bool)
  | shared
  deriving DecidableEq, Repr

/-- Read into one variable. -/
def Slot.read (sl : Slot) (s : IStr) : Option Rat × IStr :=
  match sl with
  | .int _ => s.readInt
  | _ => s.readReal

/-- The variables one after the other; `tmp` is the shared memory. Using a variable that holds nothing is undefined. -/
def readExtra : List Slot → Option Rat → IStr → Outcome (List Rat × IStr)
  | [], _, s => .ok ([], s)
  | sl :: sls, tmp, s =>
    let r := sl.read s
    match r.1 with
    | some v => (readExtra sls (if sl = .shared then some v else tmp) r.2).bind fun p => .ok (v :: p.1, p.2)
    | none =>
      let v := match sl with
        | .int true => some 0
        | .real true => some 0
        | .shared => tmp
        | _ => none
      match v with
      | none => .undef
      | some v => (readExtra sls tmp r.2).bind fun p => .ok (v :: p.1, p.2)

/-- `ReadData` of the tasks: nothing (data.h:13, cost_complex_accuracy.h:9, cost_complex_regression.h:14); a cost per label
(instance_cost_sensitive.cpp:98-105); treatment, outcome, propensity, predictions, best treatment and outcomes
(prescriptive_policy.cpp:5-19, prescriptive_policy.h:18-24); the event (survival_analysis.cpp:6-10); continuous features
(piecewise_linear_regression.cpp:7-15, piecewise_simple_linear_regression.cpp:14-22). `n` is `num-extra-cols`. -/
inductive TaskExtra
  | nothing
  | costs
  | policy
  | event
  | continuous
  deriving DecidableEq, Repr

def TaskExtra.slots (k : TaskExtra) (n : Nat) : List Slot :=
  match k with
  | .nothing => []
  | .costs => List.replicate n .shared
  | .policy => [.int true, .real true, .real true] ++ List.replicate n .shared ++ [.int true] ++ List.replicate n .shared
  | .event => [.int false]
  | .continuous => List.replicate n (.real false)

/-- What one line holds. -/
structure LineData where
  label : Rat
  extra : List Rat
  feats : List Bool
  deriving DecidableEq, Repr

/-- One line (file_reader.cpp:111-140). `realLabel`: the label type of the task is `double`. `slots`: the extra columns. The rest is as in
`readLine`. -/
def readLineX (realLabel : Bool) (slots : List Slot) (dataNF maxNF : Nat) (nf : Option Nat) (line : List Char) : Outcome (LineData × Nat) :=
  let l := (if realLabel then Slot.real false else .int false).read ⟨line, true⟩
  match l.1 with
  | none => .undef
  | some label =>
    (readExtra slots none l.2).bind fun e =>
      -- `std::getline(iss, line)` leaves `line` as it was when the stream is not good
      let rest := if e.2.good then e.2.rest else line
      let n := min (nf.getD (rest.length / 2)) maxNF
      (readFeats dataNF n 0 ⟨rest, true⟩).bind fun fs => .ok (⟨label, e.1, fs⟩, n)

/-- The copies of one instance (file_reader.cpp:142-147), with their ids. -/
def copiesX {α : Type} (init : Nat) (num : Option Nat) (a : α) : Nat → Nat → List (Nat × α)
  | 0, _ => []
  | k + 1, count => (init + count, a) :: (if num.any (fun m => decide (count + 1 ≥ m)) then [] else copiesX init num a k (count + 1))

/-- The loop over the lines (file_reader.cpp:103-149) with `rd` for a line. -/
def readLinesX {α : Type} (rd : Option Nat → List Char → Outcome (α × Nat)) (init dup : Nat) (num : Option Nat) :
    List (List Char) → Nat → Option (List Nat) → Option Nat → List (Nat × α) → Outcome (List (Nat × α) × Option Nat)
  | [], _, _, nf, acc => .ok (acc, nf)
  | line :: lines, no, idx, nf, acc =>
    match idx with
    | some [] => .undef
    | some (k :: ks) =>
      if no ≠ k then readLinesX rd init dup num lines (no + 1) (some (k :: ks)) nf acc
      else
        (rd nf line).bind fun r =>
          let acc' := acc ++ copiesX init num r.1 dup acc.length
          if num.any (fun m => decide (acc'.length ≥ m)) then .ok (acc', some r.2)
          else readLinesX rd init dup num lines (no + 1) (some ks) (some r.2) acc'
    | none =>
      (rd nf line).bind fun r =>
        let acc' := acc ++ copiesX init num r.1 dup acc.length
        if num.any (fun m => decide (acc'.length ≥ m)) then .ok (acc', some r.2)
        else readLinesX rd init dup num lines (no + 1) none (some r.2) acc'

/-- `ReadFromFile` (file_reader.cpp:74-153) for a task: the instances with their ids, and the number of features. -/
def readFileX (realLabel : Bool) (slots : List Slot) (dataNF maxNF init dup : Nat) (num : Option Nat) (sel : List Nat) (text : List Char) :
    Outcome (List (Nat × LineData) × Nat) :=
  let lines := fileLines text []
  let idx := match num with
    | none => none
    | some m => if lines.length < m then none else some sel
  (readLinesX (readLineX realLabel slots dataNF maxNF) init dup num lines 0 idx none []).bind fun r =>
    .ok (r.1, match r.2 with
      | some n => if dataNF > n then n else dataNF
      | none => dataNF)

/-- `FillDataView` (file_reader.cpp:54-72) for real-valued labels: everything with an id in the range, under label 0. -/
def fillViewX (lo hi : Nat) (rs : List (Nat × LineData)) : List (List (Nat × LineData)) :=
  [rs.filter fun r => decide (lo ≤ r.1) && decide (r.1 < hi)]

end Streed
