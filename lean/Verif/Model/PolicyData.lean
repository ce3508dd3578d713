import Mathlib.Data.Rat.Floor
import Mathlib.Data.List.Dedup

/-!
# Model of reading policy data from an array

`_check_data` of the policy estimator (prescriptive_policy_generation.py:85-124) and the use of the records in the task
(prescriptive_policy.cpp:44-96). Numbers are rationals.
-/

namespace Streed

/-- `PPGData` (prescriptive_policy.h:20-27): treatment, outcome, propensity, predicted outcomes, best treatment, outcomes. -/
structure PPG where
  k : Int
  y : Rat
  mu : Rat
  yhat : List Rat
  kOpt : Int
  cf : List Rat
  deriving DecidableEq, Repr

/-- `int(x)` in Python: towards zero. -/
def pyInt (x : Rat) : Int := if 0 ≤ x then x.floor else -(-x).floor

/-- One row of an array of width `w` for `n` treatments (prescriptive_policy_generation.py:94-110); `none` is the `ValueError`. The two
constructors are those of prescriptive_policy.h:11-17. -/
def ppgRow (w n : Nat) (row : List Rat) : Option PPG :=
  if w = 4 + n * 2 then
    some ⟨pyInt (row.getD 0 0), row.getD 1 0, row.getD 2 0, (List.range n).map (fun i => row.getD (3 + i) 0),
      pyInt (row.getD (3 + n) 0), (List.range n).map (fun i => row.getD (4 + n + i) 0)⟩
  else if w = 3 + n then
    some ⟨pyInt (row.getD 0 0), row.getD 1 0, row.getD 2 0, (List.range n).map (fun i => row.getD (3 + i) 0),
      0, List.replicate n 0⟩
  else none

/-- The number of treatments the array is read for (prescriptive_policy_generation.py:90-93): that of the last fit if it is not to be
reset, else the number of different values in the first column. -/
def ppgTreatments (stored : Option Nat) (reset : Bool) (rows : List (List Rat)) : Nat :=
  match stored with
  | some n => if reset then (rows.map fun r => r.getD 0 0).dedup.length else n
  | none => (rows.map fun r => r.getD 0 0).dedup.length

/-- All rows, one after another (prescriptive_policy_generation.py:94-110). -/
def ppgRows (w n : Nat) : List (List Rat) → Option (List PPG)
  | [] => some []
  | r :: rs =>
    match ppgRow w n r, ppgRows w n rs with
    | some p, some ps => some (p :: ps)
    | _, _ => none

/-- `_check_data` for an array of width `w` (prescriptive_policy_generation.py:85-124): the records, and the number of treatments
remembered. `none` is an exception. -/
def ppgCheck (w : Nat) (stored : Option Nat) (reset : Bool) (rows : List (List Rat)) : Option (List PPG × Nat) :=
  if w < 5 then none
  else
    match ppgRows w (ppgTreatments stored reset rows) rows with
    | none => none
    | some ps =>
      some (ps, match stored with
        | some n => if reset then (ps.map (·.k)).dedup.length else n
        | none => (ps.map (·.k)).dedup.length)

/-- `NumLabels` of the training data (bindings.cpp:79-81): one more than the largest treatment. -/
def ppgNumLabels (ps : List PPG) : Nat := ps.foldl (fun m p => max m (p.k.toNat + 1)) 0

/-- The accesses of `InformTrainData` (prescriptive_policy.cpp:50-61): the scores of every record are read for every treatment below
`NumLabels`; there are as many scores as predicted outcomes (prescriptive_policy.cpp:24-34). `false` is an access out of range. -/
def ppgInRange (ps : List PPG) : Bool := ps.all fun p => decide (ppgNumLabels ps ≤ p.yhat.length)

end Streed
