import Verif.Model.Survival
import Mathlib.Analysis.SpecialFunctions.Exp

/-!
# Survival predictions in Python (survival_analysis.py)

Times are exact. A dictionary is a list of keys and values in the order of insertion.
-/

namespace Streed

/-- `d[k] = v`: an existing key keeps its place. -/
def dictSet (d : List (Rat × Rat)) (k v : Rat) : List (Rat × Rat) :=
  if d.any fun p => p.1 == k then d.map fun p => if p.1 = k then (k, v) else p else d ++ [(k, v)]

/-- The loop over the sorted times (survival_analysis.py:191-197). -/
def pyHazardLoop (D : List Obs) : List Rat → Rat → Int → List (Rat × Rat) → List (Rat × Rat)
  | [], _, _, d => d
  | t :: ts, sum, atRisk, d =>
    let sum' := sum + diedAt D t / atRisk
    let atRisk' := atRisk - (diedAt D t + censoredAt D t)
    pyHazardLoop D ts sum' atRisk' (if 0 < diedAt D t then dictSet d t sum' else d)

/-- The dictionary of `_compute_baseline_cumulative_hazard_function` (survival_analysis.py:181-197). -/
def pyHazardDict (D : List Obs) : List (Rat × Rat) :=
  pyHazardLoop D ((seenTimes D).insertionSort (· ≤ ·)) 0 D.length [(0, 1 / ((D.length : Rat) + 1))]

/-- The binary search of `f` (survival_analysis.py:207-215). `none`: it does not stop within the fuel. -/
def pySearch (d : List (Rat × Rat)) (x : Rat) : Nat → Nat → Nat → Option Nat
  | fuel, a, b =>
    if a = b then some a else
      match fuel with
      | 0 => none
      | fuel + 1 =>
        let mid := (a + b + 1) / 2
        if (d.getD mid (0, 0)).1 > x then pySearch d x fuel a (mid - 1) else pySearch d x fuel mid b

/-- The function `f` (survival_analysis.py:201-215): the entry of `x`, or else that of the last key up to `x`. -/
def pyBaseline (D : List Obs) (x : Rat) : Option Rat :=
  let d := pyHazardDict D
  match d.find? fun p => p.1 == x with
  | some p => some p.2
  | none => (pySearch d x d.length 0 (d.length - 1)).map fun a => (d.getD a (0, 0)).2

/-- `unique_times_` (survival_analysis.py:117): the observed times in order. -/
def uniqueTimes (D : List Obs) : List Rat := (seenTimes D).insertionSort (· ≤ ·)

/-- `predict_cumulative_hazard_function` for a row with hazard ratio `theta` (survival_analysis.py:276-280). -/
noncomputable def chfRow (D : List Obs) (theta : ℝ) : List ℝ := (uniqueTimes D).map fun t => theta * (((pyBaseline D t).getD 0 : Rat) : ℝ)

/-- `predict_survival_function` (survival_analysis.py:341-345). -/
noncomputable def survRow (D : List Obs) (theta : ℝ) : List ℝ :=
  (uniqueTimes D).map fun t => Real.exp (-theta * (((pyBaseline D t).getD 0 : Rat) : ℝ))

/-- `predict` (survival_analysis.py:173-174): the sum over the times with an event. -/
noncomputable def riskScore (D : List Obs) (theta : ℝ) : ℝ :=
  (((uniqueTimes D).filter fun t => diedAt D t ≠ 0).map fun t => theta * (((pyBaseline D t).getD 0 : Rat) : ℝ)).sum

end Streed
