import Verif.Spec
import Mathlib.Data.List.Sort
import Mathlib.Analysis.SpecialFunctions.Log.Basic

/-!
# Model of the survival task

The hazard function is modelled over rationals. Leaf costs use the real logarithm. Rounding is not modelled.
-/

namespace Streed

/-- One observation: `GetLabel` is the time, `GetEvent` is zero for a censored observation. -/
structure Obs where
  time : Rat
  ev : Int
  deriving DecidableEq

/-- `events_per_time[t].second` (survival_analysis.cpp:42-60): observations at `t` with an event. -/
def diedAt (D : List Obs) (t : Rat) : Nat := (D.filter fun i => i.time = t ∧ i.ev ≠ 0).length

/-- `events_per_time[t].first` (survival_analysis.cpp:42-60): censored observations at `t`. -/
def censoredAt (D : List Obs) (t : Rat) : Nat := (D.filter fun i => i.time = t ∧ i.ev = 0).length

/-- `times` before sorting: every time once, in order of appearance (survival_analysis.cpp:51-54). -/
def seenTimes (D : List Obs) : List Rat := D.foldl (fun ts i => if i.time ∈ ts then ts else ts ++ [i.time]) []

/-- The loop over the sorted times (survival_analysis.cpp:68-83): pairs of `hazard_keys` and `hazard_values`. -/
def hazardLoop (D : List Obs) : List Rat → Rat → Int → List (Rat × Rat)
  | [], _, _ => []
  | t :: ts, sum, atRisk =>
    let sum' := sum + diedAt D t / atRisk
    let atRisk' := atRisk - (diedAt D t + censoredAt D t)
    if diedAt D t = 0 then hazardLoop D ts sum' atRisk' else (t, sum') :: hazardLoop D ts sum' atRisk'

/-- The table that the returned function searches (survival_analysis.cpp:66, 85-87). -/
def hazardTable (D : List Obs) : List (Rat × Rat) :=
  (0, 1 / ((D.length : Rat) + 1)) :: hazardLoop D ((seenTimes D).insertionSort (· ≤ ·)) 0 D.length

/-- The binary search (survival_analysis.cpp:89-104). `none`: it does not stop within the fuel. -/
def hazardSearch (tab : List (Rat × Rat)) (t : Rat) : Nat → Nat → Nat → Option Nat
  | fuel, a, b =>
    if a = b then some a else
      match fuel with
      | 0 => none
      | fuel + 1 =>
        let mid := (a + b + 1) / 2
        if (tab.getD mid (0, 0)).1 > t + 1 / 1000000 then hazardSearch tab t fuel a (mid - 1)
        else hazardSearch tab t fuel mid b

/-- `SurvivalAnalysis::ComputeHazardFunction` (survival_analysis.cpp:41-107) applied to `t`. -/
def hazardFn (D : List Obs) (t : Rat) : Option Rat :=
  let tab := hazardTable D
  (hazardSearch tab t tab.length 0 (tab.length - 1)).map fun a => (tab.getD a (0, 0)).2

/-! ### Leaves -/

/-- An instance with its hazard value (`SAData`). -/
structure SurvInst where
  ev : Bool
  hazard : ℝ

/-- `D2SASol` (survival_analysis.h:38-41): the three sums. -/
structure SurvSums where
  hazard : ℝ
  events : Nat
  neglog : ℝ

/-- The loop of `SolveLeafNode` and `GetLeafCosts` (survival_analysis.cpp:111-125, 144-158). -/
noncomputable def survSums (D : List SurvInst) : SurvSums :=
  D.foldl (fun s i => if i.ev then ⟨s.hazard + i.hazard, s.events + 1, s.neglog + -Real.log i.hazard⟩
    else ⟨s.hazard + i.hazard, s.events, s.neglog⟩) ⟨0, 0, 0⟩

/-- `SurvivalAnalysis::SolveLeafNode` (survival_analysis.cpp:109-139): theta and cost. -/
noncomputable def survLeaf (D : List SurvInst) : ℝ × ℝ :=
  let s := survSums D
  let theta := if s.events = 0 then (1 / 2) / s.hazard else s.events / s.hazard
  (theta, max 0 (s.neglog - s.events * Real.log theta))

/-- `SurvivalAnalysis::GetLeafCosts` (survival_analysis.cpp:142-165), also used on test data. -/
noncomputable def survLeafCosts (D : List SurvInst) (theta : ℝ) : ℝ :=
  let s := survSums D
  max 0 (s.neglog - s.events * (Real.log theta + 1) + theta * s.hazard)

/-- `SurvivalAnalysis::GetInstanceLeafD2Costs` (survival_analysis.cpp:168-182) with multiplier one. -/
noncomputable def survD2 (i : SurvInst) : SurvSums :=
  if i.ev then ⟨i.hazard, 1, -Real.log i.hazard⟩ else ⟨i.hazard, 0, 0⟩

/-- `D2SASol::operator+=` (survival_analysis.h:43-48). -/
noncomputable def SurvSums.add (a b : SurvSums) : SurvSums := ⟨a.hazard + b.hazard, a.events + b.events, a.neglog + b.neglog⟩

/-- `SurvivalAnalysis::ComputeD2Costs` (survival_analysis.cpp:185-187). -/
noncomputable def survCompute (v : SurvSums) : ℝ :=
  max 0 (v.neglog - v.events * Real.log (max (1 / 2) (v.events : ℝ) / v.hazard))

/-- `SurvivalAnalysis::GetLabel` (survival_analysis.cpp:190-193). -/
noncomputable def survLabel (v : SurvSums) : ℝ := max (1 / 2) (v.events : ℝ) / v.hazard

end Streed
