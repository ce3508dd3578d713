import Verif.Model.RealTree
import Verif.Model.Survival

/-!
# Fitting survival trees

`SurvivalAnalysis` (tasks/survival_analysis.h, .cpp). All instances are stored under label 0. `lg` is the logarithm: a leaf adds
and multiplies its values, so with rational values of `lg` all costs are rational; `Verif/Props/SurvFit.lean` shows that `lg` can be as close
to the real logarithm as one likes. The leaf of the code takes the hazard ratio of its own instances. Here the search chooses among the
hazard ratios of all parts of the training data, which include every ratio that the code can compute; that the best of them costs what
`SolveLeafNode` and `ComputeD2Costs` return is proved in `Verif/Lemmas/SurvFit.lean`. Costs are integers in units of `1 / q`; rounding of
doubles is not modelled.
-/

namespace Streed

/-- What an instance stores (`SAData`, survival_analysis.h:12-34): whether there was an event, and the baseline hazard at its time. -/
structure SRow where
  ev : Bool
  hz : Rat
  deriving DecidableEq

/-- The three sums (survival_analysis.cpp:111-125, 144-158): hazards, events, negative logarithms of the hazards of the events. -/
def sSums (lg : Rat → Rat) (D : List SRow) : Rat × Nat × Rat :=
  D.foldl (fun s i => if i.ev then (s.1 + i.hz, s.2.1 + 1, s.2.2 + -lg i.hz) else (s.1 + i.hz, s.2.1, s.2.2)) (0, 0, 0)

/-- `SolveLeafNode` (survival_analysis.cpp:109-139): hazard ratio and cost. -/
def sLeaf (lg : Rat → Rat) (D : List SRow) : Rat × Rat :=
  let s := sSums lg D
  let theta := if s.2.1 = 0 then (1 / 2) / s.1 else s.2.1 / s.1
  (theta, max 0 (s.2.2 - s.2.1 * lg theta))

/-- `GetLeafCosts` (survival_analysis.cpp:142-165), with which finished trees are scored. -/
def sLeafCosts (lg : Rat → Rat) (D : List SRow) (theta : Rat) : Rat :=
  let s := sSums lg D
  max 0 (s.2.2 - s.2.1 * (lg theta + 1) + theta * s.1)

/-- `ComputeD2Costs` and `GetLabel` (survival_analysis.cpp:185-193): label and cost from the three sums. -/
def sD2 (lg : Rat → Rat) (s : Rat × Nat × Rat) : Rat × Rat :=
  let theta := max (1 / 2) (s.2.1 : Rat) / s.1
  (theta, max 0 (s.2.2 - s.2.1 * lg theta))

/-- The instances that `ApplyHazardFunction` makes of the observations `O` (survival_analysis.cpp:13-33). -/
def survRows (O : Nat → Obs) (T : Data) (i : Nat) : SRow :=
  ⟨decide ((O i).ev ≠ 0), (hazardFn (T.map fun j => O j.id) (O i).time).getD 0⟩

/-- The parts of the training data whose hazard ratio a leaf may have. -/
def survParts (T : Data) : List Data := T.sublists.filter fun D => !D.isEmpty

/-- The cost of a leaf on instances `D`. -/
def survCost (lg : Rat → Rat) (R : Nat → SRow) (D : Data) : Rat := (sLeaf lg (D.map fun i => R i.id)).2

/-- More than any leaf costs. -/
def survTop (lg : Rat → Rat) (R : Nat → SRow) (T : Data) : Rat := ((survParts T).map (survCost lg R)).foldl max 0

/-- What one instance contributes to a leaf that has the hazard ratio of the part `S` (survival_analysis.cpp:160-162 for one
instance). A part without events fits instances without events at no cost, as in `SolveLeafNode`, and no others. -/
def survLossOf (lg : Rat → Rat) (R : Nat → SRow) (T S : Data) (i : Nat) : Rat :=
  let s := sSums lg (S.map fun j => R j.id)
  let theta := (sLeaf lg (S.map fun j => R j.id)).1
  if s.2.1 = 0 then if (R i).ev then survTop lg R T else 0
  else if (R i).ev then -lg (R i).hz - (lg theta + 1) + theta * (R i).hz else theta * (R i).hz

/-- The problem that is searched. -/
def survProblem (nF q : Nat) (lg : Rat → Rat) (R : Nat → SRow) (T : Data) : Problem where
  nF := nF
  nL := (survParts T).length
  may := fun _ => true
  cost := fun i k => (q * max 0 (survLossOf lg R T ((survParts T).getD k []) i.id) : Rat).num
  bc := 0

/-- The configuration of a run (survival_analysis.h:84-95, optimization_task.h:35-54): no branching costs, no similarity bound because the
task is not additive (solver.cpp:265-274), no lower bound of its own, worst value `DBL_MAX`. -/
def survCfg (nF q : Nat) (lg : Rat → Rat) (R : Nat → SRow) (mls : Nat) (o : Options) (red : Nat → Bool) (T : Data) : Cfg where
  P := survProblem nF q lg R T
  mls := mls
  useLB := o.useLB
  useUB := o.useUB
  subUB := o.subUB
  simLB := false
  useTerm := o.useTerm
  useBr := o.useBr
  useDs := o.useDs
  md := 0
  worst := (q * largestDouble : Nat)
  worstPer := fun _ => (q * largestDouble : Nat)
  simInst := none
  order := o.order
  redundant := red
  clock := o.clock
  sparse := false
  customLB := fun _ => 0

/-- `Solve` on a fresh solver (solver.cpp:80-174): preprocess, then search with the comparisons of doubles. -/
def fitSurv (nF q : Nat) (lg : Rat → Rat) (O : Nat → Obs) (mls : Nat) (o : Options) (t : Top) (T : Data) : Run × Bool :=
  let P := survProblem nF q lg (survRows O T) T
  Tol.solve (survCfg nF q lg (survRows O T) mls o (isRedundant P mls T) T) t (preprocess P mls T)

/-- The total loss of a finished tree (tree.h:76-95): every leaf is evaluated with the hazard ratio of the instances that it
receives. -/
def survScore (lg : Rat → Rat) (R : Nat → SRow) : Tree → Data → Rat
  | .leaf _, D => sLeafCosts lg (D.map fun i => R i.id) (sLeaf lg (D.map fun i => R i.id)).1
  | .node f l r, D => survScore lg R l (without f D) + survScore lg R r (having f D)

/-- The returned tree and its reported loss (solver.cpp:80-209, result.h:36-52), the average over the rows (survival_analysis.h:129-133). The labels of its leaves are parts; the hazard ratio of a leaf is that of
the instances that reach it. -/
def fitSurvTree (nF q : Nat) (lg : Rat → Rat) (O : Nat → Obs) (mls : Nat) (o : Options) (t : Top) (T : Data) :
    Option (Option (Tree × Rat)) :=
  let P := survProblem nF q lg (survRows O T) T
  let D := preprocess P mls T
  (Tol.returned (survCfg nF q lg (survRows O T) mls o (isRedundant P mls T) T) D (fitSurv nF q lg O mls o t T).1).map fun x =>
    x.map fun tr => (unflip (flipped P T) tr, survScore lg (survRows O T) tr D / D.length)

end Streed
