import Verif.Model.PwTree
import Verif.Model.Glm

/-!
# The search of `PieceWiseLinearRegression`

The task of `Model/PwSearch.lean` with the leaves of `Model/Glm.lean`.
-/

namespace Streed.Pw

/-- A task with rational values: `fit D` is the cost of the model fitted to `D`, `worst i` the largest contribution of
instance `i` supposed by the similarity bound; every instance is one row. Costs are in units of `1 / q`, rounded down; nothing is rounded if `q` is a
multiple of their denominators. No minimum difference (optimization_task.h), worst value `DBL_MAX`
(piecewise_linear_regression.h:60). -/
def ratTask (nF mls q : Nat) (price : Rat) (fit : Data → Option Rat) (worst : Inst → Rat) (o : Options)
    (red : Nat → Bool) : Task where
  c := { P := ⟨nF, 1, fun _ => true, fun _ _ => 0, (q * price : Rat).floor⟩
         mls := mls
         useLB := o.useLB
         useUB := o.useUB
         subUB := o.subUB
         simLB := o.simLB
         useTerm := false
         useBr := o.useBr
         useDs := o.useDs
         md := 0
         worst := (q * largestDouble : Nat)
         worstPer := fun _ => 0
         order := o.order
         redundant := red
         clock := o.clock
         sparse := true
         customLB := fun _ => 0
         simInst := some fun i => (q * worst i : Rat).ceil }
  q := q
  leaf := fun D => (fit D).map fun x => (q * x : Rat).floor
  weight := List.length

/-- Squared error of the mean, the coefficient of the price of a node (piecewise_linear_regression.cpp:164-186). -/
def glmSpread (D : List GlmInst) : Rat :=
  (D.map fun i => i.y * i.y).sum - (D.map (·.y)).sum * (D.map (·.y)).sum / D.length

/-- The model of the leaf with instances `D`; `R i` is the row of instance `i` after standardisation
(piecewise_linear_regression.cpp:448-461). That the previous model is reused for the previous branch makes no difference, because a
branch determines its instances and every run begins with the empty branch, for which nothing is reused. -/
def glmFit (n : Nat) (lasso ridge : Rat) (R : Nat → GlmInst) (D : Data) : Option Rat :=
  (solveGlm (D.map fun i => R i.id) n lasso ridge).map (·.cost)

/-- `PieceWiseLinearRegression` on training data `T` with `n` continuous features (piecewise_linear_regression.h:38-110,
piecewise_linear_regression.cpp:156-188, 483-530). `m` stands for `max_lb`, which contains a square root. -/
def glmTask (nF n mls q : Nat) (lasso ridge ccp m : Rat) (R : Nat → GlmInst) (T : Data) (o : Options) (red : Nat → Bool) : Task :=
  ratTask nF mls q (ccp * glmSpread (T.map fun i => R i.id)) (glmFit n lasso ridge R)
    (fun i => (m - |(R i.id).y|) * (m - |(R i.id).y|)) o red

end Streed.Pw
