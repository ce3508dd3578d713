import Verif.Spec

/-!
# Model of the result set and of hyper-parameter selection

`include/solver/result.h`, `src/solver/result.cpp`, `HyperSolve` (`src/solver/solver.cpp:904-990`).
Scores are exact rationals (the code uses `double`).
-/

namespace Streed

/-- `SolverTaskResult` (result.h:100-134): parallel vectors and the index of the best solution, which is
initialised to zero and never assigned. -/
structure ResultSet where
  scores : List Rat
  trees : List Tree
  depths : List Nat
  nodes : List Nat
  best : Nat
  deriving Repr

/-- A new result set. -/
def ResultSet.empty : ResultSet := ⟨[], [], [], [], 0⟩

/-- The search loop of `AddSolution` (result.h:122-126): the first position whose score is larger. -/
def insertPos (x : Rat) : List Rat → Nat
  | [] => 0
  | y :: ys => if x < y then 0 else insertPos x ys + 1

/-- `vector.insert(begin + i, x)`. -/
def insertAt {α : Type} : Nat → α → List α → List α
  | 0, x, l => x :: l
  | _ + 1, x, [] => [x]
  | n + 1, x, y :: l => y :: insertAt n x l

/-- `AddSolution` (result.h:122-132). -/
def ResultSet.add (r : ResultSet) (t : Tree) (x : Rat) : ResultSet :=
  let i := insertPos x r.scores
  { r with scores := insertAt i x r.scores, trees := insertAt i t r.trees
           depths := insertAt i t.depth r.depths, nodes := insertAt i t.nodes r.nodes }

/-- Adding a list of solutions one after another. -/
def ResultSet.addAll (r : ResultSet) : List (Tree × Rat) → ResultSet
  | [] => r
  | p :: ps => (r.add p.1 p.2).addAll ps

/-- `GetBestNodeCount` (result.cpp:10-12); `none` is an access outside the vector. -/
def ResultSet.bestNodeCount (r : ResultSet) : Option Nat := r.nodes[r.best]?

/-! ### Hyper-parameter selection -/

/-- How a task orders scores (`CompareScore`): larger is better (optimization_task.h:67), smaller is
better (cost_sensitive.h:83, regression.h:48, …), or smaller or equal
(instance_cost_sensitive.h:92). -/
inductive Better where
  | larger
  | smaller
  | smallerEq
  deriving DecidableEq, Repr

/-- `CompareScore a b`: `a` replaces `b`. -/
def Better.test : Better → Rat → Rat → Bool
  | .larger, a, b => decide (b < a)
  | .smaller, a, b => decide (a < b)
  | .smallerEq, a, b => decide (a ≤ b)

/-- What one run with one configuration on one fold gives (solver.cpp:955-956): the result set of the
training part, whether it is proven optimal, and the test score of its best solution. -/
structure Trial where
  result : ResultSet
  proven : Bool
  score : Rat

/-- `performances[c][r]` (solver.cpp:957-962), given the previous configuration's value. -/
def trialScore (worst : Rat) (prev : Option Rat) (t : Trial) : Rat :=
  if t.result.scores.length = 0 ∨ t.proven = false then prev.getD worst else t.score

/-- The loop over the configurations of one fold (solver.cpp:938-971). `inTime c` is the time check
before configuration `c`; `skip` is `skip_when_max_tree`. `none`: an access outside a vector
(`GetBestNodeCount` of a result without solutions). -/
def foldScores (worst : Rat) (skip : Bool) (maxNodes nConf : Nat) (inTime : Nat → Bool)
    (trial : Nat → Trial) : Nat → Nat → Option Rat → Option (List Rat)
  | 0, _, _ => some []
  | k + 1, c, prev =>
    if inTime c = false then
      (foldScores worst skip maxNodes nConf inTime trial k (c + 1) (some worst)).map (worst :: ·)
    else
      let s := trialScore worst prev (trial c)
      if skip then
        match (trial c).result.bestNodeCount with
        | none => none
        | some m =>
          if m = maxNodes ∧ c + 1 < nConf then some (s :: List.replicate k s)
          else (foldScores worst skip maxNodes nConf inTime trial k (c + 1) (some s)).map (s :: ·)
      else (foldScores worst skip maxNodes nConf inTime trial k (c + 1) (some s)).map (s :: ·)

/-- `GetAverage` (result.h:22-32). -/
def average (xs : List Rat) : Rat := xs.sum / xs.length

/-- The selection loop (solver.cpp:973-981) from configuration `c` on: index and score of the best so
far. -/
def selectFrom (b : Better) : Nat → Option (Nat × Rat) → List Rat → Option (Nat × Rat)
  | _, cur, [] => cur
  | c, none, x :: xs => selectFrom b (c + 1) (some (c, x)) xs
  | c, some (i, y), x :: xs =>
    if b.test x y then selectFrom b (c + 1) (some (c, x)) xs
    else selectFrom b (c + 1) (some (i, y)) xs

/-- `best_config` and `best_score` for the averages of all configurations. -/
def selectBest (b : Better) (xs : List Rat) : Option (Nat × Rat) := selectFrom b 0 none xs

/-- One tuning phase (solver.cpp:914-987): all folds, then the selection. The list of folds holds for
each fold its time checks and trials. -/
def tunePhase (b : Better) (worst : Rat) (skip : Bool) (maxNodes nConf : Nat)
    (folds : List ((Nat → Bool) × (Nat → Trial))) : Option (Option (Nat × Rat)) :=
  match folds.mapM fun f => foldScores worst skip maxNodes nConf f.1 f.2 nConf 0 none with
  | none => none
  | some perf =>
    some (selectBest b ((List.range nConf).map fun c => average (perf.map fun row => row.getD c 0)))

end Streed
