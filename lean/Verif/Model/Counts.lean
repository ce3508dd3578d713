import Verif.Model.Difference
import Verif.Model.Terminal

/-!
# Model of the pair statistics and their incremental maintenance

`src/solver/counter.cpp`, `src/solver/cost_storage.cpp`, `src/model/feature_vector.cpp`
(`ComputeFeaturePairIndices`), `src/solver/cost_combiner.cpp` (`Initialize`, `UpdateCosts`).
The arrays are total functions on indices; that every index used is inside the allocated range is
proved (`symIndex_lt`). Instances have weight one.
-/

namespace Streed

/-- `NumElements` (counter.cpp:32-34, cost_storage.cpp:51-54). -/
def numElements (n : Nat) : Nat := n * (n + 1) / 2

/-- `IndexSymmetricMatrix` (counter.cpp:36-39, cost_storage.cpp:56-60). -/
def symIndex (n r c : Nat) : Nat := n * r + c - r * (r + 1) / 2

/-- The present features in increasing order (feature_vector.cpp:11-23). -/
def presentFeatures (nF : Nat) (i : Inst) : List Nat := (List.range nF).filter fun f => i.feat f

/-- The pairs visited by the double loop of `ComputeFeaturePairIndices`
(feature_vector.cpp:96-109). -/
def pairsOf : List Nat → List (Nat × Nat)
  | [] => []
  | f :: fs => (f :: fs).map (fun g => (f, g)) ++ pairsOf fs

/-- `ComputeFeaturePairIndices` (feature_vector.cpp:96-109). -/
def pairIndices (nF : Nat) (i : Inst) : List Nat :=
  (pairsOf (presentFeatures nF i)).map fun p => symIndex nF p.1 p.2

/-- Indices updated for an instance: the diagonal only if `one` (cost_combiner.cpp:97-108),
otherwise all pairs (lines 110-117). -/
def touched (nF : Nat) (one : Bool) (i : Inst) : List Nat :=
  if one then (presentFeatures nF i).map fun f => symIndex nF f f else pairIndices nF i

/-- Counter and cost storages (counter.h:19-52, cost_storage.h:11-40). -/
structure Storage where
  tot : Int
  cnt : Nat → Int
  ctot : Nat → Int
  cst : Nat → Nat → Int

/-- `ResetToZeros` of counter and storages. -/
def Storage.zero : Storage := ⟨0, fun _ => 0, fun _ => 0, fun _ _ => 0⟩

/-- `counts[index] += val`. -/
def bump (a : Nat → Int) (val : Int) (x : Nat) : Nat → Int := fun y => if y = x then a y + val else a y

/-- `UpdateCountCost` (cost_combiner.cpp:80-119) for label `l` with instance cost `costs`. -/
def updateCountCost (nF : Nat) (one updCount updCost : Bool) (i : Inst) (l : Nat) (costs mult : Int)
    (S : Storage) : Storage :=
  { tot := S.tot
    cnt := if updCount then (touched nF one i).foldl (fun a x => bump a mult x) S.cnt else S.cnt
    ctot := if updCost then bump S.ctot costs l else S.ctot
    cst := if updCost then
        (fun l' => if l' = l then (touched nF one i).foldl (fun a x => bump a costs x) (S.cst l)
          else S.cst l')
      else S.cst }

/-- Labels for which costs are stored (cost_combiner.cpp:125-133). `zeroTrue` is
`terminal_zero_costs_true_label`. -/
def storeLabels (nL : Nat) (zeroTrue : Bool) (org : Nat) : List Nat :=
  if nL > 1 then (List.range nL).filter fun l => !zeroTrue || l != org else [0]

/-- The label loop for one instance (cost_combiner.cpp:137-149). -/
def updateInst (P : Problem) (zeroTrue one : Bool) (mult : Int) (org : Nat) (i : Inst) (S : Storage) :
    Storage :=
  let ls := storeLabels P.nL zeroTrue org
  let first := ls.headD 0
  ls.foldl (fun S l =>
    let costs := mult * P.cost i l
    if costs = 0 then
      (if first < l then S else updateCountCost P.nF one true false i l costs mult S)
    else if first < l then updateCountCost P.nF one false true i l costs mult S
    else updateCountCost P.nF one true true i l costs mult S) S

/-- `UpdateCosts` (cost_combiner.cpp:121-160). -/
def updateCosts (P : Problem) (zeroTrue one : Bool) (mult : Int) (D : Data) (S : Storage) : Storage :=
  let S := (List.range P.nL).foldl (fun S k =>
    (byLabel D k).foldl (fun S i => updateInst P zeroTrue one mult k i S) S) S
  { S with tot := S.tot + D.length * mult }

/-- The calculator: the data it was last initialised for, with the node budget, and its storage. -/
structure Calc where
  prev : Option (Data × Nat)
  S : Storage

/-- A calculator as constructed (cost_combiner.cpp:5-12). -/
def Calc.init : Calc := ⟨none, Storage.zero⟩

/-- `Initialize` (cost_combiner.cpp:14-43) for tasks without `terminal_filter`: the new calculator
and whether the statistics may have changed. -/
def Calc.initialize (P : Problem) (zeroTrue : Bool) (c : Calc) (D : Data) (n : Nat) : Calc × Bool :=
  let recount : Calc := ⟨some (D, n), updateCosts P zeroTrue (n == 1) 1 D Storage.zero⟩
  match c.prev with
  | none => (recount, true)
  | some (D', n') =>
    if (n == 1) = (n' == 1) then
      let df := computeDifference P.nL D' D
      if df.1.length = 0 ∧ df.2.length = 0 then (c, false)
      else if df.1.length + df.2.length < D.length then
        (⟨some (D, n), updateCosts P zeroTrue (n == 1) (-1) df.2
          (updateCosts P zeroTrue (n == 1) 1 df.1 c.S)⟩, true)
      else (recount, true)
    else (recount, true)

/-- The statistics as the depth-two solver reads them: row ≤ column. -/
def Storage.stats (nF : Nat) (S : Storage) : Stats :=
  { tot := S.tot, cnt := fun f g => S.cnt (symIndex nF f g), ctot := S.ctot
    cst := fun k f g => S.cst k (symIndex nF f g) }

end Streed
