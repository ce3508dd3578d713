import Verif.Model.Counts

/-!
# Model of an instance's feature vector

`include/model/feature_vector.h`, `src/model/feature_vector.cpp`. The object keeps the same set
twice: one bit per feature, and an increasing list of the present features in an array of capacity
`num_features` of which the first `num_present_features` cells are in use. Writes outside the array
are undefined behaviour (`none`). The assertions at the end of `FlipFeature` are not part of the
model: that they hold is what is proved.
-/

namespace Streed

/-- `FeatureVector` (feature_vector.h:57-63). `present` is `is_feature_present_`, `list` the used
cells of `present_features_`, `pairs` is `present_feature_pair_indices_`. -/
structure FV where
  present : List Bool
  list : List Nat
  pairs : List Nat
  deriving DecidableEq, Repr

/-- The constructor (feature_vector.cpp:11-24): the loop from feature `i` on. -/
def FV.scan : Nat → List Bool → List Nat
  | _, [] => []
  | i, b :: bs => if b then i :: FV.scan (i + 1) bs else FV.scan (i + 1) bs

/-- The constructor (feature_vector.cpp:11-24). -/
def FV.make (vals : List Bool) : FV := ⟨vals, FV.scan 0 vals, []⟩

/-- `std::remove` on the used cells followed by `num_present_features -= 1`
(feature_vector.cpp:49-50): the kept elements move to the front, the cells behind them keep their
old contents, and the last cell leaves the used part. -/
def FV.removeOne (f : Nat) (l : List Nat) : List Nat :=
  let kept := l.filter (· != f)
  (kept ++ l.drop kept.length).take (l.length - 1)

/-- The insertion loop (feature_vector.cpp:52-63), from the last used cell down; the list is
reversed. -/
def FV.insertRev (f : Nat) : List Nat → List Nat
  | [] => [f]
  | x :: xs => if x < f then f :: x :: xs else x :: FV.insertRev f xs

/-- `FlipFeature` (feature_vector.cpp:47-67). -/
def FV.flip (v : FV) (f : Nat) : Option FV :=
  match v.present[f]? with
  | none => none
  | some true => some { v with present := v.present.set f false, list := FV.removeOne f v.list }
  | some false =>
    if v.list.length < v.present.length then
      some { v with present := v.present.set f true, list := (FV.insertRev f v.list.reverse).reverse }
    else none

/-- `DisableFeature` (feature_vector.cpp:90-94). -/
def FV.disable (v : FV) (f : Nat) : Option FV :=
  match v.present[f]? with
  | none => none
  | some true => v.flip f
  | some false => some v

/-- `ComputeFeaturePairIndices` (feature_vector.cpp:96-109): the vector is resized to
`k (k + 1) / 2` cells, which are then written in order. -/
def FV.computePairs (v : FV) : Option FV :=
  let num := v.list.length * (v.list.length + 1) / 2
  let new := (pairsOf v.list).map fun p => symIndex v.present.length p.1 p.2
  if new.length ≤ num then
    some { v with pairs := new ++ ((v.pairs ++ List.replicate num 0).take num).drop new.length }
  else none

/-- The operations that change a feature vector. -/
inductive FVOp where
  | flip (f : Nat)
  | disable (f : Nat)
  | pairs
  deriving DecidableEq, Repr

/-- One operation. -/
def FV.step (v : FV) : FVOp → Option FV
  | .flip f => v.flip f
  | .disable f => v.disable f
  | .pairs => v.computePairs

/-- A sequence of operations. -/
def FV.run (v : FV) : List FVOp → Option FV
  | [] => some v
  | o :: os => match v.step o with
    | none => none
    | some w => w.run os

end Streed
