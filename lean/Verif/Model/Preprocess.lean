import Verif.Model.Node

/-!
# Model of the feature preprocessing

`Solver::PreprocessData` (solver.cpp:1157-1229): flipping of frequent features and disabling of redundant
ones. The presence table of an instance is a function; its two-fold storage is treated in
`Verif/Model/FeatureVector.lean`.
-/

namespace Streed

/-- `positive_count` (solver.cpp:1166-1171). -/
def posCount (f : Nat) (T : Data) : Nat := T.countP (·.feat f)

/-- `flipped_features` (solver.cpp:1172-1179): features present in more than half of the instances. -/
def flipped (P : Problem) (T : Data) (f : Nat) : Bool := P.may f && decide (T.length / 2 < posCount f T)

/-- First part of `redundant_features` (solver.cpp:1180-1183), computed from the count before flipping. -/
def nearConstant (P : Problem) (mls : Nat) (T : Data) (f : Nat) : Bool :=
  P.may f && (decide (posCount f T < mls) || decide (T.length < posCount f T + mls))

/-- `FlipFeature` on every flipped feature. -/
def flipInst (fl : Nat → Bool) (i : Inst) : Inst := { i with feat := fun f => Bool.xor (i.feat f) (fl f) }

/-- Two features agree on every instance (solver.cpp:1190-1197). -/
def sameFeature (T : Data) (f g : Nat) : Bool := T.all fun i => i.feat f == i.feat g

/-- Inner step of the duplicate search (solver.cpp:1188-1201). -/
def markDup (T : Data) (f : Nat) (red : Tbl Bool) (g : Nat) : Tbl Bool :=
  if red.get g false then red else if sameFeature T f g then red.set g true else red

/-- Outer step of the duplicate search (solver.cpp:1186-1202). -/
def dupStep (nF : Nat) (T : Data) (red : Tbl Bool) (f : Nat) : Tbl Bool :=
  if red.get f false then red else (List.range' (f + 1) (nF - 1 - f)).foldl (markDup T f) red

/-- `redundant_features` after both parts. -/
def redundantTbl (P : Problem) (mls : Nat) (T : Data) : Tbl Bool :=
  let r0 := (List.range P.nF).foldl (fun r f => if nearConstant P mls T f then Tbl.set r f true else r) []
  (List.range (P.nF - 1)).foldl (dupStep P.nF (T.map (flipInst (flipped P T)))) r0

/-- Whether a feature is marked redundant. -/
def isRedundant (P : Problem) (mls : Nat) (T : Data) (f : Nat) : Bool := (redundantTbl P mls T).get f false

/-- One instance after preprocessing: flipped, then redundant features disabled (solver.cpp:1203-1211). -/
def prepInst (fl red : Nat → Bool) (i : Inst) : Inst :=
  { i with feat := fun f => if red f then false else Bool.xor (i.feat f) (fl f) }

/-- The training data after `PreprocessData(data, true)`. -/
def preprocess (P : Problem) (mls : Nat) (T : Data) : Data :=
  T.map (prepInst (flipped P T) (isRedundant P mls T))

/-- `PostProcessTree`, which calls `Tree::FlipFlippedFeatures` (solver.cpp:1247-1253, tree.h:162-167): the children
below every flipped feature are exchanged. The version on linked nodes is in `Model/TreeObj.lean`. -/
def unflip (fl : Nat → Bool) : Tree → Tree
  | .leaf k => .leaf k
  | .node f l r => if fl f then .node f (unflip fl r) (unflip fl l) else .node f (unflip fl l) (unflip fl r)

end Streed
