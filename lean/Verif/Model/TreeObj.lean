import Verif.Model.View
import Verif.Model.Preprocess

/-!
# Model of the returned tree

`include/solver/tree.h`: the linked tree, its queries, and classification of data. Following a null pointer and
accessing a vector outside its range are undefined behaviour: `none`.
-/

namespace Streed

/-- `Tree<OT>` (tree.h:60-61, 169-171): feature and label (`none` for `INT32_MAX` and the worst label) and two
child pointers. -/
inductive Obj where
  | null
  | mk (feature label : Option Nat) (l r : Obj)
  deriving DecidableEq, Repr

namespace Obj

/-- `CreateLabelNode` (tree.h:29-32). -/
def label (k : Nat) : Obj := .mk none (some k) .null .null
/-- `CreateFeatureNodeWithNullChildren` (tree.h:34-37), with its children set afterwards. -/
def feature (f : Nat) (l r : Obj) : Obj := .mk (some f) none l r

/-- `Depth` (tree.h:63-66). -/
def depth : Obj → Option Nat
  | null => none
  | mk _ lab l r => if lab.isSome then some 0 else do
      let a ← l.depth
      let b ← r.depth
      pure (1 + max a b)

/-- `NumNodes` (tree.h:68-71). -/
def numNodes : Obj → Option Nat
  | null => none
  | mk _ lab l r => if lab.isSome then some 0 else do
      let a ← l.numNodes
      let b ← r.numNodes
      pure (1 + a + b)

/-- `FlipFlippedFeatures` (tree.h:162-167). The children are exchanged before descending. -/
def flip (fl : List Nat) : Obj → Option Obj
  | null => none
  | mk none lab l r => some (mk none lab l r)
  | mk (some f) lab l r =>
    if f ≥ fl.length then some (mk (some f) lab l r)
    else do
      let l' ← l.flip fl
      let r' ← r.flip fl
      pure (if fl.getD f 0 ≠ 0 then mk (some f) lab r' l' else mk (some f) lab l' r')

/-- Write `labels[id] = k`. -/
def write (labels : List Nat) (id k : Nat) : Option (List Nat) :=
  if id < labels.length then some (labels.set id k) else none

/-- `Classify` (tree.h:122-142) for tasks whose leaf label is the prediction. The data splitter returns the split
itself (`splitter_exact`). -/
def classify (fl : List Nat) : Obj → View → List Nat → Option (List Nat)
  | null, _, _ => none
  | mk feat lab l r, v, labels =>
    match lab with
    | some k => v.groups.flatten.foldlM (fun ls (i : Inst) => write ls i.id k) labels
    | none =>
      match feat with
      | none => none
      | some f =>
        if f < fl.length then
          let s := v.split f
          if fl.getD f 0 = 1 then do
            let ls ← r.classify fl s.1 labels
            l.classify fl s.2 ls
          else do
            let ls ← l.classify fl s.1 labels
            r.classify fl s.2 ls
        else none

/-- `ToString` (tree.h:144-160). -/
def toStr : Obj → Option String
  | null => none
  | mk feat lab l r =>
    match lab with
    | some k => some ("[" ++ toString k ++ "]")
    | none => do
      let a ← l.toStr
      let b ← r.toStr
      pure ("[" ++ toString (feat.getD int32Max) ++ "," ++ a ++ "," ++ b ++ "]")

end Obj

/-- `PreprocessData(data, false)` (solver.cpp:1216-1225): the features that were flipped in the training data are
flipped in the test data. -/
def preprocessTest (fl : List Nat) (v : View) : View :=
  { v with groups := v.groups.map fun g => g.map fun i =>
      { i with feat := fun f => if fl.getD f 0 = 1 then !i.feat f else i.feat f } }

/-- `Predict` (solver.cpp:1267-1274) on freshly loaded test data. -/
def predictFresh (fl : List Nat) (t : Obj) (v : View) : Option (List Nat) :=
  t.classify fl (preprocessTest fl v) (List.replicate v.size 0)

end Streed
