import Verif.Model.Sensitive
import Verif.Model.TestScore

/-!
# Which columns of new data become which features

`fit` remembers the columns of each kind by name (data frames) or by position (arrays); `predict`, `score` and `get_question_length` select
them again from the data they are given.
-/

namespace Streed

/-- What the binariser remembers (binarizer.py:64): names or positions of the binary, categorical and continuous columns, and what it does
with the categorical and the continuous ones, which the binarisers of the columns learnt from the training data. -/
structure ColumnMemory where
  bin : List Nat
  cat : List Nat
  cont : List Nat
  catT : Frame → List (List Bool)
  contT : Frame → List (List Bool)

/-- `Binarizer.fit` on a data frame (binarizer.py:16-23, 60-85); `learn` are the binarisers of the columns. -/
def learnFrame (learn : Frame → (Frame → List (List Bool)) × (Frame → List (List Bool))) (X : Frame) : ColumnMemory :=
  let T := columnTypes X
  ⟨T.1.map (·.name), T.2.1.map (·.name), T.2.2.map (·.name), (learn X).1, (learn X).2⟩

/-- `Binarizer.fit` on an array (binarizer.py:24-26, 60-85) without categorical columns. -/
def learnArray (learn : Frame → (Frame → List (List Bool)) × (Frame → List (List Bool))) (X : Frame) : ColumnMemory :=
  let isBin := fun j : Nat => match X[j]? with | some c => c.binary | none => false
  ⟨(List.range X.length).filter isBin, [], (List.range X.length).filter fun j => !isBin j, (learn X).1, (learn X).2⟩

/-- `X[names]` on a data frame; `none` is a `KeyError`. -/
def byName (X : Frame) (ns : List Nat) : Option Frame := ns.mapM fun n => X.find? fun c => c.name == n

/-- `X[:, positions]` on an array; `none` is an `IndexError`. -/
def byPosition (X : Frame) (ps : List Nat) : Option Frame := ps.mapM fun j => X[j]?

/-- An entry of a binary column: the number is cut to an integer (base.py:203-209) and then read as a Boolean (bindings.cpp:65-84). -/
def asBit (v : Rat) : Bool := decide (1 ≤ v) || decide (v ≤ -1)

/-- `Binarizer.transform` (binarizer.py:87-117): the features, in order. -/
def transformCols (sel : List Nat → Option Frame) (B : ColumnMemory) : Option (List (List Bool)) := do
  let b ← sel B.bin
  let c ← sel B.cat
  let d ← sel B.cont
  some (b.map (fun c => c.vals.map asBit) ++ (B.catT c ++ B.contT d))

/-- The rows of an array of features, with labels. -/
def featRows (F : List (List Bool)) (y : List Nat) : Data :=
  (List.range y.length).map fun i => ⟨i, fun f => (F.getD f []).getD i false, y.getD i 0⟩

/-- The data that a user gives. -/
inductive UserData
  | frame (X : Frame)
  | array (X : Frame)

/-- `_move_sensitive_feature_first` (group_fair.py:88-106). -/
def UserData.moved (s : Sensitive) : UserData → Option UserData
  | .frame X => (moveFirstFrame s X).map .frame
  | .array X => (moveFirstArray s X).map .array

/-- `_binarize_data(X)` on training data (base.py:225-227): what is remembered. -/
def UserData.learn (l : Frame → (Frame → List (List Bool)) × (Frame → List (List Bool))) : UserData → ColumnMemory
  | .frame X => learnFrame l X
  | .array X => learnArray l X

/-- `_binarize_data(X, reset=False)` (base.py:228). -/
def UserData.features (B : ColumnMemory) : UserData → Option (List (List Bool))
  | .frame X => transformCols (byName X) B
  | .array X => transformCols (byPosition X) B

/-- The binariser after `fit` of the fairness classifier (group_fair.py:108-131, base.py:259). -/
def fairMemory (s : Sensitive) (l : Frame → (Frame → List (List Bool)) × (Frame → List (List Bool))) (X : UserData) : Option ColumnMemory :=
  (X.moved s).map (UserData.learn l)

/-- The features that `predict` of the fairness classifier applies the tree to (group_fair.py:132-145, base.py:298-316), and `score`
(group_fair.py:147-161, base.py:318-338). -/
def fairFeatures (s : Sensitive) (B : ColumnMemory) (X : UserData) : Option (List (List Bool)) :=
  (X.moved s).bind (UserData.features B)

/-- The features that `get_question_length` applies the tree to (base.py:340-360): the fairness classifier inherits the method. -/
def fairAskFeatures (B : ColumnMemory) (X : UserData) : Option (List (List Bool)) := X.features B

/-- `predict` of the fairness classifier for rows without labels, by the tree `t`. -/
def fairPredict (s : Sensitive) (B : ColumnMemory) (t : Tree) (X : UserData) (n : Nat) : Option (List Nat) :=
  (fairFeatures s B X).map fun F => (featRows F (List.replicate n 0)).map t.predict

/-- `get_question_length` of the fairness classifier. -/
def fairAsk (fl : List Nat) (B : ColumnMemory) (t : Obj) (X : UserData) (y : List Nat) : Option Rat :=
  (fairAskFeatures B X).bind fun F => questionLength fl t (featRows F y)

end Streed
