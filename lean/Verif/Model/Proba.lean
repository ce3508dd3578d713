import Verif.Spec
import Mathlib.Data.Rat.Defs
import Mathlib.Data.List.Dedup

/-!
# `predict_proba` of the classifier (classification.py)

Arrays are lists. A matrix of `np.intc` is a list of rows, a row maps a column to an integer. Probabilities are exact.
-/

namespace Streed

/-- What `predict_proba` can raise: the two assertions in a leaf, an index outside `all_counts` or `probs`, and the final assertion. -/
inductive PyErr
  | emptyLeaf
  | index
  | notMajority
  | sumBelowOne
  deriving DecidableEq, Repr

abbrev IntRow := Nat → Int

/-- `~x` for a number: all bits inverted. `X` is converted to `np.intc` by `_process_predict_data` (base.py:226-232), so the
operator in classification.py:164 is this one and not a logical negation. -/
def bitNot (x : Int) : Int := -x - 1

/-- `np.argwhere(a)`: the positions of the non-zero entries of a column. -/
def argwhere (col : List Int) : List Nat := (List.range col.length).filter fun i => col.getD i 0 != 0

/-- `np.intersect1d(a, b)` for `a` without duplicates and in increasing order. -/
def intersect (a b : List Nat) : List Nat := a.filter fun i => b.contains i

/-- `probabilities[indices] = probs` (classification.py:161). -/
def setRows (P : List (List Rat)) (idx : List Nat) (probs : List Rat) : List (List Rat) :=
  idx.foldl (fun P i => P.set i probs) P

/-- The loop over `zip(unique, counts)` (classification.py:157-159); a label that is no position of `all_counts` raises. -/
def countLoop (y : List Nat) : List Nat → List Nat → Except PyErr (List Nat)
  | [], acc => .ok acc
  | k :: ks, acc => if k < acc.length then countLoop y ks (acc.set k (y.count k)) else .error .index

/-- `max(probs)`. -/
def maxRat : List Rat → Rat
  | [] => 0
  | [x] => x
  | x :: l => max x (maxRat l)

/-- The leaf case (classification.py:153-162). `y` are the labels of the training rows in the leaf. The order in which
`np.unique` lists the labels does not matter; here it is the order of the last occurrences. -/
def leafProba (nC label : Nat) (y : List Nat) : Except PyErr (List Rat) :=
  if y.length = 0 then .error .emptyLeaf
  else
    match countLoop y y.dedup (List.replicate nC 0) with
    | .error e => .error e
    | .ok c =>
      let probs : List Rat := c.map fun n : Nat => (n : Rat) / (y.length : Rat)
      if nC ≤ label then .error .index
      else if probs.getD label 0 ≥ maxRat probs - 1 / 100000 then .ok probs
      else .error .notMajority

/-- `_recursive_predict_proba` (classification.py:150-170). -/
def probaRec (nC : Nat) (X : List IntRow) : Tree → List (List Rat) → List Nat → List (IntRow × Nat) →
    Except PyErr (List (List Rat))
  | .leaf k, P, idx, train =>
    match leafProba nC k (train.map (·.2)) with
    | .error e => .error e
    | .ok probs => .ok (setRows P idx probs)
  | .node f l r, P, idx, train =>
    let left := intersect (argwhere (X.map fun x => bitNot (x f))) idx
    let right := intersect (argwhere (X.map fun x => x f)) idx
    match probaRec nC X l P left (train.filter fun p => !(p.1 f != 0)) with
    | .error e => .error e
    | .ok P => probaRec nC X r P right (train.filter fun p => p.1 f != 0)

/-- `predict_proba` (classification.py:143-148). -/
def predictProba (nC : Nat) (t : Tree) (X : List IntRow) (train : List (IntRow × Nat)) : Except PyErr (List (List Rat)) :=
  match probaRec nC X t (List.replicate X.length (List.replicate nC 0)) (List.range X.length) train with
  | .error e => .error e
  | .ok P => if P.all fun p => p.sum ≥ 1 - 1 / 10000 then .ok P else .error .sumBelowOne

/-- `self.n_classes_` (classification.py:122). -/
def numClasses (train : List (IntRow × Nat)) : Nat := (train.map (·.2)).dedup.length

/-- The 0/1 matrix and labels that stand for a dataset. -/
def asRows (T : Data) : List (IntRow × Nat) := T.map fun i => (fun f => if i.feat f then 1 else 0, i.label)

end Streed
