import Verif.Model.Node

/-!
# Model of data views and the data splitter

`include/model/data.h` (ADataView), `src/model/data.cpp`, `src/solver/data_splitter.cpp`.
-/

namespace Streed

/-- `ADataView` (data.h:187-250): instances per label and the stored size. The bit view and the weights (which no
task reads) are left out. -/
structure View where
  groups : List Data
  size : Nat

namespace View

/-- `ADataView()` (data.h:183): no labels, no instances. -/
def empty : View := ⟨[], 0⟩

/-- `NumLabels` (data.h:192). -/
def numLabels (v : View) : Nat := v.groups.length

/-- `ADataView(data, instances)` (data.cpp:5-10). -/
def ofGroups (gs : List Data) : View := ⟨gs, gs.foldl (fun n g => n + g.length) 0⟩

/-- The inner loop of `SplitData` (data.cpp:41-47): append every instance of one label to the left or the right
vector. -/
def splitGroup (f : Nat) : Data → Data → Data → Data × Data
  | [], l, r => (l, r)
  | i :: is, l, r => if i.feat f then splitGroup f is l (r ++ [i]) else splitGroup f is (l ++ [i]) r

/-- The loop over the labels (data.cpp:37-51). `lo`, `ro` are the contents the output views had before
(`resize` keeps them, and fills up with empty vectors). Returns the groups and the sizes. -/
def splitGroups (f : Nat) : List Data → List Data → List Data → (List Data × Nat) × (List Data × Nat)
  | [], _, _ => (([], 0), ([], 0))
  | g :: gs, lo, ro =>
    let x := splitGroup f g (lo.headD []) (ro.headD [])
    let rest := splitGroups f gs lo.tail ro.tail
    ((x.1 :: rest.1.1, x.1.length + rest.1.2), (x.2 :: rest.2.1, x.2.length + rest.2.2))

/-- `SplitData` (data.cpp:29-53) with the previous contents of the two output views. -/
def splitInto (v : View) (f : Nat) (left right : View) : View × View :=
  let r := splitGroups f v.groups left.groups right.groups
  (⟨r.1.1, r.1.2⟩, ⟨r.2.1, r.2.2⟩)

/-- `SplitData` into two new views, the way every caller uses it. -/
def split (v : View) (f : Nat) : View × View := v.splitInto f empty empty

end View

/-- `DataSplitter` (data_splitter.h:29-43): one map for training and one for test data. The maps are indexed by
the depth of the branch first; the depth is a function of the branch, so one map with key (branch, feature)
behaves the same as long as the depth is below `max_branch_length`. -/
structure Splitter where
  enabled : Bool
  train : List ((Branch × Nat) × (View × View))
  test : List ((Branch × Nat) × (View × View))

namespace Splitter

/-- A new splitter. -/
def init : Splitter := ⟨true, [], []⟩

/-- `hashmap.find`. -/
def look (m : List ((Branch × Nat) × (View × View))) (k : Branch × Nat) : Option (View × View) :=
  (m.find? fun p => p.1 = k).map (·.2)

/-- `Split` (data_splitter.cpp:5-20). -/
def split (s : Splitter) (v : View) (b : Branch) (f : Nat) (test : Bool) : (View × View) × Splitter :=
  if s.enabled then
    match look (if test then s.test else s.train) (b, f) with
    | some r => (r, s)
    | none =>
      let r := v.split f
      (r, if test then { s with test := ((b, f), r) :: s.test } else { s with train := ((b, f), r) :: s.train })
  else (v.split f, s)

/-- `Clear` (data_splitter.cpp:22-30). -/
def clear (s : Splitter) (test : Bool) : Splitter :=
  if test then { s with test := [] } else { s with train := [] }

/-- `Disable` (data_splitter.h:38). -/
def disable (s : Splitter) : Splitter := { s with enabled := false }

end Splitter

end Streed
