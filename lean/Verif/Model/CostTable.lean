import Verif.Model.CostSensitive

/-!
# The tables made from a cost specification

`CostSpecifier` (src/tasks/cost_sensitive.cpp:15-92) reads a specification from a file or is given one from Python, and fills flat tables; the task
reads them without checks. `none` is an access outside a table or a value that was never set. `runtime_assert` is empty outside debug builds
(base.h:31-35).
-/

namespace Streed

/-- `FeatureCostSpecifier` as the user gives it (cost_sensitive.h:6-16, bindings.cpp:356-357): the features are signed integers. -/
structure AttrSpec where
  cost : Rat
  disc : Rat
  group : Nat
  lo : Int
  hi : Int
  deriving DecidableEq

/-- The vectors of `CostSpecifier` (cost_sensitive.h:29-32), as functions of the index in the vector, and `group_attribute_map` as the list of its
entries in the order in which they were added. -/
structure CostTab where
  n : Nat
  feat : Nat → Rat
  disc : Nat → Rat
  grp : Nat → Bool
  bin : Nat → Bool
  map : List (Nat × Nat)

/-- How making the tables ends. -/
inductive TabEnd
  | built (t : CostTab)
  /-- `std::length_error` of a vector with a negative size. -/
  | raises
  | undef

namespace CostTab

/-- Zeros (cost_sensitive.cpp:63-67). -/
def empty (n : Nat) : CostTab := ⟨n, fun _ => 0, fun _ => 0, fun _ => false, fun _ => false, []⟩

/-- The features `binary_begin`, …, `binary_end` below `num_features` (cost_sensitive.cpp:73-74, 82-83), for a range that begins at zero or later. -/
def feats (a : AttrSpec) (n : Nat) : List Nat := (List.range' a.lo.toNat (a.hi + 1 - a.lo).toNat).filter fun f => decide (f < n)

/-- The body of the loop over features (cost_sensitive.cpp:75-86). The order in which entries are set to true does not matter. -/
def addFeature (a : AttrSpec) (t : CostTab) (f : Nat) : CostTab :=
  { n := t.n
    feat := fun x => if x = f then a.cost else t.feat x
    disc := fun x => if x = f then a.disc else t.disc x
    grp := fun i => t.grp i || t.map.any fun e => decide (e.1 = a.group) && (decide (i = f * t.n + e.2) || decide (i = e.2 * t.n + f))
    bin := fun i => t.bin i || (feats a t.n).any fun g => decide (i = f * t.n + g) || decide (i = g * t.n + f)
    map := t.map ++ [(a.group, f)] }

/-- One attribute (cost_sensitive.cpp:70-87). A range that begins below zero writes before the vector. -/
def addAttr (t : CostTab) (a : AttrSpec) : Option CostTab :=
  if a.hi < a.lo then some t
  else if a.lo < 0 then none
  else some ((feats a t.n).foldl (addFeature a) t)

/-- `Initialize` (cost_sensitive.cpp:58-92): the number of features is the sum of the sizes of the ranges; its square overflows `int` from 46341
features on. -/
def build (A : List AttrSpec) : TabEnd :=
  let n := (A.map fun a => a.hi - a.lo + 1).sum
  if n < 0 then .raises
  else if 2147483647 < n * n then .undef
  else match A.foldlM addAttr (empty n.toNat) with
    | none => .undef
    | some t => .built t

/-- Whether an entry at one of the indices is set, read in order; `none` beyond the end. -/
def scan (p : Nat → Bool) (size : Nat) : List Nat → Option Bool
  | [] => some false
  | i :: is => if size ≤ i then none else if p i then some true else scan p size is

/-- `GetBranchingCosts(context, feature)` (cost_sensitive.cpp:149-161), with the accesses to the vectors. -/
def price (t : CostTab) (b : Branch) (f : Nat) : Option Rat :=
  let idx := b.map fun x => x / 2 * t.n + f
  match scan t.bin (t.n * t.n) idx with
  | none => none
  | some true => some 0
  | some false =>
    match scan t.grp (t.n * t.n) idx with
    | none => none
    | some true => if f < t.n then some (t.disc f) else none
    | some false => if f < t.n then some (t.feat f) else none

end CostTab

/-- `misclassification_costs[k][label]`. -/
def matrixAt (m : List (List Rat)) (k label : Nat) : Option Rat := (m[k]?).bind fun r => r[label]?

/-- `GetLeafCosts` (cost_sensitive.cpp:140-147), with the accesses to the matrix. -/
def leafRead (m : List (List Rat)) (nL : Nat) (D : Data) (label : Nat) : Option Rat :=
  (List.range nL).foldlM (fun e k => if k = label then some e else (matrixAt m k label).map fun x => e + numLabel D k * x) 0

/-- The value of a tree (`Costs.eval`), with the accesses to the tables. -/
def evalRead (t : CostTab) (m : List (List Rat)) (nL : Nat) : Tree → Branch → Data → Option Rat
  | .leaf k, _, D => leafRead m nL D k
  | .node f l r, b, D =>
    (t.price b f).bind fun p =>
      (evalRead t m nL l (b.child f false) (without f D)).bind fun x =>
        (evalRead t m nL r (b.child f true) (having f D)).map fun y => D.length * p + (x + y)

/-! ### Files -/

/-- A word of the file: the text, and its value if all of it is a number or an integer. (Words that are numbers only in part are not modelled.) -/
structure CostTok where
  text : Nat
  num : Option Rat
  int : Option Int

/-- `std::istringstream`: the words left, and whether no extraction has failed. -/
structure CostIn where
  toks : List CostTok
  ok : Bool

/-- `iss >> x` for a number: after an earlier failure or at the end of the line `x` is left as it is, another word sets it to zero. -/
def CostIn.next {α : Type} [Zero α] (val : CostTok → Option α) (s : CostIn) (old : Option α) : CostIn × Option α :=
  match s.ok, s.toks with
  | true, k :: ks => match val k with
    | some v => (⟨ks, true⟩, some v)
    | none => (⟨k :: ks, false⟩, some 0)
  | _, _ => (⟨s.toks, false⟩, old)

/-- `iss >> s` for a string that was empty; the empty string has number zero. -/
def CostIn.word (s : CostIn) : CostIn × Nat :=
  match s.ok, s.toks with
  | true, k :: ks => (⟨ks, true⟩, k.text)
  | _, _ => (⟨s.toks, false⟩, 0)

/-- A line of the matrix (cost_sensitive.cpp:27-31): `temp` is declared without a value and keeps the last one. -/
def matrixRow : Nat → CostIn → Option Rat → Option (List Rat)
  | 0, _, _ => some []
  | n + 1, s, temp =>
    match s.next CostTok.num temp with
    | (_, none) => none
    | (s', some v) => (matrixRow n s' (some v)).map (v :: ·)

/-- A line of an attribute (cost_sensitive.cpp:36-48). -/
def attrLine (l : List CostTok) : Option AttrSpec :=
  let s1 := (CostIn.mk l true).word
  let s2 := s1.1.next CostTok.num none
  let s3 := s2.1.next CostTok.num none
  let s4 := s3.1.word
  let s5 := s4.1.next CostTok.int none
  let s6 := s5.1.next CostTok.int none
  match s2.2, s3.2, s5.2, s6.2 with
  | some c, some d, some lo, some hi => some ⟨c, d, s4.2, lo, hi⟩
  | _, _, _, _ => none

/-- The lines that are matrix rows; rows without a line stay zero (cost_sensitive.cpp:21, 27-31). -/
def matrixLines (nL : Nat) (ls : List (List CostTok)) : Option (List (List Rat)) :=
  ((ls.take nL).mapM fun l => matrixRow nL ⟨l, true⟩ none).map fun rows => rows ++ List.replicate (nL - rows.length) (List.replicate nL 0)

/-- The constructor that reads a file (cost_sensitive.cpp:15-51); without a file it prints a message and goes on with no lines. -/
def readCosts (nL : Nat) (file : Option (List (List CostTok))) : Option (List (List Rat) × List AttrSpec) :=
  let ls := file.getD []
  (matrixLines nL ls).bind fun m => ((ls.drop (nL + 1)).mapM attrLine).map fun A => (m, A)

end Streed
