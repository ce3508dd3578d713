/-!
# Specification

What a decision tree is, what it costs on a dataset, which trees are allowed, and what an
optimal value is. Nothing here is taken from the solver: this file is the yardstick the
solver model is measured with.
-/

namespace Streed

/-- A training instance: a unique id, one bit per binary feature, and a class label. -/
structure Inst where
  id : Nat
  feat : Nat → Bool
  label : Nat

/-- A dataset (a view on the training data). -/
abbrev Data := List Inst

/-- An additive optimisation problem: how many features and labels there are, which features a
tree may test, what it costs to give an instance a label, and what a branching node costs. -/
structure Problem where
  nF : Nat
  nL : Nat
  may : Nat → Bool
  cost : Inst → Nat → Int
  bc : Int

/-- Binary decision trees: an instance goes right iff it has the feature. -/
inductive Tree where
  | leaf (k : Nat)
  | node (f : Nat) (l r : Tree)
  deriving DecidableEq, Repr

/-- Instances without feature `f`. -/
def without (f : Nat) (D : Data) : Data := D.filter (fun i => !i.feat f)
/-- Instances with feature `f`. -/
def having (f : Nat) (D : Data) : Data := D.filter (fun i => i.feat f)

/-- Cost of giving every instance of `D` label `k`. -/
def leafCost (P : Problem) (D : Data) (k : Nat) : Int := (D.map (fun i => P.cost i k)).sum

namespace Tree

/-- Length of the longest path, counted in branching nodes. -/
def depth : Tree → Nat
  | leaf _ => 0
  | node _ l r => 1 + max l.depth r.depth

/-- Number of branching nodes. -/
def nodes : Tree → Nat
  | leaf _ => 0
  | node _ l r => 1 + l.nodes + r.nodes

/-- Number of leaves. -/
def leaves : Tree → Nat
  | leaf _ => 1
  | node _ l r => l.leaves + r.leaves

/-- The label the tree assigns to an instance. -/
def predict : Tree → Inst → Nat
  | leaf k, _ => k
  | node f l r, i => if i.feat f then r.predict i else l.predict i

/-- Only features below `nF` and labels below `nL` occur. -/
def Over (nF nL : Nat) : Tree → Prop
  | leaf k => k < nL
  | node f l r => f < nF ∧ l.Over nF nL ∧ r.Over nF nL

/-- Total cost on a dataset. -/
def cost (P : Problem) : Tree → Data → Int
  | leaf k, D => leafCost P D k
  | node f l r, D => P.bc + (l.cost P (without f D) + r.cost P (having f D))

/-- Only legal labels and features occur, and every leaf holds at least `mls` instances of `D`. -/
def Legal (P : Problem) (mls : Nat) : Tree → Data → Prop
  | leaf k, D => k < P.nL ∧ mls ≤ D.length
  | node f l r, D => f < P.nF ∧ P.may f = true ∧
      l.Legal P mls (without f D) ∧ r.Legal P mls (having f D)

/-- Executable version of `Legal`. -/
def legalB (P : Problem) (mls : Nat) : Tree → Data → Bool
  | leaf k, D => decide (k < P.nL) && decide (mls ≤ D.length)
  | node f l r, D => decide (f < P.nF) && P.may f &&
      (l.legalB P mls (without f D) && r.legalB P mls (having f D))

theorem legalB_iff (P : Problem) (mls : Nat) (t : Tree) (D : Data) :
    t.legalB P mls D = true ↔ t.Legal P mls D := by
  induction t generalizing D with
  | leaf k => simp [legalB, Legal]
  | node f l r ihl ihr => simp [legalB, Legal, ihl, ihr, and_assoc]

instance (P : Problem) (mls : Nat) (t : Tree) (D : Data) : Decidable (t.Legal P mls D) :=
  decidable_of_iff _ (legalB_iff P mls t D)

end Tree

/-- The trees allowed for dataset `D` with depth budget `d`, node budget `n` and minimum leaf
size `mls`. -/
def Allowed (P : Problem) (mls d n : Nat) (D : Data) (t : Tree) : Prop :=
  t.depth ≤ d ∧ t.nodes ≤ n ∧ t.Legal P mls D

instance (P : Problem) (mls d n : Nat) (D : Data) (t : Tree) :
    Decidable (Allowed P mls d n D t) := by unfold Allowed; infer_instance

/-- `c` is at most the cost of every allowed tree. -/
def LowerBound (P : Problem) (mls d n : Nat) (D : Data) (c : Int) : Prop :=
  ∀ t, Allowed P mls d n D t → c ≤ t.cost P D

/-- Some allowed tree costs exactly `c`. -/
def Attained (P : Problem) (mls d n : Nat) (D : Data) (c : Int) : Prop :=
  ∃ t, Allowed P mls d n D t ∧ t.cost P D = c

/-- `c` is the minimum cost over all allowed trees. -/
def IsOpt (P : Problem) (mls d n : Nat) (D : Data) (c : Int) : Prop :=
  Attained P mls d n D c ∧ LowerBound P mls d n D c

/-- The accuracy problem: cost 1 for every wrong label, no branching costs. -/
def accuracy (nF nL : Nat) : Problem where
  nF := nF
  nL := nL
  may := fun _ => true
  cost := fun i k => if i.label = k then 0 else 1
  bc := 0

/-- The number of instances a tree misclassifies. -/
def misclassified (t : Tree) (D : Data) : Nat := D.countP (fun i => t.predict i != i.label)

end Streed
