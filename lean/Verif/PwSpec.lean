import Verif.Spec

/-!
# Specification: trees whose leaves hold fitted models

The cost of a leaf is the value of the model that is fitted to its instances. Every branching node costs the same.
-/

namespace Streed.Pw

/-- What a user asks for: `leaf D` is the value of the model fitted to `D`, if there is one. -/
structure Fitting where
  /-- Number of binary features. -/
  nF : Nat
  /-- Cost of a branching node. -/
  bc : Int
  /-- Minimum number of rows in a leaf. -/
  mls : Nat
  leaf : Data → Option Int
  /-- Number of rows. -/
  weight : Data → Nat

/-- Cost of a tree: its models and its branching nodes. The labels of the leaves play no role. -/
def Fitting.cost (F : Fitting) : Tree → Data → Int
  | .leaf _, D => (F.leaf D).getD 0
  | .node f l r, D => F.bc + (F.cost l (without f D) + F.cost r (having f D))

/-- Every leaf has enough rows and a model. -/
def Fitting.Legal (F : Fitting) : Tree → Data → Prop
  | .leaf _, D => F.mls ≤ F.weight D ∧ (F.leaf D).isSome = true
  | .node f l r, D => f < F.nF ∧ F.Legal l (without f D) ∧ F.Legal r (having f D)

/-- A tree within the limits. -/
def Fitting.Allowed (F : Fitting) (d n : Nat) (D : Data) (t : Tree) : Prop := t.depth ≤ d ∧ t.nodes ≤ n ∧ F.Legal t D

/-- The same with rational values: `fit D` is the cost of the line fitted to `D`, `size D` its number of rows. -/
structure Lines where
  nF : Nat
  /-- Cost of a branching node. -/
  price : Rat
  /-- Minimum number of rows in a leaf. -/
  mls : Nat
  fit : Data → Option Rat
  size : Data → Nat

/-- Cost of a tree with lines in its leaves. -/
def Lines.cost (F : Lines) : Tree → Data → Rat
  | .leaf _, D => (F.fit D).getD 0
  | .node f l r, D => F.price + (F.cost l (without f D) + F.cost r (having f D))

/-- Every leaf has enough rows. -/
def Lines.Legal (F : Lines) : Tree → Data → Prop
  | .leaf _, D => F.mls ≤ F.size D
  | .node f l r, D => f < F.nF ∧ F.Legal l (without f D) ∧ F.Legal r (having f D)

/-- Every leaf has a model. -/
def Lines.Fitted (F : Lines) : Tree → Data → Prop
  | .leaf _, D => (F.fit D).isSome = true
  | .node f l r, D => F.Fitted l (without f D) ∧ F.Fitted r (having f D)

/-- A tree within the limits. -/
def Lines.Allowed (F : Lines) (d n : Nat) (D : Data) (t : Tree) : Prop := t.depth ≤ d ∧ t.nodes ≤ n ∧ F.Legal t D

end Streed.Pw
