import Verif.Props.KMeans

/-!
# What cost-complexity regression should find (C68)
-/

namespace Streed

namespace RegTree

/-- Length of the longest path, counted in branching nodes. -/
def depth : RegTree → Nat
  | leaf _ => 0
  | node _ l r => 1 + max l.depth r.depth

/-- Only features below `nF` occur. -/
def Over (nF : Nat) : RegTree → Prop
  | leaf _ => True
  | node f l r => f < nF ∧ l.Over nF ∧ r.Over nF

end RegTree

/-- The squared error of a tree on data in which the target of an instance is `tg` of its label. -/
def totalError (tg : Nat → Rat) (D : Data) (t : RegTree) : Rat :=
  (D.map fun i => (tg i.label - t.predict i.feat) ^ 2).sum

/-- The smallest squared error of a single prediction for all instances: `v` is reached, and nothing below it. -/
def BestLeaf (tg : Nat → Rat) (D : Data) (v : Rat) : Prop :=
  (∃ c, totalError tg D (.leaf c) = v) ∧ ∀ c, v ≤ totalError tg D (.leaf c)

/-- `v` is the smallest squared error plus `price` per branching node of any regression tree of depth at most `d`. -/
def RegBest (nF d : Nat) (price : Rat) (tg : Nat → Rat) (T : Data) (v : Rat) : Prop :=
  (∃ t : RegTree, t.Over nF ∧ t.depth ≤ d ∧ totalError tg T t + t.nodes * price = v) ∧
  ∀ t : RegTree, t.Over nF → t.depth ≤ d → v ≤ totalError tg T t + t.nodes * price

end Streed
