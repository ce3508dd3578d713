import Verif.Spec

/-!
# Trees whose leaves are fitted to the rows they receive

`g D` is the loss of the best leaf for rows `D`. Labels of leaves do not matter.
-/

namespace Streed

/-- The total loss of the leaves. -/
def groupCost (g : Data → Rat) : Tree → Data → Rat
  | .leaf _, D => g D
  | .node f l r, D => groupCost g l (without f D) + groupCost g r (having f D)

/-- Branches on the first `nF` features only, and every leaf receives at least `mls` rows. -/
def Grouped (nF mls : Nat) : Tree → Data → Prop
  | .leaf _, D => mls ≤ D.length
  | .node f l r, D => f < nF ∧ Grouped nF mls l (without f D) ∧ Grouped nF mls r (having f D)

/-- `v` is the least total loss of the trees within the limits. -/
def LeastGroup (nF mls d n : Nat) (g : Data → Rat) (T : Data) (v : Rat) : Prop :=
  (∃ t : Tree, t.depth ≤ d ∧ t.nodes ≤ n ∧ Grouped nF mls t T ∧ groupCost g t T = v) ∧
  ∀ t : Tree, t.depth ≤ d → t.nodes ≤ n → Grouped nF mls t T → v ≤ groupCost g t T

end Streed
