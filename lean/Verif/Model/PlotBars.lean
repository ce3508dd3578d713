import Verif.Model.LeafPlot
import Mathlib.Data.List.Sort

/-!
# The bars in the pictures of the instance-cost-sensitive classifier (instance_cost_sensitive_classification.py)
-/

namespace Streed

/-- A bar: its class, its length, and whether it has the colour of its class instead of grey. -/
structure PlotBar where
  label : Nat
  cost : Rat
  strong : Bool
  deriving Repr, DecidableEq

/-- The bars of `_export_bar_plot` (instance_cost_sensitive_classification.py:203-225), from the lowest to the highest: the classes sorted by
average costs (`sorted` is stable), the first four of them, in reverse. Without rows the averages are not numbers (`none`). -/
def plotBars (K : Nat) (w : Nat → Nat → Nat) (D : Data) : Option (List PlotBar) :=
  if D.length = 0 then none
  else
    let sums : Nat → Nat := fun k => (D.map fun i => w i.id k).sum
    let best := npArgmin sums K
    let bars : List PlotBar := (List.range K).map fun k => ⟨k, (sums k : Rat) / D.length, decide (k = best)⟩
    some ((bars.insertionSort fun a b => a.cost ≤ b.cost).take 4).reverse

end Streed
