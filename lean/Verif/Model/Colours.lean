import Verif.Model.CostVecs
import Mathlib.Data.Rat.Floor
import Mathlib.Data.List.Sort

/-!
# Colours in exported graphs (utils.py, base.py, instance_cost_sensitive_classification.py)

Numbers are exact: the roundings of floating-point numbers are not modelled. A colour is given by its red, green and blue components.
-/

namespace Streed

/-- The `k`-th hue of `_color_brew(n)` (utils.py:25): the `k`-th element of `np.arange(25, 385, 360.0 / n)`, cut to an integer. -/
def brewHue (n k : Nat) : Nat := 25 + 360 * k / n

/-- The list of hues (utils.py:25): `np.arange` has as many elements as the length of the range divided by the step, rounded up, which
is `n`. -/
def brewHues (n : Nat) : List Nat := (List.range (⌈(385 - 25 : Rat) / (360 / n)⌉).toNat).map (brewHue n)

/-- One component of a colour (utils.py:41): `int(255 * (r + m))` with `m = 0.9 - 0.75 * 0.9`. -/
def brewPart (r : Rat) : Nat := (⌊255 * (r + (9 / 10 - 3 / 4 * (9 / 10)))⌋).toNat

/-- `h_bar % 2` of Python (utils.py:28) for a number that is not negative. -/
def modTwo (a : Rat) : Rat := a - 2 * (⌊a / 2⌋ : Int)

/-- The colour of one hue (utils.py:26-42). An index past the list `rgb` would raise. -/
def brewColour (h : Nat) : Option (Nat × Nat × Nat) :=
  let c : Rat := 3 / 4 * (9 / 10)
  let hBar : Rat := (h : Rat) / 60
  let x : Rat := c * (1 - |modTwo hBar - 1|)
  let rgb : List (Rat × Rat × Rat) := [(c, x, 0), (x, c, 0), (0, c, x), (0, x, c), (x, 0, c), (c, 0, x), (c, x, 0)]
  (rgb[(⌊hBar⌋).toNat]?).map fun p => (brewPart p.1, brewPart p.2.1, brewPart p.2.2)

/-- `_color_brew` (utils.py:4-44). `none` is an exception: a division by zero, or an index out of range. -/
def colorBrew (n : Nat) : Option (List (Nat × Nat × Nat)) :=
  if n = 0 then none else (brewHues n).mapM brewColour

/-- `"{:02x}"` (base.py:448): hexadecimal digits, filled up with zeros to two characters. -/
def hex02 (a : Nat) : List Char := List.replicate (2 - (Nat.toDigits 16 a).length) '0' ++ Nat.toDigits 16 a

/-- `"%2x"` (instance_cost_sensitive_classification.py:193): hexadecimal digits, filled up with spaces to two characters. -/
def hexSpace (a : Nat) : List Char := List.replicate (2 - (Nat.toDigits 16 a).length) ' ' ++ Nat.toDigits 16 a

/-- The fill colour of a leaf (base.py:448; instance_cost_sensitive_classification.py:261). -/
def fillText (c : Nat × Nat × Nat) : List Char := '#' :: (hex02 c.1 ++ (hex02 c.2.1 ++ hex02 c.2.2))

/-- One component of the colour of the line round a leaf (base.py:449): `int(0.4 * c)`. -/
def linePart (a : Nat) : Nat := (⌊(2 / 5 : Rat) * a⌋).toNat

/-- The colour of the line round a leaf (base.py:449; instance_cost_sensitive_classification.py:262). -/
def lineText (c : Nat × Nat × Nat) : List Char := fillText (linePart c.1, linePart c.2.1, linePart c.2.2)

/-- `int(round(x, 0))` of Python (instance_cost_sensitive_classification.py:191): the nearest integer, and the even one of two. -/
def nearestEven (x : Rat) : Int :=
  let f := ⌊x⌋
  if x - f < 1 / 2 then f else if 1 / 2 < x - f then f + 1 else if f % 2 = 0 then f else f + 1

/-- The strength of the colour of a branching node (instance_cost_sensitive_classification.py:182-190). `none` is the exception of
`sorted_costs[1]` with a single class. -/
def branchAlpha (best : Nat) (sums : List Rat) : Option Rat :=
  if sums.getD best 0 < 1 / 100 * sums.sum then some 0
  else
    let s := sums.insertionSort (· ≤ ·)
    match s[0]?, s[1]? with
    | some a, some b => if b < 1 / 100 then some 0 else some ((b - a) / b)
    | _, _ => none

/-- One component of the colour of a branching node (instance_cost_sensitive_classification.py:191). -/
def mixPart (alpha : Rat) (c : Nat) : Int := nearestEven (alpha * c + (1 - alpha) * 255)

/-- `"%2x"` of an integer: a minus sign is put before the digits of a negative one. -/
def hexSpaceInt (a : Int) : List Char :=
  if 0 ≤ a then hexSpace a.toNat else '-' :: Nat.toDigits 16 a.natAbs

/-- `_get_branching_color` (instance_cost_sensitive_classification.py:177-193), with the kept list of colours. -/
def branchText (colors : List (Nat × Nat × Nat)) (sums : List Rat) : Option (List Char) :=
  match argminVec sums with
  | none => none
  | some best =>
    match colors[best]?, branchAlpha best sums with
    | some c, some alpha =>
      some ('#' :: (hexSpaceInt (mixPart alpha c.1) ++ (hexSpaceInt (mixPart alpha c.2.1) ++ hexSpaceInt (mixPart alpha c.2.2))))
    | _, _ => none

end Streed
