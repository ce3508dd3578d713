import Verif.Model.Regression

/-!
# Model of the k-means bound of cost-complexity regression

`CostComplexRegression::ComputeLowerBound` and the part of the library `Ckmeans.1d.dp` it calls: the running sums, the
cost of a run of sorted points, the two ways of filling a row of the table (`fill_row_q_log_linear` up to 300 points,
SMAWK above), and the loop over the number of clusters that stops early. Doubles are rationals. A row of the matrices `S`
and `J` is a pair of functions on column indices, zero where nothing has been written. Recursions and loops carry a
counter that is always large enough; `Lemmas/KMeansLog` and `Lemmas/Smawk` rest on that.
-/

namespace Streed.KM

/-- `WeightValuePair` (Ckmeans.1d.dp.h:33-35); the weight is a positive integer (cost_complex_regression.cpp:284). -/
structure KPt where
  w : Nat
  x : Rat
  deriving DecidableEq, Inhabited

/-- A running sum up to and including entry `i` (Ckmeans.1d.dp.cpp:333-360). -/
def pre (g : KPt → Rat) (d : List KPt) (i : Nat) : Rat := ((d.take (i + 1)).map g).sum

/-- `shift` (Ckmeans.1d.dp.cpp:330). -/
def shift (d : List KPt) : Rat := (d.getD (d.length / 2) default).x

/-- `sum_x` (Ckmeans.1d.dp.cpp:340, 356). The branch for data without weights is not modelled: weights are positive. -/
def sumX (d : List KPt) : Nat → Rat := pre (fun p => p.w * (p.x - shift d)) d

/-- `sum_x_sq` (Ckmeans.1d.dp.cpp:341, 357). -/
def sumXX (d : List KPt) : Nat → Rat := pre (fun p => p.w * (p.x - shift d) * (p.x - shift d)) d

/-- `sum_w` (Ckmeans.1d.dp.cpp:342, 358). -/
def sumW (d : List KPt) : Nat → Rat := pre (fun p => p.w) d

/-- `ssq` (within_cluster.h:35-66), with weights: the cost of points `j` to `i`. -/
def ssq (d : List KPt) (j i : Nat) : Rat :=
  let s :=
    if sumW d j ≥ sumW d i then 0
    else if 0 < j then
      let mu := (sumX d i - sumX d (j - 1)) / (sumW d i - sumW d (j - 1))
      sumXX d i - sumXX d (j - 1) - (sumW d i - sumW d (j - 1)) * mu * mu
    else sumXX d i - sumX d i * sumX d i / sumW d i
  if s < 0 then 0 else s

/-- One row of `S` and of `J`. -/
structure KRow where
  S : Nat → Rat
  J : Nat → Nat

/-- Write one column. -/
def KRow.set (r : KRow) (i : Nat) (s : Rat) (j : Nat) : KRow :=
  ⟨fun k => if k = i then s else r.S k, fun k => if k = i then j else r.J k⟩

/-! ### `fill_row_q_log_linear` -/

/-- Keep the better of two cuts (fill_log_linear.cpp:89-93, 97-100). -/
def better (v : Rat) (j : Nat) (b : Rat × Nat) : Rat × Nat := if v < b.1 then (v, j) else b

/-- The loop over the cuts from both ends (fill_log_linear.cpp:73-101); `c` is `ssq`, `p` is `S[q-1]`. -/
def pinch (c : Nat → Nat → Rat) (p : Nat → Rat) (i : Nat) : Nat → Nat → Nat → Rat × Nat → Rat × Nat
  | 0, _, _, b => b
  | fuel + 1, j, lo, b =>
    if j < lo then b
    else if c j i + p (lo - 1) ≥ b.1 then b
    else pinch c p i fuel (j - 1) (lo + 1) (better (c j i + p (j - 1)) j (better (c lo i + p (lo - 1)) lo b))

/-- `fill_row_q_log_linear` (fill_log_linear.cpp:29-122): `prev` is row `q - 1`, `r` is row `q`. -/
def fillLog (c : Nat → Nat → Rat) (N q : Nat) (prev : KRow) : Nat → Nat → Nat → Nat → Nat → KRow → KRow
  | 0, _, _, _, _, r => r
  | fuel + 1, imin, imax, jmin, jmax, r =>
    if imin > imax then r else
      let i := (imin + imax) / 2
      let lo := max (if imin > q then max q jmin else q) (prev.J i)
      let hi := if imax < N - 1 then min (i - 1) jmax else i - 1
      let b := pinch c prev.S i (i + 1) hi lo (prev.S (i - 1), i)
      let r1 := r.set i b.1 b.2
      let r2 := fillLog c N q prev fuel imin (i - 1) (if imin > q then r1.J (imin - 1) else q) (r1.J i) r1
      fillLog c N q prev fuel (i + 1) imax (r2.J i) (if imax < N - 1 then r2.J (imax + 1) else imax) r2

/-! ### `fill_row_q_SMAWK` -/

/-- `reduce_in_place` (fill_SMAWK.cpp:41-106). `v j i` is the value of column `j` in row `i`, `row p` the row at position
`p`, `n` the number of rows. The array holds the kept columns up to `left` (here `stk`, last one first) and the columns
from `right` on (here `rest`); what lies between is never read. -/
def reduceLoop (v : Nat → Nat → Rat) (row : Nat → Nat) (n : Nat) : Nat → List Nat → List Nat → List Nat
  | 0, stk, rest => stk.reverse ++ rest
  | fuel + 1, stk, rest =>
    if stk.length + rest.length ≤ n then stk.reverse ++ rest else
      match rest with
      | j :: j1 :: rs =>
        if v j (row stk.length) < v j1 (row stk.length) ∧ stk.length < n - 1 then
          reduceLoop v row n fuel (j :: stk) (j1 :: rs)
        else if v j (row stk.length) < v j1 (row stk.length) ∧ stk.length = n - 1 then
          reduceLoop v row n fuel stk (j :: rs)
        else
          match stk with
          | s :: stk' => reduceLoop v row n fuel stk' (s :: j1 :: rs)
          | [] => reduceLoop v row n fuel [] (j1 :: rs)
      | _ => stk.reverse ++ rest

/-- The inner loop of `find_min_from_candidates` (fill_SMAWK.cpp:198-213); `pj` is `J[q-1][i]`. -/
def scanMin (v : Nat → Nat → Rat) (pj i : Nat) : List Nat → Rat × Nat → Rat × Nat
  | [], b => b
  | j :: l, b =>
    if j < pj then scanMin v pj i l b
    else if j > i then b
    else if v j i ≤ b.1 then scanMin v pj i l (v j i, j)
    else scanMin v pj i l b

/-- The inner loop of `fill_even_positions` (fill_SMAWK.cpp:148-169). The list holds the columns from position `r - 1`
on; the list returned starts where `r` is left after `r --` (fill_SMAWK.cpp:170). -/
def scanEven (v : Nat → Nat → Rat) (p : Nat → Rat) (pj i jmax : Nat) (smin : Rat) :
    List Nat → Rat × Nat → List Nat × Rat × Nat
  | x :: j :: l, b =>
    if j > jmax then (x :: j :: l, b)
    else if j > i then (x :: j :: l, b)
    else if j < pj then scanEven v p pj i jmax smin (j :: l) b
    else if v j i ≤ b.1 then scanEven v p pj i jmax smin (j :: l) (v j i, j)
    else if p (j - 1) + smin > b.1 then (x :: j :: l, b)
    else scanEven v p pj i jmax smin (j :: l) b
  | l, b => (l, b)

/-- The value of cut `j` for the prefix that ends at `i`. -/
def cutVal (c : Nat → Nat → Rat) (prev : KRow) (j i : Nat) : Rat := prev.S (j - 1) + c j i

/-- `fill_even_positions` (fill_SMAWK.cpp:108-173): `suf` holds the columns from position `r` on, `last` is the last
column. -/
def evenLoop (c : Nat → Nat → Rat) (prev : KRow) (imax step last : Nat) : Nat → Nat → List Nat → Nat → KRow → KRow
  | 0, _, _, _, r => r
  | fuel + 1, i, suf, jl, r =>
    if i > imax then r else
      let suf := suf.dropWhile (· < jl)
      let j0 := suf.headD 0
      let jh := if i + step ≤ imax then r.J (i + step) else last
      let jmax := min jh i
      let e := scanEven (cutVal c prev) prev.S (prev.J i) i jmax (c jmax i) suf (cutVal c prev j0 i, j0)
      evenLoop c prev imax step last fuel (i + 2 * step) e.1 jh (r.set i e.2.1 e.2.2)

/-- `SMAWK` (fill_SMAWK.cpp:217-287). The base case is reached with one row only, so the loop over rows of
`find_min_from_candidates` (fill_SMAWK.cpp:175-215) runs once. -/
def smawk (c : Nat → Nat → Rat) (prev : KRow) : Nat → Nat → Nat → Nat → List Nat → KRow → KRow
  | 0, _, _, _, _, r => r
  | fuel + 1, imin, imax, step, js, r =>
    if imax ≤ imin then
      let j0 := js.headD 0
      let b := scanMin (cutVal c prev) (prev.J imin) imin js.tail (cutVal c prev j0 imin, j0)
      r.set imin b.1 b.2
    else
      let n := (imax - imin) / step + 1
      let jo := if n ≥ js.length then js
        else reduceLoop (cutVal c prev) (fun p => imin + p * step) n (2 * js.length) [] js
      let a := imin + step
      let b := a + (imax - a) / (2 * step) * (2 * step)
      let r1 := smawk c prev fuel a b (2 * step) jo r
      evenLoop c prev imax step (js.getLastD 0) (imax + 1) imin js (js.headD 0) r1

/-! ### `fill_dp_matrix_dynamic_stop` -/

/-- A row of the table before anything is written. -/
def KRow.init : KRow := ⟨fun _ => 0, fun _ => 0⟩

/-- One row (Ckmeans.1d.dp.cpp:368-381). The columns of SMAWK are `q, …, N - 1` (fill_SMAWK.cpp:300-302). -/
def fillRow (c : Nat → Nat → Rat) (N K q : Nat) (prev : KRow) : KRow :=
  let imin := if q < K - 1 then max 1 q else N - 1
  if N > 300 then smawk c prev N imin (N - 1) 1 (List.range' q (N - q)) .init
  else fillLog c N q prev N imin (N - 1) q (N - 1) .init

/-- The first row (Ckmeans.1d.dp.cpp:346-347, 363-364). -/
def firstRow (c : Nat → Nat → Rat) : KRow := ⟨fun i => if i = 0 then 0 else c 0 i, fun _ => 0⟩

/-- The loop over the number of clusters (Ckmeans.1d.dp.cpp:368-389): the bound, and the index of the last row used. -/
def stopLoop (c : Nat → Nat → Rat) (N K : Nat) (reg : Rat) : Nat → Nat → KRow → Rat × Nat
  | 0, q, prev => (prev.S (N - 1) + (q - 1 : Nat) * reg, q - 1)
  | fuel + 1, q, prev =>
    if q < K then
      let row := fillRow c N K q prev
      if prev.S (N - 1) - row.S (N - 1) < reg then (prev.S (N - 1) + (q - 1 : Nat) * reg, q - 1)
      else stopLoop c N K reg fuel (q + 1) row
    else (prev.S (N - 1) + (q - 1 : Nat) * reg, q - 1)

/-- `fill_dp_matrix_dynamic_stop` (Ckmeans.1d.dp.cpp:308-390) with `K` rows for sorted points. -/
def dynamicStop (d : List KPt) (K : Nat) (reg : Rat) : Rat × Nat :=
  stopLoop (ssq d) d.length K reg K 1 (firstRow (ssq d))

/-! ### `CostComplexRegression::ComputeLowerBound` -/

/-- The state of the loop over the instances: the sum so far, the open group and the finished groups. -/
structure GroupSt where
  lb : Rat
  y : Rat
  ysq : Rat
  n : Nat
  prev : Nat
  pts : List KPt

/-- Close the open group (cost_complex_regression.cpp:280-285 and 300-306). -/
def GroupSt.close (s : GroupSt) : Rat × List KPt :=
  (s.lb + (s.ysq - s.y * s.y / s.n), s.pts ++ [⟨s.n, s.y / s.n⟩])

/-- One iteration (cost_complex_regression.cpp:273-298). -/
def groupStep (s : GroupSt) (i : RInst) : GroupSt :=
  if s.prev = i.group then { s with y := s.y + i.y, ysq := s.ysq + i.ysq, n := s.n + i.w }
  else ⟨s.close.1, 0 + i.y, 0 + i.ysq, 0 + i.w, i.group, s.close.2⟩

/-- The cost inside the groups of equal features, and weight and mean of each group
(cost_complex_regression.cpp:263-307). -/
def groups : List RInst → Rat × List KPt
  | [] => (0, [])
  | a :: l => (l.foldl groupStep ⟨0, a.y, a.ysq, a.w, a.group, []⟩).close

/-- `solutions[i] = lb` for `i` from `a` to `b - 1` (cost_complex_regression.cpp:337-338). -/
def storeRange (sols : List Rat) (a b : Nat) (v : Rat) : List Rat :=
  sols.mapIdx fun i s => if a ≤ i ∧ i < b then v else s

/-- `CostComplexRegression::ComputeLowerBound` (cost_complex_regression.cpp:237-347), with the entry `solutions` of the
cache for this branch; entry zero means not computed. Only the cost of the bound is modelled, not the number of nodes
noted with it. The sort is not stable in the code; the result does not depend on the order of equal values. -/
def regressionLB (useK : Bool) (bc : Rat) (sols : List Rat) (D : List RInst) (numNodes : Nat) : Rat × List Rat :=
  let hard := if useK then 50 else 1
  let idx := min hard (numNodes + 1) - 1
  let sols := if sols.length ≤ idx then sols ++ List.replicate (idx + 1 - sols.length) 0 else sols
  if sols.getD idx 0 ≠ 0 then (sols.getD idx 0, sols) else
    let g := groups D
    let N := g.2.length
    let K := min (numNodes + 1) N
    if useK && decide (N ≠ 1) then
      let try_ := sols.getD (min hard K - 1) 0
      if try_ ≠ 0 then (try_, sols.set idx try_)
      else if K < hard then
        let b := dynamicStop (g.2.insertionSort fun p r => p.x ≤ r.x) K bc
        let lb := g.1 + b.1
        (lb, (storeRange sols b.2 K lb).set idx lb)
      else (g.1, sols.set idx g.1)
    else (g.1, sols.set idx g.1)

end Streed.KM
