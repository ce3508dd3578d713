import Verif.Model.TreeObj
import Verif.Model.Fit

/-!
# Model of call histories

A Python estimator keeps one C++ solver (pystreed/base.py:230-330, src/bindings.cpp:95-155). Every call builds its
own data object, which is destroyed when the call returns (bindings.cpp:110-152, data.h:131-137), while the solver
keeps views on it (`org_test_data`, `test_data`, solver.cpp:246-259). Reading a destroyed instance is undefined
behaviour: `none`.
-/

namespace Streed

/-- Per-label sizes agree (data.cpp:340-343); `none` if a label of the first view does not exist in the second. -/
def sameSizes : List Data → List Data → Option Bool
  | [], _ => some true
  | _ :: _, [] => none
  | g :: gs, h :: hs => if g.length = h.length then sameSizes gs hs else some false

/-- `ADataView::operator==` (data.cpp:333-358) in a release build. `alive` tells whether the instances of the first
view still exist. The instance ids are read only after the sizes were found equal. The stored hash is left out
(no view that is compared here has one). -/
def viewEq (a : View) (alive : Bool) (b : View) : Option Bool :=
  if a.size = 0 ∨ b.size = 0 then some false
  else if a.size ≠ b.size then some false
  else
    match sameSizes a.groups b.groups with
    | none => none
    | some false => some false
    | some true => if alive then some (a.groups.flatten.map (·.id) == b.groups.flatten.map (·.id)) else none

/-- `Classify` (tree.h:122-142) with the data splitter's memory of test splits. -/
def classifyS (fl : List Nat) : Obj → Branch → View → Splitter → List Nat → Option (List Nat × Splitter)
  | .null, _, _, _, _ => none
  | .mk feat lab l r, b, v, sp, labels =>
    match lab with
    | some k => (v.groups.flatten.foldlM (fun ls (i : Inst) => Obj.write ls i.id k) labels).map fun ls => (ls, sp)
    | none =>
      match feat with
      | none => none
      | some f =>
        if f < fl.length then
          let s := sp.split v b f true
          if fl.getD f 0 = 1 then do
            let x ← classifyS fl r (b.child f false) s.1.1 s.2 labels
            classifyS fl l (b.child f true) s.1.2 x.2 x.1
          else do
            let x ← classifyS fl l (b.child f false) s.1.1 s.2 labels
            classifyS fl r (b.child f true) s.1.2 x.2 x.1
        else none

/-- What the solver remembers about test data. -/
structure TestSt where
  /-- `org_test_data`; empty in a new solver -/
  org : View
  /-- whether the instances behind `org_test_data` still exist -/
  alive : Bool
  /-- `test_data` -/
  test : View
  sp : Splitter

/-- A new solver. -/
def TestSt.init : TestSt := ⟨View.empty, true, View.empty, Splitter.init⟩

/-- `InitializeTest(data, false)` (solver.cpp:246-259); `v` has been negated by `PreprocessData(data, false)`. -/
def initTest (st : TestSt) (v : View) : Option TestSt :=
  match viewEq st.org st.alive v with
  | none => none
  | some true => some st
  | some false => some ⟨v, true, v, st.sp.clear true⟩

/-- One `predict` call (bindings.cpp:125-139, solver.cpp:1267-1274): load and negate the rows, initialise, classify.
`keep` tells whether the caller keeps the data alive afterwards (Python never does). -/
def predictCall (fl : List Nat) (t : Obj) (v : View) (keep : Bool) (st : TestSt) : Option (List Nat × TestSt) := do
  let st ← initTest st (preprocessTest fl v)
  let r ← classifyS fl t [] st.test st.sp (List.replicate st.test.size 0)
  pure (r.1, { st with sp := r.2, alive := keep })

/-- A sequence of predict calls through Python. -/
def predictAll (fl : List Nat) (t : Obj) : List View → TestSt → Option (List (List Nat))
  | [], _ => some []
  | v :: vs, st => do
    let r ← predictCall fl t v false st
    let rs ← predictAll fl t vs r.2
    pure (r.1 :: rs)

/-! ### Fitting -/

/-- The Python estimator: the solver it holds (its search state and `global_UB`), and `_prev_data`. -/
structure Estimator where
  solver : Option (Node × St)
  prevData : Option Unit

/-- A new estimator (base.py:108-113). -/
def Estimator.init : Estimator := ⟨none, none⟩

/-- `_should_reset_solver` (base.py:153-171). `changed` tells whether a parameter changed that invalidates the
solver's cache. -/
def Estimator.shouldReset (e : Estimator) (changed : Bool) : Bool :=
  e.solver.isNone || e.prevData.isNone || changed

/-- `fit` (base.py:230-270): a new solver if needed, then `_solve`. A reused solver that takes the data for
unchanged continues from its old state (solver.cpp:221, 86-100); here it does so whenever it is reused. -/
def Estimator.fit (e : Estimator) (changed : Bool) (nF nL mls : Nat) (o : Options) (t : Top) (T : Data) :
    (Run × Bool) × Estimator :=
  let c := accCfg nF nL mls o (isRedundant (accuracy nF nL) mls T)
  let old := if e.shouldReset changed then (Node.empty c.worst, St.init)
    else e.solver.getD (Node.empty c.worst, St.init)
  let r := solveFrom c t (preprocess (accuracy nF nL) mls T) old.1 old.2
  (r, { e with solver := some (r.1.gUB, r.1.st) })

end Streed
