/-!
# The parameter handler

Models `include/utils/parameter_handler.h`, `src/utils/parameter_handler.cpp` and the table of
parameters in `src/solver/define_parameters.cpp`.

A call that prints an error and executes `exit(1)` is the outcome `stop`.  Reading past the end of
`argv` is the outcome `undef`.  The `std::map`s are association lists, of which only look-up,
insertion and update of one entry are used.  Printing is not modelled.
-/

namespace Streed

/-- A `double`: not-a-number, one of the infinities, or a finite value.  Rounding is not modelled. -/
inductive Dbl
  | nan
  | neginf
  | fin (q : Rat)
  | posinf
  deriving DecidableEq, Repr

/-- `a > b` on doubles: false as soon as one side is not a number. -/
def Dbl.gt : Dbl → Dbl → Bool
  | .nan, _ => false
  | _, .nan => false
  | .neginf, _ => false
  | .fin _, .neginf => true
  | .fin a, .fin b => decide (b < a)
  | .fin _, .posinf => false
  | .posinf, .posinf => false
  | .posinf, _ => true

/-- The outcome of a call: it returns, the process exits with an error message, or the behaviour is
undefined. -/
inductive Outcome (α : Type)
  | ok (a : α)
  | stop
  | undef
  deriving DecidableEq, Repr

def Outcome.bind {α β : Type} : Outcome α → (α → Outcome β) → Outcome β
  | .ok a, f => f a
  | .stop, _ => .stop
  | .undef, _ => .undef

/-- `StringEntry` (parameter_handler.h:46), without descriptions and category. -/
structure StrEntry where
  dflt : String
  cur : String
  allowed : List String
  optional : Bool
  deriving DecidableEq, Repr

/-- `IntegerEntry` (parameter_handler.h:47). -/
structure IntEntry where
  dflt : Int
  cur : Int
  lo : Int
  hi : Int
  deriving DecidableEq, Repr

/-- `BooleanEntry` (parameter_handler.h:48). -/
structure BoolEntry where
  dflt : Bool
  cur : Bool
  deriving DecidableEq, Repr

/-- `FloatEntry` (parameter_handler.h:49). -/
structure FltEntry where
  dflt : Dbl
  cur : Dbl
  lo : Dbl
  hi : Dbl
  deriving DecidableEq, Repr

/-- The handler's fields (parameter_handler.h:53-57).  A category is kept as its name. -/
structure Handler where
  cats : List String := []
  strs : List (String × StrEntry) := []
  ints : List (String × IntEntry) := []
  bools : List (String × BoolEntry) := []
  flts : List (String × FltEntry) := []
  deriving DecidableEq, Repr

/-- `map[name] = entry`: overwrite, or insert when absent. -/
def mapPut {α : Type} (n : String) (a : α) : List (String × α) → List (String × α)
  | [] => [(n, a)]
  | (m, b) :: l => if m = n then (m, a) :: l else (m, b) :: mapPut n a l

/-- `map.find(name)`. -/
def mapGet {α : Type} (n : String) : List (String × α) → Option α
  | [] => none
  | (m, b) :: l => if m = n then some b else mapGet n l

namespace Handler

/-- `GetStringParameter` (parameter_handler.cpp:9-13). -/
def getStr (h : Handler) (n : String) : Outcome String :=
  match mapGet n h.strs with
  | none => .stop
  | some e => .ok e.cur

/-- `GetIntegerParameter` (parameter_handler.cpp:15-19). -/
def getInt (h : Handler) (n : String) : Outcome Int :=
  match mapGet n h.ints with
  | none => .stop
  | some e => .ok e.cur

/-- `GetBooleanParameter` (parameter_handler.cpp:21-25). -/
def getBool (h : Handler) (n : String) : Outcome Bool :=
  match mapGet n h.bools with
  | none => .stop
  | some e => .ok e.cur

/-- `GetFloatParameter` (parameter_handler.cpp:27-31). -/
def getFlt (h : Handler) (n : String) : Outcome Dbl :=
  match mapGet n h.flts with
  | none => .stop
  | some e => .ok e.cur

/-- `DefineNewCategory` (parameter_handler.cpp:33-41). -/
def defCat (c : String) (h : Handler) : Outcome Handler :=
  if c = "" then .stop
  else if c ∈ h.cats then .stop
  else .ok { h with cats := h.cats ++ [c] }

/-- `DefineStringParameter` (parameter_handler.cpp:43-65). -/
def defStr (n d cat : String) (allowed : List String) (opt : Bool) (h : Handler) :
    Outcome Handler :=
  if cat ∉ h.cats then .stop
  else if n = "" then .stop
  else if (mapGet n h.strs).isSome then .stop
  else .ok { h with strs := mapPut n ⟨d, d, allowed, opt⟩ h.strs }

/-- `DefineIntegerParameter` (parameter_handler.cpp:67-88). -/
def defInt (n : String) (d : Int) (cat : String) (lo hi : Int) (h : Handler) : Outcome Handler :=
  if cat ∉ h.cats then .stop
  else if n = "" then .stop
  else if (mapGet n h.ints).isSome then .stop
  else .ok { h with ints := mapPut n ⟨d, d, lo, hi⟩ h.ints }

/-- `DefineBooleanParameter` (parameter_handler.cpp:90-109).  The test for an earlier declaration
looks in the map of the integer parameters, as in the source. -/
def defBool (n : String) (d : Bool) (cat : String) (h : Handler) : Outcome Handler :=
  if cat ∉ h.cats then .stop
  else if n = "" then .stop
  else if (mapGet n h.ints).isSome then .stop
  else .ok { h with bools := mapPut n ⟨d, d⟩ h.bools }

/-- `DefineFloatParameter` (parameter_handler.cpp:111-132). -/
def defFlt (n : String) (d : Dbl) (cat : String) (lo hi : Dbl) (h : Handler) : Outcome Handler :=
  if cat ∉ h.cats then .stop
  else if n = "" then .stop
  else if (mapGet n h.flts).isSome then .stop
  else .ok { h with flts := mapPut n ⟨d, d, lo, hi⟩ h.flts }

/-- `CheckStringParameter` then the assignment (parameter_handler.cpp:134-137, 291-305). -/
def setStr (n v : String) (h : Handler) : Outcome Handler :=
  match mapGet n h.strs with
  | none => .stop
  | some e =>
    if (e.optional && v == "") || e.allowed.isEmpty || e.allowed.contains v then
      .ok { h with strs := mapPut n { e with cur := v } h.strs }
    else .stop

/-- `CheckIntegerParameter` then the assignment (parameter_handler.cpp:139-142, 307-314). -/
def setInt (n : String) (v : Int) (h : Handler) : Outcome Handler :=
  match mapGet n h.ints with
  | none => .stop
  | some e =>
    if e.lo > v || v > e.hi then .stop
    else .ok { h with ints := mapPut n { e with cur := v } h.ints }

/-- `CheckBooleanParameter` then the assignment (parameter_handler.cpp:144-147, 316-318). -/
def setBool (n : String) (v : Bool) (h : Handler) : Outcome Handler :=
  match mapGet n h.bools with
  | none => .stop
  | some e => .ok { h with bools := mapPut n { e with cur := v } h.bools }

/-- `CheckFloatParameter` then the assignment (parameter_handler.cpp:149-152, 320-327). -/
def setFlt (n : String) (v : Dbl) (h : Handler) : Outcome Handler :=
  match mapGet n h.flts with
  | none => .stop
  | some e =>
    if e.lo.gt v || v.gt e.hi then .stop
    else .ok { h with flts := mapPut n { e with cur := v } h.flts }

/-- `CheckParameters` (parameter_handler.cpp:329-344).  `1e-6` is the exact rational. -/
def check (h : Handler) : Outcome Unit :=
  (h.getInt "max-depth").bind fun d =>
  (h.getInt "max-num-nodes").bind fun n =>
  (h.getFlt "cost-complexity").bind fun cc =>
    let m : Int := 2 ^ d.toNat - 1
    if n > m then .stop
    else if n ≠ m ∧ (cc = .fin (1 / 1000000) ∨ cc.gt (.fin (1 / 1000000)) = true) then .stop
    else .ok ()

end Handler

/-- One call of a setter. -/
inductive SetOp
  | str (n v : String)
  | int (n : String) (v : Int)
  | bool (n : String) (v : Bool)
  | flt (n : String) (v : Dbl)
  deriving DecidableEq, Repr

def SetOp.apply (h : Handler) : SetOp → Outcome Handler
  | .str n v => h.setStr n v
  | .int n v => h.setInt n v
  | .bool n v => h.setBool n v
  | .flt n v => h.setFlt n v

/-- A sequence of calls; the process ends at the first one that exits. -/
def Handler.run (h : Handler) : List SetOp → Outcome Handler
  | [] => .ok h
  | o :: os => (SetOp.apply h o).bind fun h' => h'.run os

/-! ### The declared parameters -/

def paramMax : Int := 2147483647

/-- `DBL_MAX`. -/
def dblMax : Dbl := .fin ((2 ^ 53 - 1) * 2 ^ 971)

/-- `ParameterHandler::DefineParameters` (define_parameters.cpp:9-326), in the order of the file. -/
def defineParameters : Outcome Handler :=
  let main := "Main Parameters"
  let alg := "Algorithmic Parameters"
  let obj := "Objective Parameters"
  let task := "Task-specific Parameters"
  (Outcome.ok {}).bind (Handler.defCat main)
  |>.bind (Handler.defCat alg)
  |>.bind (Handler.defCat obj)
  |>.bind (Handler.defCat task)
  |>.bind (Handler.defStr "task" "accuracy" main
      ["accuracy", "cost-complex-accuracy", "f1-score", "group-fairness", "survival-analysis",
       "regression", "cost-complex-regression", "piecewise-linear-regression",
       "simple-linear-regression", "equality-of-opportunity", "cost-sensitive",
       "prescriptive-policy", "instance-cost-sensitive"] false)
  |>.bind (Handler.defBool "hyper-tune" false main)
  |>.bind (Handler.defStr "file" "" main [] false)
  |>.bind (Handler.defStr "test-file" "" main [] true)
  |>.bind (Handler.defFlt "time" (.fin 3600) main (.fin 0) (.fin paramMax))
  |>.bind (Handler.defInt "max-depth" 3 main 0 20)
  |>.bind (Handler.defInt "max-num-nodes" 7 main 0 paramMax)
  |>.bind (Handler.defInt "max-num-features" paramMax main 1 paramMax)
  |>.bind (Handler.defInt "num-instances" paramMax main 1 paramMax)
  |>.bind (Handler.defInt "num-extra-cols" 0 main 0 paramMax)
  |>.bind (Handler.defBool "verbose" true main)
  |>.bind (Handler.defBool "all-trees" false main)
  |>.bind (Handler.defFlt "train-test-split" (.fin 0) main (.fin 0) (.fin 1))
  |>.bind (Handler.defBool "stratify" true main)
  |>.bind (Handler.defInt "min-leaf-node-size" 1 main 1 paramMax)
  |>.bind (Handler.defBool "use-terminal-solver" true alg)
  |>.bind (Handler.defBool "use-similarity-lower-bound" true alg)
  |>.bind (Handler.defBool "use-upper-bound" true alg)
  |>.bind (Handler.defBool "use-lower-bound" true alg)
  |>.bind (Handler.defBool "use-task-lower-bound" true alg)
  |>.bind (Handler.defFlt "upper-bound" (.fin paramMax) alg (.fin 0) dblMax)
  |>.bind (Handler.defStr "feature-ordering" "in-order" alg ["in-order", "gini"] false)
  |>.bind (Handler.defInt "random-seed" 4 alg (-1) paramMax)
  |>.bind (Handler.defBool "use-branch-caching" false alg)
  |>.bind (Handler.defBool "use-dataset-caching" true alg)
  |>.bind (Handler.defInt "duplicate-factor" 1 alg 1 paramMax)
  |>.bind (Handler.defStr "cost-file" "" task [] true)
  |>.bind (Handler.defStr "ppg-teacher-method" "DM" task ["DM", "IPW", "DR"] true)
  |>.bind (Handler.defFlt "discrimination-limit" (.fin 1) task (.fin 0) (.fin 1))
  |>.bind (Handler.defFlt "cost-complexity" (.fin 0) obj (.fin 0) (.fin 1))
  |>.bind (Handler.defFlt "lasso-penalty" (.fin 0) obj (.fin 0) (.fin 1000000000000))
  |>.bind (Handler.defFlt "ridge-penalty" (.fin 0) obj (.fin 0) (.fin 1000000000000))
  |>.bind (Handler.defStr "regression-bound" "equivalent" task ["equivalent", "kmeans"] true)

/-! ### The command line -/

/-- `std::isspace` in the default locale. -/
def isSpaceC (c : Char) : Bool :=
  c == ' ' || c == '\n' || c == '\t' || c == '\r' || c == '\x0b' || c == '\x0c'

/-- The digits at the front of a list of characters, as a number, and whether there was one. -/
def readDigits : List Char → Nat → Bool → Nat × Bool
  | [], acc, seen => (acc, seen)
  | c :: l, acc, seen =>
    if c.isDigit then readDigits l (acc * 10 + (c.toNat - 48)) true else (acc, seen)

def int64Max : Int := 9223372036854775807
def int64Min : Int := -9223372036854775808

/-- `std::stringstream(s) >> value` for a 64-bit integer: leading spaces are skipped, a sign is
allowed, zero is stored when there is no digit, and the nearest bound when out of range. -/
def streamInt (s : String) : Int :=
  let l := s.toList.dropWhile isSpaceC
  let (neg, l) := match l with
    | '-' :: r => (true, r)
    | '+' :: r => (false, r)
    | _ => (false, l)
  let (v, seen) := readDigits l 0 false
  if seen then
    let w : Int := if neg then -(v : Int) else (v : Int)
    if w < int64Min then int64Min else if w > int64Max then int64Max else w
  else 0

/-- The stream extractions of Booleans and doubles, kept abstract. -/
structure Streams where
  bool : String → Bool
  flt : String → Dbl

/-- The setter call made for one pair of arguments (parameter_handler.cpp:154-184).  `none` for an
unknown name. -/
def argOp (sm : Streams) (h : Handler) (n v : String) : Option SetOp :=
  if (mapGet n h.strs).isSome then some (.str n v)
  else if (mapGet n h.ints).isSome then some (.int n (streamInt v))
  else if (mapGet n h.bools).isSome then some (.bool n (sm.bool v))
  else if (mapGet n h.flts).isSome then some (.flt n (sm.flt v))
  else none

/-- `ParseCommandLineArguments` (parameter_handler.cpp:154-184), on the arguments after the program
name.  A name without a value reads the null pointer behind `argv`, except that an unknown name
exits first. -/
def parseArgs (sm : Streams) (h : Handler) : List String → Outcome Handler
  | [] => .ok h
  | [a] =>
    match a.toList with
    | '-' :: n => if (argOp sm h (String.ofList n) "").isSome then .undef else .stop
    | _ => .stop
  | a :: v :: rest =>
    match a.toList with
    | '-' :: n =>
      match argOp sm h (String.ofList n) v with
      | none => .stop
      | some o => (SetOp.apply h o).bind fun h' => parseArgs sm h' rest
    | _ => .stop

/-- The last statement of `HyperSolve` before it solves (solver.cpp:988): the time that is left
becomes the time limit. -/
def setTimeLeft (h : Handler) (limit elapsed : Rat) : Outcome Handler :=
  h.setFlt "time" (.fin (limit - elapsed))

end Streed
