import Verif.Model.ParamTable

/-! Helpers for `Props/Params.lean`. -/

namespace Streed

theorem mapGet_put {α : Type} (n m : String) (a : α) :
    ∀ l : List (String × α), mapGet m (mapPut n a l) = if n = m then some a else mapGet m l
  | [] => by simp [mapPut, mapGet]
  | (k, b) :: l => by
    have ih := mapGet_put n m a l
    unfold mapPut
    by_cases hk : k = n
    · subst hk
      simp only [if_true, mapGet]
      by_cases hm : k = m <;> simp [hm]
    · simp only [hk, if_false, mapGet]
      rw [ih]
      by_cases hm : k = m
      · subst hm
        simp [Ne.symm hk]
      · simp [hm]

theorem Outcome.bind_ok {α β : Type} {x : Outcome α} {f : α → Outcome β} {b : β}
    (h : x.bind f = .ok b) : ∃ a, x = .ok a ∧ f a = .ok b := by
  cases x with
  | ok a => exact ⟨a, rfl, h⟩
  | stop => cases h
  | undef => cases h

/-- `h'` declares the same parameters as `h`. -/
structure SameDecl (h h' : Handler) : Prop where
  strs : ∀ n, (mapGet n h'.strs).map (fun e => (e.dflt, e.allowed, e.optional)) =
    (mapGet n h.strs).map (fun e => (e.dflt, e.allowed, e.optional))
  ints : ∀ n, (mapGet n h'.ints).map (fun e => (e.dflt, e.lo, e.hi)) =
    (mapGet n h.ints).map (fun e => (e.dflt, e.lo, e.hi))
  bools : ∀ n, (mapGet n h'.bools).map (fun e => e.dflt) =
    (mapGet n h.bools).map (fun e => e.dflt)
  flts : ∀ n, (mapGet n h'.flts).map (fun e => (e.dflt, e.lo, e.hi)) =
    (mapGet n h.flts).map (fun e => (e.dflt, e.lo, e.hi))

theorem SameDecl.refl (h : Handler) : SameDecl h h := ⟨fun _ => rfl, fun _ => rfl, fun _ => rfl,
  fun _ => rfl⟩

theorem SameDecl.trans {a b c : Handler} (h : SameDecl a b) (k : SameDecl b c) : SameDecl a c :=
  ⟨fun n => (k.strs n).trans (h.strs n), fun n => (k.ints n).trans (h.ints n),
   fun n => (k.bools n).trans (h.bools n), fun n => (k.flts n).trans (h.flts n)⟩

def Handler.curStr (h : Handler) (n : String) : Option String := (mapGet n h.strs).map (·.cur)
def Handler.curInt (h : Handler) (n : String) : Option Int := (mapGet n h.ints).map (·.cur)
def Handler.curBool (h : Handler) (n : String) : Option Bool := (mapGet n h.bools).map (·.cur)
def Handler.curFlt (h : Handler) (n : String) : Option Dbl := (mapGet n h.flts).map (·.cur)

/-- The code's own test for accepting a call. -/
def SetOp.accepts (h : Handler) : SetOp → Prop
  | .str n v => ∃ e, mapGet n h.strs = some e ∧
      ((e.optional = true ∧ v = "") ∨ e.allowed = [] ∨ v ∈ e.allowed)
  | .int n v => ∃ e, mapGet n h.ints = some e ∧ e.lo ≤ v ∧ v ≤ e.hi
  | .bool n _ => ∃ e, mapGet n h.bools = some e
  | .flt n v => ∃ e, mapGet n h.flts = some e ∧ e.lo.gt v = false ∧ v.gt e.hi = false

/-- One accepted call keeps the declarations and changes exactly the named value. -/
theorem apply_facts {h h' : Handler} {o : SetOp} (hs : SetOp.apply h o = .ok h') :
    SetOp.accepts h o ∧ SameDecl h h' ∧
    (∀ n, h'.curStr n = match o with | .str m v => if m = n then some v else h.curStr n
                                     | _ => h.curStr n) ∧
    (∀ n, h'.curInt n = match o with | .int m v => if m = n then some v else h.curInt n
                                     | _ => h.curInt n) ∧
    (∀ n, h'.curBool n = match o with | .bool m v => if m = n then some v else h.curBool n
                                      | _ => h.curBool n) ∧
    (∀ n, h'.curFlt n = match o with | .flt m v => if m = n then some v else h.curFlt n
                                     | _ => h.curFlt n) := by
  cases o with
  | str m v =>
    simp only [SetOp.apply, Handler.setStr] at hs
    cases he : mapGet m h.strs with
    | none => rw [he] at hs; cases hs
    | some e =>
      rw [he] at hs
      dsimp only at hs
      split at hs
      next hc =>
        cases hs
        refine ⟨⟨e, he, ?_⟩, ⟨fun n => ?_, fun _ => rfl, fun _ => rfl, fun _ => rfl⟩, fun n => ?_,
          fun _ => rfl, fun _ => rfl, fun _ => rfl⟩
        · simpa [or_assoc] using hc
        · dsimp only
          rw [mapGet_put]
          split
          next hn => subst hn; rw [he]; rfl
          · rfl
        · simp only [Handler.curStr]
          rw [mapGet_put]
          split <;> rfl
      · cases hs
  | int m v =>
    simp only [SetOp.apply, Handler.setInt] at hs
    cases he : mapGet m h.ints with
    | none => rw [he] at hs; cases hs
    | some e =>
      rw [he] at hs
      dsimp only at hs
      split at hs
      · cases hs
      next hc =>
        cases hs
        refine ⟨⟨e, he, ?_⟩, ⟨fun _ => rfl, fun n => ?_, fun _ => rfl, fun _ => rfl⟩, fun _ => rfl,
          fun n => ?_, fun _ => rfl, fun _ => rfl⟩
        · simpa using hc
        · dsimp only
          rw [mapGet_put]
          split
          next hn => subst hn; rw [he]; rfl
          · rfl
        · simp only [Handler.curInt]
          rw [mapGet_put]
          split <;> rfl
  | bool m v =>
    simp only [SetOp.apply, Handler.setBool] at hs
    cases he : mapGet m h.bools with
    | none => rw [he] at hs; cases hs
    | some e =>
      rw [he] at hs
      cases hs
      refine ⟨⟨e, he⟩, ⟨fun _ => rfl, fun _ => rfl, fun n => ?_, fun _ => rfl⟩, fun _ => rfl,
          fun _ => rfl, fun n => ?_, fun _ => rfl⟩
      · dsimp only
        rw [mapGet_put]
        split
        next hn => subst hn; rw [he]; rfl
        · rfl
      · simp only [Handler.curBool]
        rw [mapGet_put]
        split <;> rfl
  | flt m v =>
    simp only [SetOp.apply, Handler.setFlt] at hs
    cases he : mapGet m h.flts with
    | none => rw [he] at hs; cases hs
    | some e =>
      rw [he] at hs
      dsimp only at hs
      split at hs
      · cases hs
      next hc =>
        cases hs
        refine ⟨⟨e, he, ?_⟩, ⟨fun _ => rfl, fun _ => rfl, fun _ => rfl, fun n => ?_⟩, fun _ => rfl,
          fun _ => rfl, fun _ => rfl, fun n => ?_⟩
        · simpa using hc
        · dsimp only
          rw [mapGet_put]
          split
          next hn => subst hn; rw [he]; rfl
          · rfl
        · simp only [Handler.curFlt]
          rw [mapGet_put]
          split <;> rfl

theorem apply_of_accepts {h : Handler} {o : SetOp} (ha : SetOp.accepts h o) :
    ∃ h', SetOp.apply h o = .ok h' := by
  cases o with
  | str m v =>
    obtain ⟨e, he, hc⟩ := ha
    refine ⟨{ h with strs := mapPut m { e with cur := v } h.strs }, ?_⟩
    simp only [SetOp.apply, Handler.setStr, he]
    rw [if_pos (by simpa [or_assoc] using hc)]
  | int m v =>
    obtain ⟨e, he, hc⟩ := ha
    refine ⟨{ h with ints := mapPut m { e with cur := v } h.ints }, ?_⟩
    simp only [SetOp.apply, Handler.setInt, he]
    rw [if_neg (by simpa using hc)]
  | bool m v =>
    obtain ⟨e, he⟩ := ha
    refine ⟨{ h with bools := mapPut m { e with cur := v } h.bools }, ?_⟩
    simp only [SetOp.apply, Handler.setBool, he]
  | flt m v =>
    obtain ⟨e, he, hc⟩ := ha
    refine ⟨{ h with flts := mapPut m { e with cur := v } h.flts }, ?_⟩
    simp only [SetOp.apply, Handler.setFlt, he]
    rw [if_neg (by simpa using hc)]

/-- A rejected call ends the process; it is never undefined. -/
theorem apply_stop {h : Handler} {o : SetOp} (ha : ¬ SetOp.accepts h o) :
    SetOp.apply h o = .stop := by
  cases hs : SetOp.apply h o with
  | ok h' => exact absurd (apply_facts hs).1 ha
  | stop => rfl
  | undef =>
    exfalso
    cases o <;> simp only [SetOp.apply, Handler.setStr, Handler.setInt, Handler.setBool,
      Handler.setFlt] at hs <;> (split at hs <;> try (split at hs)) <;> cases hs

theorem accepts_congr {h h' : Handler} (hd : SameDecl h h') (o : SetOp) :
    SetOp.accepts h' o ↔ SetOp.accepts h o := by
  cases o with
  | str n v =>
    have := hd.strs n
    cases h1 : mapGet n h'.strs <;> cases h2 : mapGet n h.strs <;> simp_all [SetOp.accepts]
  | int n v =>
    have := hd.ints n
    cases h1 : mapGet n h'.ints <;> cases h2 : mapGet n h.ints <;> simp_all [SetOp.accepts]
  | bool n v =>
    have := hd.bools n
    cases h1 : mapGet n h'.bools <;> cases h2 : mapGet n h.bools <;> simp_all [SetOp.accepts]
  | flt n v =>
    have := hd.flts n
    cases h1 : mapGet n h'.flts <;> cases h2 : mapGet n h.flts <;> simp_all [SetOp.accepts]

theorem run_ok_iff : ∀ (ops : List SetOp) (h : Handler),
    (∃ h', h.run ops = .ok h') ↔ ∀ o ∈ ops, SetOp.accepts h o
  | [], h => by simp [Handler.run]
  | o :: ops, h => by
    constructor
    · rintro ⟨h', hr⟩
      obtain ⟨h1, ho, hr1⟩ := Outcome.bind_ok hr
      have hf := apply_facts ho
      have ih := (run_ok_iff ops h1).1 ⟨h', hr1⟩
      intro o' ho'
      rcases List.mem_cons.1 ho' with rfl | hm
      · exact hf.1
      · exact (accepts_congr hf.2.1 o').1 (ih o' hm)
    · intro ha
      obtain ⟨h1, ho⟩ := apply_of_accepts (ha o (List.mem_cons_self ..))
      have hf := apply_facts ho
      obtain ⟨h', hr⟩ := (run_ok_iff ops h1).2
        (fun o' hm => (accepts_congr hf.2.1 o').2 (ha o' (List.mem_cons_of_mem _ hm)))
      exact ⟨h', by simp only [Handler.run, ho, Outcome.bind, hr]⟩

theorem run_not_undef : ∀ (ops : List SetOp) (h : Handler), h.run ops ≠ .undef
  | [], h => by simp [Handler.run]
  | o :: ops, h => by
    unfold Handler.run
    by_cases ha : SetOp.accepts h o
    · obtain ⟨h1, ho⟩ := apply_of_accepts ha
      rw [ho]
      exact run_not_undef ops h1
    · rw [apply_stop ha]
      simp [Outcome.bind]

theorem run_decl : ∀ (ops : List SetOp) {h h' : Handler}, h.run ops = .ok h' → SameDecl h h'
  | [], h, h', hr => by cases hr; exact SameDecl.refl h
  | o :: ops, h, h', hr => by
    obtain ⟨h1, ho, hr1⟩ := Outcome.bind_ok hr
    exact (apply_facts ho).2.1.trans (run_decl ops hr1)

/-! ### The declared table -/

theorem declared_ok : defineParameters = .ok declared := by decide +kernel

theorem declared_ints : declared.ints = intTable.map fun r => (r.1, ⟨r.2.1, r.2.1, r.2.2.1, r.2.2.2⟩) := by
  decide +kernel

theorem declared_flts : declared.flts =
    fltTable.map fun r => (r.1, ⟨.fin r.2.1, .fin r.2.1, .fin r.2.2.1, .fin r.2.2.2⟩) := by
  decide +kernel

theorem declared_bools : declared.bools = boolTable.map fun r => (r.1, ⟨r.2, r.2⟩) := by
  decide +kernel

theorem declared_strs : declared.strs.map
    (fun r => (r.1, r.2.dflt, r.2.cur, if r.2.allowed = [] then none
      else some (r.2.allowed ++ if r.2.optional then [""] else []))) =
    strTable.map fun r => (r.1, r.2.1, r.2.1, r.2.2) := by
  decide +kernel

theorem mapGet_iff {α : Type} : ∀ (l : List (String × α)), (l.map (·.1)).Nodup → ∀ n e,
    mapGet n l = some e ↔ (n, e) ∈ l
  | [], _, n, e => by simp [mapGet]
  | (m, b) :: l, hd, n, e => by
    rw [List.map_cons, List.nodup_cons] at hd
    have ih := mapGet_iff l hd.2 n e
    unfold mapGet
    by_cases hm : m = n
    · subst hm
      simp only [if_true, Option.some.injEq, List.mem_cons, Prod.mk.injEq, true_and]
      constructor
      · exact fun h => Or.inl h.symm
      · rintro (h | h)
        · exact h.symm
        · exact absurd (List.mem_map.2 ⟨_, h, rfl⟩) hd.1
    · simp only [hm, if_false, ih, List.mem_cons, Prod.mk.injEq]
      constructor
      · exact Or.inr
      · rintro (h | h)
        · exact absurd h.1.symm hm
        · exact h

theorem declared_int {n : String} {d lo hi : Int} (hm : (n, d, lo, hi) ∈ intTable) :
    mapGet n declared.ints = some ⟨d, d, lo, hi⟩ := by
  rw [mapGet_iff _ (by rw [declared_ints]; decide +kernel), declared_ints, List.mem_map]
  exact ⟨_, hm, rfl⟩

theorem declared_flt {n : String} {d lo hi : Rat} (hm : (n, d, lo, hi) ∈ fltTable) :
    mapGet n declared.flts = some ⟨.fin d, .fin d, .fin lo, .fin hi⟩ := by
  rw [mapGet_iff _ (by rw [declared_flts]; decide +kernel), declared_flts, List.mem_map]
  exact ⟨_, hm, rfl⟩

theorem declared_bool {n : String} {d : Bool} (hm : (n, d) ∈ boolTable) :
    mapGet n declared.bools = some ⟨d, d⟩ := by
  rw [mapGet_iff _ (by rw [declared_bools]; decide +kernel), declared_bools, List.mem_map]
  exact ⟨_, hm, rfl⟩

theorem allowed_iff (e : StrEntry) (a : Option (List String))
    (ha : a = if e.allowed = [] then none else some (e.allowed ++ if e.optional then [""] else []))
    (v : String) (l : List String) (hl : a = some l) :
    ((e.optional = true ∧ v = "") ∨ e.allowed = [] ∨ v ∈ e.allowed) ↔ v ∈ l := by
  subst ha
  split at hl
  · cases hl
  next hne =>
    cases hl
    cases ho : e.optional <;> simp [hne, or_comm]

theorem declared_str {n d : String} {a : Option (List String)} (hm : (n, d, a) ∈ strTable) :
    ∃ e, mapGet n declared.strs = some e ∧ e.cur = d ∧
      ∀ v l, a = some l → (((e.optional = true ∧ v = "") ∨ e.allowed = [] ∨ v ∈ e.allowed) ↔ v ∈ l) := by
  have h1 : (n, d, d, a) ∈ strTable.map fun r => (r.1, r.2.1, r.2.1, r.2.2) :=
    List.mem_map.2 ⟨_, hm, rfl⟩
  rw [← declared_strs] at h1
  obtain ⟨⟨m, e⟩, he, heq⟩ := List.mem_map.1 h1
  simp only [Prod.mk.injEq] at heq
  obtain ⟨rfl, _, h3, h4⟩ := heq
  refine ⟨e, (mapGet_iff _ (by decide +kernel) _ _).2 he, h3, fun v l hl => ?_⟩
  exact allowed_iff e a h4.symm v l hl

theorem declared_str_iff (n v : String) :
    SetOp.accepts declared (.str n v) ↔ SetOp.Valid (.str n v) := by
  constructor
  · rintro ⟨e, he, hv⟩
    have he' := (mapGet_iff _ (by decide +kernel) _ _).1 he
    have h1 := List.mem_map_of_mem (f := (fun r : String × StrEntry =>
      (r.1, r.2.dflt, r.2.cur, if r.2.allowed = [] then none
      else some (r.2.allowed ++ if r.2.optional then [""] else [])))) he'
    rw [declared_strs] at h1
    obtain ⟨⟨m, d, a⟩, hr, heq⟩ := List.mem_map.1 h1
    simp only [Prod.mk.injEq] at heq
    obtain ⟨rfl, _, _, h4⟩ := heq
    exact ⟨d, a, hr, fun l hl => (allowed_iff e a h4 v l hl).1 hv⟩
  · rintro ⟨d, a, hm, hv⟩
    have h1 : (n, d, d, a) ∈ strTable.map fun r => (r.1, r.2.1, r.2.1, r.2.2) :=
      List.mem_map.2 ⟨_, hm, rfl⟩
    rw [← declared_strs] at h1
    obtain ⟨⟨m, e⟩, he, heq⟩ := List.mem_map.1 h1
    simp only [Prod.mk.injEq] at heq
    obtain ⟨rfl, _, h3, h4⟩ := heq
    refine ⟨e, (mapGet_iff _ (by decide +kernel) _ _).2 he, ?_⟩
    cases ha : a with
    | none =>
      rw [ha] at h4
      split at h4
      next h => exact Or.inr (Or.inl h)
      · cases h4
    | some l => exact (allowed_iff e a h4.symm v l ha).2 (hv l ha)

theorem accepts_valid (o : SetOp) (hn : ∀ n, o ≠ .flt n .nan) :
    SetOp.accepts declared o ↔ SetOp.Valid o := by
  cases o with
  | str n v => exact declared_str_iff n v
  | int n v =>
    constructor
    · rintro ⟨e, he, h1, h2⟩
      rw [mapGet_iff _ (by rw [declared_ints]; decide +kernel), declared_ints, List.mem_map] at he
      obtain ⟨⟨m, d, lo, hi⟩, hr, heq⟩ := he
      cases heq
      exact ⟨d, lo, hi, hr, h1, h2⟩
    · rintro ⟨d, lo, hi, hm, h1, h2⟩
      exact ⟨_, declared_int hm, h1, h2⟩
  | bool n v =>
    constructor
    · rintro ⟨e, he⟩
      rw [mapGet_iff _ (by rw [declared_bools]; decide +kernel), declared_bools, List.mem_map] at he
      obtain ⟨⟨m, d⟩, hr, heq⟩ := he
      cases heq
      exact ⟨d, hr⟩
    · rintro ⟨d, hm⟩
      exact ⟨_, declared_bool hm⟩
  | flt n v =>
    constructor
    · rintro ⟨e, he, h1, h2⟩
      rw [mapGet_iff _ (by rw [declared_flts]; decide +kernel), declared_flts, List.mem_map] at he
      obtain ⟨⟨m, d, lo, hi⟩, hr, heq⟩ := he
      cases heq
      cases v with
      | nan => exact absurd rfl (hn _)
      | neginf => simp [Dbl.gt] at h1
      | posinf => simp [Dbl.gt] at h2
      | fin q => exact ⟨d, lo, hi, q, hr, rfl, by simpa [Dbl.gt, Rat.not_lt] using h1, by simpa [Dbl.gt, Rat.not_lt] using h2⟩
    · rintro ⟨d, lo, hi, q, hm, rfl, h1, h2⟩
      exact ⟨_, declared_flt hm, by simpa [Dbl.gt, Rat.not_lt] using h1, by simpa [Dbl.gt, Rat.not_lt] using h2⟩

theorem int_default {n : String} {d lo hi : Int} (hm : (n, d, lo, hi) ∈ intTable) :
    lo ≤ d ∧ d ≤ hi := by
  have : ∀ r ∈ intTable, r.2.2.1 ≤ r.2.1 ∧ r.2.1 ≤ r.2.2.2 := by decide
  exact this _ hm

theorem flt_default {n : String} {d lo hi : Rat} (hm : (n, d, lo, hi) ∈ fltTable) :
    lo ≤ d ∧ d ≤ hi := by
  have : ∀ r ∈ fltTable, r.2.2.1 ≤ r.2.1 ∧ r.2.1 ≤ r.2.2.2 := by decide +kernel
  exact this _ hm

theorem str_default {n d : String} {a : Option (List String)} {l : List String}
    (hm : (n, d, a) ∈ strTable) (hl : a = some l) : d ∈ l := by
  have : ∀ r ∈ strTable, ∀ l ∈ r.2.2, r.2.1 ∈ l := by decide +kernel
  exact this _ hm l hl

theorem getInt_of_cur {h : Handler} {n : String} {v : Int} (hc : h.curInt n = some v) :
    h.getInt n = .ok v := by
  unfold Handler.curInt at hc
  unfold Handler.getInt
  cases he : mapGet n h.ints with
  | none => rw [he] at hc; cases hc
  | some e => rw [he] at hc; cases hc; rfl

theorem getFlt_of_cur {h : Handler} {n : String} {v : Dbl} (hc : h.curFlt n = some v) :
    h.getFlt n = .ok v := by
  unfold Handler.curFlt at hc
  unfold Handler.getFlt
  cases he : mapGet n h.flts with
  | none => rw [he] at hc; cases hc
  | some e => rw [he] at hc; cases hc; rfl

theorem getBool_of_cur {h : Handler} {n : String} {v : Bool} (hc : h.curBool n = some v) :
    h.getBool n = .ok v := by
  unfold Handler.curBool at hc
  unfold Handler.getBool
  cases he : mapGet n h.bools with
  | none => rw [he] at hc; cases hc
  | some e => rw [he] at hc; cases hc; rfl

theorem getStr_of_cur {h : Handler} {n : String} {v : String} (hc : h.curStr n = some v) :
    h.getStr n = .ok v := by
  unfold Handler.curStr at hc
  unfold Handler.getStr
  cases he : mapGet n h.strs with
  | none => rw [he] at hc; cases hc
  | some e => rw [he] at hc; cases hc; rfl

theorem run_curInt (n : String) : ∀ (ops : List SetOp) {h h' : Handler}, h.run ops = .ok h' →
    ∀ d, h.curInt n = some d → h'.curInt n = some (lastInt n d ops)
  | [], h, h', hr, d, hd => by cases hr; exact hd
  | o :: ops, h, h', hr, d, hd => by
    obtain ⟨h1, ho, hr1⟩ := Outcome.bind_ok hr
    have hf := (apply_facts ho).2.2.2.1 n
    cases o with
    | int m v =>
      refine run_curInt n ops hr1 _ ?_
      rw [hf]
      dsimp only
      split <;> simp_all
    | str m v => exact run_curInt n ops hr1 d (hf.trans hd)
    | bool m v => exact run_curInt n ops hr1 d (hf.trans hd)
    | flt m v => exact run_curInt n ops hr1 d (hf.trans hd)

theorem run_curFlt (n : String) : ∀ (ops : List SetOp) {h h' : Handler}, h.run ops = .ok h' →
    ∀ d, h.curFlt n = some d → h'.curFlt n = some (lastFlt n d ops)
  | [], h, h', hr, d, hd => by cases hr; exact hd
  | o :: ops, h, h', hr, d, hd => by
    obtain ⟨h1, ho, hr1⟩ := Outcome.bind_ok hr
    have hf := (apply_facts ho).2.2.2.2.2 n
    cases o with
    | flt m v =>
      refine run_curFlt n ops hr1 _ ?_
      rw [hf]
      dsimp only
      split <;> simp_all
    | str m v => exact run_curFlt n ops hr1 d (hf.trans hd)
    | bool m v => exact run_curFlt n ops hr1 d (hf.trans hd)
    | int m v => exact run_curFlt n ops hr1 d (hf.trans hd)

theorem run_curBool (n : String) : ∀ (ops : List SetOp) {h h' : Handler}, h.run ops = .ok h' →
    ∀ d, h.curBool n = some d → h'.curBool n = some (lastBool n d ops)
  | [], h, h', hr, d, hd => by cases hr; exact hd
  | o :: ops, h, h', hr, d, hd => by
    obtain ⟨h1, ho, hr1⟩ := Outcome.bind_ok hr
    have hf := (apply_facts ho).2.2.2.2.1 n
    cases o with
    | bool m v =>
      refine run_curBool n ops hr1 _ ?_
      rw [hf]
      dsimp only
      split <;> simp_all
    | str m v => exact run_curBool n ops hr1 d (hf.trans hd)
    | flt m v => exact run_curBool n ops hr1 d (hf.trans hd)
    | int m v => exact run_curBool n ops hr1 d (hf.trans hd)

theorem run_curStr (n : String) : ∀ (ops : List SetOp) {h h' : Handler}, h.run ops = .ok h' →
    ∀ d, h.curStr n = some d → h'.curStr n = some (lastStr n d ops)
  | [], h, h', hr, d, hd => by cases hr; exact hd
  | o :: ops, h, h', hr, d, hd => by
    obtain ⟨h1, ho, hr1⟩ := Outcome.bind_ok hr
    have hf := (apply_facts ho).2.2.1 n
    cases o with
    | str m v =>
      refine run_curStr n ops hr1 _ ?_
      rw [hf]
      dsimp only
      split <;> simp_all
    | bool m v => exact run_curStr n ops hr1 d (hf.trans hd)
    | flt m v => exact run_curStr n ops hr1 d (hf.trans hd)
    | int m v => exact run_curStr n ops hr1 d (hf.trans hd)

theorem lastInt_range (n : String) (lo hi : Int) : ∀ (ops : List SetOp) (d : Int),
    (lo ≤ d ∧ d ≤ hi) → (∀ v, SetOp.int n v ∈ ops → lo ≤ v ∧ v ≤ hi) →
    lo ≤ lastInt n d ops ∧ lastInt n d ops ≤ hi
  | [], d, hd, _ => hd
  | o :: ops, d, hd, hv => by
    have hv' := fun v hm => hv v (List.mem_cons_of_mem o hm)
    cases o with
    | int m v =>
      refine lastInt_range n lo hi ops _ ?_ hv'
      split
      next h => subst h; exact hv v (List.mem_cons_self ..)
      · exact hd
    | str m v => exact lastInt_range n lo hi ops d hd hv'
    | bool m v => exact lastInt_range n lo hi ops d hd hv'
    | flt m v => exact lastInt_range n lo hi ops d hd hv'

theorem lastFlt_range (n : String) (lo hi : Rat) : ∀ (ops : List SetOp) (d : Dbl),
    (∃ q, d = .fin q ∧ lo ≤ q ∧ q ≤ hi) →
    (∀ v, SetOp.flt n v ∈ ops → ∃ q, v = .fin q ∧ lo ≤ q ∧ q ≤ hi) →
    ∃ q, lastFlt n d ops = .fin q ∧ lo ≤ q ∧ q ≤ hi
  | [], d, hd, _ => hd
  | o :: ops, d, hd, hv => by
    have hv' := fun v hm => hv v (List.mem_cons_of_mem o hm)
    cases o with
    | flt m v =>
      refine lastFlt_range n lo hi ops _ ?_ hv'
      split
      next h => subst h; exact hv v (List.mem_cons_self ..)
      · exact hd
    | str m v => exact lastFlt_range n lo hi ops d hd hv'
    | bool m v => exact lastFlt_range n lo hi ops d hd hv'
    | int m v => exact lastFlt_range n lo hi ops d hd hv'

theorem lastStr_allowed (n : String) (l : List String) : ∀ (ops : List SetOp) (d : String),
    d ∈ l → (∀ v, SetOp.str n v ∈ ops → v ∈ l) → lastStr n d ops ∈ l
  | [], d, hd, _ => hd
  | o :: ops, d, hd, hv => by
    have hv' := fun v hm => hv v (List.mem_cons_of_mem o hm)
    cases o with
    | str m v =>
      refine lastStr_allowed n l ops _ ?_ hv'
      split
      next h => subst h; exact hv v (List.mem_cons_self ..)
      · exact hd
    | flt m v => exact lastStr_allowed n l ops d hd hv'
    | bool m v => exact lastStr_allowed n l ops d hd hv'
    | int m v => exact lastStr_allowed n l ops d hd hv'

end Streed
