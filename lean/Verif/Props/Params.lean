import Verif.Lemmas.Params

/-!
# C50: parameters outside their range are rejected

A user changes parameters by a sequence of assignments.  The claim: after any sequence that is
accepted, each parameter has the value of the last assignment to it, or its declared default when
there was none, and that value lies in the declared range; and a sequence that assigns a value
outside the declared range, or to a parameter that does not exist, ends in an error.

Integers, strings and Booleans satisfy the claim.  For doubles not-a-number passes the range test
(`nan_accepted`), so the claim is proved for the other values.
-/

namespace Streed

/-- The full claim: exactly the sequences of valid assignments are accepted. -/
def SettingsChecked : Prop :=
  ∀ ops, (∃ h, declared.run ops = .ok h) ↔ ∀ o ∈ ops, SetOp.Valid o

/-- Every sequence of assignments that does not contain not-a-number is accepted exactly when each
assignment names a declared parameter and gives it a value in its range.  Missing: sequences with
not-a-number, for which the claim is false. -/
theorem settings_checked_partial (ops : List SetOp) (hn : ∀ n, SetOp.flt n .nan ∉ ops) :
    (∃ h, declared.run ops = .ok h) ↔ ∀ o ∈ ops, SetOp.Valid o := by
  rw [run_ok_iff]
  constructor
  · intro h o ho
    exact (accepts_valid o (fun n he => hn n (he ▸ ho))).1 (h o ho)
  · intro h o ho
    exact (accepts_valid o (fun n he => hn n (he ▸ ho))).2 (h o ho)

/-- A sequence with an invalid assignment ends in the error exit. -/
theorem settings_rejected_partial (ops : List SetOp) (hn : ∀ n, SetOp.flt n .nan ∉ ops)
    (o : SetOp) (ho : o ∈ ops) (hv : ¬ o.Valid) : declared.run ops = .stop := by
  cases hr : declared.run ops with
  | ok h => exact absurd ((settings_checked_partial ops hn).1 ⟨h, hr⟩ o ho) hv
  | stop => rfl
  | undef => exact absurd hr (run_not_undef ops declared)

/-- Not-a-number is accepted for every floating-point parameter. -/
theorem nan_accepted (n : String) (d lo hi : Rat) (hm : (n, d, lo, hi) ∈ fltTable) :
    ∃ h, declared.run [.flt n .nan] = .ok h ∧ h.getFlt n = .ok .nan := by
  obtain ⟨h, hr⟩ := (run_ok_iff [.flt n .nan] declared).2 (by
    intro o ho
    rw [List.mem_singleton.1 ho]
    exact ⟨_, declared_flt hm, by simp [Dbl.gt], by simp [Dbl.gt]⟩)
  refine ⟨h, hr, ?_⟩
  obtain ⟨h1, ho, hr1⟩ := Outcome.bind_ok hr
  cases hr1
  have := (apply_facts ho).2.2.2.2.2 n
  simp only [if_true] at this
  exact getFlt_of_cur this

/-- The full claim is false. -/
theorem settings_not_checked : ¬ SettingsChecked := by
  intro hc
  obtain ⟨h, hr, _⟩ := nan_accepted "cost-complexity" 0 0 1 (by decide)
  have := (hc _).1 ⟨h, hr⟩ _ (List.mem_singleton.2 rfl)
  obtain ⟨_, _, _, q, _, hq, _⟩ := this
  cases hq

/-! ### The values after a sequence of assignments -/

/-- After an accepted sequence an integer parameter has the value last assigned to it, or its
default, and the value is in its range. -/
theorem int_value (ops : List SetOp) (h : Handler) (hr : declared.run ops = .ok h)
    (n : String) (d lo hi : Int) (hm : (n, d, lo, hi) ∈ intTable) :
    h.getInt n = .ok (lastInt n d ops) ∧ lo ≤ lastInt n d ops ∧ lastInt n d ops ≤ hi := by
  have hc := run_curInt n ops hr d (by simp [Handler.curInt, declared_int hm])
  refine ⟨getInt_of_cur hc, ?_⟩
  exact lastInt_range n lo hi ops d (int_default hm)
    (fun v hv => by
      obtain ⟨e, he, h1, h2⟩ := (run_ok_iff ops declared).1 ⟨h, hr⟩ _ hv
      rw [declared_int hm] at he
      cases he
      exact ⟨h1, h2⟩)

/-- The same for the floating-point parameters, when not-a-number was not assigned. -/
theorem flt_value_partial (ops : List SetOp) (h : Handler) (hr : declared.run ops = .ok h)
    (hn : ∀ n, SetOp.flt n .nan ∉ ops)
    (n : String) (d lo hi : Rat) (hm : (n, d, lo, hi) ∈ fltTable) :
    ∃ q, h.getFlt n = .ok (.fin q) ∧ lastFlt n (.fin d) ops = .fin q ∧ lo ≤ q ∧ q ≤ hi := by
  have hc := run_curFlt n ops hr (.fin d) (by simp [Handler.curFlt, declared_flt hm])
  obtain ⟨q, hq, h1, h2⟩ := lastFlt_range n lo hi ops (.fin d) ⟨d, rfl, flt_default hm⟩
    (fun v hv => by
      obtain ⟨e, he, h1, h2⟩ := (run_ok_iff ops declared).1 ⟨h, hr⟩ _ hv
      rw [declared_flt hm] at he
      cases he
      cases v with
      | nan => exact absurd hv (hn n)
      | neginf => simp [Dbl.gt] at h1
      | posinf => simp [Dbl.gt] at h2
      | fin q => exact ⟨q, rfl, by simpa [Dbl.gt, Rat.not_lt] using h1, by simpa [Dbl.gt, Rat.not_lt] using h2⟩)
  rw [hq] at hc
  exact ⟨q, getFlt_of_cur hc, hq, h1, h2⟩

/-- The same for the Boolean parameters. -/
theorem bool_value (ops : List SetOp) (h : Handler) (hr : declared.run ops = .ok h)
    (n : String) (d : Bool) (hm : (n, d) ∈ boolTable) :
    h.getBool n = .ok (lastBool n d ops) :=
  getBool_of_cur (run_curBool n ops hr d (by simp [Handler.curBool, declared_bool hm]))

/-- The same for the string parameters. -/
theorem str_value (ops : List SetOp) (h : Handler) (hr : declared.run ops = .ok h)
    (n : String) (d : String) (a : Option (List String)) (hm : (n, d, a) ∈ strTable) :
    h.getStr n = .ok (lastStr n d ops) ∧ ∀ l, a = some l → lastStr n d ops ∈ l := by
  obtain ⟨e, he, hd, ha⟩ := declared_str hm
  have hc := run_curStr n ops hr d (by simp [Handler.curStr, he, hd])
  refine ⟨getStr_of_cur hc, fun l hl => ?_⟩
  refine lastStr_allowed n l ops d (str_default hm hl) (fun v hv => ?_)
  obtain ⟨e', he', hv'⟩ := (run_ok_iff ops declared).1 ⟨h, hr⟩ _ hv
  rw [he] at he'
  cases he'
  exact (ha v l hl).1 hv'

/-! ### The joint check -/

/-- When `CheckParameters` returns, the node limit fits the depth limit, and the node limit and a
price per node of at least `1e-6` are not used together. -/
theorem check_passed (h : Handler) (hc : h.check = .ok ()) :
    ∃ d n cc, h.getInt "max-depth" = .ok d ∧ h.getInt "max-num-nodes" = .ok n ∧
      h.getFlt "cost-complexity" = .ok cc ∧ n ≤ 2 ^ d.toNat - 1 ∧
      (n = 2 ^ d.toNat - 1 ∨ ∀ q, cc = .fin q → q < 1 / 1000000) := by
  obtain ⟨d, hd, hc⟩ := Outcome.bind_ok hc
  obtain ⟨n, hn, hc⟩ := Outcome.bind_ok hc
  obtain ⟨cc, hcc, hc⟩ := Outcome.bind_ok hc
  refine ⟨d, n, cc, hd, hn, hcc, ?_⟩
  dsimp only at hc
  split at hc
  · cases hc
  next h1 =>
    split at hc
    · cases hc
    next h2 =>
      refine ⟨by omega, ?_⟩
      by_cases he : n = 2 ^ d.toNat - 1
      · exact Or.inl he
      · right
        rintro q rfl
        have h3 : ¬ (Dbl.fin q = .fin (1 / 1000000) ∨ Dbl.gt (.fin q) (.fin (1 / 1000000)) = true) :=
          fun hx => h2 ⟨he, hx⟩
        simp only [Dbl.gt, decide_eq_true_eq, Dbl.fin.injEq, not_or] at h3
        have h4 := Rat.not_lt.1 h3.2
        exact Rat.lt_of_le_of_ne h4 h3.1

/-! ### The command line -/

/-- A command line that is accepted has the effect of a sequence of assignments, so all of the above
applies to it. -/
theorem parse_is_run (sm : Streams) : ∀ (args : List String) (h h' : Handler),
    parseArgs sm h args = .ok h' → ∃ ops, h.run ops = .ok h' ∧ ops.length * 2 = args.length
  | [], h, h', hp => by cases hp; exact ⟨[], rfl, rfl⟩
  | [a], h, h', hp => by
    simp only [parseArgs] at hp
    split at hp
    · split at hp <;> cases hp
    · cases hp
  | a :: v :: rest, h, h', hp => by
    simp only [parseArgs] at hp
    split at hp
    · split at hp
      · cases hp
      next o ho =>
        obtain ⟨h1, ha, hp⟩ := Outcome.bind_ok hp
        obtain ⟨ops, hr, hl⟩ := parse_is_run sm rest h1 h' hp
        refine ⟨o :: ops, ?_, by simp only [List.length_cons]; omega⟩
        simp only [Handler.run, ha, Outcome.bind, hr]
    · cases hp

/-- Text that is not a number is used as the number zero: the invalid setting is not rejected. -/
theorem text_read_as_zero (sm : Streams) :
    ∃ h, parseArgs sm declared ["-max-depth", "three"] = .ok h ∧ h.getInt "max-depth" = .ok 0 := by
  have h1 : argOp sm declared "max-depth" "three" = some (.int "max-depth" 0) := by
    unfold argOp
    rw [if_neg (by decide +kernel), if_pos (by decide +kernel)]
    rfl
  have h2 : declared.run [.int "max-depth" 0] ≠ .stop := by decide +kernel
  cases hr : declared.run [.int "max-depth" 0] with
  | stop => exact absurd hr h2
  | undef => exact absurd hr (run_not_undef _ _)
  | ok h =>
    refine ⟨h, ?_, (int_value _ h hr "max-depth" 3 0 20 (by decide)).1⟩
    have h3 : "-max-depth".toList = '-' :: "max-depth".toList := by decide +kernel
    have h4 : String.ofList "max-depth".toList = "max-depth" := by decide +kernel
    obtain ⟨h5, h6, h7⟩ := Outcome.bind_ok hr
    cases h7
    simp only [parseArgs, h3, h4, h1, h6, Outcome.bind]

/-- A parameter name as last argument, without a value, is undefined behaviour. -/
theorem missing_value_undefined (sm : Streams) :
    parseArgs sm declared ["-max-depth"] = .undef := by
  have h1 : argOp sm declared "max-depth" "" = some (.int "max-depth" 0) := by
    unfold argOp
    rw [if_neg (by decide +kernel), if_pos (by decide +kernel)]
    rfl
  have h3 : "-max-depth".toList = '-' :: "max-depth".toList := by decide +kernel
  have h4 : String.ofList "max-depth".toList = "max-depth" := by decide +kernel
  simp only [parseArgs, h3, h4, h1]
  rfl

/-! ### The time limit of a tuned run -/

/-- Tuning ends by assigning the remaining time to the time limit.  When tuning took longer than the
limit the assignment is out of range: the process exits, and no tree is returned.  Otherwise it is
accepted. -/
theorem tuning_time_exits (ops : List SetOp) (h : Handler) (hr : declared.run ops = .ok h)
    (limit elapsed : Rat) (h0 : 0 ≤ elapsed) (hl : limit ≤ 2147483647) :
    (limit < elapsed → setTimeLeft h limit elapsed = .stop) ∧
    (elapsed ≤ limit → ∃ h', setTimeLeft h limit elapsed = .ok h') := by
  have hd := run_decl ops hr
  have he := declared_flt (n := "time") (d := 3600) (lo := 0) (hi := 2147483647) (by decide)
  constructor
  · intro hlt
    refine apply_stop (o := .flt "time" (.fin (limit - elapsed))) ?_
    rw [accepts_congr hd]
    rintro ⟨e, he', h1, _⟩
    rw [he] at he'
    cases he'
    simp only [Dbl.gt, decide_eq_false_iff_not] at h1
    apply h1
    rw [Rat.sub_eq_add_neg]
    have := Rat.add_lt_add_right (c := -elapsed) |>.2 hlt
    rwa [Rat.add_neg_cancel] at this
  · intro hle
    refine apply_of_accepts (o := .flt "time" (.fin (limit - elapsed))) ?_
    rw [accepts_congr hd]
    refine ⟨_, he, ?_, ?_⟩
    · simp only [Dbl.gt, decide_eq_false_iff_not, Rat.not_lt]
      have := Rat.add_le_add_right (c := -elapsed) |>.2 hle
      rw [Rat.add_neg_cancel] at this
      rwa [Rat.sub_eq_add_neg]
    · simp only [Dbl.gt, decide_eq_false_iff_not, Rat.not_lt]
      grind

/-! ### Instances -/

/-- A sequence of valid assignments, with a repeated one. -/
example : ∃ h, declared.run [.int "max-depth" 4, .int "max-num-nodes" 15, .str "task" "f1-score",
    .int "max-depth" 2, .int "max-num-nodes" 3, .flt "time" (.fin 10)] = .ok h ∧
    h.getInt "max-depth" = .ok 2 ∧ h.getInt "max-num-nodes" = .ok 3 ∧ h.getStr "task" = .ok "f1-score" ∧
    h.check = .ok () := by
  refine ⟨_, rfl, ?_⟩
  decide +kernel

/-- Values just outside the range. -/
example : declared.run [.int "max-depth" 21] = .stop ∧ declared.run [.int "max-depth" (-1)] = .stop ∧
    declared.run [.flt "time" (.fin (-1))] = .stop ∧ declared.run [.str "task" "accurate"] = .stop ∧
    declared.run [.bool "no-such" true] = .stop ∧
    (∃ h, declared.run [.int "max-depth" 2] = .ok h ∧ h.check = .stop) := by
  refine ⟨by decide +kernel, by decide +kernel, by decide +kernel, by decide +kernel,
    by decide +kernel, _, rfl, ?_⟩
  decide +kernel

end Streed
