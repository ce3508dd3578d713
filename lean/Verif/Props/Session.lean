import Verif.Model.Session
import Verif.Props.Trees
import Verif.Props.Optimal

/-!
# C46: predictions depend only on the tree and the data, and C47: fitting twice gives the same answer
-/

namespace Streed

theorem View.ofGroups_eq {v : View} (h : v.OK) : View.ofGroups v.groups = v :=
  View.OK.ext (View.ofGroups_size _) h rfl

theorem View.sel_nil {v : View} (h : v.OK) : v.sel [] = v := by
  unfold View.sel
  have : v.groups.map (Streed.sel []) = v.groups := by
    conv => rhs; rw [← List.map_id v.groups]
    exact List.map_congr_left fun g _ => Streed.sel_nil g
  rw [this, View.ofGroups_eq h]

/-- Every remembered test split is a split of `v`. -/
def TestInv (v : View) (sp : Splitter) : Prop :=
  ∀ p ∈ sp.test, p.2 = (v.sel (p.1.1.child p.1.2 false), v.sel (p.1.1.child p.1.2 true))

theorem split_test {v : View} {sp : Splitter} (h : TestInv v sp) (b : Branch) (f : Nat) :
    (sp.split (v.sel b) b f true).1 = (v.sel b).split f ∧ TestInv v (sp.split (v.sel b) b f true).2 := by
  unfold Splitter.split
  split
  · simp only [if_true]
    split
    · rename_i r hr
      refine ⟨?_, h⟩
      have := h _ (Splitter.look_some hr)
      rw [split_path]
      exact this
    · refine ⟨rfl, fun p hp => ?_⟩
      rcases List.mem_cons.1 hp with rfl | hp
      · exact split_path v b f
      · exact h p hp
  · exact ⟨rfl, h⟩

/-- With a memory that belongs to the data, classification is the plain one. -/
theorem classifyS_eq (fl : List Nat) (v : View) (t : Obj) (b : Branch) (sp : Splitter) (labels : List Nat)
    (h : TestInv v sp) : match t.classify fl (v.sel b) labels with
      | none => classifyS fl t b (v.sel b) sp labels = none
      | some ls => ∃ sp', classifyS fl t b (v.sel b) sp labels = some (ls, sp') ∧ TestInv v sp' := by
  induction t generalizing b sp labels with
  | null => simp [Obj.classify, classifyS]
  | mk feat lab l r ihl ihr =>
    unfold Obj.classify classifyS
    cases lab with
    | some k =>
      dsimp only
      cases hx : (v.sel b).groups.flatten.foldlM (fun ls (i : Inst) => Obj.write ls i.id k) labels with
      | none => rfl
      | some ls => exact ⟨sp, rfl, h⟩
    | none =>
      cases feat with
      | none => rfl
      | some f =>
        dsimp only
        by_cases hf : f < fl.length
        · rw [if_pos hf, if_pos hf]
          obtain ⟨e1, e2⟩ := split_test h b f
          rw [e1, split_path]
          dsimp only
          by_cases hfl : fl.getD f 0 = 1
          · rw [if_pos hfl, if_pos hfl]
            have h1 := ihr (b.child f false) _ labels e2
            cases hx : r.classify fl (v.sel (b.child f false)) labels with
            | none => rw [hx] at h1; simp [h1]
            | some ls =>
              rw [hx] at h1
              obtain ⟨sp1, q1, q2⟩ := h1
              have h2 := ihl (b.child f true) sp1 ls q2
              simp only [Option.bind_eq_bind, Option.bind_some, q1]
              exact h2
          · rw [if_neg hfl, if_neg hfl]
            have h1 := ihl (b.child f false) _ labels e2
            cases hx : l.classify fl (v.sel (b.child f false)) labels with
            | none => rw [hx] at h1; simp [h1]
            | some ls =>
              rw [hx] at h1
              obtain ⟨sp1, q1, q2⟩ := h1
              have h2 := ihr (b.child f true) sp1 ls q2
              simp only [Option.bind_eq_bind, Option.bind_some, q1]
              exact h2
        · rw [if_neg hf, if_neg hf]

/-- The right answer to a predict call: one label per row, the label of the leaf that the row reaches. -/
def RightLabels (t : Tree) (v : View) (labels : List Nat) : Prop :=
  labels.length = v.size ∧ ∀ i ∈ v.rows, labels.getD i.id 0 = t.predict i

theorem preprocessTest_ok {fl : List Nat} {v : View} (h : v.OK) : (preprocessTest fl v).OK := by
  unfold View.OK preprocessTest at *
  rw [h]
  simp [Function.comp_def]

theorem preprocessTest_size (fl : List Nat) (v : View) : (preprocessTest fl v).size = v.size := rfl

/-- A call whose number of rows differs from that of the previous call. -/
theorem predict_new_size (fl : List Nat) (t : Tree) (ht : t.Below fl.length) (v : View) (hv : v.IsTest) (keep : Bool)
    (st : TestSt) (hs : st.org.size ≠ v.size ∨ st.org.size = 0) :
    ∃ labels st', predictCall fl (Obj.ofTree t) v keep st = some (labels, st') ∧ RightLabels t v labels ∧
      st'.org.size = v.size ∧ st'.alive = keep := by
  obtain ⟨ls, e, a, b⟩ := predict_fresh fl t ht v hv
  have hne : viewEq st.org st.alive (preprocessTest fl v) = some false := by
    unfold viewEq
    rw [preprocessTest_size]
    by_cases h0 : st.org.size = 0 ∨ v.size = 0
    · rw [if_pos h0]
    · rw [if_neg h0, if_pos (by rcases hs with hs | hs; exact hs; exact absurd (.inl hs) h0)]
  have hok : (preprocessTest fl v).OK := preprocessTest_ok hv.ok
  have hinv : TestInv (preprocessTest fl v) (st.sp.clear true) := fun p hp => by simp [Splitter.clear] at hp
  have h1 := classifyS_eq fl (preprocessTest fl v) (Obj.ofTree t) [] (st.sp.clear true)
    (List.replicate v.size 0) hinv
  rw [View.sel_nil hok] at h1
  unfold predictFresh at e
  rw [e] at h1
  obtain ⟨sp', q, _⟩ := h1
  refine ⟨ls, ⟨preprocessTest fl v, keep, preprocessTest fl v, sp'⟩, ?_, ⟨a, b⟩, rfl, rfl⟩
  unfold predictCall initTest
  rw [hne]
  simp only [Option.bind_eq_bind, Option.bind_some, preprocessTest_size]
  rw [q]
  rfl

/-- Consecutive calls have different numbers of rows (`n` is the previous number; an empty set resets nothing but
is never taken for equal). -/
def SizesDiffer : Nat → List View → Prop
  | _, [] => True
  | n, v :: vs => (n ≠ v.size ∨ n = 0) ∧ SizesDiffer v.size vs

/-- C46, restricted to histories in which two consecutive calls never have the same number of rows: every call
returns the right labels. Missing: equal numbers of rows, for which the claim is false (`predict_twice_undefined`). -/
theorem predict_history_partial (fl : List Nat) (t : Tree) (ht : t.Below fl.length) (vs : List View)
    (hv : ∀ v ∈ vs, v.IsTest) (hs : SizesDiffer 0 vs) :
    ∃ out, predictAll fl (Obj.ofTree t) vs TestSt.init = some out ∧ List.Forall₂ (RightLabels t) vs out := by
  have key : ∀ (vs : List View) (st : TestSt), (∀ v ∈ vs, v.IsTest) → SizesDiffer st.org.size vs →
      ∃ out, predictAll fl (Obj.ofTree t) vs st = some out ∧ List.Forall₂ (RightLabels t) vs out := by
    intro vs
    induction vs with
    | nil => exact fun _ _ _ => ⟨[], rfl, .nil⟩
    | cons v vs ih =>
      intro st hv hs
      obtain ⟨ls, st', e, r, hsz, _⟩ := predict_new_size fl t ht v (hv v (List.mem_cons_self ..)) false st hs.1
      obtain ⟨out, e2, r2⟩ := ih st' (fun w hw => hv w (List.mem_cons_of_mem _ hw)) (hsz ▸ hs.2)
      refine ⟨ls :: out, ?_, .cons r r2⟩
      unfold predictAll
      rw [e]
      simp only [Option.bind_eq_bind, Option.bind_some]
      rw [e2]
      rfl
  exact key vs TestSt.init hv hs

/-- C46 fails: any two consecutive predict calls with the same positive number of rows, without labels, read
instances of the first call that have already been destroyed. -/
theorem predict_twice_undefined (fl : List Nat) (t : Tree) (v w : View) (hv : v.IsTest)
    (hn : v.size ≠ 0) (g h : Data) (hg : v.groups = [g]) (hh : w.groups = [h]) (hlen : g.length = h.length)
    (hw : w.OK) : predictAll fl (Obj.ofTree t) [v, w] TestSt.init = none := by
  have hsz : v.size = w.size := by
    have := hv.ok
    unfold View.OK at this hw
    rw [this, hw, hg, hh]
    simp [hlen]
  have hfalse : viewEq TestSt.init.org TestSt.init.alive (preprocessTest fl v) = some false := if_pos (.inl rfl)
  unfold predictAll
  cases e : predictCall fl (Obj.ofTree t) v false TestSt.init with
  | none => rfl
  | some r =>
    obtain ⟨ls, st⟩ := r
    have hst : st.org = preprocessTest fl v ∧ st.alive = false := by
      unfold predictCall initTest at e
      rw [hfalse] at e
      simp only [Option.bind_eq_bind, Option.bind_some] at e
      cases hx : classifyS fl (Obj.ofTree t) [] (preprocessTest fl v) (TestSt.init.sp.clear true)
          (List.replicate (preprocessTest fl v).size 0) with
      | none => rw [hx] at e; cases e
      | some r => rw [hx] at e; cases e; exact ⟨rfl, rfl⟩
    have hub : viewEq st.org st.alive (preprocessTest fl w) = none := by
      unfold viewEq
      rw [hst.1, hst.2, preprocessTest_size, preprocessTest_size, if_neg (by omega), if_neg (by omega)]
      have : sameSizes (preprocessTest fl v).groups (preprocessTest fl w).groups = some true := by
        unfold preprocessTest
        simp [hg, hh, sameSizes, hlen]
      rw [this]
      rfl
    simp only [Option.bind_eq_bind, Option.bind_some]
    unfold predictAll predictCall initTest
    rw [hub]
    rfl

/-- Rows of a test set without labels. -/
def testSet (rows : List (Nat → Bool)) : View := View.ofGroups [rows.zipIdx.map fun p => ⟨p.2, p.1, 0⟩]

/-- Even if the earlier rows still exist, the second call answers for the first rows: the new rows are taken for
the old ones because only the ids are compared. -/
theorem predict_twice_stale : ∃ (t : Tree) (v w : View) (st : TestSt) (l1 l2 : List Nat) (st2 : TestSt),
    t.Below 1 ∧ v.IsTest ∧ w.IsTest ∧ predictCall [0] (Obj.ofTree t) v true TestSt.init = some (l1, st) ∧
    predictCall [0] (Obj.ofTree t) w true st = some (l2, st2) ∧ RightLabels t v l1 ∧ ¬ RightLabels t w l2 := by
  refine ⟨.node 0 (.leaf 0) (.leaf 1), testSet [fun _ => true], testSet [fun _ => false], _, [1], [1], _,
    ⟨by decide, trivial, trivial⟩, ⟨View.ofGroups_size _, by decide, by decide⟩,
    ⟨View.ofGroups_size _, by decide, by decide⟩, rfl, rfl, by unfold RightLabels; decide, by unfold RightLabels; decide⟩

/-- The hypotheses of both theorems are met. -/
example : SizesDiffer 0 [testSet [fun _ => true], testSet [fun _ => true, fun _ => false]] ∧
    predictAll [0] (Obj.ofTree (.node 0 (.leaf 0) (.leaf 1)))
      [testSet [fun _ => true], testSet [fun _ => true, fun _ => false]] TestSt.init = some [[1], [1, 0]] :=
  ⟨⟨.inr rfl, .inl (by decide), trivial⟩, by decide⟩
example : predictAll [0] (Obj.ofTree (.node 0 (.leaf 0) (.leaf 1)))
      [testSet [fun _ => true], testSet [fun _ => false]] TestSt.init = none := by decide

/-! ### C47 -/

/-- One `fit` call: its arguments. -/
structure FitCall where
  changed : Bool
  nF : Nat
  nL : Nat
  mls : Nat
  o : Options
  t : Top
  T : Data

/-- A history of fit calls on one estimator; the estimator at the end. -/
def fitAll (e : Estimator) : List FitCall → Estimator
  | [] => e
  | x :: xs => fitAll (e.fit x.changed x.nF x.nL x.mls x.o x.t x.T).2 xs

/-- C47 for the Python estimator: after any history of fits, a fit gives what it gives on a new estimator. (The
estimator never records the previous data, so it always builds a new solver.) -/
theorem fit_after_history (hist : List FitCall) (changed : Bool) (nF nL mls : Nat) (o : Options) (t : Top) (T : Data) :
    ((fitAll Estimator.init hist).fit changed nF nL mls o t T).1 = fitAccuracy nF nL mls o t T := by
  have key : ∀ (hist : List FitCall) (e : Estimator), e.prevData = none → (fitAll e hist).prevData = none := by
    intro hist
    induction hist with
    | nil => exact fun _ h => h
    | cons x xs ih => exact fun e h => ih _ h
  have h := key hist Estimator.init rfl
  unfold Estimator.fit Estimator.shouldReset
  rw [h]
  simp only [Option.isNone_none, Bool.or_true, Bool.true_or, if_true]
  rfl

/-- C47 at the level of the C++ solver: a second `Solve` on the same data, which keeps the cache and `global_UB`,
returns the same value. -/
def SolveTwiceSame : Prop := ∀ (nF nL : Nat) (o : Options) (t : Top) (T : Data), Input nL T → World nF o → T ≠ [] →
  let c := accCfg nF nL 1 o (isRedundant (accuracy nF nL) 1 T)
  let D := preprocess (accuracy nF nL) 1 T
  let r1 := solve c t D
  (solveFrom c t D r1.1.gUB r1.1.st).1.result.sol = r1.1.result.sol

/-- It does not: for data of one label the first call returns a tree without errors and the second call finds
nothing within the bound left by the first. -/
theorem solve_twice_differs : ¬ SolveTwiceSame := by
  intro h
  have := h 1 2 (defaultOptions 1) ⟨2, 3, false, int32Max⟩ [exInst 0 0 0, exInst 1 1 0]
    ⟨by decide, by decide, by simp [exInst, IdSorted], by decide⟩ (defaultOptions_world 1) (by simp)
  revert this
  decide +kernel

end Streed
