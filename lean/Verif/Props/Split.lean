import Verif.Model.View
import Verif.Lemmas.CacheInv

/-!
# C27: splitting data loses nothing
-/

namespace Streed

/-- The stored size is the number of instances. -/
def View.OK (v : View) : Prop := v.size = (v.groups.map List.length).sum

theorem View.splitGroup_eq (f : Nat) (g l r : Data) : View.splitGroup f g l r = (l ++ without f g, r ++ having f g) := by
  induction g generalizing l r with
  | nil => simp [splitGroup, without, having]
  | cons i is ih =>
    by_cases h : i.feat f
    · simp [splitGroup, h, ih, without, having]
    · simp [splitGroup, h, ih, without, having]

theorem View.splitGroups_eq (f : Nat) (gs : List Data) : View.splitGroups f gs [] [] =
    ((gs.map (without f), ((gs.map (without f)).map List.length).sum),
     (gs.map (having f), ((gs.map (having f)).map List.length).sum)) := by
  induction gs with
  | nil => rfl
  | cons g gs ih => simp [splitGroups, ih, splitGroup_eq]

/-- C27: each label group is divided by the value of the feature; order and label groups are kept. -/
theorem split_groups (v : View) (f : Nat) :
    (v.split f).1.groups = v.groups.map (fun g => g.filter fun i => !i.feat f) ∧
    (v.split f).2.groups = v.groups.map (fun g => g.filter fun i => i.feat f) := by
  unfold View.split View.splitInto View.empty
  rw [View.splitGroups_eq]
  exact ⟨rfl, rfl⟩

/-- C27: both sides have as many label groups as the data, and correct sizes which add up to the size of the data. -/
theorem split_sizes (v : View) (f : Nat) (h : v.OK) :
    (v.split f).1.numLabels = v.numLabels ∧ (v.split f).2.numLabels = v.numLabels ∧
    (v.split f).1.OK ∧ (v.split f).2.OK ∧ (v.split f).1.size + (v.split f).2.size = v.size := by
  unfold View.split View.splitInto View.empty View.OK View.numLabels at *
  rw [View.splitGroups_eq, h]
  refine ⟨by simp, by simp, rfl, rfl, ?_⟩
  dsimp only
  generalize v.groups = gs
  induction gs with
  | nil => rfl
  | cons g gs ih =>
    have := length_split f g
    simp only [List.map_cons, List.sum_cons] at *
    omega

/-- C27: every instance of a label group is on exactly one side, as often as it was in the data, in the group of
its label; nothing else is. -/
theorem split_mem (v : View) (f k : Nat) (i : Inst) :
    (i ∈ ((v.split f).1.groups.getD k []) ↔ i ∈ v.groups.getD k [] ∧ i.feat f = false) ∧
    (i ∈ ((v.split f).2.groups.getD k []) ↔ i ∈ v.groups.getD k [] ∧ i.feat f = true) := by
  rw [(split_groups v f).1, (split_groups v f).2]
  simp only [List.getD_eq_getElem?_getD, List.getElem?_map]
  cases v.groups[k]? <;> simp

/-- C27: the two sides together are a rearrangement of the data, label by label, and each is in the original
order. -/
theorem split_perm (v : View) (f k : Nat) :
    ((v.split f).1.groups.getD k [] ++ (v.split f).2.groups.getD k []).Perm (v.groups.getD k []) ∧
    ((v.split f).1.groups.getD k []).Sublist (v.groups.getD k []) ∧
    ((v.split f).2.groups.getD k []).Sublist (v.groups.getD k []) := by
  rw [(split_groups v f).1, (split_groups v f).2]
  simp only [List.getD_eq_getElem?_getD, List.getElem?_map]
  cases h : v.groups[k]? with
  | none => simp
  | some g =>
    simp only [Option.map_some, Option.getD_some]
    refine ⟨?_, List.filter_sublist, List.filter_sublist⟩
    have := List.filter_append_perm (fun i : Inst => !i.feat f) g
    simpa using this

/-! ### The splitter with its cache -/

/-- Select the instances of a path, label by label. -/
def View.sel (v : View) (b : Branch) : View := View.ofGroups (v.groups.map (Streed.sel b))

theorem View.ofGroups_size (gs : List Data) : (View.ofGroups gs).OK := by
  unfold ofGroups OK
  dsimp only
  have : ∀ n, gs.foldl (fun n g => n + g.length) n = n + (gs.map List.length).sum := by
    induction gs with
    | nil => intro n; simp
    | cons g gs ih => intro n; simp only [List.foldl_cons, ih, List.map_cons, List.sum_cons]; omega
  have := this 0
  omega

theorem View.OK.ext {v w : View} (hv : v.OK) (hw : w.OK) (h : v.groups = w.groups) : v = w := by
  cases v; cases w
  simp only [OK] at *
  subst h
  rw [hv, hw]

/-- Splitting the data of a path gives the data of the two child paths. -/
theorem split_path (v : View) (b : Branch) (f : Nat) :
    (v.sel b).split f = (v.sel (b.child f false), v.sel (b.child f true)) := by
  have h1 := split_groups (v.sel b) f
  have h2 := split_sizes (v.sel b) f (View.ofGroups_size _)
  refine Prod.ext ?_ ?_
  · refine View.OK.ext h2.2.2.1 (View.ofGroups_size _) ?_
    rw [h1.1]
    simp only [View.sel, View.ofGroups, List.map_map]
    refine List.map_congr_left fun g _ => ?_
    simp only [Function.comp]
    rw [sel_child, side_false]; rfl
  · refine View.OK.ext h2.2.2.2.1 (View.ofGroups_size _) ?_
    rw [h1.2]
    simp only [View.sel, View.ofGroups, List.map_map]
    refine List.map_congr_left fun g _ => ?_
    simp only [Function.comp]
    rw [sel_child, side_true]; rfl

/-- One use of the splitter. `setData` stands for loading new training or test data, which clears that map
(solver.cpp:237, 257). -/
inductive SplitOp where
  | split (b : Branch) (f : Nat) (test : Bool)
  | setData (v : View) (test : Bool)
  | disable

/-- The splitter together with the current training and test data. -/
structure SplitState where
  s : Splitter
  train : View
  test : View

/-- Run one use; a split asks for the data of its path, the way the search and the evaluation do. The result of a
split is returned. -/
def SplitState.step (st : SplitState) : SplitOp → Option (View × View) × SplitState
  | .split b f test =>
    let r := st.s.split ((if test then st.test else st.train).sel b) b f test
    (some r.1, { st with s := r.2 })
  | .setData v test =>
    (none, if test then { st with s := st.s.clear true, test := v } else { st with s := st.s.clear false, train := v })
  | .disable => (none, { st with s := st.s.disable })

/-- What a split has to return: the data of the two child paths of the current data. -/
def SplitState.expected (st : SplitState) : SplitOp → Option (View × View)
  | .split b f test => let v := if test then st.test else st.train; some (v.sel (b.child f false), v.sel (b.child f true))
  | _ => none

/-- Every remembered split is the split of the current data. -/
def SplitState.Inv (st : SplitState) : Prop :=
  (∀ p ∈ st.s.train, p.2 = (st.train.sel (p.1.1.child p.1.2 false), st.train.sel (p.1.1.child p.1.2 true))) ∧
  (∀ p ∈ st.s.test, p.2 = (st.test.sel (p.1.1.child p.1.2 false), st.test.sel (p.1.1.child p.1.2 true)))

theorem Splitter.look_some {m : List ((Branch × Nat) × (View × View))} {k : Branch × Nat} {r : View × View}
    (h : Splitter.look m k = some r) : (k, r) ∈ m := by
  unfold look at h
  cases hf : m.find? (fun p => decide (p.1 = k)) with
  | none => rw [hf] at h; cases h
  | some p =>
    rw [hf] at h
    have h1 := List.mem_of_find?_eq_some hf
    have h2 := List.find?_some hf
    simp only [decide_eq_true_eq] at h2
    cases h
    rw [← h2]
    exact h1

theorem SplitState.step_ok (st : SplitState) (o : SplitOp) (h : st.Inv) :
    (st.step o).1 = st.expected o ∧ (st.step o).2.Inv := by
  cases o with
  | split b f test =>
    simp only [step, expected, Splitter.split]
    split
    · split
      · rename_i r hr
        have hm := Splitter.look_some hr
        cases test
        · exact ⟨congrArg some (h.1 _ hm), h⟩
        · exact ⟨congrArg some (h.2 _ hm), h⟩
      · rw [split_path]
        refine ⟨rfl, ?_⟩
        cases test
        · refine ⟨fun p hp => ?_, h.2⟩
          rcases List.mem_cons.1 hp with rfl | hp
          · rfl
          · exact h.1 p hp
        · refine ⟨h.1, fun p hp => ?_⟩
          rcases List.mem_cons.1 hp with rfl | hp
          · rfl
          · exact h.2 p hp
    · rw [split_path]
      exact ⟨rfl, h⟩
  | setData v test =>
    simp only [step, expected, Splitter.clear]
    cases test
    · exact ⟨trivial, fun p hp => by simp at hp, h.2⟩
    · exact ⟨trivial, h.1, fun p hp => by simp at hp⟩
  | disable => exact ⟨rfl, h⟩

/-- Run a list of uses and collect the results. -/
def SplitState.run (st : SplitState) : List SplitOp → List (Option (View × View)) × SplitState
  | [] => ([], st)
  | o :: os => let r := st.step o; let rs := r.2.run os; (r.1 :: rs.1, rs.2)

/-- The results that are expected from a list of uses. -/
def SplitState.expectedRun (st : SplitState) : List SplitOp → List (Option (View × View))
  | [] => []
  | o :: os => st.expected o :: (st.step o).2.expectedRun os

/-- C27: over any history of splits and changes of data, remembering earlier splits never changes a result. -/
theorem splitter_exact (ops : List SplitOp) (v w : View) :
    (SplitState.run ⟨Splitter.init, v, w⟩ ops).1 = SplitState.expectedRun ⟨Splitter.init, v, w⟩ ops := by
  have key : ∀ (ops : List SplitOp) (st : SplitState), st.Inv → (st.run ops).1 = st.expectedRun ops := by
    intro ops
    induction ops with
    | nil => exact fun _ _ => rfl
    | cons o os ih =>
      intro st h
      have := st.step_ok o h
      simp only [SplitState.run, SplitState.expectedRun]
      rw [this.1, ih _ this.2]
  exact key ops _ ⟨fun p hp => by simp [Splitter.init] at hp, fun p hp => by simp [Splitter.init] at hp⟩

/-- Without clearing, the claim fails: the second split still gives the first data. This is what happens when the
test data change but are taken for the same (`Props/Session.lean`). -/
theorem splitter_needs_clear : ∃ (v w : View) (b : Branch) (f : Nat),
    let s1 := (Splitter.init.split v b f true).2
    (s1.split w b f true).1.1.size ≠ (w.split f).1.size :=
  ⟨View.ofGroups [[⟨0, fun _ => true, 0⟩]], View.ofGroups [[⟨0, fun _ => false, 0⟩]], [], 0, by decide⟩

/-- Three instances in two label groups. -/
def exView : View := View.ofGroups [[⟨0, fun f => f == 0, 0⟩, ⟨2, fun f => f == 1, 0⟩], [⟨1, fun f => f == 0, 1⟩]]

example : exView.OK ∧ ((exView.split 0).1.groups.map fun g => g.map (·.id)) = [[2], []] ∧
    ((exView.split 0).2.groups.map fun g => g.map (·.id)) = [[0], [1]] := by
  refine ⟨View.ofGroups_size _, by decide, by decide⟩

/-- A history with a repeated split. -/
example : ((SplitState.run ⟨Splitter.init, exView, exView⟩ [.split [] 0 false, .split [] 0 false]).1.map
    fun r => r.map fun p => (p.1.size, p.2.size)) = [some (1, 2), some (1, 2)] := by decide

end Streed
