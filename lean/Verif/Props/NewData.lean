import Verif.Model.NewData
import Verif.Props.Sensitive
import Verif.Props.TestScore

/-!
# C100: new data are read like the training data

After `fit`, the columns of new data become the same features as the columns of the training data. For a data frame this must not depend on
the order of its columns, nor on further columns, for they have names; for an array it is the position that counts. All methods of an
estimator must agree in this.
-/

namespace Streed

/-- Data frames in which the remembered columns are the same give the same features. -/
theorem features_congr (B : ColumnMemory) (X Y : Frame)
    (h : ∀ n ∈ B.bin ++ (B.cat ++ B.cont), (X.find? fun c => c.name == n) = Y.find? fun c => c.name == n) :
    (UserData.frame X).features B = (UserData.frame Y).features B := by
  have hs : ∀ ns : List Nat, (∀ n ∈ ns, n ∈ B.bin ++ (B.cat ++ B.cont)) → byName X ns = byName Y ns := by
    intro ns hns
    unfold byName
    induction ns with
    | nil => rfl
    | cons n ns ih =>
      rw [List.mapM_cons, List.mapM_cons, h n (hns n (List.mem_cons_self ..)), ih fun m hm => hns m (List.mem_cons_of_mem _ hm)]
  unfold UserData.features transformCols
  dsimp only
  rw [hs B.bin fun n hn => List.mem_append_left _ hn,
    hs B.cat fun n hn => List.mem_append_right _ (List.mem_append_left _ hn),
    hs B.cont fun n hn => List.mem_append_right _ (List.mem_append_right _ hn)]

theorem find_name_perm {X Y : Frame} (hX : (X.map Column.name).Nodup) (h : Y.Perm X) (n : Nat) :
    (Y.find? fun c => c.name == n) = X.find? fun c => c.name == n := by
  have hY : (Y.map Column.name).Nodup := (h.map _).nodup_iff.2 hX
  have key : ∀ (Z W : Frame), (W.map Column.name).Nodup → (∀ c, c ∈ Z → c ∈ W) →
      ∀ c, (Z.find? fun c => c.name == n) = some c → (W.find? fun c => c.name == n) = some c := by
    intro Z W hW hs c hc
    have hm := hs c (List.mem_of_find?_eq_some hc)
    have hn : c.name = n := by simpa using List.find?_some hc
    cases hw : W.find? fun c => c.name == n with
    | none =>
      have := List.find?_eq_none.1 hw c hm
      simp [hn] at this
    | some d =>
      have hd : d.name = n := by simpa using List.find?_some hw
      have := List.inj_on_of_nodup_map hW (List.mem_of_find?_eq_some hw) hm (hd.trans hn.symm)
      rw [this]
  cases hc : Y.find? fun c => c.name == n with
  | some c => exact (key Y X hX (fun c hc => h.mem_iff.1 hc) c hc).symm
  | none =>
    cases hx : X.find? fun c => c.name == n with
    | none => rfl
    | some c =>
      rw [key X Y hY (fun c hc => h.mem_iff.2 hc) c hx] at hc
      cases hc

/-- C100 for data frames: the order of the columns does not matter. -/
theorem frame_order_free (B : ColumnMemory) {X Y : Frame} (hX : (X.map Column.name).Nodup) (h : Y.Perm X) :
    (UserData.frame Y).features B = (UserData.frame X).features B :=
  features_congr B Y X fun n _ => find_name_perm hX h n

/-- C100 for data frames: columns that the training data did not have do not matter, wherever they stand. -/
theorem frame_extra_columns (B : ColumnMemory) (X : Frame) (p : Column → Bool)
    (h : ∀ c ∈ X, p c = false → c.name ∉ B.bin ++ (B.cat ++ B.cont)) :
    (UserData.frame (X.filter p)).features B = (UserData.frame X).features B := by
  apply features_congr
  intro n hn
  rw [List.find?_filter]
  induction X with
  | nil => rfl
  | cons c X ih =>
    have ih := ih fun d hd => h d (List.mem_cons_of_mem _ hd)
    by_cases hc : c.name = n
    · have : p c = true := by
        cases hp : p c with
        | true => rfl
        | false => exact absurd (hc ▸ hn) (h c (List.mem_cons_self ..) hp)
      simp [hc, this]
    · simpa [List.find?_cons, hc] using ih

/-- C100 for the fairness classifier on data frames: `predict` and `score`, which move the sensitive column, and `get_question_length`,
which does not, apply the tree to the same features. -/
theorem fair_frame_agree (s : Sensitive) (B : ColumnMemory) {X : Frame} (hX : (X.map Column.name).Nodup)
    (hm : moveFirstFrame s X ≠ none) : fairFeatures s B (.frame X) = fairAskFeatures B (.frame X) := by
  obtain ⟨Y, hY⟩ := Option.ne_none_iff_exists'.1 hm
  unfold fairFeatures fairAskFeatures UserData.moved
  dsimp only
  rw [hY]
  exact frame_order_free B hX (moveFirstFrame_perm hX hY)

/-- C100 for the fairness classifier on arrays whose first column is the sensitive one. -/
theorem fair_array_first_agree (B : ColumnMemory) (X : Frame) :
    fairFeatures (.index 0) B (.array X) = fairAskFeatures B (.array X) := rfl

/-- The training data themselves: the features that `predict` sees are those of the moved frame, binary columns first. -/
theorem predict_training_frame (s : Sensitive) (l : Frame → (Frame → List (List Bool)) × (Frame → List (List Bool))) {X Y : Frame}
    (hX : (X.map Column.name).Nodup) (hY : moveFirstFrame s X = some Y) :
    ∃ B, fairMemory s l (.frame X) = some B ∧ fairFeatures s B (.frame X) =
      some ((Y.filter Column.binary).map (fun c => c.vals.map asBit) ++
        ((l Y).1 (Y.filter fun c => !c.numeric) ++ (l Y).2 (Y.filter fun c => c.numeric && !c.binary))) := by
  have hYn : (Y.map Column.name).Nodup := ((moveFirstFrame_perm hX hY).map _).nodup_iff.2 hX
  refine ⟨learnFrame l Y, by simp [fairMemory, UserData.moved, hY, UserData.learn], ?_⟩
  have sel : ∀ p : Column → Bool, byName Y ((Y.filter p).map (·.name)) = some (Y.filter p) := by
    intro p
    have : ∀ Z : Frame, (∀ c ∈ Z, c ∈ Y) → byName Y (Z.map (·.name)) = some Z := by
      intro Z hZ
      unfold byName
      induction Z with
      | nil => rfl
      | cons c Z ih =>
        have hf : (Y.find? fun d => d.name == c.name) = some c := by
          cases hw : Y.find? fun d => d.name == c.name with
          | none => simpa using List.find?_eq_none.1 hw c (hZ c (List.mem_cons_self ..))
          | some d =>
            have hd : d.name = c.name := by simpa using List.find?_some hw
            rw [List.inj_on_of_nodup_map hYn (List.mem_of_find?_eq_some hw) (hZ c (List.mem_cons_self ..)) hd]
        rw [List.map_cons, List.mapM_cons, hf, ih fun d hd => hZ d (List.mem_cons_of_mem _ hd)]
        rfl
    exact this _ fun c hc => (List.mem_filter.1 hc).1
  unfold fairFeatures UserData.moved
  dsimp only
  rw [hY]
  show transformCols (byName Y) (learnFrame l Y) = _
  unfold transformCols learnFrame columnTypes
  dsimp only
  rw [sel, sel, sel]
  rfl

/-- The number of questions that the tree asks in `predict`, on average, plus one for the leaf (see C89). -/
def askedByPredict (s : Sensitive) (B : ColumnMemory) (t : Tree) (X : UserData) (n : Nat) : Option Rat :=
  (fairFeatures s B X).map fun F =>
    (((featRows F (List.replicate n 0)).map fun i => t.asked i).sum : Nat) / (n : Rat) + 1

theorem asked_featRows (t : Tree) (F : List (List Bool)) (y z : List Nat) (h : y.length = z.length) :
    ((featRows F y).map fun i => t.asked i) = (featRows F z).map fun i => t.asked i := by
  have hc : ∀ (t : Tree) (i j : Inst), i.feat = j.feat → t.asked i = t.asked j := by
    intro t i j hf
    induction t with
    | leaf k => rfl
    | node f l r ihl ihr => simp only [Tree.asked, hf, ihl, ihr]
  unfold featRows
  rw [List.map_map, List.map_map, h]
  apply List.map_congr_left
  intro i _
  exact hc t _ _ rfl

/-- The full claim for the fairness classifier: the reported question length is that of the predictions. -/
def QuestionLengthOfPredict : Prop :=
  ∀ (fl : List Nat) (s : Sensitive) (B : ColumnMemory) (t : Tree) (X : UserData) (y : List Nat), y ≠ [] → X.moved s ≠ none →
    fairAsk fl B (Obj.ofTree t) X y = askedByPredict s B t X y.length

/-- C100 for the reported question length. Missing: arrays whose sensitive column is not the first, where the claim is false. -/
theorem question_length_partial (fl : List Nat) (s : Sensitive) (B : ColumnMemory) (t : Tree) (y : List Nat) (hy : y ≠ []) (X : UserData)
    (h : (∃ Z, X = .frame Z ∧ (Z.map Column.name).Nodup ∧ moveFirstFrame s Z ≠ none) ∨ ∃ Z, X = .array Z ∧ s = .index 0) :
    fairAsk fl B (Obj.ofTree t) X y = askedByPredict s B t X y.length := by
  have e : fairFeatures s B X = fairAskFeatures B X := by
    rcases h with ⟨Z, rfl, hZ, hm⟩ | ⟨Z, rfl, rfl⟩
    · exact fair_frame_agree s B hZ hm
    · rfl
  unfold fairAsk askedByPredict
  rw [e]
  cases fairAskFeatures B X with
  | none => rfl
  | some F =>
    have hr : featRows F y ≠ [] := by
      unfold featRows
      intro h0
      have := congrArg List.length h0
      simp at this
      exact hy this
    rw [Option.bind_some, Option.map_some, question_length fl t _ hr, asked_featRows t F y (List.replicate y.length 0) (by simp)]
    congr 3
    simp [featRows]

/-! ### The witness -/

/-- Binarisers for data without categorical and continuous columns. -/
def noLearn : Frame → (Frame → List (List Bool)) × (Frame → List (List Bool)) := fun _ => (fun _ => [], fun _ => [])

/-- An array with two binary columns; the second one is the sensitive one. -/
def twoColumns : Frame := [⟨0, true, [0, 0, 0, 1]⟩, ⟨1, true, [1, 1, 1, 0]⟩]

/-- What the binariser remembers after `fit` with `sensitive_feature=1`. -/
def twoMemory : ColumnMemory := ⟨[0, 1], [], [], fun _ => [], fun _ => []⟩

/-- The tree asks for the other feature if the first one is set. -/
def askTwice : Tree := .node 0 (.leaf 0) (.node 1 (.leaf 1) (.leaf 0))

theorem twoMemory_learnt : (fairMemory (.index 1) noLearn (.array twoColumns)).map (fun B => (B.bin, B.cat, B.cont)) =
    some (twoMemory.bin, twoMemory.cat, twoMemory.cont) := by decide +kernel

/-- C100 fails: on the very array the classifier was fitted on, three of the four predictions take two questions and one takes one, so the
length is 1 + 7/4; `get_question_length`, which reads the columns unmoved, reports 1 + 5/4. -/
theorem question_length_wrong : askedByPredict (.index 1) twoMemory askTwice (.array twoColumns) 4 = some (11 / 4) ∧
    fairAsk [] twoMemory (Obj.ofTree askTwice) (.array twoColumns) [0, 1, 0, 1] = some (9 / 4) := by
  decide +kernel

/-- The full claim is false. -/
theorem question_length_differs : ¬ QuestionLengthOfPredict := by
  intro h
  have := h [] (.index 1) twoMemory askTwice (.array twoColumns) [0, 1, 0, 1] (by decide) (by decide +kernel)
  rw [question_length_wrong.2, show [0, 1, 0, 1].length = 4 from rfl, question_length_wrong.1] at this
  revert this
  decide +kernel

/-! ### Instances -/

/-- The same columns in a data frame, in another order and with one more column: the same features. -/
example : (UserData.frame [⟨1, true, [1, 1, 1, 0]⟩, ⟨7, true, [3, 4, 5, 6]⟩, ⟨0, true, [0, 0, 0, 1]⟩]).features twoMemory =
    some [[false, false, false, true], [true, true, true, false]] := by decide +kernel

example : (twoColumns.map Column.name).Nodup ∧ moveFirstFrame (.index 1) twoColumns ≠ none := by decide +kernel

end Streed
