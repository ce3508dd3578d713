import Verif.Model.Sensitive
import Mathlib.Tactic.Common
import Mathlib.Data.List.Nodup
import Mathlib.Data.List.Induction

/-!
# C73: the fairness limit is applied to the sensitive column

Holds for a sensitive column with values 0 and 1. Other columns are put behind the binary columns, and the limit is applied to one of those.
-/

namespace Streed

variable (cat cont : Column → List (List Bool))

/-- The binarised data start with the first binary column. -/
theorem measured_binary {X : Frame} {c : Column} (h : (X.filter Column.binary).head? = some c) :
    measured (binariseFrame cat cont X) = some ⟨c.name, c.vals.map fun v => v == 1⟩ := by
  unfold measured binariseFrame columnTypes
  dsimp only
  cases hX : X.filter Column.binary with
  | nil => rw [hX] at h; cases h
  | cons d l =>
    rw [hX] at h
    injection h with h
    subst h
    rfl

/-- If the first column of a frame is binary, the limit is applied to it. -/
theorem measured_first (c : Column) (X : Frame) (h : c.binary = true) :
    measured (binariseFrame cat cont (c :: X)) = some ⟨c.name, c.vals.map fun v => v == 1⟩ := by
  apply measured_binary
  rw [List.filter_cons_of_pos h]
  rfl

/-- If the first column is not binary but another one is, the limit is applied to another column. -/
theorem measured_other {c : Column} {X : Frame} (h : c.binary = false) (hd : ∃ d ∈ X, d.binary = true) :
    ∃ d ∈ X, d.binary = true ∧ measured (binariseFrame cat cont (c :: X)) = some ⟨d.name, d.vals.map fun v => v == 1⟩ := by
  have hne : X.filter Column.binary ≠ [] := by
    obtain ⟨d, hd, hb⟩ := hd
    exact List.ne_nil_of_mem (List.mem_filter.2 ⟨hd, hb⟩)
  obtain ⟨d, l, hl⟩ := List.exists_cons_of_ne_nil hne
  have hm : d ∈ X.filter Column.binary := by rw [hl]; exact List.mem_cons_self ..
  refine ⟨d, (List.mem_filter.1 hm).1, (List.mem_filter.1 hm).2, measured_binary cat cont ?_⟩
  rw [List.filter_cons_of_neg (by simp [h]), hl]
  rfl

/-! ### Names -/

theorem moveFirstFrame_name {X : Frame} {c : Column} (hX : (X.map Column.name).Nodup) (hc : c ∈ X) :
    moveFirstFrame (.name c.name) X = some (popInsert X c) := by
  unfold moveFirstFrame
  have : X.find? (fun d => d.name == c.name) = some c := by
    induction X with
    | nil => cases hc
    | cons d X ih =>
      rw [List.map_cons, List.nodup_cons] at hX
      rcases List.mem_cons.1 hc with rfl | hc
      · rw [List.find?_cons_of_pos (by simp)]
      · rw [List.find?_cons_of_neg, ih hX.2 hc]
        simp only [beq_iff_eq]
        intro he
        exact hX.1 (by rw [he]; exact List.mem_map_of_mem hc)
  dsimp only
  rw [this]
  rfl

/-- C73 for a data frame and a name: if the named column has only the values 0 and 1, the limit is applied to it, and its values are kept. -/
theorem named_column_measured {X : Frame} {c : Column} (hX : (X.map Column.name).Nodup) (hc : c ∈ X) (hb : c.binary = true) :
    (fairFit cat cont (moveFirstFrame (.name c.name) X) false).bind measured = some ⟨c.name, c.vals.map fun v => v == 1⟩ := by
  unfold fairFit
  rw [moveFirstFrame_name hX hc]
  exact measured_first cat cont c _ hb

/-- A second fit on the same frame, which the first fit has changed, is applied to the same column. -/
theorem named_column_again {X Y : Frame} {c : Column} (hX : (X.map Column.name).Nodup) (hc : c ∈ X)
    (h : moveFirstFrame (.name c.name) X = some Y) : moveFirstFrame (.name c.name) Y = some Y := by
  rw [moveFirstFrame_name hX hc] at h
  injection h with h
  subst h
  unfold moveFirstFrame popInsert
  dsimp only
  rw [List.find?_cons_of_pos (by simp)]
  simp only [Option.map_some]
  rw [List.filter_cons_of_neg (by simp), List.filter_filter]
  simp

/-! ### Positions -/

theorem pyIndex_nat {n j : Nat} (h : j < n) : pyIndex n (j : Int) = some j := by
  unfold pyIndex
  rw [if_pos (Int.natCast_nonneg j), Int.toNat_natCast, if_pos h]

/-- C73 for a data frame and a position that has not been used before. -/
theorem indexed_column_measured {X : Frame} {j : Nat} {c : Column} (hj : X[j]? = some c) (hb : c.binary = true) :
    (fairFit cat cont (moveFirstFrame (.index j) X) false).bind measured = some ⟨c.name, c.vals.map fun v => v == 1⟩ := by
  have hlt : j < X.length := (List.getElem?_eq_some_iff.1 hj).1
  unfold fairFit moveFirstFrame
  simp only [Bool.false_eq_true, if_false]
  by_cases h0 : j = 0
  · subst h0
    rw [if_pos (by rfl)]
    cases X with
    | nil => cases hj
    | cons d X =>
      simp only [List.getElem?_cons_zero, Option.some.injEq] at hj
      subst hj
      exact measured_first cat cont d X hb
  · rw [if_neg (by exact_mod_cast h0), pyIndex_nat hlt]
    simp only [hj]
    exact measured_first cat cont c _ hb

/-- C73 for an array and a position. The caller's array is not changed, so this holds for every fit. -/
theorem array_column_measured {X : Frame} {j : Nat} {c : Column} (hj : X[j]? = some c) (hb : c.binary = true) :
    (fairFit cat cont (moveFirstArray (.index j) X) false).bind measured = some ⟨c.name, c.vals.map fun v => v == 1⟩ := by
  have hlt : j < X.length := (List.getElem?_eq_some_iff.1 hj).1
  unfold fairFit moveFirstArray
  simp only [Bool.false_eq_true, if_false]
  by_cases h0 : j = 0
  · subst h0
    rw [if_pos (by rfl)]
    cases X with
    | nil => cases hj
    | cons d X =>
      simp only [List.getElem?_cons_zero, Option.some.injEq] at hj
      subst hj
      exact measured_first cat cont d X hb
  · rw [if_neg (by exact_mod_cast h0)]
    have key : ∀ idx : List Int, (∀ i ∈ idx, ∃ k, k < X.length ∧ i = (k : Int)) → ∃ Y, takeColumns X idx = some Y := by
      intro idx
      induction idx with
      | nil => exact fun _ => ⟨[], rfl⟩
      | cons i idx ih =>
        intro h
        obtain ⟨Y, hY⟩ := ih fun i hi => h i (List.mem_cons_of_mem _ hi)
        obtain ⟨k, hk, rfl⟩ := h i (List.mem_cons_self ..)
        unfold takeColumns at hY ⊢
        refine ⟨X[k] :: Y, ?_⟩
        rw [List.mapM_cons, pyIndex_nat hk]
        simp only [Option.bind_eq_bind, Option.bind_some, List.getElem?_eq_getElem hk, hY]
        rfl
    obtain ⟨Y, hY⟩ := key (pyRange 0 j ++ pyRange (j + 1) X.length) (by
      intro i hi
      rcases List.mem_append.1 hi with hi | hi
      · obtain ⟨k, hk, rfl⟩ := List.mem_map.1 hi
        have := List.mem_range.1 hk
        exact ⟨k, by omega, by omega⟩
      · obtain ⟨k, hk, rfl⟩ := List.mem_map.1 hi
        have := List.mem_range.1 hk
        exact ⟨j + 1 + k, by omega, by push_cast; omega⟩)
    have e : takeColumns X ((j : Int) :: (pyRange 0 j ++ pyRange (j + 1) X.length)) = some (c :: Y) := by
      unfold takeColumns at hY ⊢
      rw [List.mapM_cons, pyIndex_nat hlt]
      simp only [Option.bind_eq_bind, Option.bind_some, hj, hY]
      rfl
    rw [e]
    exact measured_first cat cont c Y hb

/-! ### Nothing is lost -/

theorem popInsert_perm {X : Frame} {c : Column} (hX : (X.map Column.name).Nodup) (hc : c ∈ X) : (popInsert X c).Perm X := by
  unfold popInsert
  induction X with
  | nil => cases hc
  | cons d X ih =>
    rw [List.map_cons, List.nodup_cons] at hX
    by_cases hd : d = c
    · subst hd
      rw [List.filter_cons_of_neg (by simp)]
      have : X.filter (fun e => e.name != d.name) = X := by
        rw [List.filter_eq_self]
        intro e he
        simp only [bne_iff_ne, ne_eq]
        intro h
        exact hX.1 (by rw [← h]; exact List.mem_map_of_mem he)
      rw [this]
    · have hc' : c ∈ X := (List.mem_cons.1 hc).resolve_left fun h => hd h.symm
      have hne : d.name ≠ c.name := fun h => hX.1 (by rw [h]; exact List.mem_map_of_mem hc')
      rw [List.filter_cons_of_pos (by simpa using hne)]
      exact (List.Perm.swap ..).trans ((ih hX.2 hc').cons d)

/-- The frame that is fitted has the columns of the given one, each once. -/
theorem moveFirstFrame_perm {X Y : Frame} {s : Sensitive} (hX : (X.map Column.name).Nodup) (h : moveFirstFrame s X = some Y) : Y.Perm X := by
  unfold moveFirstFrame at h
  cases s with
  | index i =>
    dsimp only at h
    split at h
    · injection h with h; subst h; exact List.Perm.refl _
    · split at h
      · cases h
      · rename_i j _
        cases hj : X[j]? with
        | none => rw [hj] at h; cases h
        | some c =>
          rw [hj] at h
          injection h with h
          subst h
          exact popInsert_perm hX (List.mem_of_getElem? hj)
  | name n =>
    dsimp only at h
    cases hf : X.find? (fun c => c.name == n) with
    | none => rw [hf] at h; cases h
    | some c =>
      rw [hf] at h
      injection h with h
      subst h
      exact popInsert_perm hX (List.mem_of_find?_eq_some hf)

theorem takeColumns_nat (X : Frame) (idx : List Nat) (h : ∀ j ∈ idx, j < X.length) :
    takeColumns X (idx.map fun j : Nat => (j : Int)) = some (idx.filterMap fun j => X[j]?) := by
  unfold takeColumns
  induction idx with
  | nil => rfl
  | cons j idx ih =>
    have hj := h j (List.mem_cons_self ..)
    rw [List.map_cons, List.mapM_cons, pyIndex_nat hj, ih fun k hk => h k (List.mem_cons_of_mem _ hk)]
    simp only [Option.bind_eq_bind, Option.bind_some, List.getElem?_eq_getElem hj, List.filterMap_cons]
    rfl

theorem range_filterMap (X : Frame) : (List.range X.length).filterMap (fun j => X[j]?) = X := by
  induction X using List.reverseRecOn with
  | nil => rfl
  | append_singleton X c ih =>
    rw [List.length_append, List.length_singleton, List.range_succ, List.filterMap_append]
    have e : (List.range X.length).filterMap (fun j => (X ++ [c])[j]?) = (List.range X.length).filterMap (fun j => X[j]?) := by
      apply List.filterMap_congr
      intro j hj
      rw [List.getElem?_append_left (List.mem_range.1 hj)]
    rw [e, ih]
    simp

/-- The array that is fitted has the columns of the given one, each once, if the position is not negative. -/
theorem moveFirstArray_perm {X : Frame} {j : Nat} (hj : j < X.length) : ∃ Y, moveFirstArray (.index j) X = some Y ∧ Y.Perm X := by
  unfold moveFirstArray
  dsimp only
  by_cases h0 : (j : Int) = 0
  · rw [if_pos h0]; exact ⟨X, rfl, List.Perm.refl _⟩
  · rw [if_neg h0]
    have e : ((j : Int) :: (pyRange 0 j ++ pyRange (j + 1) X.length)) =
        (j :: (List.range j ++ (List.range (X.length - (j + 1))).map fun k => j + 1 + k)).map fun j : Nat => (j : Int) := by
      unfold pyRange
      rw [List.map_cons, List.map_append, List.map_map]
      congr 2
      · simp
      · have : ((X.length : Int) - (j + 1)).toNat = X.length - (j + 1) := by omega
        rw [this]
        apply List.map_congr_left
        intro k _
        simp
    rw [e, takeColumns_nat]
    · refine ⟨_, rfl, ?_⟩
      have hp : (j :: (List.range j ++ (List.range (X.length - (j + 1))).map fun k => j + 1 + k)).Perm (List.range X.length) := by
        have h1 : List.range X.length = List.range j ++ (j :: (List.range (X.length - (j + 1))).map fun k => j + 1 + k) := by
          have h2 : X.length = (j + 1) + (X.length - (j + 1)) := by omega
          conv_lhs => rw [h2]
          rw [List.range_add, List.range_succ]
          simp
        rw [h1]
        exact List.perm_middle.symm
      have := hp.filterMap fun j => X[j]?
      rwa [range_filterMap] at this
    · intro k hk
      rcases List.mem_cons.1 hk with rfl | hk
      · exact hj
      · rcases List.mem_append.1 hk with hk | hk
        · have := List.mem_range.1 hk; omega
        · obtain ⟨m, hm, rfl⟩ := List.mem_map.1 hk
          have := List.mem_range.1 hm; omega

/-! ### Where it fails -/

/-- A sensitive column with other values than 0 and 1, for example words or 1 and 2, is put behind the binary columns. If there are any, the
limit is applied to another column, whichever column that is named. -/
theorem other_column_measured {X : Frame} {c : Column} (hX : (X.map Column.name).Nodup) (hc : c ∈ X) (hb : c.binary = false)
    (hd : ∃ d ∈ X, d.binary = true) :
    ∃ m, (fairFit cat cont (moveFirstFrame (.name c.name) X) false).bind measured = some m ∧ m.source ≠ c.name := by
  unfold fairFit
  rw [moveFirstFrame_name hX hc]
  obtain ⟨d, hd, hdb⟩ := hd
  have hne : d.name ≠ c.name := by
    intro he
    have : d = c := List.inj_on_of_nodup_map hX hd hc he
    rw [this, hb] at hdb
    cases hdb
  obtain ⟨e, he, _, hm⟩ := measured_other cat cont (X := X.filter fun d => d.name != c.name) hb
    ⟨d, List.mem_filter.2 ⟨hd, by simpa using hne⟩, hdb⟩
  exact ⟨_, hm, by simpa using (List.mem_filter.1 he).2⟩

/-- With a position, every fit on a data frame changes the frame. The next fit on it is applied to the column that was before the sensitive one. -/
theorem second_fit_other_column {X Y : Frame} {j : Nat} (hX : (X.map Column.name).Nodup) (hj : j + 1 < X.length)
    (h : moveFirstFrame (.index (j + 1 : Nat)) X = some Y) :
    ∃ Z, moveFirstFrame (.index (j + 1 : Nat)) Y = some Z ∧ Z.head? = some (X[j]'(by omega)) := by
  unfold moveFirstFrame at h
  dsimp only at h
  rw [if_neg (by exact_mod_cast Nat.succ_ne_zero j), pyIndex_nat hj] at h
  simp only [List.getElem?_eq_getElem hj, Option.map_some, Option.some.injEq] at h
  have hf : X.filter (fun d => d.name != X[j + 1].name) = X.take (j + 1) ++ X.drop (j + 2) := by
    have hsplit : X = X.take (j + 1) ++ X[j + 1] :: X.drop (j + 2) := by
      rw [List.getElem_cons_drop, List.take_append_drop]
    have hnd : (X.take (j + 1) ++ X[j + 1] :: X.drop (j + 2)).map Column.name |>.Nodup := by rw [← hsplit]; exact hX
    rw [List.map_append, List.map_cons, List.nodup_append] at hnd
    obtain ⟨_, h2, h3⟩ := hnd
    rw [List.nodup_cons] at h2
    rw [show X.filter (fun d => d.name != X[j + 1].name) =
      (X.take (j + 1) ++ X[j + 1] :: X.drop (j + 2)).filter (fun d => d.name != X[j + 1].name) from congrArg _ hsplit]
    rw [List.filter_append, List.filter_cons_of_neg (by simp)]
    congr 1
    · rw [List.filter_eq_self]
      intro d hd
      have := h3 d.name (List.mem_map_of_mem hd) X[j + 1].name (List.mem_cons_self ..)
      simpa using this
    · rw [List.filter_eq_self]
      intro d hd
      simp only [bne_iff_ne, ne_eq]
      intro he
      exact h2.1 (by rw [← he]; exact List.mem_map_of_mem hd)
  have hlen : j + 1 < Y.length := by
    rw [← h]
    unfold popInsert
    rw [hf]
    simp
    omega
  have hget : Y[j + 1]? = some (X[j]'(by omega)) := by
    rw [← h]
    unfold popInsert
    rw [hf, List.getElem?_cons_succ, List.getElem?_append_left (by simp; omega), List.getElem?_take_of_lt (by omega)]
    exact List.getElem?_eq_getElem (by omega)
  unfold moveFirstFrame
  dsimp only
  rw [if_neg (by exact_mod_cast Nat.succ_ne_zero j), pyIndex_nat hlen]
  simp only [hget, Option.map_some]
  exact ⟨_, rfl, rfl⟩

/-- A negative position of an array: the sensitive column is put first but also stays where it was, where the tree may test it. -/
theorem negative_position_keeps_column : ∃ X : Frame, (X.map Column.name).Nodup ∧
    (moveFirstArray (.index (-1)) X).map (fun Y => Y.map Column.name) = some [2, 0, 1, 2] :=
  ⟨[⟨0, true, [0, 1]⟩, ⟨1, true, [1, 1]⟩, ⟨2, true, [1, 0]⟩], by decide, by decide +kernel⟩

/-- A list of categorical columns always makes `fit` raise. -/
theorem categorical_raises (moved : Option Frame) : fairFit cat cont moved true = none := rfl

/-! ### The hypotheses are met -/

/-- A frame with a continuous column, a binary one, and a sensitive one with two values. -/
def fairFrame (a b : Rat) : Frame := [⟨0, true, [3, 7, 9]⟩, ⟨1, true, [0, 1, 1]⟩, ⟨2, true, [a, b, a]⟩]

example : ((fairFrame 0 1).map Column.name).Nodup ∧ (⟨2, true, [0, 1, 0]⟩ : Column) ∈ fairFrame 0 1 ∧ (⟨2, true, [0, 1, 0]⟩ : Column).binary = true ∧
    (fairFrame 0 1)[2]? = some ⟨2, true, [0, 1, 0]⟩ := by decide +kernel

example : ((fairFrame 1 2).map Column.name).Nodup ∧ (⟨2, true, [1, 2, 1]⟩ : Column) ∈ fairFrame 1 2 ∧ (⟨2, true, [1, 2, 1]⟩ : Column).binary = false ∧
    ∃ d ∈ fairFrame 1 2, d.binary = true := by
  refine ⟨by decide, by decide +kernel, by decide +kernel, ⟨1, true, [0, 1, 1]⟩, by decide +kernel, by decide +kernel⟩

example : (fairFit (fun _ => []) (fun _ => []) (moveFirstFrame (.name 2) (fairFrame 1 2)) false).bind measured = some ⟨1, [false, true, true]⟩ := by
  decide +kernel

example : ∃ Y, moveFirstFrame (.index (1 + 1 : Nat)) (fairFrame 0 1) = some Y ∧ Y.map Column.name = [2, 0, 1] := ⟨_, rfl, by decide +kernel⟩

end Streed
