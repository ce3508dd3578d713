import Verif.Model.RegFit
import Verif.Lemmas.Shallow
import Verif.Props.Preprocess
import Verif.Props.KMeans

/-!
Merging by features: trees cost the same on the merged instances as on the instances they were merged from.
-/

namespace Streed

theorem runsOf_spec (E : List EInst) : (runsOf E).flatten = E ∧ (∀ r ∈ runsOf E, r ≠ []) ∧
    ∀ r ∈ runsOf E, ∀ a ∈ r, ∀ b ∈ r, a.gid = b.gid := by
  induction E with
  | nil => simp [runsOf]
  | cons e l ih =>
    obtain ⟨h1, h2, h3⟩ := ih
    unfold runsOf
    cases hr : runsOf l with
    | nil =>
      rw [hr] at h1 h2 h3
      simp only [List.flatten_nil] at h1
      subst h1
      simp
    | cons r rs =>
      rw [hr] at h1 h2 h3
      cases r with
      | nil => exact absurd rfl (h2 [] (by simp))
      | cons a r =>
        dsimp only
        split
        · rename_i he
          refine ⟨by simpa using h1, ?_, ?_⟩
          · intro x hx
            rcases List.mem_cons.1 hx with rfl | hx
            · simp
            · exact h2 x (List.mem_cons_of_mem _ hx)
          · intro x hx
            rcases List.mem_cons.1 hx with rfl | hx
            · have key : ∀ c ∈ e :: a :: r, c.gid = a.gid := by
                intro c hc
                rcases List.mem_cons.1 hc with rfl | hc
                · exact he
                · exact h3 _ (by simp) c hc a (by simp)
              exact fun b hb c hc => (key b hb).trans (key c hc).symm
            · exact h3 x (List.mem_cons_of_mem _ hx)
        · refine ⟨by simpa using h1, ?_, ?_⟩
          · intro x hx
            rcases List.mem_cons.1 hx with rfl | hx
            · simp
            · exact h2 x hx
          · intro x hx
            rcases List.mem_cons.1 hx with rfl | hx
            · intro b hb c hc
              rw [List.mem_singleton.1 hb, List.mem_singleton.1 hc]
            · exact h3 x hx

/-- Runs of instances with increasing ids and the same features inside a run. -/
structure Runs (nF : Nat) (R : List (List EInst)) : Prop where
  ne : ∀ r ∈ R, r ≠ []
  ids : IdSorted (R.flatten.map (·.inst))
  gid : ∀ r ∈ R, ∀ a ∈ r, ∀ b ∈ r, a.gid = b.gid
  cross : ∀ a ∈ R.flatten, ∀ b ∈ R.flatten, a.gid = b.gid → ∀ f < nF, a.inst.feat f = b.inst.feat f

theorem Runs.same {nF : Nat} {R : List (List EInst)} (h : Runs nF R) (r : List EInst) (hr : r ∈ R) (a : EInst) (ha : a ∈ r)
    (b : EInst) (hb : b ∈ r) : ∀ f < nF, a.inst.feat f = b.inst.feat f :=
  h.cross a (List.mem_flatten.2 ⟨r, hr, ha⟩) b (List.mem_flatten.2 ⟨r, hr, hb⟩) (h.gid r hr a ha b hb)

theorem runs_groups (nF : Nat) (S : Data) : Runs nF (runsOf (assignGroups nF S)) := by
  obtain ⟨h1, h2, h3⟩ := runsOf_spec (assignGroups nF S)
  refine ⟨h2, by rw [h1]; exact assignGroups_ids nF S, h3, fun a ha b hb => ?_⟩
  rw [h1] at ha hb
  exact assignGroups_same nF S a ha b hb

section
variable {nF : Nat} {R : List (List EInst)} (hR : Runs nF R)
include hR

theorem merged_head {r : List EInst} (hr : r ∈ R) : ∃ e ∈ r, mergedInst r = { e.inst with label := 0 } := by
  cases r with
  | nil => exact absurd rfl (hR.ne _ hr)
  | cons e r => exact ⟨e, by simp, rfl⟩

theorem merged_sorted : IdSorted (R.map mergedInst) := by
  have h := hR.ids
  unfold IdSorted at h ⊢
  rw [List.pairwise_map] at h ⊢
  rw [List.pairwise_flatten] at h
  refine h.2.imp_of_mem fun {a b} ha hb hab => ?_
  obtain ⟨x, hx, e1⟩ := merged_head hR ha
  obtain ⟨y, hy, e2⟩ := merged_head hR hb
  rw [e1, e2]
  exact hab x hx y hy

theorem rowsWith_merged {r : List EInst} (hr : r ∈ R) : rowsWith R (mergedInst r).id = r := by
  have hs := merged_sorted hR
  unfold rowsWith
  clear hR
  induction R with
  | nil => simp at hr
  | cons x R ih =>
    unfold IdSorted at hs
    rw [List.map_cons, List.pairwise_cons] at hs
    rw [List.find?_cons]
    rcases List.mem_cons.1 hr with rfl | hr
    · simp
    · have h2 := hs.1 _ (List.mem_map.2 ⟨r, hr, rfl⟩)
      have h3 : ((mergedInst x).id == (mergedInst r).id) = false := by simpa using Nat.ne_of_lt h2
      rw [h3]
      exact ih hr hs.2

/-- The instances behind a view of the merged ones. -/
def expand (R : List (List EInst)) (D : Data) : Data := D.flatMap fun i => (rowsWith R i.id).map (·.inst)

omit hR in
theorem leafCost_expand (P : Problem) (D : Data) (k : Nat) :
    leafCost (mergedProblem P R) D k = leafCost P (expand R D) k := by
  induction D with
  | nil => rfl
  | cons i D ih =>
    unfold leafCost expand at ih ⊢
    rw [List.map_cons, List.sum_cons, ih, List.flatMap_cons, List.map_append, List.sum_append, List.map_map]
    rfl

theorem expand_filter {D : Data} (hD : ∀ i ∈ D, i ∈ R.map mergedInst) {f : Nat} (hf : f < nF) (p : Bool → Bool) :
    (expand R D).filter (fun i => p (i.feat f)) = expand R (D.filter fun i => p (i.feat f)) := by
  induction D with
  | nil => rfl
  | cons i D ih =>
    have ih := ih fun j hj => hD j (List.mem_cons_of_mem _ hj)
    unfold expand at ih ⊢
    obtain ⟨r, hr, rfl⟩ := List.mem_map.1 (hD i (by simp))
    rw [List.flatMap_cons, List.filter_append, ih, rowsWith_merged hR hr, List.filter_cons]
    obtain ⟨e, he, e1⟩ := merged_head hR hr
    have hs : ∀ x ∈ r, x.inst.feat f = (mergedInst r).feat f := fun x hx => by
      rw [e1]
      exact hR.same r hr x hx e he f hf
    split
    · rename_i hp
      rw [List.flatMap_cons, rowsWith_merged hR hr]
      congr 1
      rw [List.filter_eq_self]
      intro x hx
      obtain ⟨y, hy, rfl⟩ := List.mem_map.1 hx
      rw [hs y hy]
      exact hp
    · rename_i hp
      rw [show (r.map (·.inst)).filter (fun i => p (i.feat f)) = [] by
        rw [List.filter_eq_nil_iff]
        intro x hx
        obtain ⟨y, hy, rfl⟩ := List.mem_map.1 hx
        rw [hs y hy]
        exact hp]
      rfl

theorem expand_length {D : Data} (hD : ∀ i ∈ D, i ∈ R.map mergedInst) : 1 ≤ D.length ↔ 1 ≤ (expand R D).length := by
  cases D with
  | nil => simp [expand]
  | cons i D =>
    obtain ⟨r, hr, rfl⟩ := List.mem_map.1 (hD i (by simp))
    unfold expand
    rw [List.flatMap_cons, rowsWith_merged hR hr]
    have := List.length_pos_of_ne_nil (hR.ne r hr)
    simp only [List.length_cons, List.length_append, List.length_map]
    omega

theorem tree_expand {P : Problem} (t : Tree) {D : Data} (hD : ∀ i ∈ D, i ∈ R.map mergedInst)
    (ht : t.Over nF P.nL) :
    t.cost (mergedProblem P R) D = t.cost P (expand R D) ∧
    (t.Legal (mergedProblem P R) 1 D ↔ t.Legal P 1 (expand R D)) := by
  induction t generalizing D with
  | leaf k =>
    refine ⟨leafCost_expand P D k, ?_⟩
    unfold Tree.Legal
    rw [expand_length hR hD]
    rfl
  | node f l r ihl ihr =>
    have h0 : without f (expand R D) = expand R (without f D) := expand_filter hR hD ht.1 fun b => !b
    have h1 : having f (expand R D) = expand R (having f D) := expand_filter hR hD ht.1 fun b => b
    obtain ⟨a1, a2⟩ := ihl (D := without f D) (fun i hi => hD i (List.mem_of_mem_filter hi)) ht.2.1
    obtain ⟨b1, b2⟩ := ihr (D := having f D) (fun i hi => hD i (List.mem_of_mem_filter hi)) ht.2.2
    refine ⟨?_, ?_⟩
    · simp only [Tree.cost]
      rw [a1, b1, h0, h1]
      rfl
    · simp only [Tree.Legal]
      rw [a2, b2, h0, h1]
      rfl

theorem expand_all : expand R (R.map mergedInst) = R.flatten.map (·.inst) := by
  unfold expand
  rw [List.flatMap_map, List.map_flatten, ← List.flatMap_def]
  refine List.flatMap_congr fun r hr => ?_
  rw [rowsWith_merged hR hr]

end

theorem legal_over_of {P : Problem} {mls : Nat} {t : Tree} {D : Data} (h : t.Legal P mls D) : t.Over P.nF P.nL := by
  induction t generalizing D with
  | leaf k => exact h.1
  | node f l r ihl ihr => exact ⟨h.1, ihl h.2.2.1, ihr h.2.2.2⟩

/-- The optimum on the merged data is the optimum on the data. -/
theorem merged_isOpt {nF : Nat} {R : List (List EInst)} (hR : Runs nF R) {P : Problem} (hP : P.nF = nF) {d n : Nat} {v : Int}
    (h : IsOpt (mergedProblem P R) 1 d n (R.map mergedInst) v) : IsOpt P 1 d n (R.flatten.map (·.inst)) v := by
  obtain ⟨⟨t, h1, h2⟩, h3⟩ := h
  rw [← expand_all hR]
  have key := fun (x : Tree) (hx : x.Over nF P.nL) => tree_expand hR x (D := R.map mergedInst) (fun _ h => h) hx
  have ho : t.Over nF P.nL := by
    rw [← hP]
    exact legal_over_of (P := mergedProblem P R) h1.2.2
  refine ⟨⟨t, ⟨h1.1, h1.2.1, (key t ho).2.1 h1.2.2⟩, by rw [← (key t ho).1]; exact h2⟩, fun x hx => ?_⟩
  have ho : x.Over nF P.nL := by rw [← hP]; exact legal_over_of hx.2.2
  rw [← (key x ho).1]
  exact h3 x ⟨hx.1, hx.2.1, (key x ho).2.2 hx.2.2⟩

end Streed
