import Verif.Model.Regression
import Mathlib.Tactic.Linarith
import Mathlib.Tactic.Ring
import Mathlib.Tactic.FieldSimp
import Mathlib.Tactic.Positivity
import Mathlib.Algebra.Order.Field.Basic
import Mathlib.Algebra.Order.Field.Rat
import Mathlib.Data.Rat.Cast.Order
import Mathlib.Algebra.BigOperators.Group.List.Basic
import Mathlib.Algebra.Group.Prod

/-! Sums of squares, and the merging loop without memory. -/

namespace Streed.RegLemmas

theorem regSums_eq (ys : List Rat) : regSums ys = ((ys.map fun y => y * y).sum, ys.sum) := by
  have : ∀ (ys : List Rat) (s : Rat × Rat), ys.foldl (fun s y => (s.1 + y * y, s.2 + y)) s =
      (s.1 + (ys.map fun y => y * y).sum, s.2 + ys.sum) := by
    intro ys
    induction ys with
    | nil => simp
    | cons y ys ih => intro s; rw [List.foldl_cons, ih]; simp [add_assoc]
  rw [regSums, this]; simp

theorem regLeafCosts_eq (ys : List Rat) (c : Rat) :
    regLeafCosts ys c = (ys.map fun y => (y - c) * (y - c)).sum := by
  have : ∀ (ys : List Rat) (s : Rat), ys.foldl (fun s y => s + (y - c) * (y - c)) s =
      s + (ys.map fun y => (y - c) * (y - c)).sum := by
    intro ys
    induction ys with
    | nil => simp
    | cons y ys ih => intro s; rw [List.foldl_cons, ih]; simp [add_assoc]
  rw [regLeafCosts, this]; simp

theorem sq_expand (ys : List Rat) (c : Rat) : (ys.map fun y => (y - c) * (y - c)).sum =
    (ys.map fun y => y * y).sum - 2 * c * ys.sum + ys.length * c * c := by
  induction ys with
  | nil => simp
  | cons y ys ih =>
    simp only [List.map_cons, List.sum_cons, List.length_cons, ih]
    push_cast; ring

theorem sq_nonneg_sum (ys : List Rat) (c : Rat) : 0 ≤ (ys.map fun y => (y - c) * (y - c)).sum := by
  apply List.sum_nonneg
  intro x hx
  obtain ⟨y, _, rfl⟩ := List.mem_map.1 hx
  exact mul_self_nonneg _

/-- The sum of squares around the mean. -/
theorem sq_mean (ys : List Rat) (h : ys.length ≠ 0) :
    (ys.map fun y => (y - ys.sum / ys.length) * (y - ys.sum / ys.length)).sum =
      (ys.map fun y => y * y).sum - ys.sum * ys.sum / ys.length := by
  rw [sq_expand]
  have : (ys.length : Rat) ≠ 0 := by exact_mod_cast h
  field_simp; ring

theorem sq_mean_le (ys : List Rat) (h : ys.length ≠ 0) (c : Rat) :
    (ys.map fun y => y * y).sum - ys.sum * ys.sum / ys.length ≤ (ys.map fun y => (y - c) * (y - c)).sum := by
  rw [sq_expand]
  have hp : (0 : Rat) < ys.length := by exact_mod_cast Nat.pos_of_ne_zero h
  have : 0 ≤ (ys.length * c - ys.sum) * (ys.length * c - ys.sum) / ys.length :=
    div_nonneg (mul_self_nonneg _) hp.le
  have e : (ys.length * c - ys.sum) * (ys.length * c - ys.sum) / ys.length =
      ys.length * c * c - 2 * c * ys.sum + ys.sum * ys.sum / ys.length := by
    field_simp; ring
  rw [e] at this
  linarith

theorem ccrSums_eq (D : List RInst) : ccrSums D = ((D.map RInst.ysq).sum, (D.map RInst.y).sum, (D.map RInst.w).sum) := by
  have : ∀ (D : List RInst) (s : Rat × Rat × Nat),
      D.foldl (fun s i => (s.1 + i.ysq, s.2.1 + i.y, s.2.2 + i.w)) s =
      (s.1 + (D.map RInst.ysq).sum, s.2.1 + (D.map RInst.y).sum, s.2.2 + (D.map RInst.w).sum) := by
    intro D
    induction D with
    | nil => simp
    | cons y ys ih => intro s; rw [List.foldl_cons, ih]; simp [add_assoc]
  rw [ccrSums, this]; simp

/-- The objects of a view. -/
def vals (m : InstStore) (v : List Nat) : List RInst := v.map fun a => m.getD a default

/-- The merging loop on values. -/
structure PSt where
  done : List RInst
  first : RInst
  y : Rat
  ysq : Rat
  n : Nat

def PSt.close (p : PSt) : RInst := { p.first with y := p.y, ysq := p.ysq, w := p.n }

def pStep (p : PSt) (c : RInst) : PSt :=
  if p.first.group = c.group then { p with n := p.n + c.w, y := p.y + c.y, ysq := p.ysq + c.ysq }
  else ⟨p.done ++ [p.close], c, c.y, c.ysq, c.w⟩

def pMerge : List RInst → List RInst
  | [] => []
  | a :: l => let p := l.foldl pStep ⟨[], a, a.y, a.ysq, a.w⟩
    p.done ++ [p.close]

/-- Memory and values agree. -/
structure Sim (m : InstStore) (rest : List Nat) (s : MergeSt) (p : PSt) : Prop where
  pre : m <+: s.store
  nodup : (s.first :: rest).Nodup
  lt : ∀ a ∈ s.first :: rest, a < m.length
  done : vals s.store s.done = p.done
  doneLt : ∀ a ∈ s.done, a < s.store.length ∧ a ∉ s.first :: rest
  first : s.store.getD s.first default = p.first
  y : s.y = p.y
  ysq : s.ysq = p.ysq
  n : s.n = p.n
  prev : s.prev = p.first.group
  pos : 0 < s.n
  single : s.n > s.w ∨ p.close = p.first

theorem pre_get {m m' : InstStore} (h : m <+: m') {a : Nat} (ha : a < m.length) : m'.getD a default = m.getD a default := by
  obtain ⟨e, rfl⟩ := h
  rw [List.getD_eq_getElem?_getD, List.getElem?_append_left ha, ← List.getD_eq_getElem?_getD]

theorem vals_append {m : InstStore} {v : List Nat} (h : ∀ a ∈ v, a < m.length) (e : List RInst) :
    vals (m ++ e) v = vals m v := by
  unfold vals
  apply List.map_congr_left
  intro a ha
  exact pre_get ⟨e, rfl⟩ (h a ha)

theorem sim_step {m : InstStore} {cur : Nat} {rest : List Nat} {s : MergeSt} {p : PSt} (h : Sim m (cur :: rest) s p)
    (hw : 0 < (m.getD cur default).w) :
    Sim m rest (mergeStep s cur) (pStep p (m.getD cur default)) := by
  have hc : cur < m.length := h.lt cur (by simp)
  have hcv : s.store.getD cur default = m.getD cur default := pre_get h.pre hc
  have hlen : m.length ≤ s.store.length := h.pre.length_le
  have hnd := h.nodup
  have hnd2 : (cur :: rest).Nodup := (List.nodup_cons.1 hnd).2
  have hlt2 : ∀ a ∈ cur :: rest, a < m.length := fun a ha => h.lt a (List.mem_cons_of_mem _ ha)
  unfold mergeStep pStep
  rw [hcv]
  generalize m.getD cur default = c at hcv hw ⊢
  by_cases g : s.prev = c.group
  · have g' : p.first.group = c.group := by rw [← h.prev]; exact g
    simp only [if_pos g, if_pos g']
    have sub : ∀ a, a ∈ s.first :: rest → a ∈ s.first :: cur :: rest := by
      intro a hm
      rcases List.mem_cons.1 hm with e | e
      · exact e ▸ List.mem_cons_self ..
      · exact List.mem_cons_of_mem _ (List.mem_cons_of_mem _ e)
    refine ⟨h.pre, ?_, fun a ha => h.lt a (sub a ha), h.done,
      fun a ha => ⟨(h.doneLt a ha).1, fun hm => (h.doneLt a ha).2 (sub a hm)⟩, h.first, ?_, ?_, ?_, ?_, ?_, ?_⟩
    · exact List.nodup_cons.2 ⟨fun hm => (List.nodup_cons.1 hnd).1 (List.mem_cons_of_mem _ hm), (List.nodup_cons.1 hnd2).2⟩
    · simp [h.y]
    · simp [h.ysq]
    · simp [h.n]
    · simp [g']
    · show 0 < s.n + c.w; omega
    · left; show s.n + c.w > c.w; have := h.pos; omega
  · have g' : ¬ p.first.group = c.group := by rw [← h.prev]; exact g
    simp only [if_neg g, if_neg g']
    by_cases b : s.n > s.w
    · simp only [if_pos b]
      refine ⟨h.pre.trans ⟨_, rfl⟩, hnd2, hlt2, ?_, ?_, ?_, ?_, ?_, ?_, ?_, ?_, ?_⟩
      · rw [show vals (s.store ++ [_]) (s.done ++ [s.store.length]) =
          vals (s.store ++ [_]) s.done ++ vals (s.store ++ [_]) [s.store.length] from List.map_append ..,
          vals_append (fun a ha => (h.doneLt a ha).1), h.done]
        congr 1
        simp only [vals, List.map_cons, List.map_nil, List.getD_eq_getElem?_getD]
        rw [List.getElem?_append_right (le_refl _)]
        simp only [Nat.sub_self, List.getElem?_cons_zero, Option.getD_some]
        rw [← List.getD_eq_getElem?_getD, h.first, h.y, h.ysq, h.n]
        rfl
      · intro a ha
        rcases List.mem_append.1 ha with ha | ha
        · refine ⟨by simp; have := (h.doneLt a ha).1; omega, fun hm => (h.doneLt a ha).2 (List.mem_cons_of_mem _ hm)⟩
        · rw [List.mem_singleton] at ha
          subst ha
          refine ⟨by simp, fun hm => ?_⟩
          have := hlt2 _ hm
          omega
      · show (s.store ++ [_]).getD cur default = c
        rw [List.getD_eq_getElem?_getD, List.getElem?_append_left (by omega), ← List.getD_eq_getElem?_getD, hcv]
      · simp
      · simp
      · simp
      · rfl
      · simpa using hw
      · right; simp [PSt.close]
    · simp only [if_neg b]
      refine ⟨h.pre, hnd2, hlt2, ?_, ?_, hcv, ?_, ?_, ?_, ?_, ?_, ?_⟩
      · rw [show vals s.store (s.done ++ [s.first]) = vals s.store s.done ++ vals s.store [s.first] from List.map_append ..,
          h.done]
        congr 1
        simp only [vals, List.map_cons, List.map_nil, h.first, h.single.resolve_left b]
      · intro a ha
        rcases List.mem_append.1 ha with ha | ha
        · exact ⟨(h.doneLt a ha).1, fun hm => (h.doneLt a ha).2 (List.mem_cons_of_mem _ hm)⟩
        · rw [List.mem_singleton] at ha
          subst ha
          have := h.lt s.first (by simp)
          exact ⟨lt_of_lt_of_le this hlen, (List.nodup_cons.1 hnd).1⟩
      · simp
      · simp
      · simp
      · rfl
      · simpa using hw
      · right; simp [PSt.close]

theorem sim_fold {m : InstStore} (l : List Nat) {s : MergeSt} {p : PSt} (h : Sim m l s p)
    (hw : ∀ a ∈ l, 0 < (m.getD a default).w) : Sim m [] (l.foldl mergeStep s) ((vals m l).foldl pStep p) := by
  induction l generalizing s p with
  | nil => exact h
  | cons a l ih =>
    have := sim_step h (hw a (List.mem_cons_self ..))
    exact ih this fun b hb => hw b (List.mem_cons_of_mem _ hb)

/-- The values that the memory version leaves are those of the version on values; memory outside the view keeps its
content. -/
theorem preprocess_spec {m m' : InstStore} {view view' : List Nat} (h : preprocessTrain m view = some (m', view'))
    (hn : view.Nodup) (hlt : ∀ a ∈ view, a < m.length) (hw : ∀ a ∈ view, 0 < (m.getD a default).w) :
    vals m' view' = pMerge (vals m (view.insertionSort fun a b => (m.getD a default).id ≤ (m.getD b default).id)) ∧
    ∃ f ∈ view, ∃ p : PSt, m.getD f default = p.first ∧ m <+: (m'.set f (m.getD f default)) ∧ m'.getD f default = p.close ∧
      ∃ a l, vals m (view.insertionSort fun a b => (m.getD a default).id ≤ (m.getD b default).id) = a :: l ∧
        p = l.foldl pStep ⟨[], a, a.y, a.ysq, a.w⟩ := by
  unfold preprocessTrain at h
  have hp : (view.insertionSort fun a b => (m.getD a default).id ≤ (m.getD b default).id).Perm view :=
    List.perm_insertionSort ..
  generalize view.insertionSort (fun a b => (m.getD a default).id ≤ (m.getD b default).id) = sorted at h hp
  cases sorted with
  | nil => simp at h
  | cons a l =>
    simp only [Option.some.injEq] at h
    have hn' := hp.nodup_iff.2 hn
    have hlt' : ∀ x ∈ a :: l, x < m.length := fun x hx => hlt x (hp.mem_iff.1 hx)
    have hw' : ∀ x ∈ a :: l, 0 < (m.getD x default).w := fun x hx => hw x (hp.mem_iff.1 hx)
    have s0 : Sim m l ⟨m, [], a, (m.getD a default).y, (m.getD a default).ysq, (m.getD a default).w,
        (m.getD a default).w, (m.getD a default).group⟩
        ⟨[], m.getD a default, (m.getD a default).y, (m.getD a default).ysq, (m.getD a default).w⟩ :=
      ⟨List.prefix_refl m, hn', hlt', rfl, by simp, rfl, rfl, rfl, rfl, rfl, hw' a (by simp), Or.inr rfl⟩
    have s1 := sim_fold l s0 fun x hx => hw' x (List.mem_cons_of_mem _ hx)
    have memf : ∀ (l : List Nat) (s : MergeSt), (l.foldl mergeStep s).first ∈ s.first :: l := by
      intro l
      induction l with
      | nil => intro s; simp
      | cons b l ih =>
        intro s
        rw [List.foldl_cons]
        have := ih (mergeStep s b)
        rcases List.mem_cons.1 this with e | e
        · rw [e]; unfold mergeStep; dsimp only; split
          · simp
          · split <;> simp
        · exact List.mem_cons_of_mem _ (List.mem_cons_of_mem _ e)
    have hf := memf l ⟨m, [], a, (m.getD a default).y, (m.getD a default).ysq, (m.getD a default).w,
        (m.getD a default).w, (m.getD a default).group⟩
    simp only at hf
    have hfv : (l.foldl mergeStep ⟨m, [], a, (m.getD a default).y, (m.getD a default).ysq, (m.getD a default).w,
        (m.getD a default).w, (m.getD a default).group⟩).first ∈ view := hp.mem_iff.1 hf
    generalize l.foldl mergeStep _ = s at *
    have e : pMerge (vals m (a :: l)) = ((vals m l).foldl pStep
        ⟨[], m.getD a default, (m.getD a default).y, (m.getD a default).ysq, (m.getD a default).w⟩).done ++
        [((vals m l).foldl pStep
        ⟨[], m.getD a default, (m.getD a default).y, (m.getD a default).ysq, (m.getD a default).w⟩).close] := rfl
    rw [e]
    clear e
    have hp2 : ∀ q : PSt, q = (vals m l).foldl pStep
        ⟨[], m.getD a default, (m.getD a default).y, (m.getD a default).ysq, (m.getD a default).w⟩ →
        ∃ a' l', vals m (a :: l) = a' :: l' ∧ q = l'.foldl pStep ⟨[], a', a'.y, a'.ysq, a'.w⟩ :=
      fun q hq => ⟨_, _, rfl, hq⟩
    generalize (vals m l).foldl pStep _ = p at *
    have hflt := s1.lt s.first (by simp)
    have hlen : m.length ≤ s.store.length := s1.pre.length_le
    have hcl : ({ s.store.getD s.first default with y := s.y, ysq := s.ysq, w := s.n } : RInst) = p.close := by
      rw [s1.first, s1.y, s1.ysq, s1.n]; rfl
    have e1 := congrArg Prod.fst h
    have e2 := congrArg Prod.snd h
    simp only [mergeFinish, hcl] at e1 e2
    have own : m'.getD s.first default = p.close := by
      rw [← e1, List.getD_eq_getElem?_getD, List.getElem?_set_self (by omega)]; rfl
    have fm : m.getD s.first default = p.first := by rw [← s1.first, pre_get s1.pre hflt]
    refine ⟨?_, s.first, hfv, p, fm, ?_, own, hp2 p rfl⟩
    · rw [← e2]
      show List.map _ (s.done ++ [s.first]) = _
      rw [List.map_append]
      congr 1
      · rw [← s1.done]
        apply List.map_congr_left
        intro x hx
        rw [← e1, List.getD_eq_getElem?_getD, List.getElem?_set_ne (fun e => (s1.doneLt x hx).2 (by simp [e])),
          ← List.getD_eq_getElem?_getD]
      · simp only [List.map_cons, List.map_nil, own]
    · rw [← e1, List.set_set, fm, ← s1.first]
      have : s.store.set s.first (s.store.getD s.first default) = s.store := by
        rw [List.getD_eq_getElem?_getD, List.getElem?_eq_getElem (by omega)]
        simp
      rw [this]
      exact s1.pre

/-- Target sum, sum of squares and weight. -/
def stat (i : RInst) : Rat × Rat × Nat := (i.y, i.ysq, i.w)

/-- The sums of one group. -/
def groupStat (g : Nat) (D : List RInst) : Rat × Rat × Nat := ((D.filter fun i => i.group = g).map stat).sum

theorem groupStat_append (g : Nat) (a b : List RInst) : groupStat g (a ++ b) = groupStat g a + groupStat g b := by
  simp [groupStat]

theorem groupStat_single (g : Nat) (a : RInst) : groupStat g [a] = if a.group = g then stat a else 0 := by
  by_cases h : a.group = g <;> simp [groupStat, h]

theorem pStep_stat (g : Nat) (p : PSt) (c : RInst) :
    groupStat g ((pStep p c).done ++ [(pStep p c).close]) = groupStat g (p.done ++ [p.close]) + groupStat g [c] := by
  unfold pStep
  split
  · rename_i e
    simp only [groupStat_append, groupStat_single, PSt.close, stat]
    rw [e, add_assoc]
    split
    · simp
    · simp
  · simp only [groupStat_append, groupStat_single, PSt.close, stat]

theorem pFold_stat (g : Nat) (l : List RInst) (p : PSt) :
    groupStat g ((l.foldl pStep p).done ++ [(l.foldl pStep p).close]) = groupStat g (p.done ++ [p.close]) + groupStat g l := by
  induction l generalizing p with
  | nil => simp [groupStat]
  | cons c l ih =>
    rw [List.foldl_cons, ih, pStep_stat, add_assoc]
    congr 1
    rw [← groupStat_append]; rfl

theorem pMerge_stat (g : Nat) (l : List RInst) : groupStat g (pMerge l) = groupStat g l := by
  cases l with
  | nil => rfl
  | cons a l =>
    show groupStat g (_ ++ [_]) = _
    rw [pFold_stat]
    show groupStat g [a] + _ = _
    rw [← groupStat_append]; rfl

theorem pFold_groups (l : List RInst) (p : PSt) (h1 : (p.done.map RInst.group).Nodup)
    (h2 : ∀ i ∈ p.done, i.group < p.first.group) (h3 : ∀ i ∈ l, p.first.group ≤ i.group)
    (h4 : l.Pairwise fun a b => a.group ≤ b.group) :
    (((l.foldl pStep p).done ++ [(l.foldl pStep p).close]).map RInst.group).Nodup := by
  induction l generalizing p with
  | nil =>
    rw [List.foldl_nil, List.map_append, List.nodup_append]
    refine ⟨h1, by simp, ?_⟩
    intro a ha b hb
    obtain ⟨i, hi, rfl⟩ := List.mem_map.1 ha
    simp only [List.map_cons, List.map_nil, List.mem_singleton] at hb
    have := h2 i hi
    rw [hb]
    show i.group ≠ p.first.group
    omega
  | cons c l ih =>
    rw [List.foldl_cons]
    rw [List.pairwise_cons] at h4
    have hc := h3 c (by simp)
    unfold pStep
    split
    · exact ih _ h1 h2 (fun i hi => h3 i (List.mem_cons_of_mem _ hi)) h4.2
    · rename_i e
      refine ih _ ?_ ?_ h4.1 h4.2
      · rw [List.map_append, List.nodup_append]
        refine ⟨h1, by simp, ?_⟩
        intro a ha b hb
        obtain ⟨i, hi, rfl⟩ := List.mem_map.1 ha
        simp only [List.map_cons, List.map_nil, List.mem_singleton] at hb
        have := h2 i hi
        rw [hb]
        show i.group ≠ p.first.group
        omega
      · intro i hi
        show i.group < c.group
        rcases List.mem_append.1 hi with hi | hi
        · have := h2 i hi; omega
        · rw [List.mem_singleton] at hi
          rw [hi]
          show p.first.group < c.group
          omega

end Streed.RegLemmas
