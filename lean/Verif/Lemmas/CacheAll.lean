import Verif.Lemmas.CacheInv

/-! A property of single entries that every cache operation keeps. -/

namespace Streed

/-- Every entry for data `D` satisfies `Q D`. -/
structure CAll (T : Data) (Q : Data → Entry → Prop) (C : Cache) : Prop where
  br : ∀ b es, C.br.find b = some es → ∀ e ∈ es, Q (sel b T) e
  ds : ∀ D es, ViewOf T D → C.ds.find (dataKey D) = some es → ∀ e ∈ es, Q D e

section
variable {T : Data} {Q : Data → Entry → Prop} {cc : CacheCfg}

theorem CAll.init : CAll T Q Cache.init :=
  ⟨fun b es h => by simp [Cache.init, Store.find] at h, fun D es _ h => by simp [Cache.init, Store.find] at h⟩

theorem CAll.brs {C : Cache} (h : CAll T Q C) (b : Branch) : ∀ e ∈ (C.br.find b).getD [], Q (sel b T) e := by
  intro e he
  cases hf : C.br.find b with
  | none => rw [hf] at he; simp at he
  | some es => rw [hf] at he; exact h.br b es hf e he

theorem CAll.dss {C : Cache} (h : CAll T Q C) (D : Data) (hD : ViewOf T D) :
    ∀ e ∈ (C.ds.find (dataKey D)).getD [], Q D e := by
  intro e he
  cases hf : C.ds.find (dataKey D) with
  | none => rw [hf] at he; simp at he
  | some es => rw [hf] at he; exact h.ds D es hD hf e he

theorem CAll.write {C C' : Cache} (h : CAll T Q C) (hT : IdSorted T) {D : Data} {b : Branch} (hD : D = sel b T)
    {es es' : List Entry} (hbr : C'.br = C.br ∨ C'.br = C.br.set b es)
    (hds : C'.ds = C.ds ∨ C'.ds = C.ds.set (dataKey D) es') (he : ∀ e ∈ es, Q D e) (he' : ∀ e ∈ es', Q D e) :
    CAll T Q C' := by
  constructor
  · intro b' es1 hf e hx
    rcases hbr with hb | hb
    · rw [hb] at hf; exact h.br b' es1 hf e hx
    · rw [hb, Store.find_set] at hf
      split at hf
      · rename_i eq
        simp only [Option.some.injEq] at hf
        subst hf
        rw [eq, ← hD]; exact he e hx
      · exact h.br b' es1 hf e hx
  · intro D' es1 hv hf e hx
    rcases hds with hb | hb
    · rw [hb] at hf; exact h.ds D' es1 hv hf e hx
    · rw [hb, Store.find_set] at hf
      split at hf
      · rename_i eq
        simp only [Option.some.injEq] at hf
        subst hf
        rw [dataKey_inj hT hv (by rw [hD]; exact sel_view b T) eq]; exact he' e hx
      · exact h.ds D' es1 hv hf e hx

theorem storeEntries_all {D : Data} {old : Option (List Entry)} {v : Node} {od d n : Nat}
    (hold : ∀ e ∈ old.getD [], Q D e) (hv : v.isEmpty = false)
    (hq : ∀ d' n', od ≤ d' → d' ≤ d → v.numNodes ≤ n' → n' ≤ n → Q D (Entry.solved d' n' v)) :
    ∀ e ∈ storeEntries old v od d n, Q D e := by
  have fresh : ∀ p ∈ budgets v.numNodes n od d, Q D (Entry.solved p.1 p.2 v) := by
    intro p hp
    have hp := mem_budgets hp
    exact hq p.1 p.2 hp.2.2.1 hp.2.2.2.1 hp.1 hp.2.1
  unfold storeEntries
  cases old with
  | none =>
    intro e he
    obtain ⟨p, hp, rfl⟩ := List.mem_map.1 he
    exact fresh p hp
  | some es =>
    intro e he
    rcases List.mem_append.1 he with he | he
    · obtain ⟨e0, h0, rfl⟩ := List.mem_map.1 he
      have hok := hold e0 h0
      split
      · rename_i hc
        split
        · exact hok
        · have := hq e0.depth e0.nodes hc.2.2.1 hc.2.2.2 hc.1 hc.2.1
          have e : e0.setOpt v = Entry.solved e0.depth e0.nodes v := by
            unfold Entry.setOpt Entry.solved; simp [hv]
          rw [e]; exact this
      · exact hok
    · obtain ⟨p, hp, rfl⟩ := List.mem_map.1 he
      exact fresh p (List.mem_filter.1 hp).1

theorem CAll.storeOpt {C : Cache} (h : CAll T Q C) (hT : IdSorted T) {D : Data} {b : Branch} (hD : D = sel b T)
    {v : Node} {d n : Nat} (hv : v.isEmpty = false) (hn : v.numNodes ≤ n)
    (hq : ∀ d' n', min d v.numNodes ≤ d' → d' ≤ d → v.numNodes ≤ n' → n' ≤ n → Q D (Entry.solved d' n' v)) :
    CAll T Q (C.storeOpt cc D b v d n) := by
  have hv1 : ViewOf T D := by rw [hD]; exact sel_view b T
  have e1 := h.brs b
  rw [← hD] at e1
  refine h.write hT hD (es := storeEntries (C.br.find b) v (min d n) d n)
    (es' := storeEntries (C.ds.find (dataKey D)) v (min d v.numNodes) d n) ?_ ?_
    (storeEntries_all e1 hv fun d' n' h1 => hq d' n' (by omega)) (storeEntries_all (h.dss D hv1) hv hq)
  · unfold Cache.storeOpt; simp only; split
    · exact .inr rfl
    · exact .inl rfl
  · unfold Cache.storeOpt; simp only; split
    · exact .inr rfl
    · exact .inl rfl

theorem updateFirst_all {D : Data} {g : Bool} {v : Node} {d n : Nat} {es : List Entry} (hes : ∀ e ∈ es, Q D e)
    (hq : ∀ e, e.depth = d → e.nodes = n → Q D e → Q D (e.updLB v)) : ∀ e ∈ updateFirst g v d n es, Q D e := by
  induction es with
  | nil => exact hes
  | cons e es ih =>
    have h1 := hes e (List.mem_cons_self ..)
    have h2 : ∀ e ∈ es, Q D e := fun x hx => hes x (List.mem_cons_of_mem _ hx)
    unfold updateFirst
    split
    · rename_i hc
      intro x hx
      rcases List.mem_cons.1 hx with rfl | hx
      · split
        · exact h1
        · exact hq _ hc.1 hc.2 h1
      · exact h2 x hx
    · intro x hx
      rcases List.mem_cons.1 hx with rfl | hx
      · exact h1
      · exact ih h2 x hx

theorem CAll.updateLB {C : Cache} (h : CAll T Q C) (hT : IdSorted T) {D : Data} {b : Branch} (hD : D = sel b T)
    {v : Node} {d n : Nat} (h0 : Q D (Entry.fresh cc.worst d n))
    (hq : ∀ e, e.depth = d → e.nodes = n → Q D e → Q D (e.updLB v)) :
    CAll T Q (C.updateLB cc D b v d n) := by
  have hv1 : ViewOf T D := by rw [hD]; exact sel_view b T
  have e1 := h.brs b
  rw [← hD] at e1
  have gen : ∀ (g : Bool) (old : Option (List Entry)), (∀ e ∈ old.getD [], Q D e) →
      ∀ e ∈ updateLBEntries cc.worst g old v d n, Q D e := by
    intro g old hold
    unfold updateLBEntries
    cases old with
    | none => intro e he; rw [List.mem_singleton.1 he]; exact hq _ rfl rfl h0
    | some es =>
      simp only
      split
      · exact updateFirst_all hold hq
      · intro e he
        rcases List.mem_append.1 he with he | he
        · exact hold e he
        · rw [List.mem_singleton.1 he]; exact hq _ rfl rfl h0
  unfold Cache.updateLB
  split
  · refine h.write hT hD (es := updateLBEntries cc.worst true (C.br.find b) v d n)
      (es' := updateLBEntries cc.worst false (C.ds.find (dataKey D)) v d n) ?_ ?_
      (gen _ _ e1) (gen _ _ (h.dss D hv1))
    · simp only; split
      · exact .inr rfl
      · exact .inl rfl
    · simp only; split
      · exact .inr rfl
      · exact .inl rfl
  · exact h

theorem transferOne_all {D : Data} {src : Entry} {es : List Entry} (hs : Q D src) (h : ∀ e ∈ es, Q D e) :
    ∀ e ∈ transferOne src es, Q D e := by
  induction es with
  | nil => exact h
  | cons e es ih =>
    have h1 := h e (List.mem_cons_self ..)
    have h2 : ∀ e ∈ es, Q D e := fun x hx => h x (List.mem_cons_of_mem _ hx)
    unfold transferOne
    split
    · intro x hx
      rcases List.mem_cons.1 hx with rfl | hx
      · exact hs
      · exact h2 x hx
    · intro x hx
      rcases List.mem_cons.1 hx with rfl | hx
      · exact h1
      · exact ih h2 x hx

theorem transferEntries_all {D : Data} {src es : List Entry} (hs : ∀ e ∈ src, Q D e) (h : ∀ e ∈ es, Q D e) :
    ∀ e ∈ transferEntries src es, Q D e := by
  unfold transferEntries
  refine foldl_inv (fun es => ∀ e ∈ es, Q D e) _ _ _ h ?_
  intro es hes e he
  split
  · exact transferOne_all (hs e he) hes
  · intro x hx
    rcases List.mem_append.1 hx with hx | hx
    · exact hes x hx
    · rw [List.mem_singleton.1 hx]; exact hs e he

theorem CAll.transfer {C : Cache} (h : CAll T Q C) {src dst : Branch} (heq : sel src T = sel dst T) :
    CAll T Q (C.transfer cc src dst) := by
  have wr : ∀ es, (∀ e ∈ es, Q (sel dst T) e) → CAll T Q { C with br := C.br.set dst es } := by
    intro es hes
    refine ⟨?_, h.ds⟩
    intro b' es1 hf e hx
    rw [Store.find_set] at hf
    split at hf
    · rename_i eq
      simp only [Option.some.injEq] at hf
      subst hf
      rw [eq]; exact hes e hx
    · exact h.br b' es1 hf e hx
  unfold Cache.transfer
  split
  · split
    · exact h
    · rename_i es hs hd
      exact wr es fun e he => by rw [← heq]; exact h.br src es hs e he
    · rename_i es es' hs hd
      split
      · refine wr _ (transferEntries_all (fun e he => ?_) (fun e he => h.br dst es' hd e he))
        rw [← heq]; exact h.br src es hs e he
      · exact h
  · exact h

/-- A solution handed out by the cache belongs to an entry of exactly that budget. -/
theorem CAll.retrieveOpt {C : Cache} (h : CAll T Q C) {D : Data} {b : Branch} (hD : D = sel b T) {d n : Nat}
    (hne : (C.retrieveOpt cc D b d n).isEmpty = false) :
    ∃ e, Q D e ∧ e.depth = d ∧ e.nodes = n ∧ e.opt = C.retrieveOpt cc D b d n := by
  have hv1 : ViewOf T D := by rw [hD]; exact sel_view b T
  have e1 := h.brs b
  rw [← hD] at e1
  have gen : ∀ es : List Entry, (∀ e ∈ es, Q D e) → (retrieveOptEntries cc.worst es d n).isEmpty = false →
      ∃ e, Q D e ∧ e.depth = d ∧ e.nodes = n ∧ e.opt = retrieveOptEntries cc.worst es d n := by
    intro es hes hne
    unfold retrieveOptEntries at hne ⊢
    cases hf : es.find? fun e => e.depth == d && e.nodes == n && e.isOpt with
    | none => rw [hf] at hne; simp [Node.empty, Node.isEmpty] at hne
    | some e =>
      have hm := List.mem_of_find?_eq_some hf
      have hp := List.find?_some hf
      simp only [Bool.and_eq_true, beq_iff_eq] at hp
      exact ⟨e, hes e hm, hp.1.1, hp.1.2, rfl⟩
  unfold Cache.retrieveOpt at hne ⊢
  simp only at hne ⊢
  by_cases h1 : cc.useBr = true <;> by_cases h2 : cc.useDs = true
  · rw [if_pos h1, if_pos h2] at hne ⊢
    split at hne <;> rename_i hx
    · rw [if_pos hx]; exact gen _ (h.dss D hv1) hne
    · rw [if_neg hx]; exact gen _ e1 hne
  · rw [if_pos h1, if_neg h2] at hne ⊢
    split at hne <;> rename_i hx
    · simp [Node.empty, Node.isEmpty] at hne
    · rw [if_neg hx]; exact gen _ e1 hne
  · rw [if_neg h1, if_pos h2] at hne ⊢
    rw [if_pos (by rfl)] at hne ⊢
    exact gen _ (h.dss D hv1) hne
  · rw [if_neg h1, if_neg h2] at hne
    split at hne <;> simp [Node.empty, Node.isEmpty] at hne

theorem retrieveOpt_empty {C : Cache} {D : Data} {b : Branch} {d n : Nat}
    (h : (C.retrieveOpt cc D b d n).isEmpty = true) : C.retrieveOpt cc D b d n = Node.empty cc.worst := by
  unfold Cache.retrieveOpt at h ⊢
  simp only at h ⊢
  by_cases h1 : cc.useBr = true <;> by_cases h2 : cc.useDs = true
  · rw [if_pos h1, if_pos h2] at h ⊢
    split at h <;> rename_i hx
    · rw [if_pos hx]; exact retrieveOptEntries_empty h
    · rw [h] at hx; simp at hx
  · rw [if_pos h1, if_neg h2] at h ⊢
    split at h <;> rename_i hx
    · rw [if_pos hx]
    · rw [h] at hx; simp at hx
  · rw [if_neg h1, if_pos h2] at h ⊢
    rw [if_pos (by rfl)] at h ⊢
    exact retrieveOptEntries_empty h
  · rw [if_neg h1, if_neg h2] at h ⊢
    simp

/-- A bound handed out by the cache is zero or stored in an entry of a larger or equal budget. -/
theorem CAll.retrieveLB {C : Cache} (h : CAll T Q C) {D : Data} {b : Branch} (hD : D = sel b T) {d n : Nat}
    (R : Int → Prop) (h0 : R 0) (hq : ∀ e, Q D e → d ≤ e.depth → n ≤ e.nodes → R e.lb.sol) :
    R (C.retrieveLB cc D b d n).sol := by
  have hv1 : ViewOf T D := by rw [hD]; exact sel_view b T
  have e1 := h.brs b
  rw [← hD] at e1
  have gen : ∀ es : List Entry, (∀ e ∈ es, Q D e) → R (retrieveLBEntries es d n).sol := by
    intro es hes
    unfold retrieveLBEntries
    refine foldl_inv (fun v : Node => R v.sol) _ _ _ h0 ?_
    intro best hb e he
    split
    · rename_i hc
      have hl := hq e (hes e he) hc.2.1 hc.1
      split
      · exact hl
      · rcases addMax_cases best e.lb with hm | hm <;> rw [hm] <;> assumption
    · exact hb
  have h0' : R (Node.value 0).sol := h0
  have r3 : R (if cc.useBr = true then retrieveLBEntries ((C.br.find b).getD []) d n else Node.value 0).sol := by
    split
    · exact gen _ e1
    · exact h0
  have r4 : R (if cc.useDs = true then retrieveLBEntries ((C.ds.find (dataKey D)).getD []) d n else Node.value 0).sol := by
    split
    · exact gen _ (h.dss D hv1)
    · exact h0
  unfold Cache.retrieveLB
  simp only
  by_cases hl : cc.useLB = true
  · rw [if_pos hl]
    by_cases hx : (if cc.useBr = true then retrieveLBEntries ((C.br.find b).getD []) d n
      else Node.value 0).isEmpty = true
    · rw [if_pos hx]
      by_cases hy : (if cc.useDs = true then retrieveLBEntries ((C.ds.find (dataKey D)).getD []) d n
        else Node.value 0).isEmpty = true
      · rw [if_pos hy]; exact h0'
      · rw [if_neg hy]; exact r4
    · rw [if_neg hx]; exact r3
  · rw [if_neg hl]; exact h0'

end
end Streed
