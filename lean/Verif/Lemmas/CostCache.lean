import Verif.Lemmas.CostTerminal
import Verif.Lemmas.CacheAll

/-! Cache invariant for test costs that depend on the path: the entries of a path are facts about that path. Only the
branch cache is used. -/

namespace Streed.Ctx

/-- `x` is at most the cost of every tree of the budget below path `b`. -/
def LowB (c : Cfg) (τ : Prices) (d n : Nat) (b : Branch) (D : Data) (x : Int) : Prop :=
  ∀ t, Allowed c.P c.mls d n D t → x ≤ cost c.P τ b t D

/-- `x` is a lower bound for every budget of the search up to `(d, n)`. -/
def LBOK (c : Cfg) (τ : Prices) (d n : Nat) (b : Branch) (D : Data) (x : Int) : Prop :=
  ∀ d' n', BudOK c d' n' → d' ≤ d → n' ≤ n → LowB c τ d' n' b D x

section
variable {c : Cfg} {τ : Prices} {T : Data} {H : Prop} {b : Branch}

theorem LBOK.mono {d n d' n' : Nat} {D : Data} {x : Int} (h : LBOK c τ d n b D x) (hd : d' ≤ d)
    (hn : n' ≤ n) : LBOK c τ d' n' b D x := fun a k hb ha hb' => h a k hb (by omega) (by omega)

theorem LowB.lbok {d n : Nat} {D : Data} {x : Int} (h : LowB c τ d n b D x) :
    LBOK c τ d n b D x := fun _ _ _ hd hn t ht => h t ⟨by have := ht.1; omega, by have := ht.2.1; omega, ht.2.2⟩

theorem LBOK.lower {d n : Nat} {D : Data} {x : Int} (h : LBOK c τ d n b D x) (hb : BudOK c d n) :
    LowB c τ d n b D x := h d n hb (Nat.le_refl _) (Nat.le_refl _)

/-- An entry states facts about `D` below path `b`; the bounds only count while `H` (no time-out so far). -/
structure EntryOK (c : Cfg) (τ : Prices) (H : Prop) (b : Branch) (D : Data) (e : Entry) : Prop where
  real : e.opt.isEmpty = false → Real c.P τ c.mls e.depth b D e.opt ∧ e.opt.numNodes ≤ e.nodes
  opt : H → e.opt.isEmpty = false → LBOK c τ e.depth e.nodes b D e.opt.sol
  lb : H → e.lb.isEmpty = false → LBOK c τ e.depth e.nodes b D e.lb.sol

theorem EntryOK.weaken {H' : Prop} {D : Data} {e : Entry} (h : EntryOK c τ H b D e) (hh : H' → H) :
    EntryOK c τ H' b D e := ⟨h.real, fun x => h.opt (hh x), fun x => h.lb (hh x)⟩

/-- Cache invariant. -/
def CInv (c : Cfg) (τ : Prices) (T : Data) (H : Prop) (C : Cache) : Prop :=
  ∀ b es, C.br.find b = some es → ∀ e ∈ es, EntryOK c τ H b (sel b T) e

theorem CInv.weaken {H' : Prop} {C : Cache} (h : CInv c τ T H C) (hh : H' → H) : CInv c τ T H' C :=
  fun b es e x hx => (h b es e x hx).weaken hh

theorem CInv.init (c : Cfg) (τ : Prices) (T : Data) (H : Prop) : CInv c τ T H Cache.init :=
  fun b es h => by simp [Cache.init, Store.find] at h

/-- All entries of a list are facts. -/
def EsOK (c : Cfg) (τ : Prices) (H : Prop) (b : Branch) (D : Data) (es : List Entry) : Prop :=
  ∀ e ∈ es, EntryOK c τ H b D e

theorem CInv.brs {C : Cache} (h : CInv c τ T H C) (b : Branch) :
    EsOK c τ H b (sel b T) ((C.br.find b).getD []) := by
  intro e he
  cases hf : C.br.find b with
  | none => rw [hf] at he; simp at he
  | some es => rw [hf] at he; exact h b es hf e he

theorem Real.depth_min {P : Problem} {mls d d' : Nat} {D : Data} {v : Node} (h : Real P τ mls d b D v)
    (hd : min d v.numNodes ≤ d') : Real P τ mls d' b D v := by
  obtain ⟨t, h1, h2, h3, h4⟩ := h
  have := t.depth_le_nodes
  rw [h1.nodes] at this
  exact ⟨t, h1, by omega, h3, h4⟩

theorem storeEntries_ok {D : Data} {old : Option (List Entry)} {v : Node} {od d n : Nat}
    (hold : EsOK c τ H b D (old.getD [])) (hod : min d v.numNodes ≤ od)
    (hv : Real c.P τ c.mls d b D v) (hlb : H → LBOK c τ d n b D v.sol) :
    EsOK c τ H b D (storeEntries old v od d n) := by
  refine storeEntries_all (Q := fun D e => EntryOK c τ H b D e) hold hv.nonempty fun d' n' h1 h2 h3 h4 => ?_
  exact ⟨fun _ => ⟨hv.depth_min (by show _ ≤ d'; omega), h3⟩, fun h _ => (hlb h).mono h2 h4, fun h _ => (hlb h).mono h2 h4⟩

theorem updLB_ok {D : Data} {e : Entry} {v : Node} (he : EntryOK c τ H b D e)
    (hv : H → v.isEmpty = false → LBOK c τ e.depth e.nodes b D v.sol) : EntryOK c τ H b D (e.updLB v) := by
  refine ⟨he.real, he.opt, fun h hl => ?_⟩
  unfold Entry.updLB at hl ⊢
  simp only at hl ⊢
  rcases addMax_cases e.lb v with hm | hm <;> rw [hm] at hl ⊢
  · exact he.lb h hl
  · exact hv h hl

theorem fresh_ok {D : Data} {w : Int} {d n : Nat} : EntryOK c τ H b D (Entry.fresh w d n) :=
  ⟨fun h => by simp [Entry.fresh, Node.empty, Node.isEmpty] at h,
   fun _ h => by simp [Entry.fresh, Node.empty, Node.isEmpty] at h,
   fun _ h => by simp [Entry.fresh, Node.value, Node.isEmpty] at h⟩

theorem updateLBEntries_ok {D : Data} {w : Int} {g : Bool} {old : Option (List Entry)} {v : Node} {d n : Nat}
    (hold : EsOK c τ H b D (old.getD [])) (hv : H → v.isEmpty = false → LBOK c τ d n b D v.sol) :
    EsOK c τ H b D (updateLBEntries w g old v d n) := by
  have hf : EntryOK c τ H b D ((Entry.fresh w d n).updLB v) := updLB_ok fresh_ok hv
  unfold updateLBEntries
  cases old with
  | none => intro e he; rw [List.mem_singleton.1 he]; exact hf
  | some es =>
    simp only
    split
    · exact updateFirst_all (Q := fun D e => EntryOK c τ H b D e) hold fun e h1 h2 h3 => updLB_ok h3 (by rw [h1, h2]; exact hv)
    · intro e he
      rcases List.mem_append.1 he with he | he
      · exact hold e he
      · rw [List.mem_singleton.1 he]; exact hf

/-- Writing the entries of one path keeps the invariant. -/
theorem CInv.write {C C' : Cache} (h : CInv c τ T H C) {es : List Entry}
    (hbr : C'.br = C.br ∨ C'.br = C.br.set b es) (he : EsOK c τ H b (sel b T) es) : CInv c τ T H C' := by
  intro b' es1 hf e hx
  rcases hbr with hb | hb
  · rw [hb] at hf; exact h b' es1 hf e hx
  · rw [hb, Store.find_set] at hf
    split at hf
    · rename_i eq
      simp only [Option.some.injEq] at hf
      subst hf
      rw [eq]; exact he e hx
    · exact h b' es1 hf e hx

theorem storeOpt_inv {C : Cache} (h : CInv c τ T H C) {D : Data} (hD : D = sel b T)
    {v : Node} {d n : Nat} (hv : Real c.P τ c.mls d b D v) (hn : v.numNodes ≤ n) (hlb : H → LBOK c τ d n b D v.sol) :
    CInv c τ T H (C.storeOpt c.cc D b v d n) := by
  have e1 := h.brs b
  subst hD
  refine h.write (es := storeEntries (C.br.find b) v (min d n) d n) ?_ (storeEntries_ok e1 (by omega) hv hlb)
  unfold Cache.storeOpt; simp only; split
  · exact .inr rfl
  · exact .inl rfl

theorem updateLB_inv {C : Cache} (h : CInv c τ T H C) {D : Data} (hD : D = sel b T)
    {v : Node} {d n : Nat} (hv : H → v.isEmpty = false → LBOK c τ d n b D v.sol) :
    CInv c τ T H (C.updateLB c.cc D b v d n) := by
  have e1 := h.brs b
  subst hD
  unfold Cache.updateLB
  split
  · refine h.write (es := updateLBEntries c.cc.worst true (C.br.find b) v d n) ?_ (updateLBEntries_ok e1 hv)
    simp only; split
    · exact .inr rfl
    · exact .inl rfl
  · exact h

theorem updateLB_off {C : Cache} {D : Data} {v : Node} {d n : Nat} (hu : c.useLB = false) :
    C.updateLB c.cc D b v d n = C := by
  unfold Cache.updateLB
  rw [if_neg]
  have : c.cc.useLB = false := hu
  rw [this]; simp

theorem retrieveOpt_spec {C : Cache} (h : CInv c τ T H C) (hds : c.useDs = false) {D : Data} (hD : D = sel b T) {d n : Nat}
    (hne : (C.retrieveOpt c.cc D b d n).isEmpty = false) :
    (Real c.P τ c.mls d b D (C.retrieveOpt c.cc D b d n) ∧ (C.retrieveOpt c.cc D b d n).numNodes ≤ n) ∧
      (H → LBOK c τ d n b D (C.retrieveOpt c.cc D b d n).sol) := by
  have e1 := h.brs b
  subst hD
  have hds : c.cc.useDs = false := hds
  have key : C.retrieveOpt c.cc (sel b T) b d n = Node.empty c.worst ∨
      (C.retrieveOpt c.cc (sel b T) b d n = retrieveOptEntries c.cc.worst ((C.br.find b).getD []) d n) := by
    unfold Cache.retrieveOpt
    simp only
    rw [hds]
    by_cases h1 : c.cc.useBr = true
    · rw [if_pos h1]; split
      · exact .inl rfl
      · exact .inr rfl
    · rw [if_neg h1]; split
      · exact .inl rfl
      · exact .inl rfl
  rcases key with k | k <;> rw [k] at hne ⊢
  · simp [Node.empty, Node.isEmpty] at hne
  · unfold retrieveOptEntries at hne ⊢
    cases hf : ((C.br.find b).getD []).find? fun e => e.depth == d && e.nodes == n && e.isOpt with
    | none => rw [hf] at hne; simp [Node.empty, Node.isEmpty] at hne
    | some e =>
      rw [hf] at hne
      simp only at hne ⊢
      have hm := List.mem_of_find?_eq_some hf
      have hp := List.find?_some hf
      simp only [Bool.and_eq_true, beq_iff_eq] at hp
      obtain ⟨⟨rfl, rfl⟩, _⟩ := hp
      exact ⟨(e1 e hm).real hne, fun x => (e1 e hm).opt x hne⟩

theorem retrieveLB_spec {C : Cache} (h : CInv c τ T H C) (hds : c.useDs = false) {D : Data} (hD : D = sel b T) {d n : Nat}
    (hH : H) (h0 : LBOK c τ d n b D 0) : LBOK c τ d n b D (C.retrieveLB c.cc D b d n).sol := by
  have e1 := h.brs b
  subst hD
  have hds : c.cc.useDs = false := hds
  have r1 : LBOK c τ d n b (sel b T) (retrieveLBEntries ((C.br.find b).getD []) d n).sol := by
    unfold retrieveLBEntries
    refine foldl_inv (fun v : Node => LBOK c τ d n b (sel b T) v.sol) _ _ _ h0 ?_
    intro best hb e he
    split
    · rename_i hc
      have hl : LBOK c τ d n b (sel b T) e.lb.sol := ((e1 e he).lb hH hc.2.2).mono hc.2.1 hc.1
      split
      · exact hl
      · rcases addMax_cases best e.lb with hm | hm <;> rw [hm] <;> assumption
    · exact hb
  have h0' : LBOK c τ d n b (sel b T) (Node.value 0).sol := h0
  unfold Cache.retrieveLB
  simp only
  simp only [hds, Bool.false_eq_true, if_false]
  split
  · by_cases h1 : c.cc.useBr = true
    · rw [if_pos h1]
      split
      · split
        · exact h0'
        · exact h0'
      · exact r1
    · rw [if_neg h1]
      split <;> exact h0'
  · exact h0'

end
end Streed.Ctx
