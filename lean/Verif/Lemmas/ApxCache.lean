import Verif.Lemmas.CacheInv
import Verif.Model.Tol
import Mathlib.Algebra.Order.Field.Rat
import Mathlib.Algebra.Order.Field.Power
import Mathlib.Tactic.Linarith
import Mathlib.Tactic.NormNum
import Mathlib.Tactic.Positivity

/-! Cache invariant of the search with tolerant comparisons: every entry is a fact about its data up to a factor. -/

namespace Streed.Apx

/-- The factor that one comparison can lose. -/
def tol : ℚ := 10001 / 10000

theorem tol_pos : 0 < tol := by unfold tol; norm_num

theorem tol_one : 1 ≤ tol := by unfold tol; norm_num

theorem pow_pos (k : ℤ) : 0 < tol ^ k := zpow_pos tol_pos k

theorem pow_mono {k k' : ℤ} (h : k ≤ k') : tol ^ k ≤ tol ^ k' := zpow_le_zpow_right₀ tol_one h

theorem pow_one_le {k : ℤ} (h : 0 ≤ k) : 1 ≤ tol ^ k := one_le_zpow₀ tol_one h

theorem pow_succ (k : ℤ) : tol ^ (k + 1) = tol ^ k * (10001 / 10000) := by
  rw [zpow_add₀ (ne_of_gt tol_pos), zpow_one]; rfl

/-- `x` is at most the cost of any tree of the search up to budget `(d, n)`, times `tol ^ k`. -/
def LBk (c : Cfg) (k : ℤ) (d n : Nat) (D : Data) (x : Int) : Prop :=
  ∀ d' n', BudOK c d' n' → d' ≤ d → n' ≤ n → ∀ t : Tree, Allowed c.P c.mls d' n' D t → (x : ℚ) ≤ tol ^ k * (t.cost c.P D : ℚ)

/-- No tree has a negative cost. -/
def Pos (c : Cfg) (D : Data) : Prop := ∀ t : Tree, 0 ≤ t.cost c.P D

section
variable {c : Cfg} {D : Data}

theorem scale_nonneg (hD : Pos c D) (k : ℤ) (t : Tree) : 0 ≤ tol ^ k * (t.cost c.P D : ℚ) :=
  mul_nonneg (le_of_lt (pow_pos k)) (by exact_mod_cast hD t)

theorem scale_mono (hD : Pos c D) {k k' : ℤ} (h : k ≤ k') (t : Tree) :
    tol ^ k * (t.cost c.P D : ℚ) ≤ tol ^ k' * (t.cost c.P D : ℚ) :=
  mul_le_mul_of_nonneg_right (pow_mono h) (by exact_mod_cast hD t)

theorem scale_one (hD : Pos c D) {k : ℤ} (h : 0 ≤ k) (t : Tree) : (t.cost c.P D : ℚ) ≤ tol ^ k * (t.cost c.P D : ℚ) := by
  have h0 : (0 : ℚ) ≤ t.cost c.P D := by exact_mod_cast hD t
  nlinarith [pow_one_le h]

theorem LBk.mono {k k' : ℤ} {d n d' n' : Nat} {x : Int} (hD : Pos c D) (h : LBk c k d n D x) (hk : k ≤ k')
    (hd : d' ≤ d) (hn : n' ≤ n) : LBk c k' d' n' D x := fun a b hb ha hb' t ht =>
  le_trans (h a b hb (by omega) (by omega) t ht) (scale_mono hD hk t)

theorem LBk.zero (hD : Pos c D) (k : ℤ) (d n : Nat) : LBk c k d n D 0 := fun _ _ _ _ _ t _ => by
  simpa using scale_nonneg hD k t

/-- A bound that counts without a factor. -/
theorem LBk.exact {k : ℤ} {d n : Nat} {x : Int} (hD : Pos c D) (hk : 0 ≤ k) (h : LBOK c d n D x) : LBk c k d n D x :=
  fun a b hb ha hb' t ht => le_trans (by exact_mod_cast h a b hb ha hb' t ht) (scale_one hD hk t)

theorem LBk.lower {k : ℤ} {d n : Nat} {x : Int} (h : LBk c k d n D x) (hb : BudOK c d n) (t : Tree)
    (ht : Allowed c.P c.mls d n D t) : (x : ℚ) ≤ tol ^ k * (t.cost c.P D : ℚ) := h d n hb (Nat.le_refl _) (Nat.le_refl _) t ht

theorem LBk.intro {k : ℤ} {d n : Nat} {x : Int}
    (h : ∀ t : Tree, Allowed c.P c.mls d n D t → (x : ℚ) ≤ tol ^ k * (t.cost c.P D : ℚ)) : LBk c k d n D x :=
  fun _ _ _ hd hn t ht => h t ⟨by have := ht.1; omega, by have := ht.2.1; omega, ht.2.2⟩

end

/-- Exponents: `w b d n` belongs to the subproblem of path `b` with budget `(d, n)`. They decrease when the data are split and
when the budget grows, and do not depend on the path if results are kept per data set. -/
structure Rank (c : Cfg) (T : Data) where
  w : Branch → Nat → Nat → ℤ
  ok : Branch → Nat → Nat → Prop
  anti : ∀ b d n d' n', d ≤ d' → n ≤ n' → w b d' n' ≤ w b d n
  strict : c.useLB = true → ∀ b d n d' n', d ≤ d' → n ≤ n' → (d, n) ≠ (d', n') → w b d' n' + 1 ≤ w b d n
  child : ∀ b f x d n d' n', ok b d n → f < c.P.nF → without f (sel b T) ≠ [] → having f (sel b T) ≠ [] → d' + 1 ≤ d → n' + 1 ≤ n →
    w (b.child f x) d' n' + 1 ≤ w b d n ∧ ok (b.child f x) d' n'
  small : ∀ b d n d' n', ok b d n → d' ≤ d → n' ≤ n → ok b d' n'
  link : c.useDs = true → ∀ b b', sel b T = sel b' T → w b = w b'
  nonneg : ∀ b d n, ok b d n → 0 ≤ w b d n

/-- An entry states facts about `D`; the bounds only count while `H` (no time-out so far). -/
structure EntryOK (c : Cfg) (H : Prop) (w : Nat → Nat → ℤ) (D : Data) (e : Entry) : Prop where
  real : e.opt.isEmpty = false → Real c.P c.mls e.depth D e.opt ∧ e.opt.numNodes ≤ e.nodes
  opt : H → e.opt.isEmpty = false → LBk c (w e.depth e.nodes + 1) e.depth e.nodes D e.opt.sol
  lb : H → e.lb.isEmpty = false → LBk c (w e.depth e.nodes + if e.opt.isEmpty then 0 else 1) e.depth e.nodes D e.lb.sol

theorem EntryOK.weaken {c : Cfg} {H H' : Prop} {w : Nat → Nat → ℤ} {D : Data} {e : Entry} (h : EntryOK c H w D e) (hh : H' → H) :
    EntryOK c H' w D e := ⟨h.real, fun x => h.opt (hh x), fun x => h.lb (hh x)⟩

/-- All entries of a list are facts. -/
def EsOK (c : Cfg) (H : Prop) (w : Nat → Nat → ℤ) (D : Data) (es : List Entry) : Prop := ∀ e ∈ es, EntryOK c H w D e

/-- Cache invariant. -/
structure CInv (c : Cfg) (T : Data) (K : Rank c T) (H : Prop) (C : Cache) : Prop where
  br : ∀ b, EsOK c H (K.w b) (sel b T) ((C.br.find b).getD [])
  ds : c.useDs = true → ∀ b, EsOK c H (K.w b) (sel b T) ((C.ds.find (dataKey (sel b T))).getD [])

theorem CInv.weaken {c : Cfg} {T : Data} {K : Rank c T} {H H' : Prop} {C : Cache} (h : CInv c T K H C) (hh : H' → H) :
    CInv c T K H' C :=
  ⟨fun b e x => (h.br b e x).weaken hh, fun u b e x => (h.ds u b e x).weaken hh⟩

theorem CInv.init (c : Cfg) (T : Data) (K : Rank c T) (H : Prop) : CInv c T K H Cache.init :=
  ⟨fun b e h => by simp [Cache.init, Store.find] at h, fun _ b e h => by simp [Cache.init, Store.find] at h⟩

section
variable {c : Cfg} {T : Data} {H : Prop}

section
variable {w : Nat → Nat → ℤ} (hw : ∀ d n d' n', d ≤ d' → n ≤ n' → w d' n' ≤ w d n)

include hw in
theorem storeEntries_ok {D : Data} (hD : Pos c D) {old : Option (List Entry)} {v : Node} {od d n : Nat}
    (hold : EsOK c H w D (old.getD [])) (hod : min d v.numNodes ≤ od)
    (hv : Real c.P c.mls d D v) (hlb : H → LBk c (w d n + 1) d n D v.sol) :
    EsOK c H w D (storeEntries old v od d n) := by
  have hemp := hv.nonempty
  have fact : ∀ d' n', od ≤ d' → d' ≤ d → v.numNodes ≤ n' → n' ≤ n →
      (Real c.P c.mls d' D v ∧ v.numNodes ≤ n') ∧ (H → LBk c (w d' n' + 1) d' n' D v.sol) := fun d' n' h1 h2 h3 h4 =>
    ⟨⟨hv.depth_min (by omega), h3⟩, fun h => (hlb h).mono hD (by have := hw d' n' d n h2 h4; omega) h2 h4⟩
  have fresh : ∀ p ∈ budgets v.numNodes n od d, EntryOK c H w D (Entry.solved p.1 p.2 v) := by
    intro p hp
    have hp := mem_budgets hp
    obtain ⟨f1, f2⟩ := fact p.1 p.2 hp.2.2.1 hp.2.2.2.1 hp.1 hp.2.1
    refine ⟨fun _ => f1, fun h _ => f2 h, fun h _ => ?_⟩
    simp only [Entry.solved, hemp]
    exact f2 h
  unfold storeEntries
  cases old with
  | none =>
    intro e he
    obtain ⟨p, hp, rfl⟩ := List.mem_map.1 he
    exact fresh p hp
  | some es =>
    intro e he
    rcases List.mem_append.1 he with he | he
    · obtain ⟨e0, h0, rfl⟩ := List.mem_map.1 he
      have hok := hold e0 h0
      split
      · rename_i hc
        split
        · exact hok
        · obtain ⟨f1, f2⟩ := fact e0.depth e0.nodes hc.2.2.1 hc.2.2.2 hc.1 hc.2.1
          refine ⟨fun _ => f1, fun h _ => f2 h, fun h hl => ?_⟩
          unfold Entry.setOpt at hl ⊢
          simp only [hemp] at hl ⊢
          exact f2 h
      · exact hok
    · obtain ⟨p, hp, rfl⟩ := List.mem_map.1 he
      exact fresh p (List.mem_filter.1 hp).1

theorem updLB_ok {D : Data} (hD : Pos c D) {e : Entry} {v : Node} (he : EntryOK c H w D e)
    (hv : H → v.isEmpty = false → LBk c (w e.depth e.nodes) e.depth e.nodes D v.sol) : EntryOK c H w D (e.updLB v) := by
  refine ⟨he.real, he.opt, fun h hl => ?_⟩
  unfold Entry.updLB at hl ⊢
  simp only at hl ⊢
  rcases addMax_cases e.lb v with hm | hm <;> rw [hm] at hl ⊢
  · exact he.lb h hl
  · exact (hv h hl).mono hD (by split <;> omega) (Nat.le_refl _) (Nat.le_refl _)

theorem fresh_ok {D : Data} {x : Int} {d n : Nat} : EntryOK c H w D (Entry.fresh x d n) :=
  ⟨fun h => by simp [Entry.fresh, Node.empty, Node.isEmpty] at h,
   fun _ h => by simp [Entry.fresh, Node.empty, Node.isEmpty] at h,
   fun _ h => by simp [Entry.fresh, Node.value, Node.isEmpty] at h⟩

theorem updateFirst_ok {D : Data} (hD : Pos c D) {g : Bool} {v : Node} {d n : Nat} {es : List Entry} (hes : EsOK c H w D es)
    (hv : H → v.isEmpty = false → LBk c (w d n) d n D v.sol) : EsOK c H w D (updateFirst g v d n es) := by
  induction es with
  | nil => exact hes
  | cons e es ih =>
    have h1 := hes e (List.mem_cons_self ..)
    have h2 : EsOK c H w D es := fun x hx => hes x (List.mem_cons_of_mem _ hx)
    unfold updateFirst
    split
    · rename_i hc
      intro x hx
      rcases List.mem_cons.1 hx with rfl | hx
      · split
        · exact h1
        · exact updLB_ok hD h1 (by rw [hc.1, hc.2]; exact hv)
      · exact h2 x hx
    · intro x hx
      rcases List.mem_cons.1 hx with rfl | hx
      · exact h1
      · exact ih h2 x hx

theorem updateLBEntries_ok {D : Data} (hD : Pos c D) {x : Int} {g : Bool} {old : Option (List Entry)} {v : Node} {d n : Nat}
    (hold : EsOK c H w D (old.getD [])) (hv : H → v.isEmpty = false → LBk c (w d n) d n D v.sol) :
    EsOK c H w D (updateLBEntries x g old v d n) := by
  have hf : EntryOK c H w D ((Entry.fresh x d n).updLB v) := updLB_ok hD fresh_ok hv
  unfold updateLBEntries
  cases old with
  | none => intro e he; rw [List.mem_singleton.1 he]; exact hf
  | some es =>
    simp only
    split
    · exact updateFirst_ok hD hold hv
    · intro e he
      rcases List.mem_append.1 he with he | he
      · exact hold e he
      · rw [List.mem_singleton.1 he]; exact hf

theorem retrieveOptEntries_spec {D : Data} {es : List Entry} {x : Int} {d n : Nat} (h : EsOK c H w D es)
    (hne : (retrieveOptEntries x es d n).isEmpty = false) :
    (Real c.P c.mls d D (retrieveOptEntries x es d n) ∧ (retrieveOptEntries x es d n).numNodes ≤ n) ∧
      (H → LBk c (w d n + 1) d n D (retrieveOptEntries x es d n).sol) := by
  unfold retrieveOptEntries at hne ⊢
  cases hf : es.find? fun e => e.depth == d && e.nodes == n && e.isOpt with
  | none => rw [hf] at hne; simp [Node.empty, Node.isEmpty] at hne
  | some e =>
    rw [hf] at hne
    simp only at hne ⊢
    have hm := List.mem_of_find?_eq_some hf
    have hp := List.find?_some hf
    simp only [Bool.and_eq_true, beq_iff_eq] at hp
    obtain ⟨⟨rfl, rfl⟩, _⟩ := hp
    exact ⟨(h e hm).real hne, fun x => (h e hm).opt x hne⟩

include hw in
theorem retrieveLBEntries_spec {D : Data} (hD : Pos c D) {es : List Entry} {d n : Nat} (h : EsOK c H w D es) (hH : H) :
    LBk c (w d n + 1) d n D (retrieveLBEntries es d n).sol := by
  unfold retrieveLBEntries
  refine foldl_inv (fun v : Node => LBk c (w d n + 1) d n D v.sol) _ _ _ (LBk.zero hD _ d n) ?_
  intro best hb e he
  split
  · rename_i hc
    have hl : LBk c (w d n + 1) d n D e.lb.sol := ((h e he).lb hH hc.2.2).mono hD
      (by have := hw d n e.depth e.nodes hc.2.1 hc.1; split <;> omega) hc.2.1 hc.1
    split
    · exact hl
    · rcases addMax_cases best e.lb with hm | hm <;> rw [hm] <;> assumption
  · exact hb

/-- If no optimal entry is known, the bound is one factor better. -/
theorem retrieveLBEntries_open {D : Data} (hD : Pos c D) {es : List Entry} {x : Int} {d n : Nat} (h : EsOK c H w D es) (hH : H)
    (hst : ∀ d' n', d ≤ d' → n ≤ n' → (d, n) ≠ (d', n') → w d' n' + 1 ≤ w d n)
    (ho : (retrieveOptEntries x es d n).isEmpty = true) : LBk c (w d n) d n D (retrieveLBEntries es d n).sol := by
  unfold retrieveLBEntries
  refine foldl_inv (fun v : Node => LBk c (w d n) d n D v.sol) _ _ _ (LBk.zero hD _ d n) ?_
  intro best hb e he
  split
  · rename_i hc
    have hl : LBk c (w d n) d n D e.lb.sol := by
      refine ((h e he).lb hH hc.2.2).mono hD ?_ hc.2.1 hc.1
      by_cases heq : (d, n) = (e.depth, e.nodes)
      · simp only [Prod.mk.injEq] at heq
        have : e.opt.isEmpty = true := by
          unfold retrieveOptEntries at ho
          cases hf : es.find? fun e => e.depth == d && e.nodes == n && e.isOpt with
          | none =>
            have := List.find?_eq_none.1 hf e he
            simpa [heq.1, heq.2, Entry.isOpt] using this
          | some e' =>
            rw [hf] at ho
            have hp := List.find?_some hf
            simp only [Bool.and_eq_true, Entry.isOpt, Bool.not_eq_true'] at hp
            simp only at ho
            rw [hp.2] at ho; simp at ho
        rw [this, ← heq.1, ← heq.2]; simp
      · have := hst e.depth e.nodes hc.2.1 hc.1 heq
        split <;> omega
    split
    · exact hl
    · rcases addMax_cases best e.lb with hm | hm <;> rw [hm] <;> assumption
  · exact hb

end

variable {K : Rank c T}

/-- Writing the entries of one path and of the data it selects keeps the invariant. -/
theorem CInv.write {C C' : Cache} (h : CInv c T K H C) (hT : IdSorted T) {b : Branch}
    {es es' : List Entry} (hbr : C'.br = C.br ∨ C'.br = C.br.set b es)
    (hds : C'.ds = C.ds ∨ C'.ds = C.ds.set (dataKey (sel b T)) es') (he : EsOK c H (K.w b) (sel b T) es)
    (he' : c.useDs = true → EsOK c H (K.w b) (sel b T) es') : CInv c T K H C' := by
  constructor
  · intro b'
    rcases hbr with hb | hb
    · rw [hb]; exact h.br b'
    · rw [hb, Store.find_set]
      split
      · rename_i eq
        rw [eq]; exact he
      · exact h.br b'
  · intro hu b'
    rcases hds with hb | hb
    · rw [hb]; exact h.ds hu b'
    · rw [hb, Store.find_set]
      split
      · rename_i eq
        have e := dataKey_inj hT (sel_view b' T) (sel_view b T) eq
        rw [K.link hu b' b e, e]; exact he' hu
      · exact h.ds hu b'

theorem storeOpt_inv {C : Cache} (h : CInv c T K H C) (hT : IdSorted T) {b : Branch} (hD : Pos c (sel b T))
    {v : Node} {d n : Nat} (hv : Real c.P c.mls d (sel b T) v) (hn : v.numNodes ≤ n)
    (hlb : H → LBk c (K.w b d n + 1) d n (sel b T) v.sol) :
    CInv c T K H (C.storeOpt c.cc (sel b T) b v d n) := by
  refine h.write hT (b := b) (es := storeEntries (C.br.find b) v (min d n) d n)
    (es' := storeEntries (C.ds.find (dataKey (sel b T))) v (min d v.numNodes) d n) ?_ ?_ ?_ ?_
  · unfold Cache.storeOpt; simp only; split
    · exact .inr rfl
    · exact .inl rfl
  · unfold Cache.storeOpt; simp only; split
    · exact .inr rfl
    · exact .inl rfl
  · exact storeEntries_ok (fun d n d' n' => K.anti b d n d' n') hD (h.br b) (by omega) hv hlb
  · intro hu
    exact storeEntries_ok (fun d n d' n' => K.anti b d n d' n') hD (h.ds hu b) (by omega) hv hlb

theorem updateLB_inv {C : Cache} (h : CInv c T K H C) (hT : IdSorted T) {b : Branch} (hD : Pos c (sel b T))
    {v : Node} {d n : Nat} (hv : H → v.isEmpty = false → LBk c (K.w b d n) d n (sel b T) v.sol) :
    CInv c T K H (C.updateLB c.cc (sel b T) b v d n) := by
  unfold Cache.updateLB
  split
  · refine h.write hT (b := b) (es := updateLBEntries c.cc.worst true (C.br.find b) v d n)
      (es' := updateLBEntries c.cc.worst false (C.ds.find (dataKey (sel b T))) v d n) ?_ ?_
      (updateLBEntries_ok hD (h.br b) hv) (fun hu => updateLBEntries_ok hD (h.ds hu b) hv)
    · simp only; split
      · exact .inr rfl
      · exact .inl rfl
    · simp only; split
      · exact .inr rfl
      · exact .inl rfl
  · exact h

theorem retrieveOpt_spec {C : Cache} (h : CInv c T K H C) {b : Branch} {d n : Nat}
    (hne : (C.retrieveOpt c.cc (sel b T) b d n).isEmpty = false) :
    (Real c.P c.mls d (sel b T) (C.retrieveOpt c.cc (sel b T) b d n) ∧ (C.retrieveOpt c.cc (sel b T) b d n).numNodes ≤ n) ∧
      (H → LBk c (K.w b d n + 1) d n (sel b T) (C.retrieveOpt c.cc (sel b T) b d n).sol) := by
  have key : C.retrieveOpt c.cc (sel b T) b d n = Node.empty c.worst ∨
      (C.retrieveOpt c.cc (sel b T) b d n = retrieveOptEntries c.cc.worst ((C.br.find b).getD []) d n) ∨
      (c.useDs = true ∧
        C.retrieveOpt c.cc (sel b T) b d n = retrieveOptEntries c.cc.worst ((C.ds.find (dataKey (sel b T))).getD []) d n) := by
    unfold Cache.retrieveOpt
    simp only
    by_cases h1 : c.cc.useBr = true <;> by_cases h2 : c.cc.useDs = true
    · rw [if_pos h1, if_pos h2]; split
      · exact .inr (.inr ⟨h2, rfl⟩)
      · exact .inr (.inl rfl)
    · rw [if_pos h1, if_neg h2]; split
      · exact .inl rfl
      · exact .inr (.inl rfl)
    · rw [if_neg h1, if_pos h2]; split
      · exact .inr (.inr ⟨h2, rfl⟩)
      · exact .inl rfl
    · rw [if_neg h1, if_neg h2]; split
      · exact .inl rfl
      · exact .inl rfl
  rcases key with k | k | ⟨hu, k⟩ <;> rw [k] at hne ⊢
  · simp [Node.empty, Node.isEmpty] at hne
  · exact retrieveOptEntries_spec (h.br b) hne
  · exact retrieveOptEntries_spec (h.ds hu b) hne

theorem retrieveLB_of {C : Cache} {b : Branch} {d n : Nat} {k : ℤ} (hD : Pos c (sel b T))
    (h1 : c.useBr = true → LBk c k d n (sel b T) (retrieveLBEntries ((C.br.find b).getD []) d n).sol)
    (h2 : c.useDs = true → LBk c k d n (sel b T) (retrieveLBEntries ((C.ds.find (dataKey (sel b T))).getD []) d n).sol) :
    LBk c k d n (sel b T) (C.retrieveLB c.cc (sel b T) b d n).sol := by
  have h0 : LBk c k d n (sel b T) (Node.value 0).sol := LBk.zero hD k d n
  have r3 : LBk c k d n (sel b T) (if c.cc.useBr = true then retrieveLBEntries ((C.br.find b).getD []) d n
      else Node.value 0).sol := by
    split
    · rename_i h; exact h1 h
    · exact h0
  have r4 : LBk c k d n (sel b T) (if c.cc.useDs = true then retrieveLBEntries ((C.ds.find (dataKey (sel b T))).getD []) d n
      else Node.value 0).sol := by
    split
    · rename_i h; exact h2 h
    · exact h0
  unfold Cache.retrieveLB
  simp only
  by_cases hl : c.cc.useLB = true
  · rw [if_pos hl]
    by_cases hx : (if c.cc.useBr = true then retrieveLBEntries ((C.br.find b).getD []) d n
      else Node.value 0).isEmpty = true
    · rw [if_pos hx]
      by_cases hy : (if c.cc.useDs = true then retrieveLBEntries ((C.ds.find (dataKey (sel b T))).getD []) d n
        else Node.value 0).isEmpty = true
      · rw [if_pos hy]; exact h0
      · rw [if_neg hy]; exact r4
    · rw [if_neg hx]; exact r3
  · rw [if_neg hl]; exact h0

theorem retrieveLB_spec {C : Cache} (h : CInv c T K H C) {b : Branch} {d n : Nat} (hD : Pos c (sel b T)) (hH : H) :
    LBk c (K.w b d n + 1) d n (sel b T) (C.retrieveLB c.cc (sel b T) b d n).sol :=
  retrieveLB_of hD (fun _ => retrieveLBEntries_spec (fun d n d' n' => K.anti b d n d' n') hD (h.br b) hH)
    (fun hu => retrieveLBEntries_spec (fun d n d' n' => K.anti b d n d' n') hD (h.ds hu b) hH)

theorem retrieveLB_open {C : Cache} (h : CInv c T K H C) {b : Branch} {d n : Nat} (hD : Pos c (sel b T)) (hH : H)
    (hl : c.useLB = true) (ho : (C.retrieveOpt c.cc (sel b T) b d n).isEmpty = true) :
    LBk c (K.w b d n) d n (sel b T) (C.retrieveLB c.cc (sel b T) b d n).sol := by
  have key : (c.useBr = true → (retrieveOptEntries c.cc.worst ((C.br.find b).getD []) d n).isEmpty = true) ∧
      (c.useDs = true → (retrieveOptEntries c.cc.worst ((C.ds.find (dataKey (sel b T))).getD []) d n).isEmpty = true) := by
    have hb : c.useBr = c.cc.useBr := rfl
    have hd : c.useDs = c.cc.useDs := rfl
    rw [hb, hd]
    unfold Cache.retrieveOpt at ho
    simp only at ho
    constructor
    · intro h1
      rw [if_pos h1] at ho
      by_cases he : (retrieveOptEntries c.cc.worst ((C.br.find b).getD []) d n).isEmpty = true
      · exact he
      · rw [if_neg he] at ho; exact ho
    · intro h2
      rw [if_pos h2] at ho
      generalize (if c.cc.useBr = true then retrieveOptEntries c.cc.worst ((C.br.find b).getD []) d n
        else Node.empty c.cc.worst) = z at ho
      split at ho
      · exact ho
      · rename_i hn; exact absurd ho hn
  exact retrieveLB_of hD (fun hu => retrieveLBEntries_open hD (h.br b) hH (fun d' n' => K.strict hl b d n d' n') (key.1 hu))
    (fun hu => retrieveLBEntries_open hD (h.ds hu b) hH (fun d' n' => K.strict hl b d n d' n') (key.2 hu))

end
end Streed.Apx
