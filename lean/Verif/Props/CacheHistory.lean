import Verif.Lemmas.CacheHistory
import Verif.Props.Difference

/-!
# C09: answers of the caches after any history

`runOps` applies an arbitrary sequence of stores, lower-bound updates and transfers to an empty cache.
-/

namespace Streed

/-- Only the branch cache is in use. -/
def branchOnly (w : Int) (lb : Bool) : CacheCfg := ⟨true, false, lb, w⟩

/-- Only the dataset cache is in use, the default. -/
def datasetOnly (w : Int) (lb : Bool) : CacheCfg := ⟨false, true, lb, w⟩

/-- The branch cache after a history. -/
structure BrHist (ops : List CacheOp) (S : Cache) : Prop where
  one : ∀ b es, S.br.find b = some es → OneEach es
  stored : ∀ b es, S.br.find b = some es → ∀ e ∈ es, e.isOpt = true → ∃ D' b' d' n',
    CacheOp.store D' b' e.opt d' n' ∈ ops ∧ e.opt.numNodes ≤ e.nodes ∧ e.nodes ≤ n' ∧ min d' n' ≤ e.depth ∧ e.depth ≤ d' ∧
    Linked ops b' b

theorem BrHist.mono {ops ops' : List CacheOp} {S : Cache} (h : BrHist ops S) (hs : ∀ o ∈ ops, o ∈ ops') : BrHist ops' S :=
  ⟨h.one, fun b es hf e he ho => by
    obtain ⟨D', b', d', n', h1, h2, h3, h4, h5, h6⟩ := h.stored b es hf e he ho
    exact ⟨D', b', d', n', hs _ h1, h2, h3, h4, h5, h6.mono hs⟩⟩

theorem BrHist.apply {w : Int} {lb : Bool} {ops : List CacheOp} {S : Cache} (h : BrHist ops S) (o : CacheOp) :
    BrHist (ops ++ [o]) (o.apply (branchOnly w lb) S) := by
  have hm := h.mono (ops' := ops ++ [o]) fun x hx => List.mem_append.2 (.inl hx)
  have hlast : o ∈ ops ++ [o] := by simp
  cases o with
  | store D b s d n =>
    have key := storeEntries_facts (S.br.find b) s (min d n) d n (fun es he => h.one b es he)
    have hbr : (CacheOp.apply (branchOnly w lb) S (.store D b s d n)).br = S.br.set b (storeEntries (S.br.find b) s (min d n) d n) := rfl
    constructor
    · intro b' es hf
      rw [hbr, Store.find_set] at hf
      split at hf
      · simp only [Option.some.injEq] at hf; rw [← hf]; exact key.1
      · exact h.one b' es hf
    · intro b' es hf e he ho
      rw [hbr, Store.find_set] at hf
      split at hf
      · rename_i hb
        subst hb
        simp only [Option.some.injEq] at hf
        subst hf
        rcases key.2.1 e he ho with ⟨es', h1, h2⟩ | ⟨h1, h2, h3, h4, h5⟩
        · exact hm.stored b' es' h1 e h2 ho
        · exact ⟨D, b', d, n, by rw [h1]; exact hlast, by rw [h1]; exact h2, h3, h4, h5, .refl _⟩
      · exact hm.stored b' es hf e he ho
  | lower D b v d n =>
    cases lb with
    | false => exact ⟨hm.one, hm.stored⟩
    | true =>
      have key := updateLBEntries_facts w true (S.br.find b) v d n (fun es he => h.one b es he)
      have hbr : (CacheOp.apply (branchOnly w true) S (.lower D b v d n)).br =
        S.br.set b (updateLBEntries w true (S.br.find b) v d n) := rfl
      constructor
      · intro b' es hf
        rw [hbr, Store.find_set] at hf
        split at hf
        · simp only [Option.some.injEq] at hf; rw [← hf]; exact key.1
        · exact h.one b' es hf
      · intro b' es hf e he ho
        rw [hbr, Store.find_set] at hf
        split at hf
        · rename_i hb
          subst hb
          simp only [Option.some.injEq] at hf
          subst hf
          obtain ⟨es', h1, e', h2, h3, h4, h5⟩ := key.2.1 e he ho
          have := hm.stored b' es' h1 e' h2 (by unfold Entry.isOpt at *; rw [h5]; exact ho)
          rw [h3, h4, h5] at this
          exact this
        · exact hm.stored b' es hf e he ho
  | transfer a b =>
    by_cases hc : (branchOnly w lb).useLB && (branchOnly w lb).useBr && a != b
    · have hdef : CacheOp.apply (branchOnly w lb) S (.transfer a b) = match S.br.find a, S.br.find b with
          | none, _ => S
          | some es, none => { S with br := S.br.set b es }
          | some es, some es' => if a.length = b.length then { S with br := S.br.set b (transferEntries es es') } else S := by
        show Cache.transfer _ _ _ _ = _
        unfold Cache.transfer; rw [if_pos hc]
        rcases S.br.find a with _ | _ <;> rcases S.br.find b with _ | _ <;> rfl
      rw [hdef]
      cases ha : S.br.find a with
      | none => exact ⟨hm.one, hm.stored⟩
      | some es =>
        have link : ∀ es' : List Entry, (∀ e ∈ es', e ∈ es ∨ ∃ es'', S.br.find b = some es'' ∧ e ∈ es'') → ∀ e ∈ es', e.isOpt = true → ∃ D' b' d' n',
            CacheOp.store D' b' e.opt d' n' ∈ ops ++ [CacheOp.transfer a b] ∧ e.opt.numNodes ≤ e.nodes ∧ e.nodes ≤ n' ∧
            min d' n' ≤ e.depth ∧ e.depth ≤ d' ∧ Linked (ops ++ [CacheOp.transfer a b]) b' b := by
          intro es' hes e he ho
          rcases hes e he with h1 | ⟨es'', h1, h2⟩
          · obtain ⟨D', b', d', n', h1, h2, h3, h4, h5, h6⟩ := hm.stored a es ha e h1 ho
            exact ⟨D', b', d', n', h1, h2, h3, h4, h5, .step h6 hlast⟩
          · exact hm.stored b es'' h1 e h2 ho
        cases hb : S.br.find b with
        | none =>
          dsimp only
          constructor
          · intro b' es' hf
            rw [Store.find_set] at hf
            split at hf
            · simp only [Option.some.injEq] at hf; rw [← hf]; exact h.one a es ha
            · exact h.one b' es' hf
          · intro b' es' hf e he ho
            rw [Store.find_set] at hf
            split at hf
            · rename_i hbb
              subst hbb
              simp only [Option.some.injEq] at hf
              subst hf
              exact link es (fun e he => .inl he) e he ho
            · exact hm.stored b' es' hf e he ho
        | some es0 =>
          dsimp only
          split
          · obtain ⟨k1, k2⟩ := transferEntries_facts es es0 (h.one b es0 hb)
            constructor
            · intro b' es' hf
              rw [Store.find_set] at hf
              split at hf
              · simp only [Option.some.injEq] at hf; rw [← hf]; exact k1
              · exact h.one b' es' hf
            · intro b' es' hf e he ho
              rw [Store.find_set] at hf
              split at hf
              · rename_i hbb
                subst hbb
                simp only [Option.some.injEq] at hf
                subst hf
                exact link _ (fun e he => (k2 e he).imp id fun h => ⟨es0, hb, h⟩) e he ho
              · exact hm.stored b' es' hf e he ho
          · exact ⟨hm.one, hm.stored⟩
    · have : CacheOp.apply (branchOnly w lb) S (.transfer a b) = S := by
        show Cache.transfer _ _ _ _ = _
        unfold Cache.transfer; rw [if_neg hc]
      rw [this]; exact hm

theorem brHist (w : Int) (lb : Bool) (ops : List CacheOp) : BrHist ops (runOps (branchOnly w lb) Cache.init ops) := by
  have : ∀ (ops pre : List CacheOp) (S : Cache), BrHist pre S → BrHist (pre ++ ops) (runOps (branchOnly w lb) S ops) := by
    intro ops
    induction ops with
    | nil => intro pre S h; rw [List.append_nil]; exact h
    | cons o ops ih =>
      intro pre S h
      have := ih (pre ++ [o]) _ (h.apply (w := w) (lb := lb) o)
      rw [List.append_assoc] at this
      exact this
  exact this ops [] Cache.init ⟨fun b es h => by simp [Cache.init, Store.find] at h, fun b es h => by simp [Cache.init, Store.find] at h⟩

theorem branchOnly_retrieve (w : Int) (lb : Bool) (S : Cache) (D : Data) (b : Branch) (d n : Nat) :
    S.retrieveOpt (branchOnly w lb) D b d n = retrieveOptEntries w ((S.br.find b).getD []) d n ∨
    (S.retrieveOpt (branchOnly w lb) D b d n).isEmpty = true := by
  unfold Cache.retrieveOpt branchOnly
  dsimp only
  rw [if_pos rfl]
  split
  · right; rfl
  · left; rfl

/-- C09, first half: whatever has been stored, bounded and transferred, a solution the branch cache returns for a path and
budget was stored, with a budget that covers it, for that path or for one from which answers were transferred to it. -/
theorem branch_answer_stored (w : Int) (lb : Bool) (ops : List CacheOp) (D : Data) (b : Branch) (d n : Nat)
    (h : ((runOps (branchOnly w lb) Cache.init ops).retrieveOpt (branchOnly w lb) D b d n).isEmpty = false) :
    ∃ D' b' d' n', CacheOp.store D' b' ((runOps (branchOnly w lb) Cache.init ops).retrieveOpt (branchOnly w lb) D b d n) d' n' ∈ ops ∧
      ((runOps (branchOnly w lb) Cache.init ops).retrieveOpt (branchOnly w lb) D b d n).numNodes ≤ n ∧ n ≤ n' ∧
      min d' n' ≤ d ∧ d ≤ d' ∧ Linked ops b' b := by
  have hh := brHist w lb ops
  rcases branchOnly_retrieve w lb (runOps (branchOnly w lb) Cache.init ops) D b d n with e | e
  · rw [e] at h ⊢
    obtain ⟨x, h1, h2, h3, h4, h5⟩ := retrieveOpt_entry h
    cases hf : (runOps (branchOnly w lb) Cache.init ops).br.find b with
    | none => rw [hf] at h1; simp at h1
    | some es =>
      rw [hf] at h1 h5
      have := hh.stored b es hf x h1 h4
      rw [h2, h3, h5] at this
      exact this
  · rw [e] at h; simp at h

/-- Is the call a transfer? -/
def CacheOp.isTransfer : CacheOp → Bool
  | .transfer _ _ => true
  | _ => false

/-- A lookup after one more store or update. -/
theorem branch_kept_step {w : Int} {lb : Bool} {S : Cache} (h1 : ∀ b es, S.br.find b = some es → OneEach es) (o : CacheOp)
    (ho : o.isTransfer = false) {b : Branch} {d n : Nat}
    (h : (retrieveOptEntries w ((S.br.find b).getD []) d n).isEmpty = false) :
    retrieveOptEntries w (((o.apply (branchOnly w lb) S).br.find b).getD []) d n = retrieveOptEntries w ((S.br.find b).getD []) d n := by
  obtain ⟨e, he, rfl, rfl, hopt, heq⟩ := retrieveOpt_entry h
  have main : ∀ es' : List Entry, OneEach es' → (∃ e' ∈ es', e'.depth = e.depth ∧ e'.nodes = e.nodes ∧ e'.opt = e.opt) →
      retrieveOptEntries w es' e.depth e.nodes = retrieveOptEntries w ((S.br.find b).getD []) e.depth e.nodes := by
    intro es' hone ⟨e', h1, h2, h3, h4⟩
    rw [← heq, ← h2, ← h3, ← h4]
    exact retrieveOpt_of_entry hone h1 (by unfold Entry.isOpt at *; rw [h4]; exact hopt)
  cases hf : S.br.find b with
  | none => rw [hf] at he; simp at he
  | some es =>
    rw [hf] at he main
    simp only [Option.getD_some] at he main ⊢
    cases o with
    | transfer a b => simp [CacheOp.isTransfer] at ho
    | store D b' s d n =>
      have hbr : (CacheOp.apply (branchOnly w lb) S (.store D b' s d n)).br = S.br.set b' (storeEntries (S.br.find b') s (min d n) d n) := rfl
      rw [hbr, Store.find_set]
      split
      · rename_i hb
        subst hb
        have key := storeEntries_facts (S.br.find b) s (min d n) d n (fun es he => h1 b es he)
        exact main _ key.1 ⟨e, key.2.2 es hf e he hopt, rfl, rfl, rfl⟩
      · rw [hf]; rfl
    | lower D b' v d n =>
      cases lb with
      | false => show retrieveOptEntries w ((S.br.find b).getD []) _ _ = _; rw [hf]; rfl
      | true =>
        have hbr : (CacheOp.apply (branchOnly w true) S (.lower D b' v d n)).br =
          S.br.set b' (updateLBEntries w true (S.br.find b') v d n) := rfl
        rw [hbr, Store.find_set]
        split
        · rename_i hb
          subst hb
          have key := updateLBEntries_facts w true (S.br.find b) v d n (fun es he => h1 b es he)
          exact main _ key.1 (key.2.2 es hf e he hopt)
        · rw [hf]; rfl

theorem branchOnly_retrieve_eq (w : Int) (lb : Bool) (S : Cache) (D : Data) (b : Branch) (d n : Nat)
    (h : (retrieveOptEntries w ((S.br.find b).getD []) d n).isEmpty = false) :
    S.retrieveOpt (branchOnly w lb) D b d n = retrieveOptEntries w ((S.br.find b).getD []) d n := by
  unfold Cache.retrieveOpt branchOnly
  dsimp only
  rw [if_pos rfl, if_neg (by rw [h]; simp)]

/-- C09, second half, between transfers: once a path and budget have an answer, no later store or lower bound changes it. A
transfer can (`transfer_drops_answer`). -/
theorem branch_answer_kept_partial (w : Int) (lb : Bool) (ops later : List CacheOp) (hl : ∀ o ∈ later, o.isTransfer = false) (D : Data)
    (b : Branch) (d n : Nat) (h : ((runOps (branchOnly w lb) Cache.init ops).retrieveOpt (branchOnly w lb) D b d n).isEmpty = false) :
    (runOps (branchOnly w lb) Cache.init (ops ++ later)).retrieveOpt (branchOnly w lb) D b d n =
      (runOps (branchOnly w lb) Cache.init ops).retrieveOpt (branchOnly w lb) D b d n := by
  unfold runOps
  rw [List.foldl_append]
  have hh := (brHist w lb ops).one
  have hr : (retrieveOptEntries w (((runOps (branchOnly w lb) Cache.init ops).br.find b).getD []) d n).isEmpty = false := by
    rcases branchOnly_retrieve w lb (runOps (branchOnly w lb) Cache.init ops) D b d n with e | e
    · rw [← e]; exact h
    · rw [e] at h; simp at h
  change (List.foldl _ (runOps (branchOnly w lb) Cache.init ops) later).retrieveOpt _ D b d n = (runOps (branchOnly w lb) Cache.init ops).retrieveOpt _ D b d n
  have hpre := brHist w lb ops
  generalize runOps (branchOnly w lb) Cache.init ops = S at *
  clear h
  induction later generalizing S ops with
  | nil => rfl
  | cons o later ih =>
    have hstep := branch_kept_step (lb := lb) hh o (hl o (List.mem_cons_self ..)) hr
    have hr' : (retrieveOptEntries w (((o.apply (branchOnly w lb) S).br.find b).getD []) d n).isEmpty = false := by rw [hstep]; exact hr
    have hnext := hpre.apply (w := w) (lb := lb) o
    rw [List.foldl_cons, ih (ops ++ [o]) (fun x hx => hl x (List.mem_cons_of_mem _ hx)) _ hnext.one hr' hnext,
      branchOnly_retrieve_eq w lb _ D b d n hr', branchOnly_retrieve_eq w lb _ D b d n hr, hstep]

/-- The full second half of C09. -/
def BranchAnswersKept : Prop := ∀ (w : Int) (lb : Bool) (ops later : List CacheOp) (D : Data) (b : Branch) (d n : Nat),
  ((runOps (branchOnly w lb) Cache.init ops).retrieveOpt (branchOnly w lb) D b d n).isEmpty = false →
  (runOps (branchOnly w lb) Cache.init (ops ++ later)).retrieveOpt (branchOnly w lb) D b d n =
    (runOps (branchOnly w lb) Cache.init ops).retrieveOpt (branchOnly w lb) D b d n

/-- A transfer replaces an optimal entry by one that only has a lower bound when that bound is *smaller*: the stored answer
is lost. -/
theorem transfer_drops_answer : ¬ BranchAnswersKept := by
  intro h
  have := h 100 true [.store [] [0] (Node.leaf 0 5) 1 1, .lower [] [2] (Node.value 3) 1 1] [.transfer [2] [0]] [] [0] 1 1 (by decide)
  revert this
  decide

/-! ### The dataset cache -/

/-- The dataset cache after a history. -/
structure DsHist (ops : List CacheOp) (S : Cache) : Prop where
  one : ∀ k es, S.ds.find k = some es → OneEach es
  stored : ∀ k es, S.ds.find k = some es → ∀ e ∈ es, e.isOpt = true → ∃ D' b' d' n',
    CacheOp.store D' b' e.opt d' n' ∈ ops ∧ e.opt.numNodes ≤ e.nodes ∧ e.nodes ≤ n' ∧ min d' e.opt.numNodes ≤ e.depth ∧
    e.depth ≤ d' ∧ dataKey D' = k

/-- One more call: the invariant, and the answers that were there. -/
theorem DsHist.apply {w : Int} {lb : Bool} {ops : List CacheOp} {S : Cache} (h : DsHist ops S) (o : CacheOp) :
    DsHist (ops ++ [o]) (o.apply (datasetOnly w lb) S) ∧
    ∀ k d n, (retrieveOptEntries w ((S.ds.find k).getD []) d n).isEmpty = false →
      retrieveOptEntries w (((o.apply (datasetOnly w lb) S).ds.find k).getD []) d n = retrieveOptEntries w ((S.ds.find k).getD []) d n := by
  have hm : DsHist (ops ++ [o]) S := ⟨h.one, fun k es hf e he ho => by
    obtain ⟨D', b', d', n', h1, h2⟩ := h.stored k es hf e he ho
    exact ⟨D', b', d', n', List.mem_append.2 (.inl h1), h2⟩⟩
  have hlast : o ∈ ops ++ [o] := by simp
  have same : DsHist (ops ++ [o]) S ∧ ∀ k d n, (retrieveOptEntries w ((S.ds.find k).getD []) d n).isEmpty = false →
      retrieveOptEntries w ((S.ds.find k).getD []) d n = retrieveOptEntries w ((S.ds.find k).getD []) d n := ⟨hm, fun _ _ _ _ => rfl⟩
  have keep : ∀ (k k' : List Nat) (new : List Entry), OneEach new →
      (∀ es, S.ds.find k' = some es → ∀ e ∈ es, e.isOpt = true → ∃ e' ∈ new, e'.depth = e.depth ∧ e'.nodes = e.nodes ∧ e'.opt = e.opt) →
      ∀ d n, (retrieveOptEntries w ((S.ds.find k).getD []) d n).isEmpty = false →
      retrieveOptEntries w (((S.ds.set k' new).find k).getD []) d n = retrieveOptEntries w ((S.ds.find k).getD []) d n := by
    intro k k' new hone hold d n hne
    rw [Store.find_set]
    split
    · rename_i hk
      subst hk
      obtain ⟨e, he, rfl, rfl, hopt, heq⟩ := retrieveOpt_entry hne
      cases hf : S.ds.find k with
      | none => rw [hf] at he; simp at he
      | some es =>
        rw [hf] at he heq
        obtain ⟨e', h1, h2, h3, h4⟩ := hold es hf e he hopt
        rw [← heq, ← h2, ← h3, ← h4]
        exact retrieveOpt_of_entry hone h1 (by unfold Entry.isOpt at *; rw [h4]; exact hopt)
    · rfl
  cases o with
  | transfer a b =>
    have : CacheOp.apply (datasetOnly w lb) S (.transfer a b) = S := by
      show Cache.transfer _ _ _ _ = _
      unfold Cache.transfer
      rw [if_neg (by simp [datasetOnly])]
    rw [this]; exact same
  | store D b s d n =>
    have key := storeEntries_facts (S.ds.find (dataKey D)) s (min d s.numNodes) d n (fun es he => h.one _ es he)
    have hds : (CacheOp.apply (datasetOnly w lb) S (.store D b s d n)).ds =
      S.ds.set (dataKey D) (storeEntries (S.ds.find (dataKey D)) s (min d s.numNodes) d n) := rfl
    refine ⟨⟨?_, ?_⟩, ?_⟩
    · intro k es hf
      rw [hds, Store.find_set] at hf
      split at hf
      · simp only [Option.some.injEq] at hf; rw [← hf]; exact key.1
      · exact h.one k es hf
    · intro k es hf e he ho
      rw [hds, Store.find_set] at hf
      split at hf
      · rename_i hb
        subst hb
        simp only [Option.some.injEq] at hf
        subst hf
        rcases key.2.1 e he ho with ⟨es', h1, h2⟩ | ⟨h1, h2, h3, h4, h5⟩
        · exact hm.stored _ es' h1 e h2 ho
        · exact ⟨D, b, d, n, by rw [h1]; exact hlast, by rw [h1]; exact h2, h3, by rw [h1]; exact h4, h5, rfl⟩
      · exact hm.stored k es hf e he ho
    · intro k d' n' hne
      rw [hds]
      exact keep k _ _ key.1 (fun es hf e he ho => ⟨e, key.2.2 es hf e he ho, rfl, rfl, rfl⟩) d' n' hne
  | lower D b v d n =>
    cases lb with
    | false => exact same
    | true =>
      have key := updateLBEntries_facts w false (S.ds.find (dataKey D)) v d n (fun es he => h.one _ es he)
      have hds : (CacheOp.apply (datasetOnly w true) S (.lower D b v d n)).ds =
        S.ds.set (dataKey D) (updateLBEntries w false (S.ds.find (dataKey D)) v d n) := rfl
      refine ⟨⟨?_, ?_⟩, ?_⟩
      · intro k es hf
        rw [hds, Store.find_set] at hf
        split at hf
        · simp only [Option.some.injEq] at hf; rw [← hf]; exact key.1
        · exact h.one k es hf
      · intro k es hf e he ho
        rw [hds, Store.find_set] at hf
        split at hf
        · rename_i hb
          subst hb
          simp only [Option.some.injEq] at hf
          subst hf
          obtain ⟨es', h1, e', h2, h3, h4, h5⟩ := key.2.1 e he ho
          have := hm.stored _ es' h1 e' h2 (by unfold Entry.isOpt at *; rw [h5]; exact ho)
          rw [h3, h4, h5] at this
          exact this
        · exact hm.stored k es hf e he ho
      · intro k d' n' hne
        rw [hds]
        exact keep k _ _ key.1 (fun es hf e he ho => key.2.2 es hf e he ho) d' n' hne

theorem dsHist (w : Int) (lb : Bool) (pre ops : List CacheOp) (S : Cache) (h : DsHist pre S) :
    DsHist (pre ++ ops) (runOps (datasetOnly w lb) S ops) ∧
    ∀ k d n, (retrieveOptEntries w ((S.ds.find k).getD []) d n).isEmpty = false →
      retrieveOptEntries w (((runOps (datasetOnly w lb) S ops).ds.find k).getD []) d n = retrieveOptEntries w ((S.ds.find k).getD []) d n := by
  induction ops generalizing pre S with
  | nil => rw [List.append_nil]; exact ⟨h, fun _ _ _ _ => rfl⟩
  | cons o ops ih =>
    obtain ⟨h1, h2⟩ := h.apply (w := w) (lb := lb) o
    obtain ⟨h3, h4⟩ := ih (pre ++ [o]) _ h1
    rw [List.append_assoc] at h3
    refine ⟨h3, fun k d n hne => ?_⟩
    have h5 := h2 k d n hne
    have h6 := h4 k d n (by rw [h5]; exact hne)
    rw [h5] at h6
    exact h6

theorem datasetOnly_retrieve (w : Int) (lb : Bool) (S : Cache) (D : Data) (b : Branch) (d n : Nat) :
    S.retrieveOpt (datasetOnly w lb) D b d n = retrieveOptEntries w ((S.ds.find (dataKey D)).getD []) d n := rfl

theorem dsHist_init : DsHist [] Cache.init :=
  ⟨fun b es h => by simp [Cache.init, Store.find] at h, fun b es h => by simp [Cache.init, Store.find] at h⟩

/-- C09 for the dataset cache, first half: an answer was stored for the same instances, with a budget that covers it. -/
theorem dataset_answer_stored (w : Int) (lb : Bool) (ops : List CacheOp) (D : Data) (b : Branch) (d n : Nat)
    (h : ((runOps (datasetOnly w lb) Cache.init ops).retrieveOpt (datasetOnly w lb) D b d n).isEmpty = false) :
    ∃ D' b' d' n', CacheOp.store D' b' ((runOps (datasetOnly w lb) Cache.init ops).retrieveOpt (datasetOnly w lb) D b d n) d' n' ∈ ops ∧
      D'.map (·.id) = D.map (·.id) ∧
      ((runOps (datasetOnly w lb) Cache.init ops).retrieveOpt (datasetOnly w lb) D b d n).numNodes ≤ n ∧ n ≤ n' ∧
      min d' ((runOps (datasetOnly w lb) Cache.init ops).retrieveOpt (datasetOnly w lb) D b d n).numNodes ≤ d ∧ d ≤ d' := by
  have hh := (dsHist w lb [] ops _ dsHist_init).1
  rw [List.nil_append] at hh
  rw [datasetOnly_retrieve] at h ⊢
  obtain ⟨x, h1, h2, h3, h4, h5⟩ := retrieveOpt_entry h
  cases hf : (runOps (datasetOnly w lb) Cache.init ops).ds.find (dataKey D) with
  | none => rw [hf] at h1; simp at h1
  | some es =>
    rw [hf] at h1 h5
    obtain ⟨D', b', d', n', g1, g2, g3, g4, g5, g6⟩ := hh.stored _ es hf x h1 h4
    rw [h5] at g1 g2 g4
    rw [h3] at g2 g3
    rw [h2] at g4 g5
    exact ⟨D', b', d', n', g1, g6, g2, g3, g4, g5⟩

/-- C09 for the dataset cache, second half: an answer is never changed by anything that happens later. -/
theorem dataset_answer_kept (w : Int) (lb : Bool) (ops later : List CacheOp) (D : Data) (b : Branch) (d n : Nat)
    (h : ((runOps (datasetOnly w lb) Cache.init ops).retrieveOpt (datasetOnly w lb) D b d n).isEmpty = false) :
    (runOps (datasetOnly w lb) Cache.init (ops ++ later)).retrieveOpt (datasetOnly w lb) D b d n =
      (runOps (datasetOnly w lb) Cache.init ops).retrieveOpt (datasetOnly w lb) D b d n := by
  have hh := (dsHist w lb [] ops _ dsHist_init).1
  have := (dsHist w lb _ later _ hh).2 (dataKey D) d n h
  rw [datasetOnly_retrieve, datasetOnly_retrieve]
  rw [← this]
  unfold runOps
  rw [List.foldl_append]

/-! ### The hypotheses are met -/

/-- Stores, a bound and a transfer; the answer for path `[2]` comes from path `[0]`. -/
example : let ops : List CacheOp := [.lower [] [0] (Node.value 3) 2 2, .store [] [0] (Node.branch 1 4 0 0) 2 3, .transfer [0] [2]]
    (runOps (branchOnly 100 true) Cache.init ops).retrieveOpt (branchOnly 100 true) [] [2] 2 2 = Node.branch 1 4 0 0 ∧
    (runOps (branchOnly 100 true) Cache.init (ops ++ [.store [] [2] (Node.leaf 0 9) 2 3])).retrieveOpt (branchOnly 100 true) [] [2] 2 2 =
      Node.branch 1 4 0 0 := by decide

/-- Two stores for the same instances; the first answer stays. -/
example : let D := [exInst 0 1 0, exInst 2 3 1]
    let ops : List CacheOp := [.lower D [0] (Node.value 3) 2 2, .store D [0] (Node.branch 1 4 0 0) 2 3]
    (runOps (datasetOnly 100 true) Cache.init ops).retrieveOpt (datasetOnly 100 true) D [5] 1 1 = Node.branch 1 4 0 0 ∧
    (runOps (datasetOnly 100 true) Cache.init (ops ++ [.store D [2] (Node.leaf 0 9) 2 3])).retrieveOpt (datasetOnly 100 true) D [2] 2 2 =
      Node.branch 1 4 0 0 := by decide

end Streed
