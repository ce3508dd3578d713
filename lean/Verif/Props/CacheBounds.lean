import Verif.Props.Optimal
import Verif.Lemmas.Calls

/-!
# C11: what the caches hand out

States of a search on `T`: the initial one and those reached by calls of the recursive search on any
subproblem (a path selects its data), with any upper bound and any budget the search uses.
-/

namespace Streed

/-- States reached by a history of `SolveSubTree` calls. -/
inductive Reach (c : Cfg) (T : Data) : St → Prop
  | init : Reach c T St.init
  | check {s : St} : Reach c T s → Reach c T s.next
  | call {s : St} (fuel : Nat) (b : Branch) (UB : Node) (d n : Nat) : Reach c T s → d ≤ fuel →
      c.mls ≤ (sel b T).length → BudOK c d n → n + 1 ≤ 2 ^ d → (c.useTerm = true → n = 1 → UB.isEmpty = true) →
      Reach c T (solveSub c fuel (sel b T) b UB d n s).2
  | similar {s : St} (b : Branch) (d n : Nat) : Reach c T s → BudOK c d n → c.useLB = true →
      Reach c T (useSimilarity c s (sel b T) b d n).2

theorem Reach.ok {c : Cfg} {T : Data} (G : Good c T) {s : St} (h : Reach c T s) : StOK c T s := by
  induction h with
  | init => exact ⟨CInv.init c T _, fun d p hp => by simp [St.init, Tbl.get] at hp⟩
  | check _ ih => exact ih.next
  | call fuel b UB d n _ hd hm hb hp hu ih =>
    exact (solveSub_spec G fuel _ b UB d n _ hd rfl hm hb hp ih).st fun _ => hu
  | similar b d n _ hb hu ih => exact (useSimilarity_spec G ih rfl d n hb hu).1

/-- What C11 asks of one state: a solution handed out for a path and budget is the cost of an allowed tree; as long as
no time check has failed it is the minimum over all allowed trees, and a lower bound handed out is at most the cost
of every allowed tree. -/
def CacheValid (c : Cfg) (T : Data) (s : St) : Prop :=
  ∀ (b : Branch) (d n : Nat), BudOK c d n →
    ((s.cache.retrieveOpt c.cc (sel b T) b d n).isEmpty = false →
      Attained c.P c.mls d n (sel b T) (s.cache.retrieveOpt c.cc (sel b T) b d n).sol ∧
      (AllOK c s.tick → IsOpt c.P c.mls d n (sel b T) (s.cache.retrieveOpt c.cc (sel b T) b d n).sol)) ∧
    (AllOK c s.tick → LowerBound c.P c.mls d n (sel b T) (s.cache.retrieveLB c.cc (sel b T) b d n).sol)

theorem StOK.valid {c : Cfg} {T : Data} (G : Good c T) {s : St} (hs : StOK c T s) : CacheValid c T s := by
  refine fun b d n hb => ⟨fun hne => ?_, fun hok => ?_⟩
  · obtain ⟨⟨h1, h2⟩, h3⟩ := retrieveOpt_spec hs.cache rfl hne
    exact ⟨h1.attained h2, fun hok => ⟨h1.attained h2, (h3 hok).lower hb⟩⟩
  · refine (retrieveLB_spec hs.cache rfl hok ?_).lower hb
    exact fun _ _ _ _ _ t ht => G.cost_nonneg (sel_view b T) t

/-- C11, between calls: in every state reached by a history of calls the caches hand out facts. -/
theorem cached_bounds_valid {c : Cfg} {T : Data} (G : Good c T) {s : St} (h : Reach c T s) : CacheValid c T s :=
  (h.ok G).valid G

open Classical in
/-- The recursive search with every nested call watched: where the caches before the call, after its update from
similar datasets, or after the call hand out something wrong, the call returns `poison` instead. -/
noncomputable def watched (c : Cfg) (T : Data) (poison : Node × St) : Nat → Rec
  | 0 => solveSub c 0
  | fuel + 1 => subTree c fun D b UB d n s =>
    let r := watched c T poison fuel D b UB d n s
    let dn := reduceBudget c UB d n
    if CacheValid c T s ∧ (c.useLB = true → CacheValid c T (useSimilarity c s.next D b dn.1 dn.2).2) ∧ CacheValid c T r.2 then r else poison

theorem watched_eq {c : Cfg} {T : Data} (G : Good c T) (poison : Node × St) (fuel : Nat) (D : Data) (b : Branch) (UB : Node)
    (d n : Nat) (s : St) (hd : d ≤ fuel) (hD : D = sel b T) (hm : c.mls ≤ D.length) (hb : BudOK c d n) (hp : n + 1 ≤ 2 ^ d)
    (hs : StOK c T s) : watched c T poison fuel D b UB d n s = solveSub c fuel D b UB d n s := by
  induction fuel generalizing D b UB d n s with
  | zero => rfl
  | succ fuel ih =>
    rw [watched, solveSub]
    refine subTree_calls G (fun _ => ?_) (fun _ => ?_) hD hm hp hb hs
    · intro D' b' UB' d' n' s' hd'
      exact solveSub_spec G fuel D' b' UB' d' n' s' (by omega)
    · intro D' b' UB' d' n' s' hu' hd' hD' hm' hb' hp' hs'
      dsimp only
      rw [ih D' b' UB' d' n' s' (by omega) hD' hm' hb' hp' hs', if_pos]
      refine ⟨hs'.valid G, ?_, ?_⟩
      · obtain ⟨_, _, _, r4, _⟩ := reduceBudget_bud (UB := UB') hp' hb'
        exact fun hu => ((useSimilarity_spec G hs'.next hD' _ _ r4 hu).1).valid G
      · exact ((solveSub_spec G fuel D' b' UB' d' n' s' (by omega) hD' hm' hb' hp' hs').st fun _ _ _ => hu').valid G

/-- C11, during a call: watching the caches at every nested call, at any depth, never changes the outcome, whatever
a failed watch would return. Hence no nested call ever meets or leaves caches that hand out something wrong. -/
theorem cached_bounds_valid_inside {c : Cfg} {T : Data} (G : Good c T) {s : St} (h : Reach c T s) (poison : Node × St)
    (fuel : Nat) (b : Branch) (UB : Node) (d n : Nat) (hd : d ≤ fuel) (hm : c.mls ≤ (sel b T).length) (hb : BudOK c d n)
    (hp : n + 1 ≤ 2 ^ d) :
    watched c T poison fuel (sel b T) b UB d n s = solveSub c fuel (sel b T) b UB d n s :=
  watched_eq G poison fuel _ b UB d n s hd rfl hm hb hp (h.ok G)

/-- The accuracy configuration qualifies; after a search of depth two the root's optimum is cached. -/
example : let c := accCfg 2 2 1 (defaultOptions 2) (isRedundant (accuracy 2 2) 1 xorData)
    Good c (preprocess (accuracy 2 2) 1 xorData) ∧
    (let D := preprocess (accuracy 2 2) 1 xorData
     let s := (solveSub c 2 D [] (Node.value 100) 2 3 St.init).2
     (s.cache.retrieveOpt c.cc D [] 2 3).isEmpty = false ∧ (s.cache.retrieveOpt c.cc D [] 2 3).sol = 0) :=
  ⟨accCfg_good xorData_input (by decide) (defaultOptions_world 2).order (fun _ => ⟨rfl, rfl⟩) (fun _ => rfl), by decide +kernel⟩

end Streed
