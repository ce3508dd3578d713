import Verif.Lemmas.CacheInv

/-!
# C12: paths are recognised regardless of the order of their decisions
-/

namespace Streed

/-- A decision: a feature and whether it is present. -/
abbrev Decision := Nat × Bool

/-- The cache key of a sequence of decisions, made from the root down. -/
def pathOf (ds : List Decision) : Branch := ds.foldl (fun b d => b.child d.1 d.2) []

theorem insertCode_perm (c : Nat) (b : List Nat) : (insertCode c b).Perm (c :: b) := by
  induction b with
  | nil => exact List.Perm.refl _
  | cons x xs ih =>
    simp only [insertCode]
    split
    · exact List.Perm.refl _
    · exact (List.Perm.cons x ih).trans (List.Perm.swap c x xs)

theorem insertCode_sorted {c : Nat} {b : List Nat} (h : b.Pairwise (· ≤ ·)) : (insertCode c b).Pairwise (· ≤ ·) := by
  induction b with
  | nil => simp [insertCode]
  | cons x xs ih =>
    simp only [insertCode]
    rw [List.pairwise_cons] at h
    split
    · rename_i hc
      refine List.pairwise_cons.2 ⟨fun y hy => ?_, List.pairwise_cons.2 h⟩
      rcases List.mem_cons.1 hy with rfl | hy
      · exact hc
      · exact Nat.le_trans hc (h.1 y hy)
    · refine List.pairwise_cons.2 ⟨fun y hy => ?_, ih h.2⟩
      rcases List.mem_cons.1 ((insertCode_perm c xs).subset hy) with rfl | hy
      · omega
      · exact h.1 y hy

theorem code_inj {f g : Nat} {x y : Bool} (h : code f x = code g y) : f = g ∧ x = y := by
  unfold code at h
  cases x <;> cases y <;> simp at h ⊢ <;> omega

theorem pathFold_perm (ds : List Decision) (b : Branch) :
    (ds.foldl (fun b d => b.child d.1 d.2) b).Perm (ds.map (fun d => code d.1 d.2) ++ b) := by
  induction ds generalizing b with
  | nil => exact List.Perm.refl _
  | cons d ds ih =>
    refine (ih _).trans ?_
    refine ((insertCode_perm _ b).append_left _).trans ?_
    exact List.perm_middle

theorem pathFold_sorted (ds : List Decision) (b : Branch) (h : b.Pairwise (· ≤ ·)) :
    (ds.foldl (fun b d => b.child d.1 d.2) b).Pairwise (· ≤ ·) := by
  induction ds generalizing b with
  | nil => exact h
  | cons d ds ih => exact ih _ (insertCode_sorted h)

theorem pathOf_perm (ds : List Decision) : (pathOf ds).Perm (ds.map fun d => code d.1 d.2) := by
  have := pathFold_perm ds []
  rwa [List.append_nil] at this

theorem perm_of_map_inj {α β : Type} [DecidableEq α] [DecidableEq β] {g : α → β} (hg : ∀ a b, g a = g b → a = b)
    {l l' : List α} (h : (l.map g).Perm (l'.map g)) : l.Perm l' := by
  rw [List.perm_iff_count] at h ⊢
  intro a
  have := h (g a)
  rw [List.count_eq_countP, List.count_eq_countP, List.countP_map, List.countP_map] at this
  rw [List.count_eq_countP, List.count_eq_countP]
  have e : ((fun x => x == g a) ∘ g) = fun x => x == a := by
    funext x
    by_cases hx : x = a
    · simp [hx]
    · simp only [Function.comp]
      rw [beq_eq_false_iff_ne.2 hx, beq_eq_false_iff_ne.2 fun e => hx (hg _ _ e)]
  rwa [e] at this

/-- C12: the keys of two paths are equal exactly when one sequence of decisions is a reordering of the other. -/
theorem path_key_iff (ds es : List Decision) : pathOf ds = pathOf es ↔ ds.Perm es := by
  constructor
  · intro h
    refine perm_of_map_inj (g := fun d : Decision => code d.1 d.2) (fun a b e => ?_)
      ((pathOf_perm ds).symm.trans (h ▸ pathOf_perm es))
    have := code_inj e
    exact Prod.ext this.1 this.2
  · intro h
    exact List.Perm.eq_of_pairwise (le := (· ≤ ·)) (fun a b _ _ h1 h2 => Nat.le_antisymm h1 h2)
      (pathFold_sorted ds [] List.Pairwise.nil) (pathFold_sorted es [] List.Pairwise.nil)
      ((pathOf_perm ds).trans ((h.map _).trans (pathOf_perm es).symm))

/-- C12: for paths that decide every feature at most once per outcome, equal keys mean equal sets of decisions. -/
theorem path_key_iff_set (ds es : List Decision) (hd : ds.Nodup) (he : es.Nodup) :
    pathOf ds = pathOf es ↔ ∀ x, x ∈ ds ↔ x ∈ es := by
  rw [path_key_iff]
  constructor
  · exact fun h x => h.mem_iff
  · exact fun h => (List.perm_ext_iff_of_nodup hd he).2 h

/-- C12: the key determines the training instances of the path: those that satisfy every decision. -/
theorem path_selects (ds : List Decision) (T : Data) :
    sel (pathOf ds) T = T.filter fun i => ds.all fun d => i.feat d.1 == d.2 := by
  unfold sel
  refine List.filter_congr fun i _ => ?_
  rw [(pathOf_perm ds).all_eq, List.all_map]
  congr 1
  funext d
  exact fits_code i d.1 d.2

/-- C12: following the decisions one split at a time gives the same instances. -/
theorem path_follow (ds : List Decision) (T : Data) :
    sel (pathOf ds) T = ds.foldl (fun D d => if d.2 then having d.1 D else without d.1 D) T := by
  have key : ∀ (ds : List Decision) (b : Branch), sel (ds.foldl (fun b d => b.child d.1 d.2) b) T =
      ds.foldl (fun D d => if d.2 then having d.1 D else without d.1 D) (sel b T) := by
    intro ds
    induction ds with
    | nil => exact fun b => rfl
    | cons d ds ih =>
      intro b
      simp only [List.foldl_cons]
      rw [ih, sel_child]
      cases d.2
      · rw [side_false]; rfl
      · rw [side_true]; rfl
  have := key ds []
  rwa [sel_nil] at this

/-- C12: paths with equal keys select the same instances. -/
theorem path_key_data (ds es : List Decision) (T : Data) (h : pathOf ds = pathOf es) :
    ds.foldl (fun D d => if d.2 then having d.1 D else without d.1 D) T =
    es.foldl (fun D d => if d.2 then having d.1 D else without d.1 D) T := by
  rw [← path_follow, ← path_follow, h]

example : pathOf [(3, true), (1, false)] = pathOf [(1, false), (3, true)] ∧
    pathOf [(3, true), (1, false)] ≠ pathOf [(1, true), (3, true)] := by decide

end Streed
