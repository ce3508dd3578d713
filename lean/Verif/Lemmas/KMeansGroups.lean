import Verif.Lemmas.KMeansPoints

/-!
# Groups of equal features, and the bounds kept for one branch

`groups_spec`: the squared error of a function of the groups is the error inside the groups plus the weighted distance of
the group means. `entries_step`: every bound that a call returns or keeps is one.
-/

open Finset

namespace Streed.KM

/-- The squared error of value `v` on the targets an instance stands for. -/
def err (v : Rat) (i : RInst) : Rat := i.ysq - 2 * v * i.y + i.w * v ^ 2

/-- The squared error of a value for every group. -/
def errAll (D : List RInst) (f : Nat → Rat) : Rat := (D.map fun i => err (f i.group) i).sum

/-- The weighted distance of the group means to the values of their groups. -/
def dist (T : List (Nat × KPt)) (f : Nat → Rat) : Rat := (T.map fun t => t.2.w * (t.2.x - f t.1) ^ 2).sum

/-- What the loop over the instances has done: `P` are the instances so far, `T` the finished groups with their tags. -/
structure GroupInv (P : List RInst) (s : GroupSt) (T : List (Nat × KPt)) : Prop where
  pts : T.map Prod.snd = s.pts
  pos : ∀ t ∈ T, 0 < t.2.w
  n : 0 < s.n
  cost : ∀ f, errAll P f = s.lb + dist T f + (s.ysq - 2 * f s.prev * s.y + s.n * f s.prev ^ 2)
  tags : ∀ g, (g ∈ T.map Prod.fst ∨ g = s.prev) ↔ g ∈ P.map RInst.group
  sorted : P.Pairwise (fun a b => a.group ≤ b.group) → T.Pairwise (fun a b => a.1 < b.1) ∧ ∀ t ∈ T, t.1 < s.prev

theorem close_cost {s : GroupSt} (hn : 0 < s.n) (v : Rat) : s.ysq - 2 * v * s.y + s.n * v ^ 2 =
    (s.ysq - s.y * s.y / s.n) + s.n * (s.y / s.n - v) ^ 2 := by
  have : (s.n : Rat) ≠ 0 := by exact_mod_cast hn.ne'
  field_simp
  ring

theorem errAll_append (P : List RInst) (a : RInst) (f : Nat → Rat) : errAll (P ++ [a]) f = errAll P f + err (f a.group) a := by
  simp [errAll]

theorem dist_append (T : List (Nat × KPt)) (a : Nat × KPt) (f : Nat → Rat) :
    dist (T ++ [a]) f = dist T f + a.2.w * (a.2.x - f a.1) ^ 2 := by
  simp [dist]

theorem GroupInv.step {P : List RInst} {s : GroupSt} {T : List (Nat × KPt)} (h : GroupInv P s T) {a : RInst}
    (ha : 0 < a.w) : ∃ T', GroupInv (P ++ [a]) (groupStep s a) T' := by
  have hprev : s.prev ∈ P.map RInst.group := (h.tags _).1 (.inr rfl)
  rw [groupStep]
  by_cases he : s.prev = a.group
  · rw [if_pos he]
    refine ⟨T, h.pts, h.pos, show 0 < s.n + a.w by omega, fun f => ?_, fun g => ?_, fun hs => ?_⟩
    · rw [errAll_append, h.cost f, err, ← he]
      push_cast
      ring
    · rw [List.map_append, List.mem_append, ← h.tags g]
      dsimp only
      simp only [List.map_cons, List.map_nil, List.mem_singleton, ← he]
      tauto
    · exact h.sorted (List.pairwise_append.1 hs).1
  · rw [if_neg he]
    refine ⟨T ++ [(s.prev, ⟨s.n, s.y / s.n⟩)], ?_, ?_, show 0 < 0 + a.w by omega, fun f => ?_, fun g => ?_, fun hs => ?_⟩
    · rw [List.map_append, h.pts]
      rfl
    · intro t ht
      rw [List.mem_append, List.mem_singleton] at ht
      rcases ht with ht | rfl
      · exact h.pos t ht
      · exact h.n
    · rw [errAll_append, h.cost f, dist_append, close_cost h.n, err]
      dsimp only [GroupSt.close]
      push_cast
      ring
    · rw [List.map_append, List.mem_append, List.map_append, List.mem_append, ← h.tags g]
      simp only [List.map_cons, List.map_nil, List.mem_singleton]
    · rw [List.pairwise_append] at hs
      obtain ⟨g1, g2⟩ := h.sorted hs.1
      have hlt : s.prev < a.group := by
        obtain ⟨p, hp, e⟩ := List.mem_map.1 hprev
        have := hs.2.2 p hp a (by simp)
        omega
      refine ⟨List.pairwise_append.2 ⟨g1, by simp, fun t ht u hu => ?_⟩, fun t ht => ?_⟩
      · rw [List.mem_singleton] at hu
        rw [hu]
        exact g2 t ht
      · rw [List.mem_append, List.mem_singleton] at ht
        show t.1 < a.group
        rcases ht with ht | rfl
        · have := g2 t ht
          omega
        · exact hlt

theorem groups_inv : ∀ (l P : List RInst) (s : GroupSt) (T : List (Nat × KPt)), GroupInv P s T → (∀ i ∈ l, 0 < i.w) →
    ∃ T', GroupInv (P ++ l) (l.foldl groupStep s) T' := by
  intro l
  induction l with
  | nil => exact fun P s T h _ => ⟨T, by rwa [List.append_nil]⟩
  | cons a l ih =>
    intro P s T h hw
    obtain ⟨T1, h1⟩ := h.step (hw a (by simp))
    obtain ⟨T2, h2⟩ := ih _ _ _ h1 fun i hi => hw i (by simp [hi])
    refine ⟨T2, ?_⟩
    rwa [List.append_assoc, List.singleton_append] at h2

/-- The groups, each with the number of its feature vector. -/
theorem groups_spec {D : List RInst} (hD : D ≠ []) (hw : ∀ i ∈ D, 0 < i.w) : ∃ T : List (Nat × KPt),
    T.map Prod.snd = (groups D).2 ∧ T ≠ [] ∧ (∀ t ∈ T, 0 < t.2.w) ∧ (∀ f, errAll D f = (groups D).1 + dist T f) ∧
      (∀ g, g ∈ T.map Prod.fst ↔ g ∈ D.map RInst.group) ∧
      (D.Pairwise (fun a b => a.group ≤ b.group) → T.Pairwise (fun a b => a.1 < b.1)) := by
  cases D with
  | nil => exact absurd rfl hD
  | cons a l =>
    have h0 : GroupInv [a] ⟨0, a.y, a.ysq, a.w, a.group, []⟩ [] := by
      refine ⟨rfl, by simp, hw a (by simp), fun f => ?_, fun g => by simp, fun _ => by simp⟩
      simp [errAll, dist, err]
    obtain ⟨T, h⟩ := groups_inv l [a] _ [] h0 fun i hi => hw i (by simp [hi])
    rw [groups]
    generalize l.foldl groupStep ⟨0, a.y, a.ysq, a.w, a.group, []⟩ = s at h
    refine ⟨T ++ [(s.prev, ⟨s.n, s.y / s.n⟩)], ?_, by simp, ?_, fun f => ?_, fun g => ?_, fun hs => ?_⟩
    · rw [List.map_append, h.pts]
      rfl
    · intro t ht
      rw [List.mem_append, List.mem_singleton] at ht
      rcases ht with ht | rfl
      · exact h.pos t ht
      · exact h.n
    · rw [show a :: l = [a] ++ l from rfl, h.cost f, dist_append, close_cost h.n]
      dsimp only [GroupSt.close]
      ring
    · rw [List.map_append, List.mem_append]
      simpa using h.tags g
    · obtain ⟨g1, g2⟩ := h.sorted hs
      refine List.pairwise_append.2 ⟨g1, by simp, fun t ht u hu => ?_⟩
      rw [List.mem_singleton] at hu
      rw [hu]
      exact g2 t ht

/-! ### Clusters of groups -/

/-- `c` is the squared error of a value for every group, at most `m + 1` of them different, plus `m` times `bc`, for some
`m` up to `n`. -/
def Cluster (bc : Rat) (D : List RInst) (n : Nat) (c : Rat) : Prop :=
  ∃ (f : Nat → Rat) (m : Nat), m ≤ n ∧ ((D.map fun i => f i.group).toFinset).card ≤ m + 1 ∧ c = errAll D f + m * bc

/-- `b` is below every clustering. -/
def Below (bc : Rat) (D : List RInst) (n : Nat) (b : Rat) : Prop := ∀ c, Cluster bc D n c → b ≤ c

theorem Cluster.mono {bc : Rat} {D : List RInst} {n m : Nat} {c : Rat} (h : Cluster bc D n c) (hn : n ≤ m) :
    Cluster bc D m c := by
  obtain ⟨f, k, h1, h2⟩ := h
  exact ⟨f, k, h1.trans hn, h2⟩

theorem Below.mono {bc : Rat} {D : List RInst} {n m : Nat} {b : Rat} (h : Below bc D m b) (hn : n ≤ m) :
    Below bc D n b := fun c hc => h c (hc.mono hn)

/-- No more clusters than groups are of use. -/
theorem Below.all {bc : Rat} (hbc : 0 ≤ bc) {D : List RInst} {N : Nat} {b : Rat} (hN : ((D.map RInst.group).toFinset).card ≤ N)
    (h : Below bc D (N - 1) b) (n : Nat) : Below bc D n b := by
  rintro c ⟨f, m, hm, hc, rfl⟩
  rcases Nat.lt_or_ge (N - 1) m |>.symm with hle | hlt
  · exact h _ ⟨f, m, hle, hc, rfl⟩
  · have hcard : ((D.map fun i => f i.group).toFinset).card ≤ N - 1 + 1 := by
      classical
      have e : (D.map fun i => f i.group).toFinset = ((D.map RInst.group).toFinset).image f := by
        ext x
        simp
      rw [e]
      exact card_image_le.trans (hN.trans (by omega))
    refine le_trans (h _ ⟨f, N - 1, le_rfl, hcard, rfl⟩) ?_
    have : ((N - 1 : Nat) : Rat) ≤ m := by exact_mod_cast hlt.le
    have := mul_le_mul_of_nonneg_right this hbc
    linarith

theorem dist_nonneg (T : List (Nat × KPt)) (f : Nat → Rat) : 0 ≤ dist T f := by
  refine List.sum_nonneg fun x hx => ?_
  obtain ⟨t, _, rfl⟩ := List.mem_map.1 hx
  exact mul_nonneg (Nat.cast_nonneg _) (sq_nonneg _)

/-- The error inside the groups is below every clustering. -/
theorem below_groups {bc : Rat} (hbc : 0 ≤ bc) {D : List RInst} (hD : D ≠ []) (hw : ∀ i ∈ D, 0 < i.w) (n : Nat) :
    Below bc D n (groups D).1 := by
  obtain ⟨T, _, _, _, hc, _⟩ := groups_spec hD hw
  rintro c ⟨f, m, _, _, rfl⟩
  rw [hc f]
  have := dist_nonneg T f
  have := mul_nonneg (Nat.cast_nonneg (α := Rat) m) hbc
  linarith

theorem sum_getD {α : Type} (l : List α) (d : α) (g : α → Rat) : (l.map g).sum = ∑ i ∈ range l.length, g (l.getD i d) := by
  induction l with
  | nil => simp
  | cons a l ih =>
    rw [List.map_cons, List.sum_cons, List.length_cons, sum_range_succ', ih, add_comm]
    simp

/-- Sorting the groups by their means, tags included. -/
theorem sort_tags (T : List (Nat × KPt)) : ∃ U : List (Nat × KPt), U.Perm T ∧
    U.map Prod.snd = (T.map Prod.snd).insertionSort (fun p r => p.x ≤ r.x) := by
  refine ⟨T.insertionSort fun a b => a.2.x ≤ b.2.x, List.perm_insertionSort _ _, ?_⟩
  exact List.map_insertionSort (r := fun a b : Nat × KPt => a.2.x ≤ b.2.x) (s := fun p r : KPt => p.x ≤ r.x) Prod.snd T
    (fun _ _ _ _ => Iff.rfl)

theorem sorted_sort (l : List KPt) : (l.insertionSort (fun p r => p.x ≤ r.x)).Pairwise fun p r => p.x ≤ r.x := by
  have : Std.Total (fun p r : KPt => p.x ≤ r.x) := ⟨fun a b => le_total a.x b.x⟩
  have : IsTrans KPt (fun p r : KPt => p.x ≤ r.x) := ⟨fun a b c => le_trans⟩
  exact List.pairwise_insertionSort _ _

/-- The table, on the groups: the sum is below every clustering with at most `K` values, and is the cost of one with the
number of values reported. -/
theorem table_spec {bc : Rat} (hbc : 0 ≤ bc) {D : List RInst} (hD : D ≠ []) (hw : ∀ i ∈ D, 0 < i.w) {K : Nat}
    (hK : 1 ≤ K) (hKN : K ≤ (groups D).2.length) :
    let b := dynamicStop ((groups D).2.insertionSort fun p r => p.x ≤ r.x) K bc
    b.2 < K ∧ Below bc D (K - 1) ((groups D).1 + b.1) ∧
      (D.Pairwise (fun a b => a.group ≤ b.group) → Cluster bc D b.2 ((groups D).1 + b.1)) := by
  obtain ⟨T, hT, hne, hpos, hcost, htags, hsort⟩ := groups_spec hD hw
  obtain ⟨U, hU, hUs⟩ := sort_tags T
  rw [hT] at hUs
  have hd := sorted_sort (groups D).2
  rw [← hUs] at hd ⊢
  have hposU : ∀ p ∈ U.map Prod.snd, 0 < p.w := fun p hp => by
    obtain ⟨t, ht, rfl⟩ := List.mem_map.1 hp
    exact hpos t (hU.mem_iff.1 ht)
  have hlen : (U.map Prod.snd).length = (groups D).2.length := by
    rw [hUs]
    exact (List.perm_insertionSort _ _).length_eq
  have hneU : U.map Prod.snd ≠ [] := fun h => by
    rw [h] at hlen
    simp at hlen
    omega
  obtain ⟨q, hq, e, hmin⟩ := dynamicStop_spec hd hposU hK (hlen ▸ hKN) hbc
  have hdist : ∀ f, dist T f = ∑ i ∈ range (U.map Prod.snd).length, ptW (U.map Prod.snd) i *
      (ptX (U.map Prod.snd) i - f (U.getD i default).1) ^ 2 := fun f => by
    rw [show dist T f = dist U f from (hU.map _).sum_eq.symm, dist, sum_getD _ default, List.length_map]
    refine sum_congr rfl fun i hi => ?_
    have hi' : i < U.length := mem_range.1 hi
    rw [ptW, ptX, List.length_map, show min i (U.length - 1) = i by omega, List.getD_eq_getElem _ _ hi',
      List.getD_eq_getElem _ _ (by rwa [List.length_map]), List.getElem_map]
  have hX := ptX_mono hd
  have hW := ptW_pos hneU hposU
  dsimp only
  rw [e]
  refine ⟨hq, ?_, fun hs => ?_⟩
  · rintro c ⟨f, m, hm, hcard, rfl⟩
    rw [hcost f, hdist f]
    have h1 := opt_assign hX hW m (U.map Prod.snd).length ((D.map fun i => f i.group).toFinset)
      (fun i => f (U.getD i default).1) hcard fun i hi => by
        rw [List.length_map] at hi
        rw [List.getD_eq_getElem _ _ hi, List.mem_toFinset, List.mem_map]
        have : U[i].1 ∈ T.map Prod.fst := List.mem_map_of_mem (hU.mem_iff.1 (List.getElem_mem hi))
        obtain ⟨a, ha, e⟩ := List.mem_map.1 ((htags _).1 this)
        exact ⟨a, ha, by rw [e]⟩
    have h2 := hmin m (by omega)
    dsimp only at h1 ⊢
    linarith
  · obtain ⟨v, hv, ev⟩ := opt_reach (X := ptX (U.map Prod.snd)) hW q (U.map Prod.snd).length
    have hnd : (U.map Prod.fst).Nodup := by
      have : (T.map Prod.fst).Nodup := by
        rw [List.nodup_iff_pairwise_ne, List.pairwise_map]
        exact (hsort hs).imp fun h => h.ne
      exact (hU.map _).nodup_iff.2 this
    let f : Nat → Rat := fun g => v ((U.map Prod.fst).idxOf g)
    have hf : ∀ i (hi : i < U.length), f (U[i].1) = v i := fun i hi => by
      show v ((U.map Prod.fst).idxOf U[i].1) = v i
      have := hnd.idxOf_getElem i (by rwa [List.length_map])
      rw [List.getElem_map] at this
      rw [this]
    refine ⟨f, q, le_rfl, le_trans (card_le_card fun x hx => ?_) hv, ?_⟩
    · rw [List.mem_toFinset, List.mem_map] at hx
      obtain ⟨a, ha, rfl⟩ := hx
      have h1 : a.group ∈ U.map Prod.fst := (hU.map Prod.fst).mem_iff.2 ((htags _).2 (List.mem_map_of_mem ha))
      obtain ⟨i, hi, e2⟩ := List.mem_iff_getElem.1 h1
      rw [List.length_map] at hi
      rw [List.getElem_map] at e2
      rw [← e2, hf i hi]
      exact mem_image_of_mem _ (mem_range.2 (by rwa [List.length_map]))
    · rw [hcost f, hdist f, ev]
      dsimp only
      have : ∀ i ∈ range (U.map Prod.snd).length, ptW (U.map Prod.snd) i * (ptX (U.map Prod.snd) i - v i) ^ 2 =
          ptW (U.map Prod.snd) i * (ptX (U.map Prod.snd) i - f (U.getD i default).1) ^ 2 := fun i hi => by
        have hi' : i < U.length := by
          have := mem_range.1 hi
          rwa [List.length_map] at this
        rw [List.getD_eq_getElem _ _ hi', hf i hi']
      rw [sum_congr rfl this]
      ring

end Streed.KM
