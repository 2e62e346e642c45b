import Verif.IntervalTree.Lemmas2
import Mathlib.Data.Finset.Card
import Mathlib.Data.Finset.Dedup

/-! # Properties C01–C04: the interval tree -/

namespace Verif.IntervalTree

variable {K V : Type} [LinearOrder K]

open Tree

/-- a concrete non-trivial history: 4 keys, a rotation, a duplicate key, removals of a present
(two-children) and an absent key -/
def demoOps : List (Op Nat Nat) :=
  [.insert (mkRange 1 5) 10, .insert (mkRange 2 3) 20, .insert (mkRange 4 9) 30,
   .insert (mkRange 1 5) 11, .insert (mkRange 0 0) 40, .remove (mkRange 2 3), .remove (mkRange 7 7)]

/-- **C01.** After any history of `insert`/`remove` on a fresh tree (none of which panics), `get`,
`get_or`, `contains` and `is_empty` answer as the multimap `spec`. -/
theorem interval_tree_multimap (ops : List (Op K V)) :
    ∃ t, run ops = some t ∧
      (∀ k, t.get k = match spec ops k with
        | [] => none
        | v :: vs => some (v :: vs)) ∧
      (∀ k dflt, t.getOr k dflt = if (spec ops k).isEmpty then dflt else spec ops k) ∧
      (∀ k, t.contains k = true ↔ spec ops k ≠ []) ∧
      (t.isEmpty = true ↔ ∀ k, spec ops k = []) := by
  obtain ⟨t, e, hi, hl⟩ := run_spec ops
  have hget : ∀ k, t.get k = match spec ops k with
        | [] => none
        | v :: vs => some (v :: vs) := by
    intro k
    rw [get_spec k t hi.1 hi.2]
    have := hl k
    cases h : spec ops k with
    | nil => rw [h] at this; simp [this]
    | cons v vs => rw [h] at this; simp [this]
  refine ⟨t, e, hget, ?_, ?_, ?_⟩
  · intro k dflt
    rw [Tree.getOr, hget]
    cases h : spec ops k <;> simp
  · intro k
    rw [Tree.contains, hget]
    cases h : spec ops k <;> simp
  · constructor
    · intro h k
      cases t with
      | nil => rw [← hl]; rfl
      | node => simp [Tree.isEmpty] at h
    · intro h
      cases t with
      | nil => rfl
      | node l k d h' m r =>
        exfalso
        have hk : k ∈ (Tree.node l k d h' m r).toList.map Prod.fst := by simp [toList]
        rw [mem_keys_iff _ hi, hl, h] at hk
        exact hk rfl

example : spec demoOps (mkRange 1 5) = [10, 11] ∧ spec demoOps (mkRange 2 3) = [] ∧
    ((run demoOps).bind fun t => t.get (mkRange 1 5)) = some [10, 11] := by decide

/-- **C02.** No history panics; the reported height is the real depth of the tree and is
logarithmically bounded by the number of distinct keys. -/
theorem interval_tree_no_panic (ops : List (Op K V)) (keys : Finset (Range K))
    (hkeys : ∀ k, k ∈ keys ↔ spec ops k ≠ []) :
    ∃ t, run ops = some t ∧ t.ht = depth t ∧ Nat.fib (t.ht + 2) ≤ keys.card + 1 ∧
      2 ^ (t.ht / 2) ≤ keys.card + 1 := by
  obtain ⟨t, e, hi, hl⟩ := run_spec ops
  have hcard : t.toList.length = keys.card := by
    have hnd : (t.toList.map Prod.fst).Nodup := by
      have : (t.toList.map Prod.fst).Pairwise (· < ·) := by
        rw [List.pairwise_map]; exact hi.2
      exact this.imp (fun h => ne_of_lt h)
    have : keys = (t.toList.map Prod.fst).toFinset := by
      ext k
      rw [hkeys, List.mem_toFinset, mem_keys_iff t hi, hl]
    rw [this, List.toFinset_card_of_nodup hnd, List.length_map]
  have hf : Nat.fib (t.ht + 2) ≤ keys.card + 1 := by rw [← hcard]; exact fib_bound t hi.1
  exact ⟨t, e, (depth_eq t hi.1).symm, hf, le_trans (two_pow_le_fib _) hf⟩

example : ∃ keys : Finset (Range Nat), keys.card = 3 ∧
    (∀ k ∈ keys, spec demoOps k ≠ []) ∧ (run demoOps).map Tree.ht = some 2 :=
  ⟨{mkRange 1 5, mkRange 4 9, mkRange 0 0}, by decide, by decide, by decide⟩

/-- **C03.** `range(a..=b)`: the successive calls of `next` yield a list `xs` (then `None` for ever)
that lists, in ascending key order, exactly the values of the keys `k` with `k.end >= a` and
`k.start <= b`. -/
theorem interval_tree_range_exact (ops : List (Op K V)) (q : Range K) :
    ∃ t xs, run ops = some t ∧ (∀ n, (range t q).nth n = xs[n]?) ∧
      Lists (fun k => if q.lo ≤ k.hi ∧ k.lo ≤ q.hi then spec ops k else []) xs := by
  obtain ⟨t, e, hi, hl⟩ := run_spec ops
  refine ⟨t, _, e, fun n => RangeIter.nth_den _ n, ?_⟩
  have h1 : (range t q).lo = .included q.lo := rfl
  have h2 : (range t q).hi = .included q.hi := rfl
  have h3 : (range t q).stack = (RangeIter.new t (.included q.lo) (.included q.hi)).stack := rfl
  rw [h1, h2, h3, RangeIter.new_den, RangeIter.visit_spec _ _ _ hi.1 hi.2, contents_flat]
  have hL := lists_flat t.toList hi.2
  refine ⟨hL.1.filter _, ?_⟩
  intro k
  rw [List.filter_filter]
  have hint : ∀ p : Range K × V,
      (decide (p.1 = k) && intersect (.included q.lo) (.included q.hi) p.1) =
      (decide (p.1 = k) && decide (q.lo ≤ k.hi ∧ k.lo ≤ q.hi)) := by
    intro p
    by_cases h : p.1 = k
    · subst h; simp [intersect]
    · simp [h]
  simp only [hint]
  have hv := hL.2 k
  simp only [hl] at hv
  by_cases hc : q.lo ≤ k.hi ∧ k.lo ≤ q.hi
  · simp only [hc, if_true, decide_true, Bool.and_true, and_self]
    exact hv
  · rw [if_neg hc]
    simp [hc]

/-- The same with the other two kinds of bounds is not reachable from the public API except
`iter()`: see `interval_tree_iter_complete`. A query hitting two of the three keys: -/
example : spec demoOps (mkRange 1 5) ≠ [] ∧ ((2 : Nat) ≤ (mkRange 1 5).hi ∧ (mkRange 1 5).lo ≤ 4) ∧
    ¬ ((2 : Nat) ≤ (mkRange 0 0).hi) := by decide

/-- **C04 (borrowing iterator).** `iter()` lists the whole multimap. -/
theorem interval_tree_iter_complete (ops : List (Op K V)) :
    ∃ t xs, run ops = some t ∧ (∀ n, (iter t).nth n = xs[n]?) ∧ Lists (spec ops) xs := by
  obtain ⟨t, e, hi, hl⟩ := run_spec ops
  refine ⟨t, _, e, fun n => RangeIter.nth_den _ n, ?_⟩
  have h1 : (iter t).lo = .unbounded := rfl
  have h2 : (iter t).hi = .unbounded := rfl
  have h3 : (iter t).stack = (RangeIter.new t .unbounded .unbounded).stack := rfl
  rw [h1, h2, h3, RangeIter.new_den, RangeIter.visit_spec _ _ _ hi.1 hi.2, contents_flat]
  rw [List.filter_eq_self.mpr (by simp [intersect])]
  have hL := lists_flat t.toList hi.2
  refine ⟨hL.1, fun k => ?_⟩
  rw [← hl]; exact hL.2 k

/-- **C04 (consuming iterator).** `into_iter()` lists the whole multimap. -/
theorem interval_tree_into_iter_complete (ops : List (Op K V)) :
    ∃ t xs, run ops = some t ∧ (∀ n, (IntoIter.new t).nth n = xs[n]?) ∧ Lists (spec ops) xs := by
  obtain ⟨t, e, hi, hl⟩ := run_spec ops
  refine ⟨t, _, e, fun n => IntoIter.nth_remaining _ n, ?_⟩
  rw [IntoIter.new_remaining, contents_flat]
  have hL := lists_flat t.toList hi.2
  refine ⟨hL.1, fun k => ?_⟩
  rw [← hl]; exact hL.2 k

/-- **C04 (min/max).** `min()`/`max()` return the least/greatest key that has values, with all its
values, and `None` exactly on an empty multimap. -/
theorem interval_tree_min_max (ops : List (Op K V)) :
    ∃ t, run ops = some t ∧
      (∀ k d, t.min = some (k, d) ↔
        d = spec ops k ∧ d ≠ [] ∧ ∀ k', spec ops k' ≠ [] → k ≤ k') ∧
      (∀ k d, t.max = some (k, d) ↔
        d = spec ops k ∧ d ≠ [] ∧ ∀ k', spec ops k' ≠ [] → k' ≤ k) ∧
      (t.min = none ↔ ∀ k, spec ops k = []) ∧ (t.max = none ↔ ∀ k, spec ops k = []) := by
  obtain ⟨t, e, hi, hl⟩ := run_spec ops
  have hmem : ∀ k d, (k, d) ∈ t.toList ↔ d = spec ops k ∧ d ≠ [] := by
    intro k d
    constructor
    · intro h
      have h1 := lget_mem _ hi.2 _ h
      rw [hl] at h1
      exact ⟨h1.symm, AVL_data_ne t hi.1 _ h⟩
    · rintro ⟨h1, h2⟩
      rw [← hl] at h1
      subst h1
      exact lget_ne_mem _ _ h2
  have hemp : t.toList = [] ↔ ∀ k, spec ops k = [] := by
    constructor
    · intro h k
      rw [← hl, h]; rfl
    · intro h
      rw [List.eq_nil_iff_forall_not_mem]
      rintro ⟨k, d⟩ hp
      rw [hmem] at hp
      exact hp.2 (hp.1.trans (h k))
  refine ⟨t, e, ?_, ?_, ?_, ?_⟩
  · intro k d
    rw [min_eq]
    constructor
    · intro h
      have hm := List.mem_of_mem_head? h
      refine ⟨((hmem k d).mp hm).1, ((hmem k d).mp hm).2, ?_⟩
      intro k' hk'
      have hm' := (hmem k' _).mpr ⟨rfl, hk'⟩
      cases hx : t.toList with
      | nil => rw [hx] at h; simp at h
      | cons p xs =>
        have hs := hi.2
        rw [hx] at h hm' hs
        simp only [List.head?_cons, Option.some.injEq] at h
        subst h
        unfold Tree.Sorted at hs
        rw [List.pairwise_cons] at hs
        simp only [List.mem_cons] at hm'
        rcases hm' with h1 | h1
        · rw [Prod.mk.injEq] at h1; rw [h1.1]
        · exact (hs.1 _ h1).le
    · rintro ⟨h1, h2, h3⟩
      have hm := (hmem k d).mpr ⟨h1, h2⟩
      cases hx : t.toList with
      | nil => rw [hx] at hm; simp at hm
      | cons p xs =>
        have hs := hi.2
        have hp : p ∈ t.toList := by rw [hx]; simp
        obtain ⟨k0, d0⟩ := p
        have hp' := (hmem k0 d0).mp hp
        have hle := h3 k0 (by rw [← hp'.1]; exact hp'.2)
        rw [hx] at hm hs
        unfold Tree.Sorted at hs
        rw [List.pairwise_cons] at hs
        simp only [List.mem_cons] at hm
        rcases hm with h | h
        · simp [h]
        · exact absurd (hs.1 _ h) (not_lt.mpr hle)
  · intro k d
    rw [max_eq]
    constructor
    · intro h
      have hm := List.mem_of_getLast? h
      refine ⟨((hmem k d).mp hm).1, ((hmem k d).mp hm).2, ?_⟩
      intro k' hk'
      have hm' := (hmem k' _).mpr ⟨rfl, hk'⟩
      obtain ⟨ys, hys⟩ := List.getLast?_eq_some_iff.mp h
      have hs := hi.2
      rw [hys] at hm' hs
      unfold Tree.Sorted at hs
      rw [List.pairwise_append] at hs
      simp only [List.mem_append, List.mem_singleton] at hm'
      rcases hm' with h1 | h1
      · exact (hs.2.2 _ h1 (k, d) (by simp)).le
      · rw [Prod.mk.injEq] at h1; rw [h1.1]
    · rintro ⟨h1, h2, h3⟩
      have hm := (hmem k d).mpr ⟨h1, h2⟩
      cases hx : t.toList.getLast? with
      | none =>
        rw [List.getLast?_eq_none_iff] at hx; rw [hx] at hm; simp at hm
      | some p =>
        obtain ⟨k0, d0⟩ := p
        have hp' := (hmem k0 d0).mp (List.mem_of_getLast? hx)
        have hle := h3 k0 (by rw [← hp'.1]; exact hp'.2)
        obtain ⟨ys, hys⟩ := List.getLast?_eq_some_iff.mp hx
        have hs := hi.2
        rw [hys] at hm hs
        unfold Tree.Sorted at hs
        rw [List.pairwise_append] at hs
        simp only [List.mem_append, List.mem_singleton] at hm
        rcases hm with h | h
        · exact absurd (hs.2.2 _ h (k0, d0) (by simp)) (not_lt.mpr hle)
        · rw [h]
  · rw [min_eq, List.head?_eq_none_iff]; exact hemp
  · rw [max_eq, List.getLast?_eq_none_iff]; exact hemp

example : ((run demoOps).bind Tree.min) = some (mkRange 0 0, [40]) ∧
    ((run demoOps).bind Tree.max) = some (mkRange 4 9, [30]) := by decide

/-- **C04 (merge).** `merge` of two reachable trees does not panic and, key by key, appends the other
tree's values to this tree's values. -/
theorem interval_tree_merge (ops ops' : List (Op K V)) :
    ∃ t t' u, run ops = some t ∧ run ops' = some t' ∧ t.merge t' = some u ∧
      ∀ k, u.get k = match spec ops k ++ spec ops' k with
        | [] => none
        | v :: vs => some (v :: vs) := by
  obtain ⟨t, e, hi, hl⟩ := run_spec ops
  obtain ⟨t', e', hi', hl'⟩ := run_spec ops'
  obtain ⟨u, eu, hu, lu⟩ := runFrom_spec
    ((flat t'.toList).map fun p => Op.insert p.1 p.2) t hi
  refine ⟨t, t', u, e, e', ?_, ?_⟩
  · rw [Tree.merge, IntoIter.collect_eq, IntoIter.new_remaining, contents_flat, insertAll_runFrom]
    exact eu
  · intro k
    have hk : lget k u.toList = spec ops k ++ spec ops' k := by
      rw [lu k, foldl_inserts, hl k, flat_values _ hi'.2, hl' k]
    rw [get_spec k u hu.1 hu.2, ]
    cases h : spec ops k ++ spec ops' k with
    | nil => rw [h] at hk; simp [hk]
    | cons v vs => rw [h] at hk; simp [hk]

example : spec demoOps (mkRange 1 5) ++ spec demoOps (mkRange 1 5) = [10, 11, 10, 11] := by decide

end Verif.IntervalTree
