import Verif.IntervalTree.Lemmas
import Verif.IntervalTree.Spec

/-! Connecting the internal list view to the specification. -/

set_option linter.unusedSectionVars false

namespace Verif.IntervalTree

variable {K V : Type} [LinearOrder K]

open Tree

theorem runFrom_spec (ops : List (Op K V)) (t : Tree K V) (h : Inv t) :
    ∃ t', runFrom t ops = some t' ∧ Inv t' ∧
      ∀ k, lget k t'.toList = ops.foldl specStep (fun k => lget k t.toList) k := by
  induction ops generalizing t with
  | nil => exact ⟨t, rfl, h, fun k => rfl⟩
  | cons o os ih =>
    obtain ⟨t1, e1, h1, l1⟩ := apply_spec t h o
    obtain ⟨t2, e2, h2, l2⟩ := ih t1 h1
    refine ⟨t2, by simp [runFrom, e1, e2], h2, ?_⟩
    intro k
    rw [l2, List.foldl_cons]
    have key : (fun k => lget k t1.toList) = specStep (fun k => lget k t.toList) o := by
      funext k'
      rw [l1]
      cases o with
      | insert k0 v => exact lget_lins k0 k' v _ h.2
      | remove k0 => exact lget_ldel k0 k' _
    rw [key]

theorem run_spec (ops : List (Op K V)) :
    ∃ t, run ops = some t ∧ Inv t ∧ ∀ k, lget k t.toList = spec ops k :=
  runFrom_spec ops .nil ⟨trivial, List.Pairwise.nil⟩

def flat (xs : List (Range K × List V)) : List (Range K × V) :=
  xs.flatMap fun p => p.2.map fun v => (p.1, v)

theorem mem_flat {xs : List (Range K × List V)} {p} (h : p ∈ flat xs) : ∃ q ∈ xs, q.1 = p.1 := by
  simp only [flat, List.mem_flatMap, List.mem_map] at h
  obtain ⟨q, hq, v, -, rfl⟩ := h
  exact ⟨q, hq, rfl⟩

theorem flat_sorted (xs : List (Range K × List V)) (h : Sorted xs) :
    (flat xs).Pairwise fun a b => a.1 ≤ b.1 := by
  induction xs with
  | nil => simp [flat]
  | cons p xs ih =>
    unfold Sorted at h
    rw [List.pairwise_cons] at h
    have : flat (p :: xs) = (p.2.map fun v => (p.1, v)) ++ flat xs := by simp [flat]
    rw [this, List.pairwise_append]
    refine ⟨?_, ih h.2, ?_⟩
    · rw [List.pairwise_map]
      exact List.pairwise_of_forall (fun _ _ => le_rfl)
    · intro a ha b hb
      obtain ⟨q, hq, e⟩ := mem_flat hb
      simp only [List.mem_map] at ha
      obtain ⟨v, -, rfl⟩ := ha
      rw [← e]; exact (h.1 q hq).le

theorem flat_values (xs : List (Range K × List V)) (h : Sorted xs) (k : Range K) :
    ((flat xs).filter fun p => decide (p.1 = k)).map Prod.snd = lget k xs := by
  induction xs with
  | nil => simp [flat, lget]
  | cons p xs ih =>
    obtain ⟨k0, d⟩ := p
    unfold Sorted at h
    rw [List.pairwise_cons] at h
    have : flat ((k0, d) :: xs) = (d.map fun v => (k0, v)) ++ flat xs := by simp [flat]
    rw [this, List.filter_append, List.map_append, ih h.2]
    simp only [lget]
    by_cases hk : k0 = k
    · subst hk
      rw [if_pos rfl, lget_of_ne k0 xs (fun p hp => (h.1 p hp).ne'), List.append_nil]
      rw [List.filter_eq_self.mpr (by simp)]
      simp [Function.comp_def]
    · rw [if_neg hk]
      have : List.filter (fun p => decide (p.1 = k)) (List.map (fun v => (k0, v)) d) = [] := by
        simp [hk]
      rw [this]; simp

theorem lists_flat (xs : List (Range K × List V)) (h : Sorted xs) :
    Lists (fun k => lget k xs) (flat xs) := ⟨flat_sorted xs h, flat_values xs h⟩

theorem contents_flat (t : Tree K V) : IntoIter.contents t = flat t.toList := Tree.toList_data t

theorem depth_eq (t : Tree K V) (h : AVL t) : depth t = t.ht := by
  induction t with
  | nil => rfl
  | node l k d h' m r ihl ihr =>
    obtain ⟨hl, hr, hh, -, -, -⟩ := h
    simp only [depth, ihl hl, ihr hr, ht_node, hh]

theorem AVL_data_ne (t : Tree K V) (h : AVL t) (p) (hp : p ∈ t.toList) : p.2 ≠ [] := by
  induction t with
  | nil => simp [toList] at hp
  | node l k d h' m r ihl ihr =>
    obtain ⟨hl, hr, -, -, hd, -⟩ := h
    simp only [toList, List.mem_append, List.mem_cons] at hp
    rcases hp with hp | rfl | hp
    · exact ihl hl hp
    · exact hd
    · exact ihr hr hp

theorem lget_mem (xs : List (Range K × List V)) (hs : Sorted xs) (p) (hp : p ∈ xs) :
    lget p.1 xs = p.2 := by
  induction xs with
  | nil => simp at hp
  | cons q xs ih =>
    obtain ⟨k, d⟩ := q
    unfold Sorted at hs
    rw [List.pairwise_cons] at hs
    simp only [List.mem_cons] at hp
    rcases hp with rfl | hp
    · simp [lget]
    · simp only [lget]
      rw [if_neg (hs.1 p hp).ne]
      exact ih hs.2 hp

theorem lget_ne_mem (xs : List (Range K × List V)) (k) (h : lget k xs ≠ []) :
    (k, lget k xs) ∈ xs := by
  induction xs with
  | nil => simp [lget] at h
  | cons q xs ih =>
    obtain ⟨k0, d⟩ := q
    by_cases hk : k0 = k
    · simp [lget, hk]
    · simp only [lget, hk, if_false] at h ⊢
      exact List.mem_cons_of_mem _ (ih h)

theorem mem_keys_iff (t : Tree K V) (h : Inv t) (k : Range K) :
    k ∈ t.toList.map Prod.fst ↔ lget k t.toList ≠ [] := by
  constructor
  · intro hk
    simp only [List.mem_map] at hk
    obtain ⟨p, hp, rfl⟩ := hk
    rw [lget_mem _ h.2 p hp]
    exact AVL_data_ne t h.1 p hp
  · intro hk
    exact List.mem_map.mpr ⟨_, lget_ne_mem _ _ hk, rfl⟩

theorem min_eq (t : Tree K V) : t.min = t.toList.head? := by
  induction t with
  | nil => rfl
  | node l k d h m r ihl ihr =>
    cases l with
    | nil => simp [Tree.min, toList]
    | node a b c e f g =>
      simp only [Tree.min, ihl]
      rw [show toList (node (node a b c e f g) k d h m r) =
        toList (node a b c e f g) ++ (k, d) :: toList r from rfl]
      rw [List.head?_append]
      simp [toList]

theorem max_eq (t : Tree K V) : t.max = t.toList.getLast? := by
  induction t with
  | nil => rfl
  | node l k d h m r ihl ihr =>
    cases r with
    | nil => simp [Tree.max, toList]
    | node a b c e f g =>
      simp only [Tree.max, ihr]
      rw [show toList (node l k d h m (node a b c e f g)) =
        toList l ++ (k, d) :: toList (node a b c e f g) from rfl]
      simp [toList, List.getLast?_append, List.getLast?_cons]

theorem insertAll_runFrom (xs : List (Range K × V)) (t : Tree K V) :
    xs.foldlM (fun t (k, v) => t.insert k v) t =
      runFrom t (xs.map fun p => Op.insert p.1 p.2) := by
  induction xs generalizing t with
  | nil => rfl
  | cons p xs ih =>
    simp only [List.foldlM_cons, List.map_cons, runFrom, Tree.apply]
    cases h : t.insert p.1 p.2 with
    | none => simp
    | some t' => simp [ih]

theorem foldl_inserts (xs : List (Range K × V)) (m : Range K → List V) (k : Range K) :
    (xs.map fun p => Op.insert p.1 p.2).foldl specStep m k =
      m k ++ (xs.filter fun p => decide (p.1 = k)).map Prod.snd := by
  induction xs generalizing m with
  | nil => simp
  | cons p xs ih =>
    simp only [List.map_cons, List.foldl_cons, ih, specStep]
    by_cases h : p.1 = k
    · subst h; simp
    · simp [h, Ne.symm h]

theorem two_pow_le_fib (h : Nat) : 2 ^ (h / 2) ≤ Nat.fib (h + 2) := by
  induction h using Nat.strongRecOn with
  | _ h ih =>
    match h with
    | 0 => simp
    | 1 => simp [Nat.fib_add_two]
    | n + 2 =>
      have := ih n (by omega)
      have e : (n + 2) / 2 = n / 2 + 1 := by omega
      rw [e, pow_succ, Nat.fib_add_two (n := n + 2)]
      have : Nat.fib (n + 2) ≤ Nat.fib (n + 2 + 1) := Nat.fib_mono (by omega)
      omega

end Verif.IntervalTree
