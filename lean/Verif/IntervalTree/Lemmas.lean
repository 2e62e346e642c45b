import Verif.IntervalTree.Model
import Mathlib.Order.Lattice
import Mathlib.Data.Nat.Fib.Basic
import Mathlib.Tactic.Common

set_option linter.unusedSimpArgs false
set_option linter.unusedTactic false
set_option linter.unreachableTactic false

/-! Proof internals for the interval tree (no property statements here). -/

namespace Verif.IntervalTree

variable {K V : Type} [LinearOrder K]

namespace Tree

section
omit [LinearOrder K]
/-- in-order list of (key, values) -/
def toList : Tree K V → List (Range K × List V)
  | nil => []
  | node l k d _ _ r => toList l ++ (k, d) :: toList r

@[simp] theorem ht_nil : (nil : Tree K V).ht = 0 := rfl
@[simp] theorem ht_node (l : Tree K V) (k d h m r) : (node l k d h m r).ht = h := rfl
end

/-- shape invariant: cached heights/maxima right, balanced, no empty value list -/
def AVL : Tree K V → Prop
  | nil => True
  | node l k d h m r =>
    AVL l ∧ AVL r ∧ h = Nat.max l.ht r.ht + 1 ∧ (l.ht ≤ r.ht + 1 ∧ r.ht ≤ l.ht + 1) ∧ d ≠ [] ∧
      (∀ p ∈ toList l ++ (k, d) :: toList r, p.1.hi ≤ m)

def Sorted (xs : List (Range K × List V)) : Prop := xs.Pairwise fun a b => a.1 < b.1

theorem bumpMax_le (m : K) (t : Tree K V) : m ≤ bumpMax m t := by
  cases t with
  | nil => simp [bumpMax]
  | node => simp only [bumpMax]; split <;> [exact le_of_lt ‹_›; exact le_rfl]

theorem bumpMax_ub (m : K) (t : Tree K V) (h : AVL t) (p) (hp : p ∈ toList t) :
    p.1.hi ≤ bumpMax m t := by
  cases t with
  | nil => simp [toList] at hp
  | node l k d h' m' r =>
    have := h.2.2.2.2.2 p hp
    simp only [bumpMax]
    split
    · exact this
    · exact le_trans this (not_lt.mp ‹_›)

theorem AVL_mk {l r : Tree K V} {k : Range K} {d : List V} (hl : AVL l) (hr : AVL r)
    (hb : l.ht ≤ r.ht + 1 ∧ r.ht ≤ l.ht + 1) (hd : d ≠ []) : AVL (mk l k d r) := by
  refine ⟨hl, hr, rfl, hb, hd, ?_⟩
  intro p hp
  simp only [List.mem_append, List.mem_cons] at hp
  rcases hp with hp | rfl | hp
  · exact le_trans (bumpMax_ub _ l hl p hp) (bumpMax_le _ _)
  · exact le_trans (bumpMax_le _ l) (bumpMax_le _ _)
  · exact bumpMax_ub _ r hr p hp

@[simp] theorem toList_mk (l r : Tree K V) (k d) :
    toList (mk l k d r) = toList l ++ (k, d) :: toList r := rfl
@[simp] theorem ht_mk (l r : Tree K V) (k d) : (mk l k d r).ht = Nat.max l.ht r.ht + 1 := rfl

theorem updatedNode_spec {l r : Tree K V} (k : Range K) {d : List V} (hl : AVL l) (hr : AVL r)
    (hd : d ≠ []) (h1 : l.ht ≤ r.ht + 2) (h2 : r.ht ≤ l.ht + 2) :
    ∃ t, updatedNode l k d r = some t ∧ AVL t ∧ toList t = toList l ++ (k, d) :: toList r ∧
      Nat.max l.ht r.ht ≤ t.ht ∧ t.ht ≤ Nat.max l.ht r.ht + 1 ∧
      (l.ht ≤ r.ht + 1 → r.ht ≤ l.ht + 1 → t.ht = Nat.max l.ht r.ht + 1) := by
  unfold updatedNode
  by_cases c1 : (l.ht : Int) - r.ht = 2
  · simp only [c1, if_true]
    cases l with
    | nil => simp at c1; try omega
    | node ll lk ld lh lm lr =>
      obtain ⟨hll, hlr, hh, hb, hld, -⟩ := hl
      simp only [ht_nil, ht_node, ht_mk] at c1 h1 h2 ⊢
      simp only [rotateLeftSuccessor]
      split
      · rename_i hlt
        cases lr with
        | nil => simp at hlt
        | node a b c e f g =>
          obtain ⟨ha, hg, hh', hb', hc, -⟩ := hlr
          simp only [ht_nil, ht_node, ht_mk] at *
          simp only [rotateLeft, rotateRight, mk]
          refine ⟨_, rfl, ?_, ?_, ?_⟩
          · refine AVL_mk (AVL_mk hll ha ?_ hld) (AVL_mk hg hr ?_ hd) ?_ hc <;>
              simp only [ht_node, ht_mk, Nat.max_def] at * <;> (repeat' split_ifs at *) <;> omega
          · simp [toList]
          · simp only [ht_nil, ht_node, ht_mk, Nat.max_def] at *
            refine ⟨?_, ?_, ?_⟩ <;> (repeat' split_ifs at *) <;> omega
      · rename_i hlt
        simp only [rotateRight, mk]
        refine ⟨_, rfl, ?_, ?_, ?_⟩
        · refine AVL_mk hll (AVL_mk hlr hr ?_ hd) ?_ hld <;>
            simp only [ht_node, ht_mk, Nat.max_def] at * <;> (repeat' split_ifs at *) <;> omega
        · simp [toList]
        · simp only [ht_nil, ht_node, ht_mk, Nat.max_def] at *
          refine ⟨?_, ?_, ?_⟩ <;> (repeat' split_ifs at *) <;> omega
  · rw [if_neg c1]
    by_cases c2 : (-1 : Int) ≤ (l.ht : Int) - r.ht ∧ (l.ht : Int) - r.ht ≤ 1
    · rw [if_pos c2]
      refine ⟨_, rfl, AVL_mk hl hr (by omega) hd, rfl, ?_⟩
      simp
    · rw [if_neg c2, if_pos (by omega)]
      cases r with
      | nil => simp only [ht_nil, ht_node, ht_mk] at c1 c2 h1 h2; omega
      | node rl rk rd rh rm rr =>
        obtain ⟨hrl, hrr, hh, hb, hrd, -⟩ := hr
        simp only [ht_nil, ht_node, ht_mk] at c1 c2 h1 h2 ⊢
        simp only [rotateRightSuccessor]
        split
        · rename_i hlt
          cases rl with
          | nil => simp at hlt
          | node a b c e f g =>
            obtain ⟨ha, hg, hh', hb', hc, -⟩ := hrl
            simp only [ht_nil, ht_node, ht_mk] at *
            simp only [rotateLeft, rotateRight, mk]
            refine ⟨_, rfl, ?_, ?_, ?_⟩
            · refine AVL_mk (AVL_mk hl ha ?_ hd) (AVL_mk hg hrr ?_ hrd) ?_ hc <;>
                simp only [ht_node, ht_mk, Nat.max_def] at * <;> (repeat' split_ifs at *) <;> omega
            · simp [toList]
            · simp only [ht_nil, ht_node, ht_mk, Nat.max_def] at *
              refine ⟨?_, ?_, ?_⟩ <;> (repeat' split_ifs at *) <;> omega
        · rename_i hlt
          simp only [rotateLeft, mk]
          refine ⟨_, rfl, ?_, ?_, ?_⟩
          · refine AVL_mk (AVL_mk hl hrl ?_ hd) hrr ?_ hrd <;>
              simp only [ht_node, ht_mk, Nat.max_def] at * <;> (repeat' split_ifs at *) <;> omega
          · simp [toList]
          · simp only [ht_nil, ht_node, ht_mk, Nat.max_def] at *
            refine ⟨?_, ?_, ?_⟩ <;> (repeat' split_ifs at *) <;> omega

/-! ### list-level operations -/

def lins (k : Range K) (v : V) : List (Range K × List V) → List (Range K × List V)
  | [] => [(k, [v])]
  | (k', d) :: xs =>
    if k' = k then (k', d ++ [v]) :: xs
    else if k' < k then (k', d) :: lins k v xs
    else (k, [v]) :: (k', d) :: xs

def ldel (k : Range K) (xs : List (Range K × List V)) : List (Range K × List V) :=
  xs.filter fun p => decide (p.1 ≠ k)

theorem lins_append_lt (k : Range K) (v : V) (xs ys) (h : ∀ p ∈ xs, p.1 < k) :
    lins k v (xs ++ ys) = xs ++ lins k v ys := by
  induction xs with
  | nil => rfl
  | cons p xs ih =>
    obtain ⟨k', d⟩ := p
    have h1 : k' < k := h (k', d) (by simp)
    simp only [List.cons_append, lins]
    rw [if_neg (ne_of_lt h1), if_pos h1, ih (fun p hp => h p (by simp [hp]))]

theorem lins_append_gt (k : Range K) (v : V) (k0 d0) (xs ys) (h : k < k0) :
    lins k v (xs ++ (k0, d0) :: ys) = lins k v xs ++ (k0, d0) :: ys := by
  induction xs with
  | nil => simp [lins, (ne_of_lt h).symm, not_lt_of_gt h]
  | cons p xs ih =>
    obtain ⟨k', d⟩ := p
    simp only [List.cons_append, lins]
    split
    · rfl
    · split
      · rw [ih]; rfl
      · rfl

theorem sorted_split {l r : List (Range K × List V)} {k d} (h : Sorted (l ++ (k, d) :: r)) :
    Sorted l ∧ Sorted r ∧ (∀ p ∈ l, p.1 < k) ∧ (∀ p ∈ r, k < p.1) := by
  unfold Sorted at *
  rw [List.pairwise_append] at h
  obtain ⟨h1, h2, h3⟩ := h
  rw [List.pairwise_cons] at h2
  exact ⟨h1, h2.2, fun p hp => h3 p hp (k, d) (by simp), fun p hp => h2.1 p hp⟩

theorem insert_spec (k : Range K) (v : V) (t : Tree K V) (ha : AVL t) (hs : Sorted (toList t)) :
    ∃ t', insert k v t = some t' ∧ AVL t' ∧ t.ht ≤ t'.ht ∧ t'.ht ≤ t.ht + 1 ∧
      toList t' = lins k v (toList t) := by
  induction t with
  | nil => exact ⟨_, rfl, by simp [single, AVL, ht, toList], by simp, by simp [ single], rfl⟩
  | node l k0 d h m r ihl ihr =>
    obtain ⟨hl, hr, hh, hb, hd, hm⟩ := ha
    simp only [toList] at hs
    obtain ⟨sl, sr, ltk, gtk⟩ := sorted_split hs
    simp only [insert]
    cases hc : compare k0 k with
    | eq =>
      have := compare_eq_iff_eq.mp hc
      subst this
      refine ⟨_, rfl, ⟨hl, hr, hh, hb, by simp, ?_⟩, by simp, by simp, ?_⟩
      · intro p hp
        simp only [List.mem_append, List.mem_cons] at hp hm
        rcases hp with hp | rfl | hp
        · exact hm _ (Or.inl hp)
        · exact hm (k0, d) (Or.inr (Or.inl rfl))
        · exact hm _ (Or.inr (Or.inr hp))
      · simp only [toList]
        rw [lins_append_lt _ _ _ _ ltk]
        simp [lins]
    | lt =>
      have hlt := compare_lt_iff_lt.mp hc
      obtain ⟨r', e, hr', h1, h2, h3⟩ := ihr hr sr
      obtain ⟨t', e', ht', tl, u1, u2, u3⟩ :=
        updatedNode_spec k0 hl hr' hd (by omega) (by omega)
      refine ⟨t', by simp [e, e'], ht', ?_, ?_, ?_⟩
      · simp only [ht_nil, ht_node, ht_mk, hh, Nat.max_def] at *
        (repeat' split_ifs at *) <;> omega
      · simp only [ht_nil, ht_node, ht_mk, hh, Nat.max_def] at *
        (repeat' split_ifs at *) <;> omega
      · rw [tl, h3]
        simp only [toList]
        rw [lins_append_lt _ _ _ _ (fun p hp => (ltk p hp).trans hlt)]
        simp [lins, ne_of_lt hlt, hlt]
    | gt =>
      have hgt := compare_gt_iff_gt.mp hc
      obtain ⟨l', e, hl', h1, h2, h3⟩ := ihl hl sl
      obtain ⟨t', e', ht', tl, u1, u2, u3⟩ :=
        updatedNode_spec k0 hl' hr hd (by omega) (by omega)
      refine ⟨t', by simp [e, e'], ht', ?_, ?_, ?_⟩
      · simp only [ht_nil, ht_node, ht_mk, hh, Nat.max_def] at *
        (repeat' split_ifs at *) <;> omega
      · simp only [ht_nil, ht_node, ht_mk, hh, Nat.max_def] at *
        (repeat' split_ifs at *) <;> omega
      · rw [tl, h3]
        simp only [toList]
        rw [lins_append_gt _ _ _ _ _ _ hgt]

theorem dropMin_spec (t : Tree K V) (ha : AVL t) (hne : t ≠ nil) :
    ∃ t' k d, dropMin t = some (t', k, d) ∧ AVL t' ∧ t.ht ≤ t'.ht + 1 ∧ t'.ht ≤ t.ht ∧ d ≠ [] ∧
      toList t = (k, d) :: toList t' := by
  induction t with
  | nil => exact absurd rfl hne
  | node l k0 d h m r ihl ihr =>
    obtain ⟨hl, hr, hh, hb, hd, hm⟩ := ha
    cases l with
    | nil =>
      refine ⟨r, k0, d, rfl, hr, ?_, ?_, hd, ?_⟩
      · simp only [ht_nil, ht_node, ht_mk, hh, Nat.max_def] at *; split_ifs <;> omega
      · simp only [ht_nil, ht_node, ht_mk, hh, Nat.max_def] at *; split_ifs <;> omega
      · simp [toList]
    | node a b c e f g =>
      obtain ⟨l', k, dd, e1, hl', h1, h2, h3, h4⟩ := ihl hl (by simp)
      obtain ⟨t', e', ht', tl, u1, u2, u3⟩ :=
        updatedNode_spec k0 hl' hr hd (by omega) (by omega)
      refine ⟨t', k, dd, by simp [dropMin, e1, e'], ht', ?_, ?_, h3, ?_⟩
      · simp only [ht_nil, ht_node, ht_mk, hh, Nat.max_def] at *
        (repeat' split_ifs at *) <;> omega
      · simp only [ht_nil, ht_node, ht_mk, hh, Nat.max_def] at *
        (repeat' split_ifs at *) <;> omega
      · rw [toList, h4, tl]; simp

theorem ldel_append (k : Range K) (xs ys : List (Range K × List V)) :
    ldel k (xs ++ ys) = ldel k xs ++ ldel k ys := by simp [ldel]

theorem ldel_of_ne (k : Range K) (xs : List (Range K × List V)) (h : ∀ p ∈ xs, p.1 ≠ k) :
    ldel k xs = xs := by
  simp only [ldel, List.filter_eq_self]
  intro p hp; simpa using h p hp

theorem combine_spec {l r : Tree K V} (hl : AVL l) (hr : AVL r) (hne : r ≠ nil)
    (hb : l.ht ≤ r.ht + 1 ∧ r.ht ≤ l.ht + 1) :
    ∃ t', combine l r = some t' ∧ AVL t' ∧ Nat.max l.ht r.ht ≤ t'.ht ∧
      t'.ht ≤ Nat.max l.ht r.ht + 1 ∧ toList t' = toList l ++ toList r := by
  obtain ⟨r', k, d, e, hr', h1, h2, h3, h4⟩ := dropMin_spec r hr hne
  obtain ⟨t', e', ht', tl, u1, u2, u3⟩ :=
    updatedNode_spec k hl hr' h3 (by omega) (by omega)
  refine ⟨t', by simp [combine, e, e'], ht', ?_, ?_, ?_⟩
  · simp only [Nat.max_def] at *
    (repeat' split_ifs at *) <;> omega
  · simp only [Nat.max_def] at *
    (repeat' split_ifs at *) <;> omega
  · rw [tl, h4]

theorem deleteRoot_spec {l r : Tree K V} (hl : AVL l) (hr : AVL r)
    (hb : l.ht ≤ r.ht + 1 ∧ r.ht ≤ l.ht + 1) :
    ∃ t', deleteRoot l r = some t' ∧ AVL t' ∧ Nat.max l.ht r.ht ≤ t'.ht ∧
      t'.ht ≤ Nat.max l.ht r.ht + 1 ∧ toList t' = toList l ++ toList r := by
  cases l with
  | nil =>
    cases r with
    | nil => exact ⟨nil, rfl, trivial, by simp, by simp, by simp [toList]⟩
    | node a b c d e f =>
      exact ⟨_, rfl, hr, by simp, by simp, by simp [toList]⟩
  | node a b c d e f =>
    cases r with
    | nil => exact ⟨_, rfl, hl, by simp, by simp, by simp [toList]⟩
    | node => exact combine_spec hl hr (by simp) hb

theorem delete_spec (k : Range K) (t : Tree K V) (ha : AVL t) (hs : Sorted (toList t)) :
    ∃ t', delete k t = some t' ∧ AVL t' ∧ t.ht ≤ t'.ht + 1 ∧ t'.ht ≤ t.ht ∧
      toList t' = ldel k (toList t) := by
  induction t with
  | nil => exact ⟨nil, rfl, trivial, by simp, le_rfl, rfl⟩
  | node l k0 d h m r ihl ihr =>
    have ha0 := ha
    obtain ⟨hl, hr, hh, hb, hd, hm⟩ := ha
    simp only [toList] at hs
    obtain ⟨sl, sr, ltk, gtk⟩ := sorted_split hs
    cases hc : compare k0 k with
    | eq =>
      have := compare_eq_iff_eq.mp hc
      subst this
      obtain ⟨t', e, hA, u1, u2, tl⟩ := deleteRoot_spec hl hr hb
      refine ⟨t', by rw [delete.eq_def]; simp [hc, e], hA, ?_, ?_, ?_⟩
      · simp only [ht_nil, ht_node, ht_mk, hh, Nat.max_def] at *
        (repeat' split_ifs at *) <;> omega
      · simp only [ht_nil, ht_node, ht_mk, hh, Nat.max_def] at *
        (repeat' split_ifs at *) <;> omega
      · rw [tl, toList, ldel_append, ldel_of_ne _ _ (fun p hp => (ltk p hp).ne)]
        have : ldel k0 ((k0, d) :: r.toList) = ldel k0 r.toList := by simp [ldel]
        rw [this, ldel_of_ne _ _ (fun p hp => (gtk p hp).ne')]
    | lt =>
      have hlt := compare_lt_iff_lt.mp hc
      have hcons : ∀ ys, ldel k ((k0, d) :: ys) = (k0, d) :: ldel k ys := by
        intro ys; simp [ldel, hlt.ne]
      cases r with
      | nil =>
        refine ⟨_, by rw [delete.eq_def]; simp only [hc], ha0, by simp, le_rfl, ?_⟩
        simp only [toList]
        rw [ldel_append, ldel_of_ne _ _ (fun p hp => ((ltk p hp).trans hlt).ne), hcons]
        rfl
      | node ra rb rc rd re rf =>
        obtain ⟨r', e, hr', h1, h2, h3⟩ := ihr hr sr
        obtain ⟨t', e', ht', tl, u1, u2, u3⟩ :=
          updatedNode_spec k0 hl hr' hd (by omega) (by omega)
        refine ⟨t', by rw [delete.eq_def]; simp [hc, e, e'], ht', ?_, ?_, ?_⟩
        · simp only [ht_nil, ht_node, ht_mk, hh, Nat.max_def] at *
          (repeat' split_ifs at *) <;> omega
        · simp only [ht_nil, ht_node, ht_mk, hh, Nat.max_def] at *
          (repeat' split_ifs at *) <;> omega
        · rw [tl, h3]
          change _ = ldel k (l.toList ++ (k0, d) :: toList (node ra rb rc rd re rf))
          rw [ldel_append,
            ldel_of_ne _ l.toList (fun p hp => ((ltk p hp).trans hlt).ne), hcons]
    | gt =>
      have hgt := compare_gt_iff_gt.mp hc
      have hcons : ∀ ys, ldel k ((k0, d) :: ys) = (k0, d) :: ldel k ys := by
        intro ys; simp [ldel, hgt.ne']
      cases l with
      | nil =>
        refine ⟨_, by rw [delete.eq_def]; simp only [hc], ha0, by simp, le_rfl, ?_⟩
        simp only [toList, List.nil_append]
        rw [hcons, ldel_of_ne _ _ (fun p hp => (hgt.trans (gtk p hp)).ne')]
      | node la lb lc ld le lf =>
        obtain ⟨l', e, hl', h1, h2, h3⟩ := ihl hl sl
        obtain ⟨t', e', ht', tl, u1, u2, u3⟩ :=
          updatedNode_spec k0 hl' hr hd (by omega) (by omega)
        refine ⟨t', by rw [delete.eq_def]; simp [hc, e, e'], ht', ?_, ?_, ?_⟩
        · simp only [ht_nil, ht_node, ht_mk, hh, Nat.max_def] at *
          (repeat' split_ifs at *) <;> omega
        · simp only [ht_nil, ht_node, ht_mk, hh, Nat.max_def] at *
          (repeat' split_ifs at *) <;> omega
        · rw [tl, h3]
          change _ = ldel k (toList (node la lb lc ld le lf) ++ (k0, d) :: r.toList)
          rw [ldel_append, hcons,
            ldel_of_ne _ r.toList (fun p hp => (hgt.trans (gtk p hp)).ne')]

/-! ### lookups -/

def lget (k : Range K) : List (Range K × List V) → List V
  | [] => []
  | (k', d) :: xs => if k' = k then d else lget k xs

theorem lget_of_ne (k : Range K) (xs : List (Range K × List V)) (h : ∀ p ∈ xs, p.1 ≠ k) :
    lget k xs = [] := by
  induction xs with
  | nil => rfl
  | cons p xs ih =>
    obtain ⟨k', d⟩ := p
    simp only [lget]
    rw [if_neg (h (k', d) (by simp)), ih (fun p hp => h p (by simp [hp]))]

theorem lget_append_ne (k : Range K) (xs ys : List (Range K × List V)) (h : ∀ p ∈ xs, p.1 ≠ k) :
    lget k (xs ++ ys) = lget k ys := by
  induction xs with
  | nil => rfl
  | cons p xs ih =>
    obtain ⟨k', d⟩ := p
    simp only [List.cons_append, lget]
    rw [if_neg (h (k', d) (by simp)), ih (fun p hp => h p (by simp [hp]))]

theorem lget_append_right_ne (k : Range K) (xs ys : List (Range K × List V))
    (h : ∀ p ∈ ys, p.1 ≠ k) : lget k (xs ++ ys) = lget k xs := by
  induction xs with
  | nil => rw [List.nil_append, lget_of_ne _ _ h]; rfl
  | cons p xs ih =>
    obtain ⟨k', d⟩ := p
    simp only [List.cons_append, lget, ih]

theorem get_spec (k : Range K) (t : Tree K V) (ha : AVL t) (hs : Sorted (toList t)) :
    get k t = if lget k (toList t) = [] then none else some (lget k (toList t)) := by
  induction t with
  | nil => simp [get, toList, lget]
  | node l k0 d h m r ihl ihr =>
    obtain ⟨hl, hr, hh, hb, hd, hm⟩ := ha
    simp only [toList] at hs
    obtain ⟨sl, sr, ltk, gtk⟩ := sorted_split hs
    have etl : toList (node l k0 d h m r) = toList l ++ (k0, d) :: toList r := rfl
    rw [etl]
    simp only [get]
    cases hc : compare k0 k with
    | eq =>
      have := compare_eq_iff_eq.mp hc
      subst this
      rw [lget_append_ne _ _ _ (fun p hp => (ltk p hp).ne)]
      simp [lget, hd]
    | lt =>
      have hlt := compare_lt_iff_lt.mp hc
      rw [lget_append_ne _ _ _ (fun p hp => ((ltk p hp).trans hlt).ne)]
      simp only [lget, hlt.ne, if_false]
      exact ihr hr sr
    | gt =>
      have hgt := compare_gt_iff_gt.mp hc
      rw [lget_append_right_ne]
      · exact ihl hl sl
      · intro p hp
        simp only [List.mem_cons] at hp
        rcases hp with rfl | hp
        · exact hgt.ne'
        · exact (hgt.trans (gtk p hp)).ne'

theorem lget_lins (k k' : Range K) (v : V) (xs) (hs : Sorted xs) :
    lget k' (lins k v xs) = if k' = k then lget k xs ++ [v] else lget k' xs := by
  induction xs with
  | nil => by_cases h : k' = k <;> simp [lins, lget, h, Ne.symm]
  | cons p xs ih =>
    obtain ⟨k0, d⟩ := p
    unfold Sorted at hs
    rw [List.pairwise_cons] at hs
    have ih := ih hs.2
    simp only [lins]
    split
    · rename_i h; subst h
      by_cases h : k' = k0
      · simp [lget, h]
      · simp [lget, h, Ne.symm h]
    · rename_i hne
      split
      · rename_i hlt
        simp only [lget, ih]
        by_cases h : k' = k
        · subst h; simp [hne]
        · simp [h]
      · rename_i hnlt
        have hgt : k < k0 := lt_of_le_of_ne (not_lt.mp hnlt) (Ne.symm hne)
        by_cases h : k' = k
        · subst h
          have : lget k' xs = [] :=
            lget_of_ne _ _ (fun p hp => (hgt.trans (hs.1 p hp)).ne')
          simp [lget, hne, this]
        · simp [lget, h, Ne.symm h]

theorem lget_ldel (k k' : Range K) (xs : List (Range K × List V)) :
    lget k' (ldel k xs) = if k' = k then [] else lget k' xs := by
  induction xs with
  | nil => simp [ldel, lget]
  | cons p xs ih =>
    obtain ⟨k0, d⟩ := p
    by_cases h0 : k0 = k
    · subst h0
      have : ldel k0 ((k0, d) :: xs) = ldel k0 xs := by simp [ldel]
      rw [this, ih]
      by_cases h : k' = k0
      · simp [h]
      · simp [h, lget, Ne.symm h]
    · have : ldel k ((k0, d) :: xs) = (k0, d) :: ldel k xs := by simp [ldel, h0]
      rw [this]
      simp only [lget, ih]
      by_cases h : k' = k
      · subst h; simp [h0]
      · simp [h]

theorem mem_lins (k : Range K) (v : V) (xs) (p) (hp : p ∈ lins k v xs) :
    p.1 = k ∨ ∃ q ∈ xs, q.1 = p.1 := by
  induction xs with
  | nil => simp only [lins, List.mem_singleton] at hp; subst hp; left; rfl
  | cons q xs ih =>
    obtain ⟨k0, d⟩ := q
    simp only [lins] at hp
    split at hp
    · simp only [List.mem_cons] at hp
      rcases hp with rfl | hp
      · right; exact ⟨(k0, d), by simp, rfl⟩
      · right; exact ⟨p, by simp [hp], rfl⟩
    · split at hp
      · simp only [List.mem_cons] at hp
        rcases hp with rfl | hp
        · right; exact ⟨(k0, d), by simp, rfl⟩
        · rcases ih hp with h | ⟨q, hq, h⟩
          · exact Or.inl h
          · exact Or.inr ⟨q, by simp [hq], h⟩
      · simp only [List.mem_cons] at hp
        rcases hp with rfl | rfl | hp
        · left; rfl
        · right; exact ⟨(k0, d), by simp, rfl⟩
        · right; exact ⟨p, by simp [hp], rfl⟩

theorem sorted_lins (k : Range K) (v : V) (xs) (hs : Sorted xs) : Sorted (lins k v xs) := by
  induction xs with
  | nil => simp [lins, Sorted]
  | cons q xs ih =>
    obtain ⟨k0, d⟩ := q
    unfold Sorted at *
    rw [List.pairwise_cons] at hs
    simp only [lins]
    split
    · exact List.pairwise_cons.mpr ⟨hs.1, hs.2⟩
    · rename_i hne
      split
      · rename_i hlt
        refine List.pairwise_cons.mpr ⟨?_, ih hs.2⟩
        intro p hp
        rcases mem_lins _ _ _ _ hp with h | ⟨q, hq, h⟩
        · rw [h]; exact hlt
        · rw [← h]; exact hs.1 q hq
      · rename_i hnlt
        have hgt : k < k0 := lt_of_le_of_ne (not_lt.mp hnlt) (Ne.symm hne)
        refine List.pairwise_cons.mpr ⟨?_, List.pairwise_cons.mpr hs⟩
        intro p hp
        simp only [List.mem_cons] at hp
        rcases hp with rfl | hp
        · exact hgt
        · exact hgt.trans (hs.1 p hp)

theorem sorted_ldel (k : Range K) (xs : List (Range K × List V)) (hs : Sorted xs) :
    Sorted (ldel k xs) := List.Pairwise.filter _ hs

/-- the whole-tree invariant -/
def Inv (t : Tree K V) : Prop := AVL t ∧ Sorted (toList t)

theorem apply_spec (t : Tree K V) (h : Inv t) (o : Op K V) :
    ∃ t', t.apply o = some t' ∧ Inv t' ∧
      toList t' = match o with
        | .insert k v => lins k v (toList t)
        | .remove k => ldel k (toList t) := by
  cases o with
  | insert k v =>
    obtain ⟨t', e, ha, -, -, hl⟩ := insert_spec k v t h.1 h.2
    exact ⟨t', e, ⟨ha, by rw [hl]; exact sorted_lins _ _ _ h.2⟩, hl⟩
  | remove k =>
    obtain ⟨t', e, ha, -, -, hl⟩ := delete_spec k t h.1 h.2
    exact ⟨t', e, ⟨ha, by rw [hl]; exact sorted_ldel _ _ h.2⟩, hl⟩

omit [LinearOrder K] in
theorem toList_data (t : Tree K V) : IntoIter.contents t =
    (toList t).flatMap fun p => p.2.map fun v => (p.1, v) := by
  induction t with
  | nil => rfl
  | node l k d h m r ihl ihr => simp [IntoIter.contents, toList, ihl, ihr, List.append_assoc]

end Tree

/-! ### height bound -/

theorem fib_bound (t : Tree K V) (h : t.AVL) : Nat.fib (t.ht + 2) ≤ t.toList.length + 1 := by
  induction t with
  | nil => simp [Tree.ht, Tree.toList]
  | node l k d h' m r ihl ihr =>
    obtain ⟨hl, hr, hh, hb, -, -⟩ := h
    have ihl := ihl hl
    have ihr := ihr hr
    simp only [Tree.ht, Tree.toList, List.length_append, List.length_cons]
    rw [hh]
    rw [show Nat.max l.ht r.ht + 1 + 2 = (Nat.max l.ht r.ht + 1) + 2 from rfl, Nat.fib_add_two]
    rcases le_total l.ht r.ht with hle | hle
    · rw [show Nat.max l.ht r.ht = r.ht from max_eq_right hle]
      have : Nat.fib (r.ht + 1) ≤ Nat.fib (l.ht + 2) := Nat.fib_mono (by omega)
      have e : r.ht + 1 + 1 = r.ht + 2 := rfl
      rw [e]; omega
    · rw [show Nat.max l.ht r.ht = l.ht from max_eq_left hle]
      have : Nat.fib (l.ht + 1) ≤ Nat.fib (r.ht + 2) := Nat.fib_mono (by omega)
      have e : l.ht + 1 + 1 = l.ht + 2 := rfl
      rw [e]; omega

/-! ### the borrowing iterator -/

namespace RangeIter

/-- what the machine still yields after the values of the node -/
def visit (lo hi : Bound K) : Tree K V → List (Range K × V)
  | .nil => []
  | .node l k d _ m r =>
    (if leftRelevant lo m then visit lo hi l else []) ++
    ((if intersect lo hi k then d.map fun v => (k, v) else []) ++
     (if rightRelevant hi k.lo then visit lo hi r else []))

def entryDen (lo hi : Bound K) : Tree K V × Visiting → List (Range K × V)
  | (.nil, _) => []
  | (.node l k d h m r, .left) => visit lo hi (.node l k d h m r)
  | (.node _ k d _ _ r, .center) =>
    (if intersect lo hi k then d.map fun v => (k, v) else []) ++
     (if rightRelevant hi k.lo then visit lo hi r else [])
  | (.node _ k d _ _ r, .middle i) =>
    (d.drop i).map (fun v => (k, v)) ++ (if rightRelevant hi k.lo then visit lo hi r else [])
  | (.node _ k _ _ _ r, .right) => if rightRelevant hi k.lo then visit lo hi r else []

def stackDen (lo hi : Bound K) (s : List (Tree K V × Visiting)) : List (Range K × V) :=
  s.flatMap (entryDen lo hi)

theorem entryDen_left (lo hi : Bound K) (t : Tree K V) :
    entryDen lo hi (t, .left) = visit lo hi t := by
  cases t <;> simp [entryDen, visit]

theorem step_den (lo hi : Bound K) (t : Tree K V) (v : Visiting) (rest) :
    entryDen lo hi (t, v) ++ stackDen lo hi rest =
      (step lo hi t v rest).1.toList ++ stackDen lo hi (step lo hi t v rest).2 := by
  cases t with
  | nil => simp [step, entryDen]
  | node l k d h m r =>
    cases v with
    | left =>
      rw [entryDen_left]
      cases l with
      | nil => simp [step, stackDen, visit, entryDen]
      | node ll lk ld lh lm lr =>
        simp only [step]
        by_cases hc : leftRelevant lo m = true
        · rw [if_pos hc]
          simp only [stackDen, List.flatMap_cons, entryDen_left, Option.toList, List.nil_append]
          rw [visit, if_pos hc]
          simp only [entryDen, List.append_assoc]
        · rw [if_neg hc]
          simp only [stackDen, List.flatMap_cons, Option.toList, List.nil_append]
          rw [visit, if_neg hc]
          simp only [entryDen, List.nil_append]
    | center =>
      simp only [step]
      split <;> simp_all [stackDen, entryDen]
    | middle i =>
      simp only [step]
      cases hd : d[i]? with
      | none =>
        have : d.length ≤ i := List.getElem?_eq_none_iff.mp hd
        simp [stackDen, entryDen, List.drop_eq_nil_of_le this]
      | some x =>
        have hi' : i < d.length := by
          by_contra hc
          rw [List.getElem?_eq_none (by omega)] at hd
          cases hd
        have hx : d[i] = x := by
          rw [List.getElem?_eq_getElem hi'] at hd; exact Option.some.inj hd
        simp [stackDen, entryDen, List.drop_eq_getElem_cons hi', hx]
    | right =>
      simp only [step]
      split
      · rename_i hc
        cases r with
        | nil => simp [stackDen, entryDen, visit]
        | node rl rk rd rh rm rr =>
          simp only [stackDen, List.flatMap_cons, entryDen_left, Option.toList, List.nil_append]
          simp only [entryDen, hc, if_true]
      · rename_i hc
        simp [entryDen, hc]

theorem nextLoop_den (lo hi : Bound K) (s : List (Tree K V × Visiting)) :
    match nextLoop lo hi s with
    | none => stackDen lo hi s = []
    | some (x, s') => stackDen lo hi s = x :: stackDen lo hi s' := by
  induction s using nextLoop.induct (lo := lo) (hi := hi) with
  | case1 => rw [nextLoop.eq_def]; simp [stackDen]
  | case2 t v rest x s' h =>
    rw [nextLoop.eq_def]
    simp only
    have := step_den lo hi t v rest
    rw [h] at this
    rw [h]
    simpa [stackDen] using this
  | case3 t v rest s' h ih =>
    rw [nextLoop.eq_def]
    simp only
    have := step_den lo hi t v rest
    rw [h] at this
    rw [h]
    have e : stackDen lo hi ((t, v) :: rest) = stackDen lo hi s' := by
      simpa [stackDen] using this
    rw [e]; exact ih

theorem nth_den (it : RangeIter K V) (n : Nat) :
    nth it n = (stackDen it.lo it.hi it.stack)[n]? := by
  induction n generalizing it with
  | zero =>
    simp only [nth, next]
    have := nextLoop_den it.lo it.hi it.stack
    cases h : nextLoop it.lo it.hi it.stack with
    | none => rw [h] at this; simp only at this; simp [this]
    | some p =>
      obtain ⟨x, s⟩ := p
      rw [h] at this; simp only at this; simp [this]
  | succ n ih =>
    simp only [nth, next]
    have := nextLoop_den it.lo it.hi it.stack
    cases h : nextLoop it.lo it.hi it.stack with
    | none =>
      rw [h] at this; simp only at this
      simp only
      rw [ih, this]; simp [stackDen]
    | some p =>
      obtain ⟨x, s⟩ := p
      rw [h] at this; simp only at this
      simp only
      rw [ih]; simp [this]

theorem intersect_false_of_left {lo hi : Bound K} {m : K} (h : leftRelevant lo m = false)
    (k : Range K) (hk : k.hi ≤ m) : intersect lo hi k = false := by
  cases lo with
  | included s =>
    simp only [leftRelevant, decide_eq_false_iff_not, not_le] at h
    simp [intersect, not_le.mpr (lt_of_le_of_lt hk h)]
  | excluded s =>
    simp only [leftRelevant, decide_eq_false_iff_not, not_lt] at h
    simp [intersect, not_lt.mpr (le_trans hk h)]
  | unbounded => simp [leftRelevant] at h

theorem intersect_false_of_right {lo hi : Bound K} {k0 : Range K}
    (h : rightRelevant hi k0.lo = false) (k : Range K) (hk : k0.lo ≤ k.lo) :
    intersect lo hi k = false := by
  cases hi with
  | included e =>
    simp only [rightRelevant, decide_eq_false_iff_not, not_le] at h
    simp [intersect, not_le.mpr (lt_of_lt_of_le h hk)]
  | excluded e =>
    simp only [rightRelevant, decide_eq_false_iff_not, not_lt] at h
    simp [intersect, not_lt.mpr (le_trans h hk)]
  | unbounded => simp [rightRelevant] at h

omit [LinearOrder K] in
theorem contents_fst (t : Tree K V) (p) (hp : p ∈ IntoIter.contents t) :
    ∃ d, (p.1, d) ∈ t.toList := by
  rw [Tree.toList_data] at hp
  simp only [List.mem_flatMap, List.mem_map] at hp
  obtain ⟨q, hq, v, -, rfl⟩ := hp
  exact ⟨q.2, hq⟩

theorem visit_spec (lo hi : Bound K) (t : Tree K V) (ha : t.AVL) (hs : Tree.Sorted t.toList) :
    visit lo hi t = (IntoIter.contents t).filter fun p => intersect lo hi p.1 := by
  induction t with
  | nil => rfl
  | node l k d h m r ihl ihr =>
    obtain ⟨hl, hr, hh, hb, hd, hm⟩ := ha
    simp only [Tree.toList] at hs
    obtain ⟨sl, sr, ltk, gtk⟩ := Tree.sorted_split hs
    simp only [visit, IntoIter.contents, List.filter_append, List.append_assoc]
    congr 1
    · cases hc : leftRelevant lo m with
      | true => simpa using ihl hl sl
      | false =>
        symm
        simp only [Bool.false_eq_true, if_false, List.filter_eq_nil_iff]
        intro p hp
        obtain ⟨d', hd'⟩ := contents_fst l p hp
        rw [intersect_false_of_left hc p.1 (hm (p.1, d') (by simp [hd']))]
        simp
    · congr 1
      · by_cases hc : intersect lo hi k = true
        · rw [if_pos hc, List.filter_eq_self.mpr]
          intro p hp
          simp only [List.mem_map] at hp
          obtain ⟨v, -, rfl⟩ := hp
          exact hc
        · rw [if_neg hc]; symm
          rw [List.filter_eq_nil_iff]
          intro p hp
          simp only [List.mem_map] at hp
          obtain ⟨v, -, rfl⟩ := hp
          exact hc
      · cases hc : rightRelevant hi k.lo with
        | true => simpa using ihr hr sr
        | false =>
          symm
          simp only [Bool.false_eq_true, if_false, List.filter_eq_nil_iff]
          intro p hp
          obtain ⟨d', hd'⟩ := contents_fst r p hp
          have hlt := gtk _ hd'
          rw [intersect_false_of_right hc p.1]
          · simp
          · have := Prod.Lex.le_iff.mp hlt.le
            rcases this with h | h
            · exact h.le
            · exact h.1.le

theorem new_den (t : Tree K V) (lo hi : Bound K) :
    stackDen lo hi (new t lo hi).stack = visit lo hi t := by
  cases t with
  | nil => simp [new, stackDen, visit]
  | node => simp [new, stackDen, entryDen_left]

end RangeIter

namespace IntoIter

omit [LinearOrder K]

theorem next_none (it : IntoIter K V) : (next it).1 = none → remaining it = [] := by
  induction it using next.induct with
  | case1 it k v vs h =>
    rw [next.eq_def]
    simp [h]
  | case2 it hs h =>
    intro _
    simp only [remaining, hs, stackContents]
    split
    · rfl
    · rename_i k vs hc
      cases vs with
      | nil => rfl
      | cons a b => exact absurd hc (h _ _ _)
  | case3 it k d r s hs h ih =>
    intro hn
    rw [next.eq_def] at hn
    split at hn
    · rename_i k v vs hc; exact absurd hc (h k v vs)
    · split at hn
      · simp_all
      · rename_i hs'
        rw [hs] at hs'
        obtain ⟨⟨⟩, rfl⟩ := hs'
        have := ih hn
        simp only [remaining, stackContents_push, hs, stackContents] at this ⊢
        split
        · simpa using this
        · rename_i k vs hc
          cases vs with
          | nil => simpa using this
          | cons a b => exact absurd hc (h _ _ _)

theorem nth_remaining (it : IntoIter K V) (n : Nat) : nth it n = (remaining it)[n]? := by
  induction n generalizing it with
  | zero =>
    simp only [nth]
    cases h : (next it).1 with
    | none => simp [next_none it h]
    | some x =>
      rw [next_remaining it, h]; simp
  | succ n ih =>
    simp only [nth, ih]
    cases h : (next it).1 with
    | none =>
      have h1 := next_none it h
      have h2 := next_remaining it
      rw [h, h1] at h2
      simp only [Option.toList, List.nil_append] at h2
      rw [← h2, h1]; simp
    | some x =>
      rw [next_remaining it, h]; simp

theorem collect_eq (it : IntoIter K V) : collect it = remaining it := by
  induction it using collect.induct with
  | case1 it it' h =>
    rw [collect.eq_def]
    split
    · rw [next_none it (by rw [h])]
    · rename_i h2; rw [h] at h2; cases h2
  | case2 it x it' h ih =>
    rw [collect.eq_def]
    split
    · rename_i h2; rw [h] at h2; cases h2
    · rename_i h2; rw [h] at h2; cases h2
      rw [ih, next_remaining it, h]; simp

theorem new_remaining (t : Tree K V) : remaining (new t) = contents t := by
  simp [remaining, new, stackContents_push, stackContents]

end IntoIter

end Verif.IntervalTree
