import Verif.Preproc.Model
import Mathlib.Data.Finset.Card
import Mathlib.Data.Finset.Dedup
import Mathlib.Data.List.Basic

/-!
# C20: the define map is a stack of definitions per name
-/

namespace Verif.Preproc

open Verif.Context (Location)

/-! ## Specification -/

/-- a call on a `DefineMap` -/
inductive DOp
  | insert (key : Name) (value : Location × Define)
  | remove (key : Name)

/-- the definitions of `name` in force after the calls `ops` (oldest first), most recent first: an
insertion puts one on top, a removal takes the top one away -/
def specStack (name : Name) : List DOp → List (Location × Define) → List (Location × Define)
  | [], st => st
  | .insert k v :: ops, st => specStack name ops (if k = name then v :: st else st)
  | .remove k :: ops, st => specStack name ops (if k = name then st.tail else st)

/-! ## The calls on the model -/

namespace DefineMap

/-- perform one call -/
def apply (m : DefineMap) : DOp → DefineMap
  | .insert k v => (m.insert k v).2
  | .remove k => (m.remove k).2

/-- perform calls in order -/
def applyAll (m : DefineMap) (ops : List DOp) : DefineMap := ops.foldl apply m

/-- representation invariant: keys are distinct, vectors are not empty -/
structure Ok (m : DefineMap) : Prop where
  nodup : (m.inner.map Prod.fst).Nodup
  nonempty : ∀ p ∈ m.inner, p.2 ≠ []

/-- the vector of a name, empty if there is none -/
def stackOf (m : DefineMap) (k : Name) : List (Location × Define) := (m.find k).getD []

theorem lookup_cons' {β : Type} (a : Name) (b : β) (l : List (Name × β)) (k : Name) :
    ((a, b) :: l).lookup k = if k = a then some b else l.lookup k := by
  rw [List.lookup_cons]
  by_cases h : k = a
  · rw [if_pos h, beq_iff_eq.2 h]
  · rw [if_neg h, beq_eq_false_iff_ne.2 h]

theorem lookup_filter {β : Type} (l : List (Name × β)) (k k' : Name) :
    (l.filter fun p => p.1 ≠ k).lookup k' = if k' = k then none else l.lookup k' := by
  induction l with
  | nil => simp
  | cons p l ih =>
    obtain ⟨a, b⟩ := p
    by_cases h : a = k
    · subst h
      rw [List.filter_cons_of_neg (by simp), ih, lookup_cons']
      by_cases h2 : k' = a
      · simp [h2]
      · simp [h2]
    · rw [List.filter_cons_of_pos (by simpa using h), lookup_cons', lookup_cons', ih]
      by_cases h2 : k' = a
      · subst h2; simp [h]
      · simp [h2]

theorem lookup_setInner (l : List (Name × List (Location × Define))) (k k' : Name)
    (v : List (Location × Define)) :
    (setInner l k v).lookup k' = if k' = k ∧ (l.lookup k').isSome then some v else l.lookup k' := by
  induction l with
  | nil => simp [setInner]
  | cons p l ih =>
    obtain ⟨a, b⟩ := p
    simp only [setInner, List.map_cons] at ih ⊢
    by_cases h : a = k
    · subst h
      rw [if_pos rfl, lookup_cons', lookup_cons', ih]
      by_cases h2 : k' = a
      · simp [h2]
      · simp [h2]
    · rw [if_neg h, lookup_cons', lookup_cons', ih]
      by_cases h2 : k' = a
      · subst h2; simp [h]
      · simp only [if_neg h2]

theorem keys_setInner (l : List (Name × List (Location × Define))) (k : Name)
    (v : List (Location × Define)) : (setInner l k v).map Prod.fst = l.map Prod.fst := by
  induction l with
  | nil => rfl
  | cons p l ih =>
    simp only [setInner, List.map_cons] at ih ⊢
    rw [ih]; split <;> rfl

theorem lookup_none_iff {β : Type} (l : List (Name × β)) (k : Name) :
    l.lookup k = none ↔ k ∉ l.map Prod.fst := by
  induction l with
  | nil => simp
  | cons p l ih =>
    obtain ⟨a, b⟩ := p
    rw [lookup_cons']
    by_cases h : k = a
    · simp [h]
    · simp [h, ih]

theorem lookup_mem {β : Type} (l : List (Name × β)) (k : Name) (v : β) (h : l.lookup k = some v) :
    (k, v) ∈ l := by
  induction l with
  | nil => simp at h
  | cons p l ih =>
    obtain ⟨a, b⟩ := p
    rw [lookup_cons'] at h
    by_cases h2 : k = a
    · subst h2; simp at h; simp [h]
    · simp [h2] at h; exact List.mem_cons_of_mem _ (ih h)

theorem Ok.empty : Ok {} := ⟨by simp, by simp⟩

theorem Ok.insert {m : DefineMap} (h : Ok m) (k : Name) (v : Location × Define) :
    Ok (m.insert k v).2 ∧
    (∀ k', (m.insert k v).2.stackOf k' = if k' = k then v :: m.stackOf k' else m.stackOf k') ∧
    (m.insert k v).1 = (m.stackOf k).head?.map Prod.fst := by
  unfold DefineMap.insert stackOf
  cases hf : m.find k with
  | none =>
    have hk := (lookup_none_iff m.inner k).1 hf
    refine ⟨⟨?_, ?_⟩, ?_, by simp⟩
    · simp only [List.map_cons, List.nodup_cons]
      exact ⟨hk, h.nodup⟩
    · intro p hp
      simp only [List.mem_cons] at hp
      rcases hp with rfl | hp
      · simp
      · exact h.nonempty p hp
    · intro k'
      unfold find at hf ⊢
      simp only [lookup_cons']
      by_cases h2 : k' = k
      · subst h2; simp [hf]
      · simp [h2]
  | some st =>
    refine ⟨⟨?_, ?_⟩, ?_, by simp⟩
    · simp only [keys_setInner]; exact h.nodup
    · intro p hp
      simp only [setInner, List.mem_map] at hp
      obtain ⟨q, hq, rfl⟩ := hp
      split
      · simp
      · exact h.nonempty q hq
    · intro k'
      unfold find at hf ⊢
      simp only [lookup_setInner]
      by_cases h2 : k' = k
      · subst h2; simp [hf]
      · simp [h2]

theorem Ok.remove {m : DefineMap} (h : Ok m) (k : Name) :
    Ok (m.remove k).2 ∧
    (∀ k', (m.remove k).2.stackOf k' = if k' = k then (m.stackOf k').tail else m.stackOf k') ∧
    (m.remove k).1 = (m.stackOf k).head? := by
  unfold DefineMap.remove stackOf
  cases hf : m.find k with
  | none =>
    refine ⟨h, ?_, by simp⟩
    intro k'
    by_cases h2 : k' = k
    · subst h2; simp [hf]
    · simp [h2]
  | some st =>
    simp only
    refine ⟨?_, ?_, by simp⟩
    · split
      · refine ⟨?_, fun p hp => h.nonempty p (List.mem_of_mem_filter hp)⟩
        exact h.nodup.sublist ((List.filter_sublist (l := m.inner)).map Prod.fst)
      · rename_i hst
        refine ⟨by simp only [keys_setInner]; exact h.nodup, ?_⟩
        intro p hp
        simp only [setInner, List.mem_map] at hp
        obtain ⟨q, hq, rfl⟩ := hp
        split
        · simpa using hst
        · exact h.nonempty q hq
    · intro k'
      unfold find at hf
      split
      · rename_i hst
        unfold find
        simp only [lookup_filter]
        by_cases h2 : k' = k
        · subst h2
          simp only [hf, if_true, Option.getD_some, Option.getD_none]
          simpa using hst.symm
        · simp [h2]
      · unfold find
        simp only [lookup_setInner]
        by_cases h2 : k' = k
        · subst h2; simp [hf]
        · simp [h2]

theorem applyAll_spec (ops : List DOp) : ∀ m : DefineMap, Ok m →
    Ok (m.applyAll ops) ∧ ∀ k, (m.applyAll ops).stackOf k = specStack k ops (m.stackOf k) := by
  induction ops with
  | nil => intro m h; exact ⟨h, fun k => rfl⟩
  | cons op ops ih =>
    intro m h
    cases op with
    | insert k v =>
      obtain ⟨h1, h2, _⟩ := h.insert k v
      obtain ⟨h3, h4⟩ := ih _ h1
      refine ⟨h3, fun k' => ?_⟩
      have h5 : (m.applyAll (.insert k v :: ops)).stackOf k' = ((m.insert k v).2.applyAll ops).stackOf k' := rfl
      rw [h5, h4, h2]
      simp only [specStack, eq_comm]
    | remove k =>
      obtain ⟨h1, h2, _⟩ := h.remove k
      obtain ⟨h3, h4⟩ := ih _ h1
      refine ⟨h3, fun k' => ?_⟩
      have h5 : (m.applyAll (.remove k :: ops)).stackOf k' = ((m.remove k).2.applyAll ops).stackOf k' := rfl
      rw [h5, h4, h2]
      simp only [specStack, eq_comm]

theorem Ok.get {m : DefineMap} (_ : Ok m) (k : Name) : m.get k = (m.stackOf k).head? := by
  unfold DefineMap.get stackOf
  cases m.find k <;> rfl

theorem Ok.containsKey {m : DefineMap} (_ : Ok m) (k : Name) :
    m.containsKey k = true ↔ m.stackOf k ≠ [] := by
  unfold DefineMap.containsKey stackOf
  cases m.find k <;> simp

theorem Ok.mem_keys {m : DefineMap} (h : Ok m) (k : Name) :
    k ∈ m.inner.map Prod.fst ↔ m.stackOf k ≠ [] := by
  unfold stackOf find
  cases hl : m.inner.lookup k with
  | none => simpa using (lookup_none_iff m.inner k).1 hl
  | some v =>
    have hm := lookup_mem _ _ _ hl
    have := h.nonempty _ hm
    simp only [Option.getD_some]
    exact ⟨fun _ => this, fun _ => List.mem_map.2 ⟨_, hm, rfl⟩⟩

end DefineMap

/-- **C20.** After any history of `insert` and `remove` calls on a fresh define map, the map holds
for each name the stack of definitions not yet removed: `get` returns the most recent one,
`contains_key`, `len` and `is_empty` agree with it, a further `insert` reports the location of the
definition it hides, and a further `remove` returns the most recent definition and thereby reveals
the previous one. -/
theorem define_map_stack (ops : List DOp) :
    let m := DefineMap.applyAll {} ops
    (∀ k, m.get k = (specStack k ops []).head?) ∧
    (∀ k, m.containsKey k = true ↔ specStack k ops [] ≠ []) ∧
    (∀ k v, (m.insert k v).1 = (specStack k ops []).head?.map Prod.fst) ∧
    (∀ k, (m.remove k).1 = (specStack k ops []).head?) ∧
    (∀ k, (m.remove k).2.get k = (specStack k ops []).tail.head?) ∧
    (∀ k k', k' ≠ k → (m.remove k).2.get k' = m.get k') ∧
    (∀ names : Finset Name, (∀ k, k ∈ names ↔ specStack k ops [] ≠ []) → m.len = names.card) ∧
    (m.isEmpty = true ↔ ∀ k, specStack k ops [] = []) := by
  intro m
  obtain ⟨h, hs⟩ := DefineMap.applyAll_spec ops {} DefineMap.Ok.empty
  have hs' : ∀ k, m.stackOf k = specStack k ops [] := hs
  have hm : DefineMap.Ok m := h
  refine ⟨fun k => by rw [hm.get, hs'], fun k => by rw [hm.containsKey, hs'],
    fun k v => by rw [(hm.insert k v).2.2, hs'], fun k => by rw [(hm.remove k).2.2, hs'],
    fun k => ?_, fun k k' hk => ?_, fun names hn => ?_, ?_⟩
  · rw [(hm.remove k).1.get, (hm.remove k).2.1, if_pos rfl, hs']
  · rw [(hm.remove k).1.get, (hm.remove k).2.1, if_neg hk, hm.get]
  · have : names = (m.inner.map Prod.fst).toFinset := by
      ext k
      rw [hn, List.mem_toFinset, hm.mem_keys, hs']
    rw [this, List.toFinset_card_of_nodup hm.nodup]
    simp [DefineMap.len]
  · constructor
    · intro he k
      rw [← hs']
      have : m.inner = [] := by simpa [DefineMap.isEmpty] using he
      unfold DefineMap.stackOf DefineMap.find
      simp [this]
    · intro hk
      unfold DefineMap.isEmpty
      rw [List.isEmpty_iff, List.eq_nil_iff_forall_not_mem]
      intro p hp
      have := (hm.mem_keys p.1).1 (List.mem_map.2 ⟨p, hp, rfl⟩)
      exact this (by rw [hs', hk])

/-- a history with a hidden definition that comes back -/
example :
    let a := ['A']; let l1 := Location.mk 1 1 9; let l2 := Location.mk 1 2 9
    let ops := [DOp.insert a (l1, .constant []), .insert a (l2, .constant [hash]), .remove a]
    specStack a ops [] = [(l1, .constant [])] ∧
    (DefineMap.applyAll {} ops).get a = some (l1, .constant []) := by decide

end Verif.Preproc
