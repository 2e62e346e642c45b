import Verif.Editor.Save
import Mathlib.Data.List.Nodup
import Mathlib.Data.List.Dedup
import Mathlib.Data.List.Perm.Subperm

/-!
# Theorems about loading and saving a map in the editor (C48)
-/

set_option linter.unusedSectionVars false

namespace Verif.Editor

variable {P K V : Type} [DecidableEq P] [LinearOrder K]

/-! ## Association lists -/

theorem lookup_ite {α β : Type} [BEq α] [LawfulBEq α] [DecidableEq α] (a a' : α) (b : β) (l : List (α × β)) :
    ((a', b) :: l).lookup a = if a = a' then some b else l.lookup a := by
  rw [List.lookup_cons]
  by_cases e : a = a'
  · simp [e]
  · rw [if_neg e, beq_false_of_ne e]

theorem lookup_mem {α β : Type} [BEq α] [LawfulBEq α] [DecidableEq α] {l : List (α × β)} {a : α} {b : β}
    (h : l.lookup a = some b) : (a, b) ∈ l := by
  induction l with
  | nil => cases h
  | cons p l ih =>
    obtain ⟨a', b'⟩ := p
    rw [lookup_ite] at h
    split at h
    · next e =>
      injection h with h
      simp [h, e]
    · exact List.mem_cons_of_mem _ (ih h)

theorem lookup_of_mem {α β : Type} [BEq α] [LawfulBEq α] [DecidableEq α] {l : List (α × β)}
    (hn : (l.map Prod.fst).Nodup) {a : α} {b : β} (h : (a, b) ∈ l) : l.lookup a = some b := by
  induction l with
  | nil => cases h
  | cons p l ih =>
    obtain ⟨a', b'⟩ := p
    rw [List.map_cons, List.nodup_cons] at hn
    rw [lookup_ite]
    rcases List.mem_cons.1 h with e | h1
    · simp only [Prod.mk.injEq] at e
      rw [if_pos e.1, e.2]
    · have : a ≠ a' := by
        rintro rfl
        exact hn.1 (List.mem_map.2 ⟨_, h1, rfl⟩)
      rw [if_neg this]
      exact ih hn.2 h1

theorem lookup_isSome_mem {α β : Type} [BEq α] [LawfulBEq α] [DecidableEq α] {l : List (α × β)} {a : α} :
    (l.lookup a).isSome ↔ a ∈ l.map Prod.fst := by
  induction l with
  | nil => simp
  | cons p l ih =>
    obtain ⟨a', b'⟩ := p
    rw [lookup_ite, List.map_cons, List.mem_cons]
    by_cases e : a = a'
    · simp [e]
    · rw [if_neg e, ih]; simp [e]

/-! ## Filling the grid -/

theorem freeKey_spec {dict : List (Nat × List P)} {fuel key k : Nat} (h : freeKey dict fuel key = some k) :
    dict.lookup k = none ∧ key ≤ k ∧ ∀ j, key ≤ j → j < k → (dict.lookup j).isSome := by
  induction fuel generalizing key with
  | zero => cases h
  | succ fuel ih =>
    unfold freeKey at h
    split at h
    · next h1 =>
      split at h
      · obtain ⟨a, b, c⟩ := ih h
        refine ⟨a, by omega, ?_⟩
        intro j hj hk
        rcases Nat.eq_or_lt_of_le hj with rfl | hj
        · exact h1
        · exact c j hj hk
      · cases h
    · next h1 =>
      injection h with h
      subst h
      exact ⟨Option.not_isSome_iff_eq_none.1 h1, by omega, fun j a b => by omega⟩

theorem freeKey_none {dict : List (Nat × List P)} {fuel key : Nat} (hf : 65536 ≤ fuel + key) (hk : key ≤ 65535)
    (h : freeKey dict fuel key = none) : ∀ j, key ≤ j → j ≤ 65535 → (dict.lookup j).isSome := by
  induction fuel generalizing key with
  | zero => omega
  | succ fuel ih =>
    unfold freeKey at h
    split at h
    · next h1 =>
      intro j hj hjm
      rcases Nat.eq_or_lt_of_le hj with rfl | hj
      · exact h1
      · rw [if_pos (by omega)] at h
        exact ih (by omega) (by omega) h j hj hjm
    · cases h

/-- the reverse dictionary is right about the dictionary -/
def RevOk (s : SaveState P) : Prop := ∀ t k, s.rev.lookup t = some k → s.dict.lookup k = some t

theorem mergeRev_ok {kept : List (Nat × List P)} (hn : (kept.map Prod.fst).Nodup) {t : List P} {k : Nat}
    (h : (mergeRev kept).lookup t = some k) : kept.lookup k = some t := by
  have hm := lookup_mem h
  unfold mergeRev at hm
  obtain ⟨hm, _⟩ := List.mem_filter.1 hm
  obtain ⟨p, hp, e⟩ := List.mem_map.1 hm
  injection e with e1 e2
  refine lookup_of_mem hn ?_
  rw [← e1, ← e2]
  exact hp

/-- one step keeps old dictionary entries -/
theorem lookup_cons_fresh {dict : List (Nat × List P)} {k j : Nat} {t t' : List P} (hk : dict.lookup k = none)
    (hj : dict.lookup j = some t') : ((k, t) :: dict).lookup j = some t' := by
  rw [lookup_ite, if_neg]
  · exact hj
  · intro e
    rw [e, hk] at hj
    cases hj

theorem fillGrid_spec (tile : Nat → Nat → Nat → List P) (coords : List (Nat × Nat × Nat)) (s s' : SaveState P)
    (hr : RevOk s) (h : fillGrid tile s coords = some s') :
    (∀ k t, s.dict.lookup k = some t → s'.dict.lookup k = some t) ∧
    (∀ z y x, (z, y, x) ∈ coords → s'.dict.lookup (s'.grid z y x) = some (tile z y x)) ∧
    (∀ z y x, (z, y, x) ∉ coords → s'.grid z y x = s.grid z y x) := by
  induction coords generalizing s with
  | nil =>
    injection h with h
    subst h
    exact ⟨fun _ _ h => h, by simp, fun _ _ _ _ => rfl⟩
  | cons c cs ih =>
    obtain ⟨z, y, x⟩ := c
    unfold fillGrid at h
    simp only at h
    have key : ∀ (s1 : SaveState P), RevOk s1 → fillGrid tile s1 cs = some s' →
        (∀ k t, s.dict.lookup k = some t → s1.dict.lookup k = some t) →
        s1.dict.lookup (s1.grid z y x) = some (tile z y x) →
        (∀ z' y' x', ¬ (z' = z ∧ y' = y ∧ x' = x) → s1.grid z' y' x' = s.grid z' y' x') →
        (∀ k t, s.dict.lookup k = some t → s'.dict.lookup k = some t) ∧
        (∀ z' y' x', (z', y', x') ∈ (z, y, x) :: cs → s'.dict.lookup (s'.grid z' y' x') = some (tile z' y' x')) ∧
        (∀ z' y' x', (z', y', x') ∉ (z, y, x) :: cs → s'.grid z' y' x' = s.grid z' y' x') := by
      intro s1 hr1 h1 hd hg ho
      obtain ⟨a, b, c⟩ := ih s1 hr1 h1
      refine ⟨fun k t hk => a k t (hd k t hk), ?_, ?_⟩
      · intro z' y' x' hm
        by_cases hc : (z', y', x') ∈ cs
        · exact b _ _ _ hc
        · rcases List.mem_cons.1 hm with e | hm
          · simp only [Prod.mk.injEq] at e
            obtain ⟨rfl, rfl, rfl⟩ := e
            rw [c _ _ _ hc]
            exact a _ _ hg
          · exact absurd hm hc
      · intro z' y' x' hm
        rw [List.mem_cons, not_or] at hm
        rw [c _ _ _ hm.2, ho]
        rintro ⟨rfl, rfl, rfl⟩
        exact hm.1 rfl
    cases hl : s.rev.lookup (tile z y x) with
    | some k =>
      rw [hl] at h
      refine key { s with
        grid := fun z' y' x' => if z' = z ∧ y' = y ∧ x' = x then k else s.grid z' y' x' } hr h (fun _ _ h => h) ?_ ?_
      · simp only [and_self, if_true]; exact hr _ _ hl
      · intro z' y' x' hne; simp only; rw [if_neg hne]
    | none =>
      rw [hl] at h
      simp only at h
      cases hf : freeKey s.dict 65536 s.key with
      | none => rw [hf] at h; cases h
      | some k =>
        rw [hf] at h
        obtain ⟨hk, _, _⟩ := freeKey_spec hf
        refine key
          { dict := (k, tile z y x) :: s.dict
            rev := (tile z y x, k) :: s.rev
            key := k
            grid := fun z' y' x' => if z' = z ∧ y' = y ∧ x' = x then k else s.grid z' y' x' } ?_ h ?_ ?_ ?_
        · intro t' k' hl'
          simp only at hl' ⊢
          rw [lookup_ite] at hl'
          split at hl'
          · next e =>
            injection hl' with hl'
            subst hl' e
            rw [lookup_ite, if_pos rfl]
          · exact lookup_cons_fresh hk (hr _ _ hl')
        · intro k' t' h'; exact lookup_cons_fresh hk h'
        · simp only [and_self, if_true]; rw [lookup_ite, if_pos rfl]
        · intro z' y' x' hne; simp only; rw [if_neg hne]

/-- there are enough keys -/
theorem fillGrid_succeeds (tile : Nat → Nat → Nat → List P) (kept : List (Nat × List P)) (all : List (List P))
    (hb : kept.length + all.length ≤ 65536) (coords : List (Nat × Nat × Nat)) (s : SaveState P)
    (new : List (Nat × List P)) (hd : s.dict = new ++ kept) (hnew : (new.map Prod.snd).Nodup)
    (hsub : ∀ p ∈ new, p.2 ∈ all) (hrev : ∀ p ∈ new, (s.rev.lookup p.2).isSome)
    (hcs : ∀ z y x, (z, y, x) ∈ coords → s.rev.lookup (tile z y x) = none → tile z y x ∈ all)
    (hkey : ∀ j, j < s.key → (s.dict.lookup j).isSome) (hle : s.key ≤ 65535) :
    (fillGrid tile s coords).isSome := by
  induction coords generalizing s new with
  | nil => rfl
  | cons c cs ih =>
    obtain ⟨z, y, x⟩ := c
    unfold fillGrid
    simp only
    cases hl : s.rev.lookup (tile z y x) with
    | some k =>
      refine ih { s with
        grid := fun z' y' x' => if z' = z ∧ y' = y ∧ x' = x then k else s.grid z' y' x' } new hd hnew hsub hrev ?_ hkey hle
      intro z' y' x' hm; exact hcs z' y' x' (by simp [hm])
    | none =>
      have hfresh : tile z y x ∉ new.map Prod.snd := by
        intro hm
        obtain ⟨p, hp, e⟩ := List.mem_map.1 hm
        have := hrev p hp
        rw [e, hl] at this
        cases this
      have hin : tile z y x ∈ all := hcs z y x (by simp) hl
      cases hf : freeKey s.dict 65536 s.key with
      | none =>
        exfalso
        have h1 := freeKey_none (by omega) hle hf
        have h2 : ∀ j, j < 65536 → j ∈ s.dict.map Prod.fst := by
          intro j hj
          rw [← lookup_isSome_mem]
          by_cases hk : j < s.key
          · exact hkey j hk
          · exact h1 j (by omega) (by omega)
        have h3 : (List.range 65536).length ≤ (s.dict.map Prod.fst).length := by
          apply List.Subperm.length_le
          apply List.subperm_of_subset List.nodup_range
          intro j hj
          exact h2 j (List.mem_range.1 hj)
        have h4 : (tile z y x :: new.map Prod.snd).length ≤ all.length := by
          apply List.Subperm.length_le
          apply List.subperm_of_subset (List.nodup_cons.2 ⟨hfresh, hnew⟩)
          intro t ht
          rcases List.mem_cons.1 ht with rfl | ht
          · exact hin
          · obtain ⟨p, hp, rfl⟩ := List.mem_map.1 ht
            exact hsub p hp
        rw [List.length_range, List.length_map, hd, List.length_append] at h3
        rw [List.length_cons, List.length_map] at h4
        omega
      | some k =>
        obtain ⟨hk1, hk2, hk3⟩ := freeKey_spec hf
        simp only
        have hlt : ∀ fuel key k, freeKey s.dict fuel key = some k → key ≤ 65535 → k ≤ 65535 := by
          intro fuel
          induction fuel with
          | zero => intro key k h; cases h
          | succ fuel ih =>
            intro key k h hle
            unfold freeKey at h
            split at h
            · split at h
              · exact ih _ _ h (by omega)
              · cases h
            · injection h with h; omega
        refine ih
          { dict := (k, tile z y x) :: s.dict
            rev := (tile z y x, k) :: s.rev
            key := k
            grid := fun z' y' x' => if z' = z ∧ y' = y ∧ x' = x then k else s.grid z' y' x' }
          ((k, tile z y x) :: new) ?_ ?_ ?_ ?_ ?_ ?_ ?_
        · simp [hd]
        · rw [List.map_cons, List.nodup_cons]; exact ⟨hfresh, hnew⟩
        · intro p hp
          rcases List.mem_cons.1 hp with rfl | hp
          · exact hin
          · exact hsub p hp
        · intro p hp
          simp only
          rw [lookup_ite]
          split
          · rfl
          · next hne =>
            rcases List.mem_cons.1 hp with rfl | hp
            · simp at hne
            · exact hrev p hp
        · intro z' y' x' hm hn
          simp only at hn
          rw [lookup_ite] at hn
          split at hn
          · cases hn
          · exact hcs z' y' x' (by simp [hm]) hn
        · intro j hj
          simp only at hj ⊢
          rw [lookup_isSome_mem, List.map_cons, List.mem_cons]
          right
          rw [← lookup_isSome_mem]
          by_cases h : j < s.key
          · exact hkey j h
          · exact hk3 j (by omega) hj
        · exact hlt _ _ _ hf hle

/-! ## Saving -/

/-- `coords` lists exactly the tiles that hold something -/
def Covers (m : AtomMap P K V) (coords : List (Nat × Nat × Nat)) : Prop :=
  ∀ z y x, (z, y, x) ∈ coords ↔ m.tileAt z y x ≠ []

/-- **C48.** Saving: whatever the base map and the iteration orders, the saved map has the editor's
size, and on every tile that is not empty exactly the prefabs that stand there, in slot order. -/
theorem save_exact {m : AtomMap P K V} {base : List (Nat × List P)} (hb : (base.map Prod.fst).Nodup)
    {coords : List (Nat × Nat × Nat)} (hc : Covers m coords) {d : DictMap P} (h : m.save base coords = some d) :
    d.dimX = m.sizeX ∧ d.dimY = m.sizeY ∧ d.dimZ = m.levels.length ∧
      ∀ z y x, m.tileAt z y x ≠ [] → d.tile z y x = some (m.tileAt z y x) := by
  unfold AtomMap.save at h
  split at h
  · simp only at h
    rw [Option.map_eq_some_iff] at h
    obtain ⟨s, hs, rfl⟩ := h
    refine ⟨rfl, rfl, rfl, ?_⟩
    intro z y x hne
    obtain ⟨_, b, _⟩ := fillGrid_spec _ _ _ _ (by
      intro t k hl
      refine mergeRev_ok ?_ hl
      unfold mergeBase
      exact hb.sublist (List.Sublist.map _ List.filter_sublist)) hs
    exact b z y x ((hc z y x).2 hne)
  · cases h

/-- **C48.** Base entries are reused: a tile that is in the base dictionary under one key (not the
reserved one) keeps that key. -/
theorem save_keeps_key {m : AtomMap P K V} {base : List (Nat × List P)}
    {coords : List (Nat × Nat × Nat)} (hc : Covers m coords) {d : DictMap P} (h : m.save base coords = some d)
    {z y x k : Nat} (hne : m.tileAt z y x ≠ []) (hk : (k, m.tileAt z y x) ∈ base) (hv : k ≠ invalidKey)
    (hu : ∀ k', (k', m.tileAt z y x) ∈ base → k' = k) : d.grid z y x = k := by
  unfold AtomMap.save at h
  split at h
  · simp only at h
    rw [Option.map_eq_some_iff] at h
    obtain ⟨s, hs, rfl⟩ := h
    simp only
    generalize hkept : mergeBase (fun t => coords.any fun c => decide (m.tileAt c.1 c.2.1 c.2.2 = t)) base = kept at hs
    have hin : (k, m.tileAt z y x) ∈ kept := by
      rw [← hkept]
      unfold mergeBase
      rw [List.mem_filter]
      refine ⟨hk, ?_⟩
      rw [List.any_eq_true]
      exact ⟨(z, y, x), (hc z y x).2 hne, by simp⟩
    have hu' : ∀ k', (m.tileAt z y x, k') ∈ kept.map (fun p => (p.2, p.1)) → k' = k := by
      intro k' hm
      obtain ⟨p, hp, e⟩ := List.mem_map.1 hm
      simp only [Prod.mk.injEq] at e
      apply hu
      rw [← hkept] at hp
      unfold mergeBase at hp
      rw [← e.1, ← e.2]
      exact (List.mem_filter.1 hp).1
    have hlk : (kept.map fun p => (p.2, p.1)).lookup (m.tileAt z y x) = some k := by
      have : ((kept.map fun p => (p.2, p.1)).lookup (m.tileAt z y x)).isSome := by
        rw [lookup_isSome_mem]
        exact List.mem_map.2 ⟨(m.tileAt z y x, k), List.mem_map.2 ⟨_, hin, rfl⟩, rfl⟩
      obtain ⟨k', hk'⟩ := Option.isSome_iff_exists.1 this
      rw [hk', hu' k' (lookup_mem hk')]
    have hrl : (mergeRev kept).lookup (m.tileAt z y x) = some k := by
      have : ((mergeRev kept).lookup (m.tileAt z y x)).isSome := by
        rw [lookup_isSome_mem]
        refine List.mem_map.2 ⟨(m.tileAt z y x, k), ?_, rfl⟩
        unfold mergeRev
        rw [List.mem_filter]
        refine ⟨List.mem_map.2 ⟨_, hin, rfl⟩, ?_⟩
        rw [hlk]
        simpa using hv
      obtain ⟨k', hk'⟩ := Option.isSome_iff_exists.1 this
      rw [hk']
      have hm := lookup_mem hk'
      unfold mergeRev at hm
      rw [hu' k' (List.mem_filter.1 hm).1]
    -- the reverse dictionary only grows at new tiles
    have grow : ∀ (cs : List (Nat × Nat × Nat)) (s0 s' : SaveState P),
        s0.rev.lookup (m.tileAt z y x) = some k → fillGrid m.tileAt s0 cs = some s' →
        ((z, y, x) ∈ cs ∨ s0.grid z y x = k) → s'.grid z y x = k := by
      intro cs
      induction cs with
      | nil =>
        intro s0 s' _ h1 h2
        injection h1 with h1
        subst h1
        rcases h2 with h2 | h2
        · cases h2
        · exact h2
      | cons c cs ih =>
        obtain ⟨z', y', x'⟩ := c
        intro s0 s' hr h1 h2
        unfold fillGrid at h1
        simp only at h1
        have hnext : ∀ g, (g = k ∨ m.tileAt z' y' x' ≠ m.tileAt z y x) → ((z, y, x) ∈ cs ∨
            (if z = z' ∧ y = y' ∧ x = x' then g else s0.grid z y x) = k) := by
          intro g hg
          by_cases e : z = z' ∧ y = y' ∧ x = x'
          · obtain ⟨rfl, rfl, rfl⟩ := e
            rcases hg with hg | hg
            · right; simpa using hg
            · exact absurd rfl hg
          · rw [if_neg e]
            rcases h2 with h2 | h2
            · rcases List.mem_cons.1 h2 with h2 | h2
              · simp only [Prod.mk.injEq] at h2
                exact absurd h2 e
              · exact Or.inl h2
            · exact Or.inr h2
        cases hl : s0.rev.lookup (m.tileAt z' y' x') with
        | some k' =>
          rw [hl] at h1
          refine ih _ s' ?_ h1 ?_
          · exact hr
          · apply hnext
            by_cases e : m.tileAt z' y' x' = m.tileAt z y x
            · left; rw [e, hr] at hl; injection hl with hl; exact hl.symm
            · exact Or.inr e
        | none =>
          rw [hl] at h1
          simp only at h1
          have hne' : m.tileAt z' y' x' ≠ m.tileAt z y x := by
            intro e; rw [e, hr] at hl; cases hl
          cases hf : freeKey s0.dict 65536 s0.key with
          | none => rw [hf] at h1; cases h1
          | some k' =>
            rw [hf] at h1
            refine ih _ s' ?_ h1 ?_
            · simp only
              rw [lookup_ite, if_neg (fun e => hne' e.symm)]
              exact hr
            · exact hnext _ (Or.inr hne')
    exact grow coords _ s hrl hs (Or.inl ((hc z y x).2 hne))
  · cases h

/-- **C48.** Saving does not panic when every instance is inside the map and the keys suffice: one for
every base entry whose tile is in use and one for every other distinct tile. -/
theorem save_succeeds {m : AtomMap P K V} {base : List (Nat × List P)} (hr : m.inRange = true)
    (hbk : ∀ p ∈ base, p.1 ≠ invalidKey) {coords : List (Nat × Nat × Nat)}
    (hcount : (base.filter fun p => decide (p.2 ∈ coords.map fun c => m.tileAt c.1 c.2.1 c.2.2)).length +
      ((coords.map fun c => m.tileAt c.1 c.2.1 c.2.2).dedup.filter fun t => decide (∀ p ∈ base, p.2 ≠ t)).length
      ≤ 65536) :
    ∃ d, m.save base coords = some d := by
  unfold AtomMap.save
  rw [if_pos hr]
  simp only
  rw [← Option.isSome_iff_exists, Option.isSome_map]
  have hkept : mergeBase (fun t => coords.any fun c => decide (m.tileAt c.1 c.2.1 c.2.2 = t)) base =
      base.filter fun p => decide (p.2 ∈ coords.map fun c => m.tileAt c.1 c.2.1 c.2.2) := by
    unfold mergeBase
    apply List.filter_congr
    intro p _
    rw [Bool.eq_iff_iff, List.any_eq_true, decide_eq_true_iff, List.mem_map]
    simp only [decide_eq_true_eq]
  rw [hkept]
  refine fillGrid_succeeds m.tileAt _ _ hcount coords _ [] rfl ?_ ?_ ?_ ?_ ?_ ?_
  · simp
  · simp
  · simp
  · intro z y x hm hn
    simp only at hn
    rw [List.mem_filter, List.mem_dedup, decide_eq_true_iff]
    refine ⟨List.mem_map.2 ⟨_, hm, rfl⟩, ?_⟩
    intro p hp e
    have : ((mergeRev (base.filter fun p => decide (p.2 ∈ coords.map fun c => m.tileAt c.1 c.2.1 c.2.2))).lookup
        (m.tileAt z y x)).isSome := by
      rw [lookup_isSome_mem]
      have hin : p ∈ base.filter fun p => decide (p.2 ∈ coords.map fun c => m.tileAt c.1 c.2.1 c.2.2) := by
        rw [List.mem_filter, decide_eq_true_iff]
        exact ⟨hp, by rw [e]; exact List.mem_map.2 ⟨_, hm, rfl⟩⟩
      refine List.mem_map.2 ⟨(p.2, p.1), ?_, e⟩
      unfold mergeRev
      rw [List.mem_filter]
      refine ⟨List.mem_map.2 ⟨p, hin, rfl⟩, ?_⟩
      rw [decide_eq_true_iff]
      intro hl
      obtain ⟨q, hq, e'⟩ := List.mem_map.1 (lookup_mem hl)
      injection e' with _ e'
      exact hbk q (List.mem_filter.1 hq).1 e'
    rw [hn] at this
    cases this
  · intro j hj; simp at hj
  · simp

/-! ## Loading -/

/-- the instances of a level of the file, in the order of the file: row by row from the top, and on a
tile in the order of its dictionary entry; y counts from the bottom -/
def fileInsts (d : DictMap P) (z : Nat) (cs : List (Nat × Nat)) : List (Inst P) :=
  cs.flatMap fun c => ((d.tile z c.1 c.2).getD []).map fun fab => ⟨c.2, d.dimY - c.1 - 1, fab⟩

/-- every key of the grid is in the dictionary -/
def DictMap.Ok (d : DictMap P) : Prop := ∀ z y x, z < d.dimZ → y < d.dimY → x < d.dimX → (d.tile z y x).isSome

/-- a level being loaded that holds the instances `l` -/
structure Loading (pops : P → Option (RPop K V)) (lv : Level P V) (l : List (Inst P)) : Prop where
  pre : lv.PreInv pops
  verts : lv.Verts pops
  keys : lv.keys = l
  free : lv.free = []

theorem preInv_pops {pops pops' : P → Option (RPop K V)} {lv : Level P V} (h : lv.PreInv pops)
    (hext : ∀ p r, pops p = some r → pops' p = some r) : lv.PreInv pops' := by
  refine ⟨h.freeNodup, h.freeLt, h.valsLen, h.sortedNodup, h.sortedMem, ?_, h.ibLen⟩
  intro i hi
  obtain ⟨r, hr⟩ := Option.isSome_iff_exists.1 (h.hasPop i hi)
  unfold Level.rpop at hr ⊢
  rw [Option.bind_eq_some_iff] at hr
  obtain ⟨k, hk, hr⟩ := hr
  rw [hk, Option.bind_some, hext _ _ hr]
  rfl

theorem preVerts_pops {pops pops' : P → Option (RPop K V)} {lv : Level P V} (h : lv.PreInv pops)
    (hv : lv.Verts pops) (hext : ∀ p r, pops p = some r → pops' p = some r) : lv.Verts pops' := by
  intro i k r hi hr
  have hm : i ∈ lv.sorted := by rw [h.sortedMem, hi]; rfl
  obtain ⟨r', hr'⟩ := Option.isSome_iff_exists.1 (h.hasPop i hm)
  rw [rpop_of_slots hi] at hr'
  have := hext _ _ hr'
  rw [hr] at this
  injection this with this
  subst this
  exact hv i k r hi hr'

theorem loading_pops {pops pops' : P → Option (RPop K V)} {lv : Level P V} {l : List (Inst P)}
    (h : Loading pops lv l) (hext : ∀ p r, pops p = some r → pops' p = some r) : Loading pops' lv l :=
  ⟨preInv_pops h.pre hext, preVerts_pops h.pre h.verts hext, h.keys, h.free⟩

theorem loading_empty (pops : P → Option (RPop K V)) : Loading pops (Level.empty : Level P V) [] := by
  refine ⟨⟨?_, ?_, ?_, ?_, ?_, ?_, ?_⟩, ?_, rfl, rfl⟩ <;> simp [Level.empty, Level.slots, Level.Verts]

theorem loadTile_spec (render : P → RPop K V) (dflt : V) (x y : Nat) (fabs : List P) :
    ∀ (pops : P → Option (RPop K V)) (lv : Level P V) (l : List (Inst P)), Loading pops lv l →
    ∃ pops' lv', loadTile render dflt x y (pops, lv) fabs = some (pops', lv') ∧
      Loading pops' lv' (l ++ fabs.map fun fab => ⟨x, y, fab⟩) ∧
      ∀ p r, pops p = some r → pops' p = some r := by
  induction fabs with
  | nil => intro pops lv l h; exact ⟨pops, lv, rfl, by simpa using h, fun _ _ h => h⟩
  | cons fab fabs ih =>
    intro pops lv l h
    obtain ⟨pops1, hp1, hext, hfab⟩ : ∃ pops1 : P → Option (RPop K V), withPop render pops fab = pops1 ∧
        (∀ p r, pops p = some r → pops1 p = some r) ∧ (pops1 fab).isSome := by
      refine ⟨_, rfl, ?_, ?_⟩
      · intro p r hpr
        unfold withPop
        cases hf : pops fab with
        | some _ => exact hpr
        | none =>
          simp only
          rw [if_neg]
          · exact hpr
          · rintro rfl; rw [hf] at hpr; cases hpr
      · unfold withPop
        cases hf : pops fab with
        | some _ => simp only; rw [hf]; rfl
        | none => simp
    have h1 := loading_pops h hext
    obtain ⟨r, hr⟩ := Option.isSome_iff_exists.1 hfab
    obtain ⟨lv1, e1, p1, _, _, v1⟩ := addUnsorted_spec dflt h1.pre x y fab hr
    have hkf : lv1.keys = l ++ [⟨x, y, fab⟩] ∧ lv1.free = [] := by
      have hlen : lv.vals.length = lv.keys.length := h.pre.valsLen
      unfold Level.addUnsorted Level.prep Level.push at e1
      rw [h.free] at e1
      simp only [hlen, if_true, Option.map_some, Option.some.injEq, Prod.mk.injEq] at e1
      rw [← e1.1]
      exact ⟨by rw [h.keys], rfl⟩
    obtain ⟨pops', lv', e, hl, he⟩ := ih pops1 lv1 (l ++ [⟨x, y, fab⟩]) ⟨p1, v1 h1.verts, hkf.1, hkf.2⟩
    refine ⟨pops', lv', ?_, ?_, fun p r h => he p r (hext p r h)⟩
    · unfold loadTile
      simp only
      rw [hp1, e1]
      exact e
    · simpa using hl

theorem loadTiles_spec (render : P → RPop K V) (dflt : V) (d : DictMap P) (z : Nat) (cs : List (Nat × Nat))
    (hcs : ∀ c ∈ cs, (d.tile z c.1 c.2).isSome) :
    ∀ (pops : P → Option (RPop K V)) (lv : Level P V) (l : List (Inst P)), Loading pops lv l →
    ∃ pops' lv', loadTiles render dflt d z (pops, lv) cs = some (pops', lv') ∧
      Loading pops' lv' (l ++ fileInsts d z cs) ∧ ∀ p r, pops p = some r → pops' p = some r := by
  induction cs with
  | nil => intro pops lv l h; exact ⟨pops, lv, rfl, by simpa [fileInsts] using h, fun _ _ h => h⟩
  | cons c cs ih =>
    obtain ⟨y, x⟩ := c
    intro pops lv l h
    obtain ⟨fabs, hf⟩ := Option.isSome_iff_exists.1 (hcs (y, x) (by simp))
    simp only at hf
    obtain ⟨pops1, lv1, e1, h1, x1⟩ := loadTile_spec render dflt x (d.dimY - y - 1) fabs pops lv l h
    obtain ⟨pops', lv', e, hl, he⟩ := ih (fun c hc => hcs c (by simp [hc])) pops1 lv1 _ h1
    refine ⟨pops', lv', ?_, ?_, fun p r h => he p r (x1 p r h)⟩
    · unfold loadTiles
      simp only [hf, e1]
      exact e
    · simpa [fileInsts, hf] using hl

theorem mem_topDown {d : DictMap P} {c : Nat × Nat} : c ∈ topDown d ↔ c.1 < d.dimY ∧ c.2 < d.dimX := by
  unfold topDown
  simp only [List.mem_flatMap, List.mem_range, List.mem_map]
  constructor
  · rintro ⟨y, hy, x, hx, rfl⟩; exact ⟨hy, hx⟩
  · rintro ⟨hy, hx⟩; exact ⟨c.1, hy, c.2, hx, rfl⟩

/-- a loaded level: everything the renderer uses is right, and the slots are the file's instances -/
structure Loaded (pops : P → Option (RPop K V)) (lv : Level P V) (l : List (Inst P)) : Prop where
  inv : lv.Inv pops
  verts : lv.Verts pops
  keys : lv.keys = l
  free : lv.free = []

theorem loadLevels_spec (render : P → RPop K V) (dflt : V) (d : DictMap P) (zs : List Nat)
    (hzs : ∀ z ∈ zs, ∀ y x, y < d.dimY → x < d.dimX → (d.tile z y x).isSome) :
    ∀ (m : AtomMap P K V) (done : List Nat), m.levels.length = done.length →
    (∀ (i : Nat) lv, m.levels[i]? = some lv → ∃ z, done[i]? = some z ∧ Loaded m.pops lv (fileInsts d z (topDown d))) →
    ∃ m', loadLevels render dflt d m zs = some m' ∧ m'.sizeX = m.sizeX ∧ m'.sizeY = m.sizeY ∧
      m'.levels.length = (done ++ zs).length ∧
      ∀ (i : Nat) lv, m'.levels[i]? = some lv →
        ∃ z, (done ++ zs)[i]? = some z ∧ Loaded m'.pops lv (fileInsts d z (topDown d)) := by
  induction zs with
  | nil =>
    intro m done hlen hl
    exact ⟨m, rfl, rfl, rfl, by simpa using hlen, by simpa using hl⟩
  | cons z zs ih =>
    intro m done hlen hl
    obtain ⟨pops', lv, e, h1, hext⟩ := loadTiles_spec render dflt d z (topDown d)
      (fun c hc => hzs z (by simp) c.1 c.2 (mem_topDown.1 hc).1 (mem_topDown.1 hc).2) m.pops Level.empty []
      (loading_empty _)
    obtain ⟨lv', e', i', k', v', f'⟩ := sortAgain_spec h1.pre
    have hslots : lv'.slots = lv.slots := by funext i; unfold Level.slots; rw [k', f']
    obtain ⟨m', em, sx, sy, hlen', hall⟩ := ih (fun z hz => hzs z (by simp [hz]))
      { m with
        pops := pops'
        levels := m.levels ++ [lv'] } (done ++ [z]) (by simp [hlen]) (by
        intro i lv0 hi
        simp only at hi ⊢
        rcases Nat.lt_trichotomy i m.levels.length with hlt | heq | hgt
        · rw [List.getElem?_append_left hlt] at hi
          obtain ⟨z', hz', L⟩ := hl i lv0 hi
          refine ⟨z', ?_, ⟨inv_pops L.inv hext, verts_pops L.inv L.verts hext, L.keys, L.free⟩⟩
          rw [List.getElem?_append_left (by omega), hz']
        · subst heq
          rw [List.getElem?_concat_length] at hi
          injection hi with hi
          subst hi
          refine ⟨z, by rw [hlen, List.getElem?_concat_length], ⟨i', ?_, ?_, ?_⟩⟩
          · intro i k r hs hr
            rw [hslots] at hs
            rw [v']
            exact h1.verts i k r hs hr
          · rw [k', h1.keys]; simp
          · rw [f', h1.free]
        · rw [List.getElem?_eq_none (by simp; omega)] at hi
          cases hi)
    refine ⟨m', ?_, sx, sy, ?_, ?_⟩
    · unfold loadLevels
      rw [e]
      simp only
      rw [e']
      exact em
    · simpa using hlen'
    · simpa using hall

/-- **C48.** Loading does not panic on a map whose keys are all defined; each level then holds exactly
the file's instances in the file's order, with the renderer's data right. -/
theorem load_exact (render : P → RPop K V) (dflt : V) {d : DictMap P} (hd : d.Ok) :
    ∃ m, AtomMap.new render dflt d = some m ∧ m.sizeX = d.dimX ∧ m.sizeY = d.dimY ∧ m.levels.length = d.dimZ ∧
      ∀ z lv, m.levels[z]? = some lv → Loaded m.pops lv (fileInsts d z (topDown d)) := by
  obtain ⟨m, e, sx, sy, hl, h⟩ := loadLevels_spec render dflt d (List.range d.dimZ)
    (fun z hz y x hy hx => hd z y x (List.mem_range.1 hz) hy hx)
    { sizeX := d.dimX
      sizeY := d.dimY
      pops := fun _ => none
      levels := [] } [] rfl (by simp)
  refine ⟨m, e, sx, sy, by simpa using hl, ?_⟩
  intro z lv hz
  obtain ⟨z', hz', L⟩ := h z lv hz
  rw [List.nil_append, List.getElem?_range (by
    rw [List.getElem?_eq_some_iff] at hz'
    obtain ⟨h, _⟩ := hz'
    simpa using h)] at hz'
  injection hz' with hz'
  subst hz'
  exact L

/-! ## Load then save -/

theorem liveSlots_of_free {lv : Level P V} (h : lv.free = []) :
    lv.liveSlots.map Prod.snd = lv.keys := by
  unfold Level.liveSlots
  rw [h, List.filter_eq_self.2 (by simp), List.map_map]
  have : (Prod.snd ∘ fun p : Inst P × Nat => (p.2, p.1)) = Prod.fst := by funext p; rfl
  rw [this, List.zipIdx_map_fst]

theorem nodup_topDown (d : DictMap P) : (topDown d).Nodup := by
  unfold topDown
  rw [List.nodup_flatMap]
  refine ⟨?_, ?_⟩
  · intro y _
    exact List.nodup_range.map (fun a b h => by simpa using h)
  · refine List.Pairwise.imp ?_ List.nodup_range
    intro a b hab
    rw [Function.onFun, List.disjoint_left]
    intro c h1 h2
    rw [List.mem_map] at h1 h2
    obtain ⟨_, _, rfl⟩ := h1
    obtain ⟨_, _, e⟩ := h2
    simp only [Prod.mk.injEq] at e
    exact hab e.1.symm

theorem fileInsts_at (d : DictMap P) (z y x : Nat) (cs : List (Nat × Nat)) (hn : cs.Nodup)
    (hcs : ∀ c ∈ cs, c.1 < d.dimY) (hm : (y, x) ∈ cs) :
    ((fileInsts d z cs).filter fun k => k.x = x ∧ d.dimY - 1 - k.y = y).map Inst.pop = (d.tile z y x).getD [] := by
  have none_ : ∀ cs : List (Nat × Nat), (∀ c ∈ cs, c.1 < d.dimY) → (y, x) ∉ cs →
      ((fileInsts d z cs).filter fun k => decide (k.x = x ∧ d.dimY - 1 - k.y = y)) = [] := by
    intro cs hlt hne
    rw [List.filter_eq_nil_iff]
    intro k hk
    unfold fileInsts at hk
    rw [List.mem_flatMap] at hk
    obtain ⟨c, hc, hk⟩ := hk
    rw [List.mem_map] at hk
    obtain ⟨fab, _, rfl⟩ := hk
    simp only [decide_eq_true_eq, not_and]
    intro e1 e2
    have := hlt c hc
    apply hne
    have : c = (y, x) := by ext <;> simp <;> omega
    rw [← this]; exact hc
  induction cs with
  | nil => cases hm
  | cons c cs ih =>
    rw [List.nodup_cons] at hn
    have hsplit : fileInsts d z (c :: cs) =
        ((d.tile z c.1 c.2).getD []).map (fun fab => (⟨c.2, d.dimY - c.1 - 1, fab⟩ : Inst P)) ++ fileInsts d z cs := by
      simp [fileInsts]
    rw [hsplit, List.filter_append, List.map_append]
    by_cases e : c = (y, x)
    · subst e
      have hy : y < d.dimY := hcs (y, x) (by simp)
      rw [none_ cs (fun c hc => hcs c (by simp [hc])) hn.1, List.filter_eq_self.2]
      · simp [List.map_map, Function.comp_def]
      · intro k hk
        rw [List.mem_map] at hk
        obtain ⟨fab, _, rfl⟩ := hk
        simp only [decide_eq_true_eq]
        exact ⟨trivial, by omega⟩
    · have hm' : (y, x) ∈ cs := by
        rcases List.mem_cons.1 hm with h | h
        · exact absurd h.symm e
        · exact h
      rw [ih hn.2 (fun c hc => hcs c (by simp [hc])) hm']
      have : (((d.tile z c.1 c.2).getD []).map (fun fab => (⟨c.2, d.dimY - c.1 - 1, fab⟩ : Inst P))).filter
          (fun k => decide (k.x = x ∧ d.dimY - 1 - k.y = y)) = [] := by
        have := none_ [c] (fun c' hc' => hcs c' (by simp at hc'; simp [hc'])) (by
          simp only [List.mem_singleton]; exact fun h => e h.symm)
        simpa [fileInsts] using this
      rw [this]
      rfl

/-- a loaded map has the file's tiles -/
theorem load_tile (render : P → RPop K V) (dflt : V) {d : DictMap P} (hd : d.Ok) {m : AtomMap P K V}
    (hm : AtomMap.new render dflt d = some m) {z y x : Nat} (hz : z < d.dimZ) (hy : y < d.dimY) (hx : x < d.dimX) :
    some (m.tileAt z y x) = d.tile z y x := by
  obtain ⟨m', e, sx, sy, hl, h⟩ := load_exact render dflt hd
  rw [hm] at e
  injection e with e
  subst e
  obtain ⟨lv, hlv⟩ : ∃ lv, m.levels[z]? = some lv := ⟨m.levels[z]'(by omega), List.getElem?_eq_getElem _⟩
  have L := h z lv hlv
  unfold AtomMap.tileAt
  rw [hlv]
  simp only
  obtain ⟨t, ht⟩ := Option.isSome_iff_exists.1 (hd z y x hz hy hx)
  rw [ht]
  congr 1
  have h1 : (lv.liveSlots.filter fun p => decide (p.2.x = x ∧ m.sizeY - 1 - p.2.y = y)).map (fun p => p.2.pop) =
      ((lv.liveSlots.map Prod.snd).filter fun k => decide (k.x = x ∧ m.sizeY - 1 - k.y = y)).map Inst.pop := by
    rw [List.filter_map, List.map_map]
    rfl
  rw [h1, liveSlots_of_free L.free, L.keys, sy,
    fileInsts_at d z y x _ (nodup_topDown d) (fun c hc => (mem_topDown.1 hc).1) (mem_topDown.2 ⟨hy, hx⟩), ht]
  rfl

/-- **C48.** Load and save: for every file, base map and iteration order, the saved map has the file's
size and on every tile that is not empty exactly the file's prefabs, in the file's order. -/
theorem load_save (render : P → RPop K V) (dflt : V) {d : DictMap P} (hd : d.Ok) {m : AtomMap P K V}
    (hm : AtomMap.new render dflt d = some m) {base : List (Nat × List P)} (hb : (base.map Prod.fst).Nodup)
    {coords : List (Nat × Nat × Nat)} (hc : Covers m coords) {d' : DictMap P} (h : m.save base coords = some d') :
    d'.dimX = d.dimX ∧ d'.dimY = d.dimY ∧ d'.dimZ = d.dimZ ∧
      ∀ z y x, z < d.dimZ → y < d.dimY → x < d.dimX → d.tile z y x ≠ some [] →
        d'.tile z y x = d.tile z y x := by
  obtain ⟨a, b, c, t⟩ := save_exact hb hc h
  obtain ⟨m', e, sx, sy, hl, _⟩ := load_exact render dflt hd
  rw [hm] at e
  injection e with e
  subst e
  refine ⟨a.trans sx, b.trans sy, c.trans hl, ?_⟩
  intro z y x hz hy hx hne
  have ht := load_tile render dflt hd hm hz hy hx
  rw [← ht] at hne ⊢
  exact t z y x (fun e => hne (by rw [e]))

end Verif.Editor
