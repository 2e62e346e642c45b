import Verif.Cli.Model
import Verif.Dmm.TextProps

/-!
# C96: diff-maps lists exactly the places that differ
-/

namespace Verif.Cli

open Verif.Dmm Verif.Debug

variable {C : Type} [DecidableEq C]

/-! ## Specification -/

/-- the tile at a place of the game: counted from 1, rows from the bottom -/
def tileAt (m : Map C) (x y z : Nat) : Option (List (Prefab C)) :=
  if x = 0 ∨ y = 0 ∨ z = 0 then none
  else (m.grid[z - 1]?).bind fun level => (level.reverse[y - 1]?).bind fun row => (row[x - 1]?).bind fun key =>
    m.dict.lookup key

/-- two prefabs are the same: same path, same value for every variable -/
def SamePrefab (a b : Prefab C) : Prop := a.path = b.path ∧ ∀ name, a.vars.lookup name = b.vars.lookup name

/-- two tiles are the same: the same prefabs in the same order -/
inductive SameTile : List (Prefab C) → List (Prefab C) → Prop where
  | nil : SameTile [] []
  | cons {a b : Prefab C} {as bs : List (Prefab C)} : SamePrefab a b → SameTile as bs → SameTile (a :: as) (b :: bs)

/-- a map as the reader gives it (C13), all of whose keys are in the dictionary -/
structure Sound (m : Map C) : Prop where
  depth : m.grid.length = m.dimZ
  height : ∀ l ∈ m.grid, l.length = m.dimY
  width : ∀ l ∈ m.grid, ∀ r ∈ l, r.length = m.dimX
  known : ∀ l ∈ m.grid, ∀ r ∈ l, ∀ k ∈ r, (m.dict.lookup k).isSome
  distinct : ∀ e ∈ m.dict, ∀ f ∈ e.2, (f.vars.map Prod.fst).Nodup

/-! ## Equality -/

theorem lookup_of_mem {α β : Type} [BEq α] [LawfulBEq α] {l : List (α × β)} (hn : (l.map Prod.fst).Nodup)
    {k : α} {v : β} : (k, v) ∈ l ↔ l.lookup k = some v := by
  induction l with
  | nil => simp
  | cons e l ih =>
    obtain ⟨k', v'⟩ := e
    rw [List.map_cons, List.nodup_cons] at hn
    rw [List.lookup_cons]
    by_cases hk : k = k'
    · subst hk
      simp only [beq_self_eq_true, Option.some.injEq, List.mem_cons, Prod.mk.injEq, true_and]
      constructor
      · rintro (h | h)
        · exact h.symm
        · exact absurd (List.mem_map_of_mem h) hn.1
      · exact fun h => .inl h.symm
    · have hb : (k == k') = false := by simpa using hk
      simp only [hb, List.mem_cons, Prod.mk.injEq, hk, false_and, false_or]
      exact ih hn.2

theorem varsEq_iff {a b : List (List Char × C)} (ha : (a.map Prod.fst).Nodup) (hb : (b.map Prod.fst).Nodup) :
    varsEq a b = true ↔ ∀ name, a.lookup name = b.lookup name := by
  unfold varsEq
  simp only [Bool.and_eq_true, beq_iff_eq, List.all_eq_true]
  constructor
  · rintro ⟨hl, h⟩ name
    have hsub : a ⊆ b := fun kv hm => by
      have := h kv hm
      exact (lookup_of_mem hb).2 this
    have hperm : a.Perm b := by
      have hna : a.Nodup := List.Nodup.of_map _ ha
      exact (List.subperm_of_subset hna hsub).perm_of_length_le (by omega)
    cases hn : a.lookup name with
    | some v => exact ((lookup_of_mem hb).1 (hsub ((lookup_of_mem ha).2 hn))).symm
    | none =>
      cases hn' : b.lookup name with
      | none => rfl
      | some v =>
        have := (lookup_of_mem ha).1 (hperm.mem_iff.2 ((lookup_of_mem hb).2 hn'))
        rw [hn] at this; cases this
  · intro h
    have hmem : ∀ kv : List Char × C, kv ∈ a ↔ kv ∈ b := by
      rintro ⟨k, v⟩
      rw [lookup_of_mem ha, lookup_of_mem hb, h k]
    have hperm : a.Perm b :=
      (List.perm_ext_iff_of_nodup (List.Nodup.of_map _ ha) (List.Nodup.of_map _ hb)).2 hmem
    exact ⟨hperm.length_eq, fun kv hm => (lookup_of_mem hb).1 ((hmem kv).1 hm)⟩

theorem tileEq_iff {a b : List (Prefab C)} (ha : ∀ f ∈ a, (f.vars.map Prod.fst).Nodup)
    (hb : ∀ f ∈ b, (f.vars.map Prod.fst).Nodup) : tileEq a b = true ↔ SameTile a b := by
  induction a generalizing b with
  | nil =>
    cases b with
    | nil => exact ⟨fun _ => .nil, fun _ => rfl⟩
    | cons y ys => exact ⟨nofun, nofun⟩
  | cons x xs ih =>
    cases b with
    | nil => exact ⟨nofun, nofun⟩
    | cons y ys =>
      have ih' := ih (b := ys) (fun f hf => ha f (by simp [hf])) (fun f hf => hb f (by simp [hf]))
      simp only [tileEq, Bool.and_eq_true, prefabEq, beq_iff_eq]
      rw [varsEq_iff (ha x (by simp)) (hb y (by simp)), ih']
      constructor
      · rintro ⟨h1, h2⟩; exact .cons h1 h2
      · intro h; cases h with
        | cons h1 h2 => exact ⟨h1, h2⟩

/-! ## Places -/

theorem tileAt_raw {m : Map C} (h : Sound m) {x y z : Nat} (hy : y < m.dimY) :
    tileAt m (x + 1) (y + 1) (z + 1) = rawTile m z (m.dimY - y - 1) x := by
  unfold tileAt rawTile
  rw [if_neg (by omega)]
  simp only [Nat.add_sub_cancel]
  cases hz : m.grid[z]? with
  | none => rfl
  | some level =>
    have hl := h.height level (List.mem_of_getElem? hz)
    simp only [Option.bind_some]
    rw [List.getElem?_reverse (by omega)]
    have he : level.length - 1 - y = m.dimY - y - 1 := by omega
    rw [he]
    cases level[m.dimY - y - 1]? with
    | none => rfl
    | some row => rfl

theorem tileAt_some {m : Map C} (h : Sound m) {x y z : Nat} (hx : x < m.dimX) (hy : y < m.dimY) (hz : z < m.dimZ) :
    ∃ t, tileAt m (x + 1) (y + 1) (z + 1) = some t ∧ ∀ f ∈ t, (f.vars.map Prod.fst).Nodup := by
  unfold tileAt
  rw [if_neg (by omega)]
  simp only [Nat.add_sub_cancel]
  have h1 : z < m.grid.length := by rw [h.depth]; exact hz
  have m1 : m.grid[z] ∈ m.grid := List.getElem_mem h1
  have h2 : y < m.grid[z].reverse.length := by rw [List.length_reverse, h.height _ m1]; exact hy
  have m2 : m.grid[z].reverse[y] ∈ m.grid[z] := List.mem_reverse.1 (List.getElem_mem h2)
  have h3 : x < (m.grid[z].reverse[y]).length := by rw [h.width _ m1 _ m2]; exact hx
  have m3 : (m.grid[z].reverse[y])[x] ∈ m.grid[z].reverse[y] := List.getElem_mem h3
  have hk := h.known _ m1 _ m2 _ m3
  rw [List.getElem?_eq_getElem h1, Option.bind_some, List.getElem?_eq_getElem h2, Option.bind_some,
    List.getElem?_eq_getElem h3, Option.bind_some]
  obtain ⟨t, ht⟩ := Option.isSome_iff_exists.1 hk
  refine ⟨t, ht, fun f hf => ?_⟩
  have hmem : ∀ (l : List (Nat × List (Prefab C))) (k : Nat) t, l.lookup k = some t → (k, t) ∈ l := by
    intro l k t hl
    induction l with
    | nil => cases hl
    | cons e l ih =>
      rw [List.lookup_cons] at hl
      by_cases he : k = e.1
      · have hb : (k == e.1) = true := by simpa using he
        simp only [hb, Option.some.injEq] at hl
        subst hl
        subst he
        simp
      · have hb : (k == e.1) = false := by simpa using he
        simp only [hb] at hl
        exact List.mem_cons_of_mem _ (ih hl)
  exact h.distinct _ (hmem _ _ _ ht) f hf

theorem mem_cells {nz ny nx : Nat} {c : Nat × Nat × Nat} :
    c ∈ cells nz ny nx ↔ c.1 < nx ∧ c.2.1 < ny ∧ c.2.2 < nz := by
  obtain ⟨x, y, z⟩ := c
  simp only [cells, List.mem_flatMap, List.mem_range, List.mem_map, Prod.mk.injEq]
  constructor
  · rintro ⟨z', hz, y', hy, x', hx, rfl, rfl, rfl⟩; exact ⟨hx, hy, hz⟩
  · rintro ⟨hx, hy, hz⟩; exact ⟨z, hz, y, hy, x, hx, rfl, rfl, rfl⟩

theorem cellDiffers_iff {l r : Map C} (hl : Sound l) (hr : Sound r) {c : Nat × Nat × Nat}
    (hx : c.1 < min l.dimX r.dimX) (hy : c.2.1 < min l.dimY r.dimY) (hz : c.2.2 < min l.dimZ r.dimZ) :
    ∃ d, cellDiffers l r c = some d ∧ (d = true ↔ ∃ a b, tileAt l (c.1 + 1) (c.2.1 + 1) (c.2.2 + 1) = some a ∧
      tileAt r (c.1 + 1) (c.2.1 + 1) (c.2.2 + 1) = some b ∧ ¬ SameTile a b) := by
  obtain ⟨a, ha, na⟩ := tileAt_some hl (x := c.1) (y := c.2.1) (z := c.2.2) (by omega) (by omega) (by omega)
  obtain ⟨b, hb, nb⟩ := tileAt_some hr (x := c.1) (y := c.2.1) (z := c.2.2) (by omega) (by omega) (by omega)
  refine ⟨!tileEq a b, ?_, ?_⟩
  · unfold cellDiffers
    rw [← tileAt_raw hl (by omega), ← tileAt_raw hr (by omega), ha, hb]
    rfl
  · rw [ha, hb]
    simp only [Bool.not_eq_true', Option.some.injEq]
    rw [← Bool.not_eq_true, tileEq_iff na nb]
    exact ⟨fun h => ⟨a, b, rfl, rfl, h⟩, by rintro ⟨_, _, rfl, rfl, h⟩; exact h⟩

theorem differing_eq {l r : Map C} (hl : Sound l) (hr : Sound r) (cs : List (Nat × Nat × Nat))
    (h : ∀ c ∈ cs, c.1 < min l.dimX r.dimX ∧ c.2.1 < min l.dimY r.dimY ∧ c.2.2 < min l.dimZ r.dimZ) :
    ∃ (t sub : List (Nat × Nat × Nat)), differing l r cs = some t ∧ t = sub.map (fun c : Nat × Nat × Nat => (c.1 + 1, c.2.1 + 1, c.2.2 + 1)) ∧
      sub.Sublist cs ∧ ∀ c ∈ cs, c ∈ sub ↔ ∃ a b, tileAt l (c.1 + 1) (c.2.1 + 1) (c.2.2 + 1) = some a ∧
        tileAt r (c.1 + 1) (c.2.1 + 1) (c.2.2 + 1) = some b ∧ ¬ SameTile a b := by
  induction cs with
  | nil => exact ⟨[], [], rfl, rfl, .slnil, by simp⟩
  | cons c cs ih =>
    obtain ⟨t, sub, ht, he, hs, hm⟩ := ih fun c hc => h c (by simp [hc])
    obtain ⟨hx, hy, hz⟩ := h c (by simp)
    obtain ⟨d, hd, hiff⟩ := cellDiffers_iff hl hr hx hy hz
    rw [differing, hd, Option.bind_some, ht, Option.map_some]
    cases d with
    | true =>
      refine ⟨_, c :: sub, rfl, by rw [he]; rfl, hs.cons_cons _, ?_⟩
      intro c' hc'
      by_cases hcc : c' = c
      · subst hcc; exact ⟨fun _ => hiff.1 rfl, fun _ => by simp⟩
      · have := hm c' (by simpa [hcc] using hc')
        simp [hcc, this]
    | false =>
      refine ⟨_, sub, rfl, by rw [he]; rfl, hs.cons _, ?_⟩
      intro c' hc'
      by_cases hcc : c' = c
      · subst hcc
        by_cases hin : c' ∈ cs
        · exact hm c' hin
        · exact ⟨fun hsub => absurd (hs.subset hsub) hin, fun hx => absurd (hiff.2 hx) (by decide)⟩
      · exact hm c' (by simpa [hcc] using hc')

/-- before, in the order of levels, rows from the bottom and columns -/
def Before (a b : Nat × Nat × Nat) : Prop :=
  a.2.2 < b.2.2 ∨ (a.2.2 = b.2.2 ∧ (a.2.1 < b.2.1 ∨ (a.2.1 = b.2.1 ∧ a.1 < b.1)))

theorem cells_ordered (nz ny nx : Nat) : (cells nz ny nx).Pairwise Before := by
  unfold cells
  rw [List.pairwise_flatMap]
  refine ⟨fun z _ => ?_, ?_⟩
  · rw [List.pairwise_flatMap]
    refine ⟨fun y _ => ?_, ?_⟩
    · rw [List.pairwise_map]
      exact List.pairwise_lt_range.imp fun h => .inr ⟨rfl, .inr ⟨rfl, h⟩⟩
    · refine List.pairwise_lt_range.imp fun h => ?_
      intro a ha b hb
      obtain ⟨_, -, rfl⟩ := List.mem_map.1 ha
      obtain ⟨_, -, rfl⟩ := List.mem_map.1 hb
      exact .inr ⟨rfl, .inl h⟩
  · refine List.pairwise_lt_range.imp fun h => ?_
    intro a ha b hb
    obtain ⟨_, -, ha⟩ := List.mem_flatMap.1 ha
    obtain ⟨_, -, rfl⟩ := List.mem_map.1 ha
    obtain ⟨_, -, hb⟩ := List.mem_flatMap.1 hb
    obtain ⟨_, -, rfl⟩ := List.mem_map.1 hb
    exact .inl h

/-- **C96**: of two maps whose keys are all known, `diff-maps` names the sizes exactly if they differ, and lists
exactly the places that both maps have and where their tiles differ, each once, in order. -/
theorem diff_exact {l r : Map C} (hl : Sound l) (hr : Sound r) : ∃ rep, diffMaps l r = some rep ∧
    (rep.sizes = none ↔ l.dimX = r.dimX ∧ l.dimY = r.dimY ∧ l.dimZ = r.dimZ) ∧
    (∀ s, rep.sizes = some s → s = ((l.dimX, l.dimY, l.dimZ), (r.dimX, r.dimY, r.dimZ))) ∧
    rep.tiles.Pairwise Before ∧
    ∀ x y z, (x, y, z) ∈ rep.tiles ↔
      ∃ a b, tileAt l x y z = some a ∧ tileAt r x y z = some b ∧ ¬ SameTile a b := by
  obtain ⟨t, sub, ht, he, hs, hm⟩ := differing_eq hl hr
    (cells (min l.dimZ r.dimZ) (min l.dimY r.dimY) (min l.dimX r.dimX)) (fun c hc => mem_cells.1 hc)
  refine ⟨_, by rw [diffMaps, ht]; rfl, ?_, ?_, ?_, ?_⟩
  · simp only
    by_cases hd : (l.dimX, l.dimY, l.dimZ) = (r.dimX, r.dimY, r.dimZ)
    · rw [if_pos hd]
      simp only [Prod.mk.injEq] at hd
      simp [hd]
    · rw [if_neg hd]
      simp only [Prod.mk.injEq] at hd
      simp [hd]
  · intro s hsz
    simp only at hsz
    split at hsz
    · cases hsz
    · exact (Option.some.inj hsz).symm
  · simp only
    rw [he, List.pairwise_map]
    exact ((cells_ordered _ _ _).sublist hs).imp fun h => by
      unfold Before at h ⊢
      simp only
      omega
  · intro x y z
    simp only
    have inside : ∀ {m : Map C} {t}, Sound m → tileAt m x y z = some t →
        0 < x ∧ x ≤ m.dimX ∧ 0 < y ∧ y ≤ m.dimY ∧ 0 < z ∧ z ≤ m.dimZ := by
      intro m t hm ht
      unfold tileAt at ht
      by_cases h0 : x = 0 ∨ y = 0 ∨ z = 0
      · rw [if_pos h0] at ht; cases ht
      rw [if_neg h0] at ht
      obtain ⟨level, h1, ht⟩ := Option.bind_eq_some_iff.1 ht
      obtain ⟨row, h2, ht⟩ := Option.bind_eq_some_iff.1 ht
      obtain ⟨key, h3, ht⟩ := Option.bind_eq_some_iff.1 ht
      have i1 := (List.getElem?_eq_some_iff.1 h1).1
      have i2 := (List.getElem?_eq_some_iff.1 h2).1
      have i3 := (List.getElem?_eq_some_iff.1 h3).1
      have m1 := List.mem_of_getElem? h1
      have m2 := List.mem_reverse.1 (List.mem_of_getElem? h2)
      rw [hm.depth] at i1
      rw [List.length_reverse, hm.height _ m1] at i2
      rw [hm.width _ m1 _ m2] at i3
      omega
    rw [he]
    simp only [List.mem_map, Prod.mk.injEq]
    constructor
    · rintro ⟨c, hc, rfl, rfl, rfl⟩
      exact (hm c (hs.subset hc)).1 hc
    · rintro ⟨a, b, ha, hb, hne⟩
      have h1 := inside hl ha
      have h2 := inside hr hb
      have ex : x - 1 + 1 = x := by omega
      have ey : y - 1 + 1 = y := by omega
      have ez : z - 1 + 1 = z := by omega
      refine ⟨(x - 1, y - 1, z - 1), (hm _ (mem_cells.2 ?_)).2 ⟨a, b, ?_, ?_, hne⟩, ex, ey, ez⟩
      · simp only; omega
      · simp only [ex, ey, ez]; exact ha
      · simp only [ex, ey, ez]; exact hb

theorem sameTile_refl (a : List (Prefab C)) : SameTile a a := by
  induction a with
  | nil => exact .nil
  | cons x xs ih => exact .cons ⟨rfl, fun _ => rfl⟩ ih

theorem sameTile_symm {a b : List (Prefab C)} (h : SameTile a b) : SameTile b a := by
  induction h with
  | nil => exact .nil
  | cons hp _ ih => exact .cons ⟨hp.1.symm, fun n => (hp.2 n).symm⟩ ih

/-- **C96**: nothing is printed exactly if the maps have the same size and the same tile at every place. -/
theorem diff_empty_iff {l r : Map C} (hl : Sound l) (hr : Sound r) :
    diffMaps l r = some ⟨none, []⟩ ↔ l.dimX = r.dimX ∧ l.dimY = r.dimY ∧ l.dimZ = r.dimZ ∧
      ∀ x y z a b, tileAt l x y z = some a → tileAt r x y z = some b → SameTile a b := by
  obtain ⟨rep, h, h1, -, -, h4⟩ := diff_exact hl hr
  rw [h]
  obtain ⟨sizes, tiles⟩ := rep
  simp only [Option.some.injEq, DiffReport.mk.injEq] at h1 h4 ⊢
  rw [h1]
  constructor
  · rintro ⟨⟨e1, e2, e3⟩, rfl⟩
    refine ⟨e1, e2, e3, fun x y z a b ha hb => Classical.byContradiction fun hne => ?_⟩
    exact absurd ((h4 x y z).2 ⟨a, b, ha, hb, hne⟩) (by simp)
  · rintro ⟨e1, e2, e3, hall⟩
    refine ⟨⟨e1, e2, e3⟩, List.eq_nil_iff_forall_not_mem.2 ?_⟩
    rintro ⟨x, y, z⟩ hmem
    obtain ⟨a, b, ha, hb, hne⟩ := (h4 x y z).1 hmem
    exact hne (hall x y z a b ha hb)

/-- **C96**: a map does not differ from itself, so not from what is read after saving it (C12). -/
theorem diff_saved {showV : C → List Char} {evalV : List Char → Option C} {m : Map C} (hs : Sound m)
    (hm : MapOk showV evalV m) {txt : List Char} (h : saveMap showV m = some txt) :
    ∃ m', parseMap evalV txt = .ok m' ∧ diffMaps m m' = some ⟨none, []⟩ := by
  refine ⟨m, map_save_read_roundtrip showV evalV m txt hm h, (diff_empty_iff hs hs).2 ⟨rfl, rfl, rfl, ?_⟩⟩
  intro x y z a b ha hb
  rw [ha] at hb
  cases hb
  exact sameTile_refl a

/-- **C96**: the order of the arguments does not matter for the places. -/
theorem diff_symm {l r : Map C} (hl : Sound l) (hr : Sound r) : ∃ s s' t,
    diffMaps l r = some ⟨s, t⟩ ∧ diffMaps r l = some ⟨s', t⟩ := by
  obtain ⟨⟨s, t⟩, h, -, -, ho, hm⟩ := diff_exact hl hr
  obtain ⟨⟨s', t'⟩, h', -, -, ho', hm'⟩ := diff_exact hr hl
  have hmem : ∀ c, c ∈ t ↔ c ∈ t' := by
    rintro ⟨x, y, z⟩
    rw [hm x y z, hm' x y z]
    constructor
    · rintro ⟨a, b, ha, hb, hne⟩; exact ⟨b, a, hb, ha, fun h => hne (sameTile_symm h)⟩
    · rintro ⟨a, b, ha, hb, hne⟩; exact ⟨b, a, hb, ha, fun h => hne (sameTile_symm h)⟩
  have irr : ∀ {a b : Nat × Nat × Nat}, Before a b → a ≠ b := by
    rintro a b hab rfl
    unfold Before at hab
    omega
  have hp : t.Perm t' := (List.perm_ext_iff_of_nodup (ho.imp irr) (ho'.imp irr)).2 hmem
  have ht : t = t' := by
    refine hp.eq_of_pairwise (le := Before) ?_ ho ho'
    intro a b _ _ hab hba
    exfalso
    unfold Before at hab hba
    omega
  exact ⟨s, s', t, h, ht ▸ h'⟩

end Verif.Cli
