import Verif.Cli.Model
import Verif.Debug.VarsProps
import Verif.Minimap.Props

/-!
# C97: which region of which map the command line tool draws, and into which file
-/

namespace Verif.Cli

open Verif.Dmm Verif.Debug

/-! ## Coordinates -/

theorem comma_showNat (n : Nat) : ',' ∉ showNat n := not_mem_showNat (by decide)

theorem splitComma_word {w : Text} (h : ',' ∉ w) : splitComma w = [w] := by
  induction w with
  | nil => rfl
  | cons c w ih =>
    have hc : c ≠ ',' := fun e => h (by simp [e])
    rw [splitComma, if_neg hc, ih fun hm => h (by simp [hm])]

theorem splitComma_cons {w rest : Text} (h : ',' ∉ w) : splitComma (w ++ ',' :: rest) = w :: splitComma rest := by
  induction w with
  | nil => rw [List.nil_append, splitComma, if_pos rfl]
  | cons c w ih =>
    have hc : c ≠ ',' := fun e => h (by simp [e])
    rw [List.cons_append, splitComma, if_neg hc, ih fun hm => h (by simp [hm])]

/-- **C97**: a coordinate that is printed is read back. -/
theorem coord_roundtrip {c : CoordArg} (hx : c.x < 2 ^ 64) (hy : c.y < 2 ^ 64) (hz : c.z < 2 ^ 64) :
    CoordArg.parse c.text = some c := by
  unfold CoordArg.parse CoordArg.text
  by_cases h0 : c.z ≠ 0
  · rw [if_pos h0, List.append_assoc, List.cons_append, splitComma_cons (comma_showNat _),
      splitComma_cons (comma_showNat _), splitComma_word (comma_showNat _)]
    simp only [allNumbers, parseUsize_showNat hx, parseUsize_showNat hy, parseUsize_showNat hz, Option.bind_some,
      Option.map_some]
  · rw [if_neg h0, splitComma_cons (comma_showNat _), splitComma_word (comma_showNat _)]
    simp only [allNumbers, parseUsize_showNat hx, parseUsize_showNat hy, Option.bind_some, Option.map_some]
    obtain ⟨x, y, z⟩ := c
    have : z = 0 := by simpa using h0
    subst this
    rfl

/-! ## Regions -/

/-- a coordinate is at least one and not beyond the map -/
def Within (c dim : CoordArg) : Prop :=
  1 ≤ c.x ∧ c.x ≤ dim.x ∧ 1 ≤ c.y ∧ c.y ≤ dim.y ∧ 1 ≤ c.z ∧ c.z ≤ dim.z

/-- not beyond another coordinate, in every direction -/
def Below (a b : CoordArg) : Prop := a.x ≤ b.x ∧ a.y ≤ b.y ∧ a.z ≤ b.z

theorem clamp_within {v lo hi : Nat} (h : lo ≤ hi) : lo ≤ clamp v lo hi ∧ clamp v lo hi ≤ hi := by
  unfold clamp
  split
  · omega
  · split <;> omega

/-- **C97**: whatever is asked for, the region lies within the map and is not empty. -/
theorem region_within (lo hi : Option CoordArg) {dim : CoordArg} (hd : 1 ≤ dim.x ∧ 1 ≤ dim.y ∧ 1 ≤ dim.z) :
    Within (region lo hi dim).1 dim ∧ Within (region lo hi dim).2 dim ∧
      Below (region lo hi dim).1 (region lo hi dim).2 := by
  obtain ⟨hx, hy, hz⟩ := hd
  unfold region
  simp only
  generalize lo.getD ⟨0, 0, 0⟩ = l
  generalize hi.getD ⟨dim.x + 1, dim.y + 1, dim.z + 1⟩ = h
  have x1 := clamp_within (v := l.x) hx
  have y1 := clamp_within (v := l.y) hy
  have z1 := clamp_within (v := l.z) hz
  have x2 := clamp_within (v := h.x) x1.2
  have y2 := clamp_within (v := h.y) y1.2
  have z2 := clamp_within (v := h.z) z1.2
  exact ⟨⟨x1.1, x1.2, y1.1, y1.2, z1.1, z1.2⟩, ⟨Nat.le_trans x1.1 x2.1, x2.2, Nat.le_trans y1.1 y2.1, y2.2,
    Nat.le_trans z1.1 z2.1, z2.2⟩, x2.1, y2.1, z2.1⟩

/-- a place in the box between two corners -/
def InBox (a b : CoordArg) (x y z : Nat) : Prop := a.x ≤ x ∧ x ≤ b.x ∧ a.y ≤ y ∧ y ≤ b.y ∧ a.z ≤ z ∧ z ≤ b.z

/-- **C97**: if the box that is asked for and the map have a place in common, exactly the common places are in the
region. -/
theorem region_exact {lo hi dim : CoordArg} {x₀ y₀ z₀ : Nat} (h₀ : InBox lo hi x₀ y₀ z₀)
    (hm : 1 ≤ x₀ ∧ x₀ ≤ dim.x ∧ 1 ≤ y₀ ∧ y₀ ≤ dim.y ∧ 1 ≤ z₀ ∧ z₀ ≤ dim.z) (x y z : Nat) :
    InBox (region (some lo) (some hi) dim).1 (region (some lo) (some hi) dim).2 x y z ↔
      InBox lo hi x y z ∧ InBox ⟨1, 1, 1⟩ dim x y z := by
  have key : ∀ {l h d v₀ : Nat}, l ≤ v₀ → v₀ ≤ h → 1 ≤ v₀ → v₀ ≤ d → ∀ v,
      (clamp l 1 d ≤ v ∧ v ≤ clamp h (clamp l 1 d) d) ↔ (l ≤ v ∧ v ≤ h) ∧ (1 ≤ v ∧ v ≤ d) := by
    intro l h d v₀ h1 h2 h3 h4 v
    have e1 : clamp l 1 d = max 1 l := by
      unfold clamp
      split
      · omega
      · split <;> omega
    have e2 : clamp h (max 1 l) d = min h d := by
      unfold clamp
      split
      · omega
      · split <;> omega
    rw [e1, e2]
    omega
  unfold InBox at h₀ ⊢
  have kx := key h₀.1 h₀.2.1 hm.1 hm.2.1 x
  have ky := key h₀.2.2.1 h₀.2.2.2.1 hm.2.2.1 hm.2.2.2.1 y
  have kz := key h₀.2.2.2.2.1 h₀.2.2.2.2.2 hm.2.2.2.2.1 hm.2.2.2.2.2 z
  simp only [region, Option.getD_some]
  constructor
  · rintro ⟨a, b, c, d, e, f⟩
    obtain ⟨p1, p2⟩ := kx.1 ⟨a, b⟩
    obtain ⟨p3, p4⟩ := ky.1 ⟨c, d⟩
    obtain ⟨p5, p6⟩ := kz.1 ⟨e, f⟩
    exact ⟨⟨p1.1, p1.2, p3.1, p3.2, p5.1, p5.2⟩, p2.1, p2.2, p4.1, p4.2, p6.1, p6.2⟩
  · rintro ⟨⟨p1, p2, p3, p4, p5, p6⟩, q1, q2, q3, q4, q5, q6⟩
    obtain ⟨a, b⟩ := kx.2 ⟨⟨p1, p2⟩, q1, q2⟩
    obtain ⟨c, d⟩ := ky.2 ⟨⟨p3, p4⟩, q3, q4⟩
    obtain ⟨e, f⟩ := kz.2 ⟨⟨p5, p6⟩, q5, q6⟩
    exact ⟨a, b, c, d, e, f⟩

/-- **C97**: without arguments the whole map is drawn. -/
theorem region_default {dim : CoordArg} (hd : 1 ≤ dim.x ∧ 1 ≤ dim.y ∧ 1 ≤ dim.z) :
    region none none dim = (⟨1, 1, 1⟩, dim) := by
  obtain ⟨x, y, z⟩ := dim
  obtain ⟨hx, hy, hz⟩ := hd
  simp only at hx hy hz
  unfold region
  simp only [Option.getD_none]
  have c1 : ∀ {d : Nat}, clamp 0 1 d = 1 := by intro d; unfold clamp; rw [if_pos (by omega)]
  have c2 : ∀ {d : Nat}, 1 ≤ d → clamp (d + 1) 1 d = d := by
    intro d h; unfold clamp; rw [if_neg (by omega), if_pos (by omega)]
  simp only [c1, c2 hx, c2 hy, c2 hz]

/-- **C97** (disagreement): an upper corner of two coordinates, `--max x,y`, cuts off all levels but the first. -/
theorem max_without_level_disagrees (x y : Nat) {dim : CoordArg} (hd : 1 ≤ dim.z) :
    (region none (some ⟨x, y, 0⟩) dim).1.z = 1 ∧ (region none (some ⟨x, y, 0⟩) dim).2.z = 1 := by
  unfold region clamp
  simp only [Option.getD_none, Option.getD_some]
  constructor
  · rw [if_pos (by omega)]
  · rw [if_pos (by split <;> omega), if_pos (by omega)]

/-! ## Names -/

theorem split_unique {c : Char} {a a' b b' : Text} (hb : c ∉ b) (hb' : c ∉ b') (h : a ++ c :: b = a' ++ c :: b') :
    a = a' ∧ b = b' := by
  induction a generalizing a' with
  | nil =>
    cases a' with
    | nil => simpa using h
    | cons x xs =>
      simp only [List.nil_append, List.cons_append, List.cons.injEq] at h
      exact absurd (h.2 ▸ (by simp : c ∈ xs ++ c :: b')) hb
  | cons y ys ih =>
    cases a' with
    | nil =>
      simp only [List.nil_append, List.cons_append, List.cons.injEq] at h
      exact absurd (h.2.symm ▸ (by simp : c ∈ ys ++ c :: b)) hb'
    | cons x xs =>
      simp only [List.cons_append, List.cons.injEq] at h
      obtain ⟨h1, h2⟩ := ih h.2
      exact ⟨by rw [h.1, h1], h2⟩

/-- **C97**: the file of a level tells the map and the level. -/
theorem minimapName_inj {s s' : Text} {z z' : Nat} (h : minimapName s z = minimapName s' z') : s = s' ∧ z = z' := by
  unfold minimapName at h
  have h' := List.append_cancel_right h
  obtain ⟨h1, h2⟩ := split_unique (not_mem_showNat (by decide)) (not_mem_showNat (by decide)) h'
  exact ⟨h1, showNat_inj h2⟩

/-- **C97**: the file of a chunk tells the map, the level and the number of the chunk. -/
theorem chunkName_inj {s s' : Text} {z z' i i' : Nat} (h : chunkName s z i = chunkName s' z' i') :
    s = s' ∧ z = z' ∧ i = i' := by
  unfold chunkName at h
  have h' := List.append_cancel_right h
  have re : ∀ (s : Text) (z i : Nat), s ++ '_' :: 'z' :: showNat z ++ '_' :: 'c' :: 'h' :: 'u' :: 'n' :: 'k' :: showNat i =
      ((s ++ ['_']) ++ 'z' :: (showNat z ++ ['_', 'c', 'h', 'u', 'n'])) ++ 'k' :: showNat i := by
    intro s z i; simp
  rw [re, re] at h'
  obtain ⟨h1, h2⟩ := split_unique (not_mem_showNat (by decide)) (not_mem_showNat (by decide)) h'
  have nz : ∀ n, 'z' ∉ showNat n ++ ['_', 'c', 'h', 'u', 'n'] := by
    intro n hm
    rcases List.mem_append.1 hm with hm | hm
    · exact not_mem_showNat (by decide) hm
    · revert hm; decide
  obtain ⟨h3, h4⟩ := split_unique (nz _) (nz _) h1
  exact ⟨List.append_cancel_right h3, showNat_inj (List.append_cancel_right h4), showNat_inj h2⟩

/-! ## Files -/

theorem written_of_mem {α : Type} {ws : List (Text × α)} (hn : (ws.map Prod.fst).Nodup) {name : Text} {v : α} :
    written ws name = some v ↔ (name, v) ∈ ws := by
  unfold written
  constructor
  · intro h
    obtain ⟨w, hw, rfl⟩ := Option.map_eq_some_iff.1 h
    have h1 := List.find?_some hw
    have h2 := List.mem_reverse.1 (List.mem_of_find?_eq_some hw)
    simp only [decide_eq_true_eq] at h1
    subst h1
    exact h2
  · intro h
    cases hf : ws.reverse.find? fun w => w.1 = name with
    | none =>
      have := List.find?_eq_none.1 hf (name, v) (List.mem_reverse.2 h)
      simp at this
    | some w =>
      have h1 := List.find?_some hf
      have h2 := List.mem_reverse.1 (List.mem_of_find?_eq_some hf)
      simp only [decide_eq_true_eq] at h1
      have : w = (name, v) := List.inj_on_of_nodup_map hn h2 h h1
      rw [this]; rfl

/-- **C97**: if the names differ, it does not matter in which order the pictures are written. -/
theorem written_schedule {α : Type} {ws ws' : List (Text × α)} (hn : (ws.map Prod.fst).Nodup) (hp : ws.Perm ws')
    (name : Text) : written ws name = written ws' name := by
  have hn' : (ws'.map Prod.fst).Nodup := (hp.map _).nodup_iff.1 hn
  apply Option.ext
  intro v
  rw [written_of_mem hn, written_of_mem hn', hp.mem_iff]

/-! ## minimap -/

section
variable {M I : Type} {dims : M → CoordArg} {draw : M → Nat → Nat × Nat → Nat × Nat → Option I}

theorem levels_mem {stem : Text} {m : M} {lo hi : CoordArg} {z n : Nat} {ws : List (Text × I)}
    (h : levels draw stem m lo hi z n = some ws) : ws.map Prod.fst = (List.range' z n).map (minimapName stem) ∧
      ∀ k img, z ≤ k → k < z + n → ((minimapName stem k, img) ∈ ws ↔
        draw m (k - 1) (lo.x - 1, lo.y - 1) (hi.x - 1, hi.y - 1) = some img) := by
  induction n generalizing z ws with
  | zero =>
    simp only [levels, Option.some.injEq] at h
    subst h
    exact ⟨rfl, fun k img h1 h2 => by omega⟩
  | succ n ih =>
    rw [levels] at h
    obtain ⟨img, hi', h⟩ := Option.bind_eq_some_iff.1 h
    obtain ⟨rest, hr, rfl⟩ := Option.map_eq_some_iff.1 h
    obtain ⟨h1, h2⟩ := ih hr
    refine ⟨by rw [List.map_cons, h1, List.range'_succ, List.map_cons], fun k img' hk1 hk2 => ?_⟩
    rw [List.mem_cons]
    by_cases hk : k = z
    · subst hk
      rw [hi']
      constructor
      · rintro (he | he)
        · simp only [Prod.mk.injEq, true_and] at he; rw [he]
        · exfalso
          have : minimapName stem k ∈ rest.map Prod.fst := List.mem_map_of_mem he
          rw [h1] at this
          obtain ⟨j, hj, he⟩ := List.mem_map.1 this
          have := (minimapName_inj he).2
          rw [List.mem_range'_1] at hj
          omega
      · intro he
        left
        rw [Option.some.inj he]
    · rw [h2 k img' (by omega) (by omega)] 
      have : (minimapName stem k, img') ≠ (minimapName stem z, img) := fun he =>
        hk (minimapName_inj (Prod.mk.inj he).1).2
      simp [this]

/-- a map that was drawn: a loaded one of the list -/
def Loaded (files : List (Text × Option M)) (stem : Text) (m : M) : Prop := (stem, some m) ∈ files

theorem minimapCmd_mem {lo hi : Option CoordArg} {files : List (Text × Option M)} {code : Nat} {ws : List (Text × I)}
    (h : minimapCmd dims draw lo hi files = some (code, ws)) :
    code = (files.filter fun f => f.2.isNone).length ∧
    (∀ w ∈ ws, ∃ stem m z, Loaded files stem m ∧ w.1 = minimapName stem z ∧
      (region lo hi (dims m)).1.z ≤ z ∧ z ≤ (region lo hi (dims m)).2.z ∧
      draw m (z - 1) ((region lo hi (dims m)).1.x - 1, (region lo hi (dims m)).1.y - 1)
        ((region lo hi (dims m)).2.x - 1, (region lo hi (dims m)).2.y - 1) = some w.2) ∧
    (∀ stem m z, Loaded files stem m → (region lo hi (dims m)).1.z ≤ z → z ≤ (region lo hi (dims m)).2.z →
      ∃ img, (minimapName stem z, img) ∈ ws ∧
        draw m (z - 1) ((region lo hi (dims m)).1.x - 1, (region lo hi (dims m)).1.y - 1)
          ((region lo hi (dims m)).2.x - 1, (region lo hi (dims m)).2.y - 1) = some img) ∧
    ((files.filterMap fun f => f.2.map fun _ => f.1).Nodup → (ws.map Prod.fst).Nodup) := by
  induction files generalizing code ws with
  | nil =>
    simp only [minimapCmd, Option.some.injEq, Prod.mk.injEq] at h
    obtain ⟨rfl, rfl⟩ := h
    exact ⟨rfl, (by simp), (fun stem m z hl => by cases hl), (by simp)⟩
  | cons f fs ih =>
    obtain ⟨stem, om⟩ := f
    cases om with
    | none =>
      rw [minimapCmd] at h
      obtain ⟨⟨c, w⟩, hr, he⟩ := Option.map_eq_some_iff.1 h
      simp only [Prod.mk.injEq] at he
      obtain ⟨rfl, rfl⟩ := he
      obtain ⟨h1, h2, h3, h4⟩ := ih hr
      refine ⟨by simp [h1], fun w hw => ?_, fun stem' m z hl => ?_, fun hn => h4 (by simpa using hn)⟩
      · obtain ⟨stem', m, z, hl, rest⟩ := h2 w hw
        exact ⟨stem', m, z, List.mem_cons_of_mem _ hl, rest⟩
      · refine h3 stem' m z ?_
        unfold Loaded at hl ⊢
        simpa using hl
    | some m =>
      rw [minimapCmd] at h
      obtain ⟨w1, hw1, h⟩ := Option.bind_eq_some_iff.1 h
      obtain ⟨⟨c, w2⟩, hr, he⟩ := Option.map_eq_some_iff.1 h
      simp only [Prod.mk.injEq] at he
      obtain ⟨rfl, rfl⟩ := he
      obtain ⟨h1, h2, h3, h4⟩ := ih hr
      unfold minimapFile at hw1
      obtain ⟨l1, l2⟩ := levels_mem hw1
      refine ⟨by simp [h1], fun w hw => ?_, fun stem' m' z hl hz1 hz2 => ?_, fun hn => ?_⟩
      · rcases List.mem_append.1 hw with hw | hw
        · have hmem : w.1 ∈ w1.map Prod.fst := List.mem_map_of_mem hw
          rw [l1] at hmem
          obtain ⟨z, hz, hzn⟩ := List.mem_map.1 hmem
          rw [List.mem_range'_1] at hz
          refine ⟨stem, m, z, List.mem_cons_self, hzn.symm, hz.1, by omega, ?_⟩
          refine (l2 z w.2 hz.1 (by omega)).1 ?_
          rw [hzn]; exact hw
        · obtain ⟨stem', m', z, hl, rest⟩ := h2 w hw
          exact ⟨stem', m', z, List.mem_cons_of_mem _ hl, rest⟩
      · rcases List.mem_cons.1 hl with he | hl
        · simp only [Prod.mk.injEq, Option.some.injEq] at he
          obtain ⟨rfl, rfl⟩ := he
          have : minimapName stem' z ∈ w1.map Prod.fst := by
            rw [l1]; exact List.mem_map_of_mem (List.mem_range'_1.2 ⟨hz1, by omega⟩)
          obtain ⟨⟨n, img⟩, hm, hn⟩ := List.mem_map.1 this
          simp only at hn
          subst hn
          exact ⟨img, List.mem_append_left _ hm, (l2 z img hz1 (by omega)).1 hm⟩
        · obtain ⟨img, hm, hd⟩ := h3 stem' m' z hl hz1 hz2
          exact ⟨img, List.mem_append_right _ hm, hd⟩
      · simp only [List.filterMap_cons, Option.map_some, List.nodup_cons] at hn
        rw [List.map_append, List.nodup_append]
        refine ⟨?_, h4 hn.2, ?_⟩
        · rw [l1]
          exact List.Nodup.map (fun a b h => (minimapName_inj h).2) List.nodup_range'
        · intro a ha b hb hab
          subst hab
          rw [l1] at ha
          obtain ⟨z, -, rfl⟩ := List.mem_map.1 ha
          obtain ⟨w, hw, hwe⟩ := List.mem_map.1 hb
          obtain ⟨stem', m', z', hl, hwn, -⟩ := h2 w hw
          rw [hwn] at hwe
          have := (minimapName_inj hwe).1
          subst this
          exact hn.1 (List.mem_filterMap.2 ⟨(stem', some m'), hl, rfl⟩)

/-- **C97**: if the maps have different names, after `minimap` there is a file for each level of the region of each
map that could be loaded, with the picture of the region of that level, and no other; the status is the number of maps
that could not be loaded.  In any order of writing. -/
theorem minimap_files {lo hi : Option CoordArg} {files : List (Text × Option M)} {code : Nat} {ws ws' : List (Text × I)}
    (h : minimapCmd dims draw lo hi files = some (code, ws)) (hp : ws.Perm ws')
    (hn : (files.filterMap fun f => f.2.map fun _ => f.1).Nodup) :
    code = (files.filter fun f => f.2.isNone).length ∧
    ∀ name img, written ws' name = some img ↔ ∃ stem m z, Loaded files stem m ∧ name = minimapName stem z ∧
      (region lo hi (dims m)).1.z ≤ z ∧ z ≤ (region lo hi (dims m)).2.z ∧
      draw m (z - 1) ((region lo hi (dims m)).1.x - 1, (region lo hi (dims m)).1.y - 1)
        ((region lo hi (dims m)).2.x - 1, (region lo hi (dims m)).2.y - 1) = some img := by
  obtain ⟨h1, h2, h3, h4⟩ := minimapCmd_mem h
  refine ⟨h1, fun name img => ?_⟩
  rw [← written_schedule (h4 hn) hp, written_of_mem (h4 hn)]
  constructor
  · intro hm; exact h2 _ hm
  · rintro ⟨stem, m, z, hl, rfl, hz1, hz2, hd⟩
    obtain ⟨img', hm, hd'⟩ := h3 stem m z hl hz1 hz2
    rw [hd] at hd'
    cases hd'
    exact hm

theorem levels_total {stem : Text} {m : M} {lo hi : CoordArg} {z n : Nat}
    (h : ∀ k, z ≤ k → k < z + n → (draw m (k - 1) (lo.x - 1, lo.y - 1) (hi.x - 1, hi.y - 1)).isSome) :
    ∃ ws, levels draw stem m lo hi z n = some ws := by
  induction n generalizing z with
  | zero => exact ⟨[], rfl⟩
  | succ n ih =>
    obtain ⟨ws, hw⟩ := ih (z := z + 1) fun k h1 h2 => h k (by omega) (by omega)
    obtain ⟨img, hi'⟩ := Option.isSome_iff_exists.1 (h z (by omega) (by omega))
    exact ⟨_, by rw [levels, hi', Option.bind_some, hw]; rfl⟩

/-- **C97**: `minimap` does not panic, whatever corners are given, if rectangles within levels of the maps can be
drawn (C70). -/
theorem minimap_cmd_total {lo hi : Option CoordArg} {files : List (Text × Option M)}
    (hd : ∀ stem m, Loaded files stem m → (1 ≤ (dims m).x ∧ 1 ≤ (dims m).y ∧ 1 ≤ (dims m).z) ∧
      ∀ z (a b : Nat × Nat), z < (dims m).z → a.1 ≤ b.1 → a.2 ≤ b.2 → b.1 < (dims m).x → b.2 < (dims m).y →
        (draw m z a b).isSome) :
    ∃ r, minimapCmd dims draw lo hi files = some r := by
  induction files with
  | nil => exact ⟨_, rfl⟩
  | cons f fs ih =>
    obtain ⟨r, hr⟩ := ih fun stem m hl => hd stem m (List.mem_cons_of_mem _ hl)
    obtain ⟨stem, om⟩ := f
    cases om with
    | none => exact ⟨_, by rw [minimapCmd, hr]; rfl⟩
    | some m =>
      obtain ⟨hdim, hdraw⟩ := hd stem m List.mem_cons_self
      obtain ⟨⟨a1, a2, a3, a4, a5, a6⟩, ⟨b1, b2, b3, b4, b5, b6⟩, c1, c2, c3⟩ := region_within lo hi hdim
      obtain ⟨ws, hw⟩ := levels_total (draw := draw) (stem := stem) (m := m) (lo := (region lo hi (dims m)).1)
        (hi := (region lo hi (dims m)).2) (z := (region lo hi (dims m)).1.z)
        (n := (region lo hi (dims m)).2.z + 1 - (region lo hi (dims m)).1.z) (by
          intro k h1 h2
          refine hdraw _ _ _ ?_ ?_ ?_ ?_ ?_ <;> (try simp only) <;> omega)
      exact ⟨_, by rw [minimapCmd, minimapFile, hw, Option.bind_some, hr]; rfl⟩

/-! ## render-many -/

theorem chunks_mem {stem : Text} {m : M} {i : Nat} {cs : List Chunk} {ws : List (Text × I)}
    (h : chunks dims draw stem m i cs = some ws) : ws.length = cs.length ∧
      ∀ k c, cs[k]? = some c → ∃ img, ws[k]? = some (chunkName stem c.z (i + k), img) ∧
        drawChunk dims draw m c = some img := by
  induction cs generalizing i ws with
  | nil =>
    simp only [chunks, Option.some.injEq] at h
    subst h
    exact ⟨rfl, by simp⟩
  | cons c cs ih =>
    rw [chunks] at h
    obtain ⟨img, hi, h⟩ := Option.bind_eq_some_iff.1 h
    obtain ⟨rest, hr, rfl⟩ := Option.map_eq_some_iff.1 h
    obtain ⟨h1, h2⟩ := ih hr
    refine ⟨by simp [h1], fun k c' hk => ?_⟩
    cases k with
    | zero =>
      simp only [List.getElem?_cons_zero, Option.some.injEq] at hk
      subst hk
      exact ⟨img, rfl, hi⟩
    | succ k =>
      rw [List.getElem?_cons_succ] at hk
      obtain ⟨img', h3, h4⟩ := h2 k c' hk
      exact ⟨img', by rw [List.getElem?_cons_succ, h3]; congr 3; omega, h4⟩

/-- the chunks of an entry: those given, or one for each level -/
def chunksOf (dims : M → CoordArg) (f : Text × M × Option (List Chunk)) : List Chunk :=
  match f.2.2 with
  | some cs => cs
  | none => (List.range (dims f.2.1).z).map fun z => ⟨z + 1, none, none, none, none⟩

/-- **C97**: the answer of `render-many` has an entry for each map, and in it one for each chunk, in order, with the
picture of that chunk. -/
theorem renderMany_rows {files : List (Text × M × Option (List Chunk))} {rows : List (List (Text × I))}
    (h : renderMany dims draw files = some rows) : rows.length = files.length ∧
      ∀ (j : Nat) f, files[j]? = some f → ∃ row : List (Text × I), rows[j]? = some row ∧ row.length = (chunksOf dims f).length ∧
        ∀ k c, (chunksOf dims f)[k]? = some c → ∃ img, row[k]? = some (chunkName f.1 c.z k, img) ∧
          drawChunk dims draw f.2.1 c = some img := by
  induction files generalizing rows with
  | nil =>
    simp only [renderMany, Option.some.injEq] at h
    subst h
    exact ⟨rfl, by simp⟩
  | cons f fs ih =>
    obtain ⟨stem, m, cs⟩ := f
    rw [renderMany] at h
    obtain ⟨ws, hw, h⟩ := Option.bind_eq_some_iff.1 h
    obtain ⟨rest, hr, rfl⟩ := Option.map_eq_some_iff.1 h
    obtain ⟨h1, h2⟩ := ih hr
    refine ⟨by simp [h1], fun j f hj => ?_⟩
    cases j with
    | zero =>
      simp only [List.getElem?_cons_zero, Option.some.injEq] at hj
      subst hj
      obtain ⟨c1, c2⟩ := chunks_mem hw
      have he : chunksOf dims (stem, m, cs) = cs.getD (defaultChunks dims m) := by cases cs <;> rfl
      rw [he]
      refine ⟨ws, rfl, c1, fun k c hk => ?_⟩
      obtain ⟨img, h3, h4⟩ := c2 k c hk
      exact ⟨img, by rw [h3, Nat.zero_add], h4⟩
    | succ j => exact h2 j f (by simpa using hj)

theorem chunks_names {stem : Text} {m : M} {i : Nat} {cs : List Chunk} {ws : List (Text × I)}
    (h : chunks dims draw stem m i cs = some ws) : (ws.map Prod.fst).Nodup ∧
      ∀ w ∈ ws, ∃ z k, w.1 = chunkName stem z k ∧ i ≤ k := by
  induction cs generalizing i ws with
  | nil =>
    simp only [chunks, Option.some.injEq] at h
    subst h
    simp
  | cons c cs ih =>
    rw [chunks] at h
    obtain ⟨img, hi, h⟩ := Option.bind_eq_some_iff.1 h
    obtain ⟨rest, hr, rfl⟩ := Option.map_eq_some_iff.1 h
    obtain ⟨h1, h2⟩ := ih hr
    refine ⟨?_, fun w hw => ?_⟩
    · rw [List.map_cons, List.nodup_cons]
      refine ⟨fun hm => ?_, h1⟩
      obtain ⟨w, hw, he⟩ := List.mem_map.1 hm
      obtain ⟨z, k, hn, hk⟩ := h2 w hw
      rw [hn] at he
      have := (chunkName_inj he).2.2
      omega
    · rcases List.mem_cons.1 hw with rfl | hw
      · exact ⟨c.z, i, rfl, Nat.le_refl _⟩
      · obtain ⟨z, k, hn, hk⟩ := h2 w hw
        exact ⟨z, k, hn, by omega⟩

/-- **C97**: if the maps have different names, every chunk has its own file, so that the files named in the answer
have the pictures of their chunks, in whatever order they are written. -/
theorem renderMany_files {files : List (Text × M × Option (List Chunk))} {rows : List (List (Text × I))}
    (h : renderMany dims draw files = some rows) (hn : (files.map Prod.fst).Nodup) {ws : List (Text × I)}
    (hp : rows.flatten.Perm ws) : ∀ row ∈ rows, ∀ w ∈ row, written ws w.1 = some w.2 := by
  have names : (rows.flatten.map Prod.fst).Nodup ∧
      ∀ w ∈ rows.flatten, ∃ stem ∈ files.map Prod.fst, ∃ z k, w.1 = chunkName stem z k := by
    clear hp
    induction files generalizing rows with
    | nil =>
      simp only [renderMany, Option.some.injEq] at h
      subst h
      simp
    | cons f fs ih =>
      obtain ⟨stem, m, cs⟩ := f
      rw [renderMany] at h
      obtain ⟨ws, hw, h⟩ := Option.bind_eq_some_iff.1 h
      obtain ⟨rest, hr, rfl⟩ := Option.map_eq_some_iff.1 h
      rw [List.map_cons, List.nodup_cons] at hn
      obtain ⟨h1, h2⟩ := ih hr hn.2
      obtain ⟨c1, c2⟩ := chunks_names hw
      rw [List.flatten_cons]
      refine ⟨?_, fun w hw' => ?_⟩
      · rw [List.map_append, List.nodup_append]
        refine ⟨c1, h1, ?_⟩
        intro a ha b hb hab
        subst hab
        obtain ⟨w, hw', rfl⟩ := List.mem_map.1 ha
        obtain ⟨w', hw'', he⟩ := List.mem_map.1 hb
        obtain ⟨z, k, e1, -⟩ := c2 w hw'
        obtain ⟨stem', hs, z', k', e2⟩ := h2 w' hw''
        rw [e1, e2] at he
        exact hn.1 ((chunkName_inj he).1 ▸ hs)
      · rcases List.mem_append.1 hw' with hw' | hw'
        · obtain ⟨z, k, e1, -⟩ := c2 w hw'
          exact ⟨stem, by simp, z, k, e1⟩
        · obtain ⟨stem', hs, rest⟩ := h2 w hw'
          exact ⟨stem', by simp only [List.map_cons, List.mem_cons]; exact .inr hs, rest⟩
  intro row hr w hw
  rw [← written_schedule names.1 hp, written_of_mem names.1]
  exact List.mem_flatten.2 ⟨row, hr, hw⟩

/-- **C97**: the region of a chunk is what was asked for as far as it is on the map, if its corners are: at least one
for the upper one, not beyond the map for the lower one. -/
theorem chunk_region {m : M} {c : Chunk} {img : I} (h : drawChunk dims draw m c = some img) :
    1 ≤ c.z ∧ c.z ≤ (dims m).z ∧ ∃ a b : Nat × Nat, draw m (c.z - 1) a b = some img ∧
      a.1 + 1 = max 1 (c.minX.getD 1) ∧ a.2 + 1 = max 1 (c.minY.getD 1) ∧
      b.1 + 1 = min (dims m).x (c.maxX.getD (dims m).x) ∧ b.2 + 1 = min (dims m).y (c.maxY.getD (dims m).y) := by
  unfold drawChunk at h
  by_cases h0 : c.z = 0 ∨ (dims m).z < c.z
  · rw [if_pos h0] at h; cases h
  rw [if_neg h0] at h
  obtain ⟨hx, h1, h⟩ := Option.bind_eq_some_iff.1 h
  obtain ⟨hy, h2, h⟩ := Option.bind_eq_some_iff.1 h
  have up : ∀ {g : Option Nat} {d r : Nat}, upper g d = some r → r + 1 = min d (g.getD d) := by
    intro g d r hu
    unfold upper at hu
    split at hu
    · cases hu
    · simp only [Option.some.injEq] at hu; omega
  refine ⟨by omega, by omega, _, _, h, ?_, ?_, up h1, up h2⟩
  · simp only [lower]; omega
  · simp only [lower]; omega

/-- **C97** (disagreement): although corners are said to be clamped, an upper corner of 0 makes `render-many` panic
for every map -/
theorem chunk_upper_disagrees (m : M) (c : Chunk) (h : c.maxX = some 0 ∨ c.maxY = some 0) :
    drawChunk dims draw m c = none := by
  unfold drawChunk
  split
  · rfl
  · rcases h with h | h
    · rw [h]; simp [upper]
    · rw [h]
      cases upper c.maxX (dims m).x with
      | none => rfl
      | some x => simp [upper]

/-- **C97** (disagreement): so does a lower corner beyond the map, because such rectangles cannot be drawn (C70) -/
theorem chunk_lower_disagrees (m : M) (c : Chunk) (hd : ∀ z (a b : Nat × Nat), b.1 < a.1 → draw m z a b = none)
    (h : ∃ x, c.minX = some x ∧ (dims m).x < x) : drawChunk dims draw m c = none := by
  obtain ⟨x, hx, hlt⟩ := h
  cases hc : drawChunk dims draw m c with
  | none => rfl
  | some img =>
    obtain ⟨-, -, a, b, hdr, e1, -, e3, -⟩ := chunk_region hc
    rw [hd _ _ _ (by rw [hx] at e1; simp only [Option.getD_some] at e1; omega)] at hdr
    cases hdr

end

/-- **C97**: with the drawing of C70, the regions of `minimap` can be drawn. -/
theorem region_drawable {D : Type} (icons : List Char → Option (Dmi.Icon D))
    (hic : ∀ f ic, icons f = some ic → Minimap.SheetOK ic) (c : Minimap.Ctx) (hc : Minimap.Drawable c)
    {dim : CoordArg} (hdx : dim.x = c.dimX) (hdy : dim.y = c.rows.length) (lo hi : Option CoordArg)
    (hd : 1 ≤ dim.x ∧ 1 ≤ dim.y ∧ 1 ≤ dim.z) :
    ∃ img, Minimap.generate icons c ((region lo hi dim).1.x - 1, (region lo hi dim).1.y - 1)
      ((region lo hi dim).2.x - 1, (region lo hi dim).2.y - 1) = some img ∧
      img.width = 32 * ((region lo hi dim).2.x + 1 - (region lo hi dim).1.x) ∧
      img.height = 32 * ((region lo hi dim).2.y + 1 - (region lo hi dim).1.y) := by
  obtain ⟨⟨a1, a2, a3, a4, a5, a6⟩, ⟨b1, b2, b3, b4, b5, b6⟩, c1, c2, c3⟩ := region_within lo hi hd
  obtain ⟨img, -, h1, -, -, h2, h3⟩ := Minimap.minimap_total icons hic c hc
    ((region lo hi dim).1.x - 1, (region lo hi dim).1.y - 1) ((region lo hi dim).2.x - 1, (region lo hi dim).2.y - 1)
    (by simp only; omega) (by simp only; omega) (by simp only; omega) (by simp only; omega)
  refine ⟨img, h1, ?_, ?_⟩
  · rw [h2]; simp only; congr 1; omega
  · rw [h3]; simp only; congr 1; omega

end Verif.Cli
