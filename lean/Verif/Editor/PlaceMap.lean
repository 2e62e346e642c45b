import Verif.Editor.PlaceProps
import Verif.Editor.EditorProps
import Mathlib.Data.List.Induction
import Mathlib.Data.List.Nodup

/-!
# Strokes on the real map (C110): the placement tool with the map of C46–C48
-/

set_option linter.unusedSectionVars false

namespace Verif.Editor.Place

open Verif.Editor

variable {P K V E : Type} [DecidableEq P] [LinearOrder K]

/-- the edit the tool makes (place.rs:136-144) -/
def placeOn (path : P → List Char) (render : E → P → RPop K V) (search : List K → K → Nat) (dflt : V) (loc : Loc)
    (fab : P) : EditFn (Option (AtomMap P K V)) E :=
  placeEdit path render search dflt loc.1 loc.2.1 loc.2.2 fab

/-- placing the same prefab on one place after the other -/
inductive Places (path : P → List Char) (fab : P) : World P → List Loc → World P → Prop
  | nil (w) : Places path fab w [] w
  | cons {w w1 w' loc ls} : World.Place path w loc.1 loc.2.1 loc.2.2 fab w1 → Places path fab w1 ls w' →
      Places path fab w (loc :: ls) w'

/-- a place is on the map -/
def World.Inside (w : World P) (loc : Loc) : Prop := loc.1 < w.sizeX ∧ loc.2.1 < w.sizeY ∧ loc.2.2 < w.depth

theorem place_total (path : P → List Char) (fab : P) (w : World P) (loc : Loc) (h : World.Inside w loc) :
    ∃ w1, World.Place path w loc.1 loc.2.1 loc.2.2 fab w1 := by
  obtain ⟨h1, h2, h3⟩ := h
  by_cases hex : ∃ parent i k, shouldReplace (path fab) = some parent ∧ w.slots loc.2.2 i = some k ∧
      Occupies path loc.1 loc.2.1 parent k
  · obtain ⟨parent, i, k, a, b, c⟩ := hex
    exact ⟨_, .over i k parent h3 ⟨h1, h2⟩ a b c⟩
  · refine ⟨_, .new h3 ⟨h1, h2⟩ ?_⟩
    intro parent hp i k hk ho
    exact hex ⟨parent, i, k, hp, hk, ho⟩

/-- what one placement does to the slots -/
theorem place_slots {path : P → List Char} {fab : P} {w w1 : World P} {x y z : Nat} (hp : World.Place path w x y z fab w1) :
    (w1.depth = w.depth ∧ w1.sizeX = w.sizeX ∧ w1.sizeY = w.sizeY) ∧
    ∃ i0, w1.slots z i0 = some ⟨x, y, fab⟩ ∧
      (∀ z' i, (z', i) ≠ (z, i0) → w1.slots z' i = w.slots z' i) ∧
      ((i0 = w.alloc z 0) ∨ ∃ k parent, shouldReplace (path fab) = some parent ∧ w.slots z i0 = some k ∧
        Occupies path x y parent k) := by
  cases hp with
  | new hz hxy hno =>
    refine ⟨⟨rfl, rfl, rfl⟩, w.alloc z 0, by simp [World.put], ?_, .inl rfl⟩
    intro z' i hne
    simp only [World.put]
    rw [if_neg (fun h => hne (by rw [h.1, h.2]))]
  | over i k parent hz hxy hs hk ho =>
    refine ⟨⟨rfl, rfl, rfl⟩, i, by simp [World.put], ?_, .inr ⟨k, parent, hs, hk, ho⟩⟩
    intro z' j hne
    simp only [World.put]
    rw [if_neg (fun h => hne (by rw [h.1, h.2]))]

theorem places_total (path : P → List Char) (fab : P) (ls : List Loc) :
    ∀ w : World P, (∀ loc ∈ ls, World.Inside w loc) → ∃ w', Places path fab w ls w' := by
  induction ls with
  | nil => intro w _; exact ⟨w, .nil w⟩
  | cons loc ls ih =>
    intro w h
    obtain ⟨w1, h1⟩ := place_total path fab w loc (h loc List.mem_cons_self)
    obtain ⟨⟨a, b, c⟩, -⟩ := place_slots h1
    obtain ⟨w', h2⟩ := ih w1 (fun l hl => by
      have := h l (List.mem_cons_of_mem _ hl)
      unfold World.Inside at this ⊢
      rw [a, b, c]
      exact this)
    exact ⟨w', .cons h1 h2⟩

/-- What has become of a map on which `fab` was placed on the tiles `ls`: everything else is where it was; an
object was replaced only if it is of the kind (turf or area) of which a tile has one; and on each of the tiles
there is one new object, and only one. -/
structure Changed (path : P → List Char) (fab : P) (w : World P) (ls : List Loc) (w' : World P) : Prop where
  size : w'.depth = w.depth ∧ w'.sizeX = w.sizeX ∧ w'.sizeY = w.sizeY
  kept : ∀ z i, w'.slots z i = w.slots z i ∨ ∃ x y, (x, y, z) ∈ ls ∧ w'.slots z i = some ⟨x, y, fab⟩ ∧
    ∀ k, w.slots z i = some k → ∃ parent, shouldReplace (path fab) = some parent ∧ Occupies path x y parent k
  there : ∀ x y z, (x, y, z) ∈ ls → ∃ i, w'.slots z i = some ⟨x, y, fab⟩
  once : ∀ x y z i j, w'.slots z i = some ⟨x, y, fab⟩ → w'.slots z j = some ⟨x, y, fab⟩ →
    w.slots z i ≠ w'.slots z i → w.slots z j ≠ w'.slots z j → i = j

theorem places_changed {path : P → List Char} {fab : P} {ls : List Loc} :
    ∀ {w w' : World P}, w.Ok path → ls.Nodup → Places path fab w ls w' → Changed path fab w ls w' ∧ w'.Ok path := by
  induction ls with
  | nil =>
    intro w w' hok _ h
    cases h
    exact ⟨⟨⟨rfl, rfl, rfl⟩, fun _ _ => .inl rfl, by simp, fun _ _ _ _ _ _ _ h => absurd rfl h⟩, hok⟩
  | cons loc ls ih =>
    intro w w' hok hnd h
    obtain ⟨x0, y0, z0⟩ := loc
    rw [List.nodup_cons] at hnd
    cases h with
    | @cons _ w1 _ _ _ hp hps =>
      have hok1 := Place.ok hok hp
      obtain ⟨ch, hok'⟩ := ih hok1 hnd.2 hps
      obtain ⟨⟨s1, s2, s3⟩, i0, hi0, hsame, hwhy⟩ := place_slots hp
      simp only at hi0 hsame hwhy
      -- the slot of the first tile is not touched again
      have hstay : w'.slots z0 i0 = some ⟨x0, y0, fab⟩ := by
        rcases ch.kept z0 i0 with e | ⟨x, y, hm, _, hk⟩
        · rw [e, hi0]
        · obtain ⟨parent, _, ho⟩ := hk _ hi0
          have : x0 = x ∧ y0 = y := ⟨ho.1, ho.2.1⟩
          rw [← this.1, ← this.2] at hm
          exact absurd hm hnd.1
      refine ⟨⟨⟨ch.size.1.trans s1, ch.size.2.1.trans s2, ch.size.2.2.trans s3⟩, ?_, ?_, ?_⟩, hok'⟩
      · intro z i
        by_cases he : (z, i) = (z0, i0)
        · injection he with e1 e2
          subst e1 e2
          right
          refine ⟨x0, y0, List.mem_cons_self, hstay, ?_⟩
          intro k hk
          rcases hwhy with e | ⟨k', parent, h1, h2, h3⟩
          · have := hok.free z 0
            rw [← e, hk] at this
            cases this
          · rw [hk] at h2
            injection h2 with h2
            exact ⟨parent, h1, by rw [h2]; exact h3⟩
        · have e1 := hsame z i he
          rcases ch.kept z i with e | ⟨x, y, hm, hv, hk⟩
          · exact .inl (e.trans e1)
          · right
            refine ⟨x, y, List.mem_cons_of_mem _ hm, hv, ?_⟩
            intro k hk'
            exact hk k (by rw [e1]; exact hk')
      · intro x y z hm
        rcases List.mem_cons.1 hm with e | hm
        · injection e with e1 e2
          injection e2 with e2 e3
          subst e1 e2 e3
          exact ⟨i0, hstay⟩
        · exact ch.there x y z hm
      · intro x y z i j hi hj ci cj
        have cls : ∀ n, w'.slots z n = some ⟨x, y, fab⟩ → w.slots z n ≠ w'.slots z n →
            ((z, n) = (z0, i0) ∧ x = x0 ∧ y = y0) ∨ ((z, n) ≠ (z0, i0) ∧ w1.slots z n ≠ w'.slots z n ∧ (x, y, z) ∈ ls) := by
          intro n hn cn
          by_cases he : (z, n) = (z0, i0)
          · left
            refine ⟨he, ?_⟩
            injection he with e1 e2
            rw [e1, e2, hstay] at hn
            injection hn with hn
            injection hn with a b
            exact ⟨a.symm, b.symm⟩
          · right
            have e1 := hsame z n he
            refine ⟨he, by rw [e1]; exact cn, ?_⟩
            rcases ch.kept z n with e | ⟨x', y', hm, hv, _⟩
            · exact absurd (e.trans e1).symm cn
            · rw [hn] at hv
              injection hv with hv
              injection hv with a b
              rw [a, b]
              exact hm
        rcases cls i hi ci with ⟨e1, a1, b1⟩ | ⟨n1, c1, m1⟩ <;> rcases cls j hj cj with ⟨e2, a2, b2⟩ | ⟨n2, c2, m2⟩
        · injection e1 with _ e1
          injection e2 with _ e2
          rw [e1, e2]
        · injection e1 with e1 _
          rw [a1, b1, e1] at m2
          exact absurd m2 hnd.1
        · injection e2 with e2 _
          rw [a2, b2, e2] at m1
          exact absurd m1 hnd.1
        · exact ch.once x y z i j hi hj c1 c2

theorem placeable_of_places {v : Prop} {path : P → List Char} {render : E → P → RPop K V} {search : List K → K → Nat}
    (hs : SearchOk search) (dflt : V) {fab : P} {ls : List Loc} :
    ∀ {w w' : World P}, w.Ok path → Places path fab w ls w' →
      Placeable (Holds (K := K) (V := V) v) (placeOn (E := E) path render search dflt) w (ls.map fun l => (l, fab)) w' := by
  induction ls with
  | nil => intro w w' _ h; cases h; exact .nil _
  | cons loc ls ih =>
    intro w w' hok h
    cases h with
    | cons hp hps => exact .cons (place_reversible hs dflt hok hp) (ih (Place.ok hok hp) hps)

theorem nodup_eraseDups {α : Type} [BEq α] [LawfulBEq α] (l : List α) : l.eraseDups.Nodup := by
  induction l using List.reverseRecOn with
  | nil => simp
  | append_singleton l a ih =>
    by_cases h : a ∈ l
    · rw [eraseDups_old l a h]; exact ih
    · rw [eraseDups_new l a h, List.nodup_append]
      refine ⟨ih, by simp, ?_⟩
      intro b hb c hc e
      rw [List.mem_eraseDups] at hb
      rw [List.mem_singleton] at hc
      exact h (by rw [← hc, ← e]; exact hb)

/-- **C110.** A stroke on a map, after any session of placing, deleting, undoing, redoing and saving: nothing panics;
on every tile the mouse was seen on there is afterwards the prefab, once more than before, or in the place of the
turf or area that was there; everything else is as it was; and as many undos as there are tiles take it all
back. -/
theorem stroke_on_map {path : P → List Char} {render : E → P → RPop K V} {search : List K → K → Nat}
    (hs : SearchOk search) (dflt : V) {m0 : AtomMap P K V} {w0 : World P} (h0 : Holds True (some m0) w0) (hw0 : w0.Ok path)
    {as : List (Action (Option (AtomMap P K V)) E)} {s : Snapshots (World P)}
    (hr : Session True path render search dflt (Snapshots.new w0) as s)
    (m : Mouse P) (ms : List (Mouse P)) (f : P) (t : Nat × Nat) (env env' : E)
    (hclick : m.clicked = true) (htile : m.tile = some t) (hheld : ∀ m' ∈ ms, m'.clicked = false)
    (hsame : ∀ m' ∈ m :: ms, m'.sel = some f ∧ m'.z = m.z)
    (hin : ∀ t ∈ (m :: ms).filterMap Mouse.tile, World.Inside (s.value s.cur) (t.1, t.2, m.z)) :
    let h := as.foldl History.act (History.new (some m0))
    let tiles := (((m :: ms).filterMap Mouse.tile).map fun t => (t.1, t.2, m.z)).eraseDups
    let placed := ((m :: ms).foldl Brush.frame ({} : Brush P)).placed
    let h' := strokeEdits (placeOn path render search dflt) h env placed
    placed.length = tiles.length ∧
    Holds True h.current (s.value s.cur) ∧
    (∃ w', Holds True h'.current w' ∧ w'.Ok path ∧ Changed path f (s.value s.cur) tiles w') ∧
    Holds True (undoTimes h' env' tiles.length).current (s.value s.cur) ∧
    (undoTimes h' env' tiles.length).isDirty = h.isDirty := by
  intro h tiles placed h'
  have hplaced : placed = tiles.map fun l => (l, f) := by
    have := stroke_exact ({} : Brush P) m ms f t hclick htile hheld hsame
    simp only [List.nil_append] at this
    exact this
  have hlen : placed.length = tiles.length := by rw [hplaced, List.length_map]
  have hinside : ∀ loc ∈ tiles, World.Inside (s.value s.cur) loc := by
    intro loc hl
    rw [List.mem_eraseDups] at hl
    obtain ⟨t, ht, rfl⟩ := List.mem_map.1 hl
    exact hin t ht
  have hsess := session_correct hs dflt h0 hw0 hr
  obtain ⟨w', hw'⟩ := places_total path f tiles (s.value s.cur) hinside
  have hnd : tiles.Nodup := nodup_eraseDups _
  obtain ⟨ch, hok'⟩ := places_changed hsess.2.1 hnd hw'
  have hpl := placeable_of_places (v := True) (render := render) hs dflt hsess.2.1 hw'
  rw [← hplaced] at hpl
  have hrun := (session_run_ok hs dflt hw0 hr).1
  have hu := stroke_undone (Holds (K := K) (V := V) True) h0 hrun (placeOn path render search dflt) env env' placed w' hpl
  rw [← hlen]
  exact ⟨rfl, hsess.1, ⟨w', hu.2.1, hok', ch⟩, hu.2.2.1, hu.2.2.2⟩

/-! ## The hypotheses can be met -/

section Example

open Demo

/-- from the left tile to the right one and back, with a wall -/
def press : Mouse Fab := { clicked := true, target := some (0, 0), z := 0, sel := some Demo.wall }
def moves : List (Mouse Fab) :=
  [{ target := some (1, 0), z := 0, sel := some Demo.wall }, { target := some (0, 0), z := 0, sel := some Demo.wall }]

/-- the wall replaces the floor on both tiles of the file, in two steps -/
example : ∃ m0, AtomMap.new (render 0) (0, 0, 0) file = some m0 ∧
    let h : History (Option (AtomMap Fab Nat (Nat × Nat × Nat))) Nat := History.new (some m0)
    let placed := ((press :: moves).foldl Brush.frame ({} : Brush Fab)).placed
    let h' := strokeEdits (placeOn id render linearSearch (0, 0, 0)) h 0 placed
    placed.length = 2 ∧
    (∃ w', Holds True h'.current w' ∧ Changed id Demo.wall file.world [(0, 0, 0), (1, 0, 0)] w') ∧
    Holds True (undoTimes h' 1 2).current file.world := by
  obtain ⟨m0, hm, _⟩ := load_exact (render 0) (0, 0, 0) file_ok
  have h0 := load_holds (render 0) (0, 0, 0) file_ok hm
  have hs := stroke_on_map (E := Nat) (path := id) (render := render) linearSearch_ok (0, 0, 0) h0 (world_ok file_ok file_one)
    (.nil (Snapshots.new file.world)) press moves Demo.wall (0, 0) 0 1 rfl rfl
    (by decide +kernel) (by decide +kernel)
    (by
      intro t ht
      have : t = (0, 0) ∨ t = (1, 0) ∨ t = (0, 0) := by simpa [press, moves, Mouse.tile] using ht
      rcases this with rfl | rfl | rfl <;> (unfold World.Inside; decide +kernel))
  have ht : (((press :: moves).filterMap Mouse.tile).map fun t => (t.1, t.2, press.z)).eraseDups =
      [(0, 0, 0), (1, 0, 0)] := by decide +kernel
  simp only [ht] at hs
  exact ⟨m0, hm, hs.1, ⟨hs.2.2.1.choose, hs.2.2.1.choose_spec.1, hs.2.2.1.choose_spec.2.2⟩, hs.2.2.2.1⟩

end Example

end Verif.Editor.Place
