import Verif.Minimap.Smooth
import Verif.Minimap.Examples

/-!
# Cases meeting the hypotheses of C76
-/

namespace Verif.Minimap.Ex

open Verif.Const Verif.Dmi Verif.Objtree

/-- a wall that smooths with walls, diagonally -/
def wall : Atom where
  path := "/turf/closed/wall/iron".toList
  given := none
  chain := [[("smooth".toList, some (.float (F32.ofInt 6))), ("smoothing_flags".toList, some (.float (F32.ofInt 6))),
    ("base_icon_state".toList, some (.string "iron".toList)),
    ("smoothing_groups".toList, some (.list (.pos (.string "walls".toList) .nil))),
    ("canSmoothWith".toList, some (.list (.pos (.string "/turf/closed/wall".toList)
      (.pos (.string "walls".toList) .nil)))),
    ("icon".toList, some (.resource "wall.dmi".toList))]]
  sprite := { icon := "wall.dmi".toList, iconState := "iron".toList }

def floor : Atom where
  path := "/turf/open/floor/wood".toList
  given := none
  chain := [[("icon".toList, some (.resource "floor.dmi".toList))]]
  sprite := {}

/-- walls to the north and to the west, wood elsewhere -/
def bend : List (List Atom) := [[floor], [wall], [floor], [wall], [wall], [floor], [floor], [floor], [floor]]

theorem wall_flags : Flags wall "smooth" 6 := .inl ⟨by decide, by rfl⟩

theorem bend_paths (d : Dir) : ∀ b ∈ offset bend d, b.path = [] ∨ b.path.head? = some '/' := by
  intro b hb
  have : b = wall ∨ b = floor := by
    cases d <;> simp [offset, offIdx, bend] at hb <;> simp [hb]
  rcases this with rfl | rfl <;> exact .inr (by decide +kernel)

/-- the matching of `match16`: the wall to the north matches since its type is below a listed one -/
example : find16 wall bend 6 .north = true := by
  rw [match16 wall bend 6 .north (bend_paths .north)]
  refine .inr ⟨wall, List.mem_singleton.2 rfl, .inl ⟨_, rfl, "/turf/closed/wall".toList, ?_, ?_⟩⟩
  · exact ⟨_, List.mem_cons_self, .inl rfl⟩
  · exact ⟨by decide +kernel, "/iron".toList, by decide +kernel, .inr (by decide +kernel)⟩

theorem bend_elbow : Elbow (find16 wall bend 6) .northwest :=
  ⟨.north, .west, rfl, rfl, by decide, by decide +kernel, by decide +kernel, by decide +kernel, by decide +kernel⟩

/-- the wall is drawn as a diagonal over the wood to its south-east -/
example (types : List Char → Option Atom) : ∃ l, smooth16 types wall bend = some (l, false) ∧
    Diagonal types bend (find16 wall bend 6) wall .northwest l := by
  obtain ⟨_, h⟩ := smooth16_looks types wall bend 6 wall_flags
  refine (h (.inr (by decide))).2 (by decide) _ bend_elbow (.inr ⟨floor, _, .inr ⟨by decide +kernel, .inl ?_⟩, rfl⟩)
  rfl

/-- the states of its pictures -/
example : (smooth16 (fun _ => none) wall bend).map (·.1.map (·.iconState)) =
    some [[], "d-se".toList, "d-se-0".toList] := by decide +kernel

/-- 2020, by number: north 1 and west 8 -/
example : (smooth20 (fun _ => none) wall bend).map (·.1.map (·.iconState)) = some [[], "iron-9-d".toList] := by
  decide +kernel

theorem wall_flags' : Flags wall "smoothing_flags" 6 := .inl ⟨by decide, by rfl⟩

theorem wall_here : ¬Loose wall := by
  rintro ⟨h, _⟩
  revert h
  decide +kernel

/-- `bitmask_looks` applies -/
example (types : List Char → Option Atom) : ∃ find, Finds wall bend 6 find ∧ Elbow find .northwest ∧ Cut wall 6 find ∧
    smooth20 types wall bend = bitmaskSmooth types false bend wall (adjacencies flag20 find) 6 := by
  obtain ⟨find, hf, _, _, h⟩ := smooth20_looks types wall bend 6 wall_flags'
  have e := hf.2 wall_here
  have he : Elbow find .northwest :=
    ⟨.north, .west, rfl, rfl, by decide, by rw [e]; decide +kernel, by rw [e]; decide +kernel,
      by rw [e]; decide +kernel, by rw [e]; decide +kernel⟩
  exact ⟨find, hf, he, ⟨⟨"/wall/iron".toList, by decide +kernel, .inr (by decide +kernel)⟩, by decide,
    .inl ⟨_, he⟩⟩, h ⟨by decide, by decide⟩⟩

/-- **C76, disagreement.** With numbered states a turf connected on a single side is drawn as a diagonal too, which is
not so with corners: there `presets` needs two sides. -/
theorem lone_neighbour_is_diagonal :
    let end_ := [[floor], [wall], [floor], [floor], [wall], [floor], [floor], [floor], [floor]]
    (smooth20 (fun _ => none) wall end_).map (·.1.map (·.iconState)) = some [[], "iron-1-d".toList] ∧
    (smooth16 (fun _ => none) wall end_).map (·.1.map (·.iconState)) =
      some ["1-n".toList, "2-n".toList, "3-i".toList, "4-i".toList] := by decide +kernel

/-- the hypotheses of `typepaths_never_match` -/
example : ∃ a : Atom, ∃ l, a.var "canSmoothWith" = .list l ∧
    (∀ p ∈ l.toList, (∀ s, p.1 ≠ .string s) ∧ ∀ s, p.1 ≠ .resource s) ∧ offset bend .north ≠ [] := by
  refine ⟨{ wall with given := some [("canSmoothWith".toList, .list (.pos (.prefab [] .nil) .nil))] }, _, rfl,
    ?_, ?_⟩
  · intro p hp
    simp only [CArgs.toList, List.mem_singleton] at hp
    subst hp
    exact ⟨nofun, nofun⟩
  · simp [offset, offIdx, bend]

example : Is "/obj/structure/table".toList "/obj" := ⟨"/structure/table".toList, by decide +kernel, .inr (by decide +kernel)⟩

end Verif.Minimap.Ex
