import Verif.Minimap.Props

/-!
# Cases meeting the hypotheses of C70 and C71, and where a part differs from the whole
-/

namespace Verif.Minimap.Ex

open Verif.Const Verif.Dmi Verif.Minimap

/-- a red pixel -/
def dot : Icon Unit where
  info :=
    { width := 1
      height := 1
      states := []
      names := fun _ => none }
  image := ⟨1, 1, [⟨255, 0, 0, 255⟩]⟩

def icons (f : List Char) : Option (Icon Unit) := if f = "dot.dmi".toList then some dot else none

/-- things with the variables given in the map, of a type with the icon -/
def find (f : Fab) : Option Atom :=
  some
    { path := f.1
      given := some f.2
      chain := [[("icon".toList, some (.resource "dot.dmi".toList))], [("color".toList, some (.string "#fff".toList))]]
      sprite := {} }

/-- a level of two tiles; the thing on the right one is moved 30 pixels to the left -/
def level : Ctx where
  find := find
  dict := [(1, [("/obj/a".toList, [])]), (2, [("/obj/b".toList, [("pixel_x".toList, .float (F32.ofInt (-30)))])])]
  rows := [[1, 2]]
  dimX := 2
  passes := []

theorem dot_ok : SheetOK dot where
  image := ⟨by decide, by decide⟩
  frames st dir := ⟨some ⟨0, 0, 1, 1⟩, rfl, fun r hr => by cases hr; decide⟩

theorem icons_ok (f : List Char) (ic : Icon Unit) (h : icons f = some ic) : SheetOK ic := by
  unfold icons at h
  split at h
  · cases h; exact dot_ok
  · cases h

theorem level_ok : Drawable level where
  grid := by decide
  keys := by
    intro r hr k hk
    simp only [level, List.mem_singleton] at hr
    subst hr
    simp only [List.mem_cons, List.not_mem_nil, or_false] at hk
    rcases hk with rfl | rfl
    · exact ⟨_, rfl⟩
    · exact ⟨_, rfl⟩
  colors := by
    intro k as h a ha
    have hfind : ∀ fabs, ∀ a ∈ atomList find [] fabs, ∃ f ∈ fabs, find f = some a := by
      intro fabs
      induction fabs with
      | nil => intro a ha; cases ha
      | cons f fs ih =>
        intro a ha
        simp only [atomList, List.mem_append] at ha
        rcases ha with ha | ha
        · simp only [fabAtoms, find, expandAll, List.all_nil, if_true, List.nil_append, List.mem_singleton] at ha
          exact ⟨f, by simp, by rw [ha]; rfl⟩
        · obtain ⟨g, hg, e⟩ := ih a ha
          exact ⟨g, by simp [hg], e⟩
    unfold Ctx.atoms at h
    rw [Option.map_eq_some_iff] at h
    obtain ⟨fabs, hf, rfl⟩ := h
    obtain ⟨f, hfm, e⟩ := hfind fabs a ha
    have hmem : fabs = [("/obj/a".toList, [])] ∨
        fabs = [("/obj/b".toList, [("pixel_x".toList, .float (F32.ofInt (-30)))])] := by
      simp only [level, List.lookup] at hf
      split at hf
      · left; exact (Option.some.inj hf).symm
      · split at hf
        · right; exact (Option.some.inj hf).symm
        · cases hf
    rcases hmem with rfl | rfl
    · rw [List.mem_singleton.1 hfm] at e
      cases e
      exact ⟨⟨255, 255, 255, 255⟩, by decide +kernel⟩
    · rw [List.mem_singleton.1 hfm] at e
      cases e
      exact ⟨⟨255, 255, 255, 255⟩, by decide +kernel⟩
  passes := by intro p hp; cases hp

/-- C70 applies -/
example : ∃ img l, generate icons level (0, 0) (1, 0) = some img ∧ tiles level (0, 0) (1, 0) l ∧
    (∀ p ∈ l, p.sprite.color.OK) ∧ img.width = 64 ∧ img.height = 32 :=
  minimap_total icons icons_ok level level_ok (0, 0) (1, 0) (by decide) (by decide) (by decide) (by decide)

/-- the two red pixels: the bottom left of the left tile, and the one moved to the left by 30 pixels -/
example : (generate icons level (0, 0) (1, 0)).bind (·.at 0 31) = some ⟨255, 0, 0, 255⟩ ∧
    (generate icons level (0, 0) (1, 0)).bind (·.at 2 31) = some ⟨255, 0, 0, 255⟩ ∧
    (generate icons level (0, 0) (1, 0)).bind (·.at 1 31) = some ⟨0, 0, 0, 0⟩ ∧
    (generate icons level (0, 0) (1, 0)).bind (·.at 2 30) = some ⟨0, 0, 0, 0⟩ := by decide +kernel

/-- **C71, disagreement.** What a thing on a tile outside the part shows within the part is missing: the picture of
the left tile alone lacks a pixel the picture of both tiles has there. -/
theorem part_lacks_overhang :
    (generate icons level (0, 0) (0, 0)).bind (·.at 2 31) = some ⟨0, 0, 0, 0⟩ ∧
    (generate icons level (0, 0) (1, 0)).bind (·.at 2 31) = some ⟨255, 0, 0, 255⟩ := by decide +kernel

end Verif.Minimap.Ex
