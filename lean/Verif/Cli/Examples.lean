import Verif.Cli.DiffProps
import Verif.Cli.CliProps

/-!
# C96, C97: disagreements and examples
-/

namespace Verif.Cli

open Verif.Dmm Verif.Debug

/-! ## diff-maps -/

/-- a map of two tiles in a column, with a variable -/
def exLeft : Map Nat := ⟨1, [(0, [⟨['a'], [(['n'], 1), (['m'], 2)]⟩]), (1, [⟨['b'], []⟩])], 1, 2, 1, [[[1], [0]]]⟩

/-- the same, with the variables in the other order and one more row on top -/
def exRight : Map Nat :=
  ⟨1, [(0, [⟨['a'], [(['m'], 2), (['n'], 1)]⟩]), (1, [⟨['c'], []⟩])], 1, 3, 1, [[[0], [1], [0]]]⟩

theorem exLeft_sound : Sound exLeft := by
  constructor <;> simp [exLeft, List.lookup]

theorem exRight_sound : Sound exRight := by
  constructor <;> simp [exRight, List.lookup]

/-- places count from the bottom, so the extra row on top does not matter -/
example : diffMaps exLeft exRight = some ⟨some ((1, 2, 1), (1, 3, 1)), [(1, 2, 1)]⟩ := by decide +kernel

example : ∃ rep, diffMaps exLeft exRight = some rep ∧ (1, 2, 1) ∈ rep.tiles ∧ (1, 1, 1) ∉ rep.tiles := by
  exact ⟨_, rfl, by decide, by decide⟩

/-- **C96** (disagreement): the reader accepts keys that are not in the dictionary (C13); then `diff-maps` panics,
even on a map and itself. -/
theorem diff_unknown_key_disagrees : ∃ m : Map (List Char),
    parseMap some "\"a\" = (/turf)\n(1,1,1) = {\"\nb\n\"}".toList = .ok m ∧ diffMaps m m = none := by
  refine ⟨⟨1, [(0, [⟨"/turf".toList, []⟩])], 1, 1, 1, [[[1]]]⟩, ?_, ?_⟩
  · decide +kernel
  · decide +kernel

/-! ## minimap -/

/-- three maps, of which one cannot be loaded -/
def exFiles : List (Text × Option CoordArg) := [(['a'], some ⟨3, 2, 2⟩), (['b'], none), (['c'], some ⟨5, 5, 1⟩)]

/-- a picture is known by what was drawn -/
def exDraw : CoordArg → Nat → Nat × Nat → Nat × Nat → Option (Nat × (Nat × Nat) × (Nat × Nat)) :=
  fun d z a b => if z < d.z ∧ a.1 ≤ b.1 ∧ a.2 ≤ b.2 ∧ b.1 < d.x ∧ b.2 < d.y then some (z, a, b) else none

example : minimapCmd id exDraw (some ⟨2, 1, 0⟩) none exFiles = some (1,
    [(minimapName ['a'] 1, (0, (1, 0), (2, 1))), (minimapName ['a'] 2, (1, (1, 0), (2, 1))),
      (minimapName ['c'] 1, (0, (1, 0), (4, 4)))]) := rfl

/-- the hypothesis of `minimap_cmd_total` -/
example (stem : Text) (m : CoordArg) (h : Loaded exFiles stem m) :
    (1 ≤ (id m).x ∧ 1 ≤ (id m).y ∧ 1 ≤ (id m).z) ∧
      ∀ z (a b : Nat × Nat), z < (id m).z → a.1 ≤ b.1 → a.2 ≤ b.2 → b.1 < (id m).x → b.2 < (id m).y →
        (exDraw m z a b).isSome := by
  refine ⟨?_, fun z a b h1 h2 h3 h4 h5 => ?_⟩
  · simp only [Loaded, exFiles, List.mem_cons, Prod.mk.injEq, Option.some.injEq, reduceCtorEq, and_false,
      List.not_mem_nil, or_false, false_or] at h
    rcases h with ⟨-, rfl⟩ | ⟨-, rfl⟩ <;> decide
  · unfold exDraw
    rw [if_pos ⟨h1, h2, h3, h4, h5⟩]
    rfl

/-- **C97** (disagreement): maps of the same name in different directories get the same file: of two maps only the
second picture is left. -/
theorem same_stem_disagrees : ∃ code ws,
    minimapCmd id exDraw none none [(['a'], some ⟨1, 1, 1⟩), (['a'], some ⟨2, 2, 1⟩)] = some (code, ws) ∧
      ws.length = 2 ∧ ∀ w ∈ ws, written ws w.1 = some (0, (0, 0), (1, 1)) := by
  refine ⟨0, [(minimapName ['a'] 1, (0, (0, 0), (0, 0))), (minimapName ['a'] 1, (0, (0, 0), (1, 1)))], ?_, rfl, ?_⟩
  · rfl
  · decide +kernel

/-- the exit status as the shell sees it (POSIX keeps 8 bits of `dmm-tools-cli/src/main.rs:46`) -/
def exitStatus (failures : Nat) : Nat := failures % 256

/-- **C97** (disagreement): if 256 maps cannot be loaded, the status says success. -/
theorem exit_wraps_disagrees : ∃ code ws,
    minimapCmd id exDraw none none (List.replicate 256 (['a'], none)) = some (code, ws) ∧ code = 256 ∧
      exitStatus code = 0 := by
  have gen : ∀ n, minimapCmd id exDraw none none (List.replicate n (['a'], none)) = some (n, []) := by
    intro n
    induction n with
    | zero => rfl
    | succ n ih => rw [List.replicate_succ, minimapCmd, ih]; rfl
  exact ⟨256, [], gen 256, rfl, rfl⟩

/-! ## render-many -/

/-- two maps, one with chunks -/
def exMany : List (Text × CoordArg × Option (List Chunk)) :=
  [(['a'], ⟨3, 2, 2⟩, none), (['b'], ⟨5, 5, 1⟩, some [⟨1, some 2, none, some 9, some 1⟩])]

example : renderMany id exDraw exMany = some [
    [(chunkName ['a'] 1 0, (0, (0, 0), (2, 1))), (chunkName ['a'] 2 1, (1, (0, 0), (2, 1)))],
    [(chunkName ['b'] 1 0, (0, (1, 0), (4, 0)))]] := rfl

example : (exMany.map Prod.fst).Nodup := by decide

/-- **C97** (disagreement): a map that is listed twice is said to be only less efficient; but the chunks of both
entries get the same files. -/
theorem twice_disagrees : ∃ rows, renderMany id exDraw
    [(['a'], ⟨9, 9, 1⟩, some [⟨1, some 1, none, some 1, none⟩]),
      (['a'], ⟨9, 9, 1⟩, some [⟨1, some 2, none, some 2, none⟩])] = some rows ∧
    ∃ row ∈ rows, ∃ w ∈ row, written rows.flatten w.1 ≠ some w.2 := by
  refine ⟨[[(chunkName ['a'] 1 0, (0, (0, 0), (0, 8)))], [(chunkName ['a'] 1 0, (0, (1, 0), (1, 8)))]], ?_, ?_⟩
  · rfl
  · exact ⟨_, List.mem_cons_self, _, List.mem_cons_self, by decide +kernel⟩

end Verif.Cli
