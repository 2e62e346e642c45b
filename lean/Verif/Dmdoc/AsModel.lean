import Verif.Typing.AnnModel
import Mathlib.Data.Nat.Bitwise

/-!
# Model of the `as` clauses dmdoc shows (crates/dmdoc/src/template.rs)
-/

namespace Verif.Dmdoc

open Verif.Typing (InputWord inputBits)

/-- `InputType::ENTRIES` (dreammaker ast.rs:490-492, 533-553), in order. -/
def entries : List InputWord :=
  [.mob, .obj, .text, .num, .file, .turf, .key, .null, .area, .icon, .sound, .message, .anything, .password, .commandText, .color,
    .movable, .atom, .list]

/-- The loop of `matching_names` (template.rs:545-550); `result` is in the order of the pushes. -/
def matchLoop : List InputWord → Nat → List InputWord
  | [], _ => []
  | w :: ws, b => if b &&& w.bits = w.bits then w :: matchLoop ws (Nat.ldiff b w.bits) else matchLoop ws b

/-- `matching_names` (template.rs:543-553). -/
def matchingNames (b : Nat) : List InputWord := (matchLoop entries.reverse b).reverse

/-- The type a word is linked to (template.rs:517-528). -/
def wordPath : InputWord → Option (List Char)
  | .mob => some "/mob".toList
  | .obj => some "/obj".toList
  | .turf => some "/turf".toList
  | .area => some "/area".toList
  | .movable => some "/atom/movable".toList
  | .atom => some "/atom".toList
  | .list => some "/list".toList
  | _ => none

/-- `Display for InputType` (dreammaker ast.rs:508-523): the words between `|`, none for `()`. -/
def displayed (b : Nat) : List InputWord := entries.filter fun w => b &&& w.bits = w.bits

end Verif.Dmdoc
