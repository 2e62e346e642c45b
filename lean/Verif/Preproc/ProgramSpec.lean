import Verif.Preproc.MacroSpec
import Verif.Preproc.Chain

/-!
# What a source file means to the preprocessor

`Program env p room w ts out w'`: with the macros and files `w`, the text `ts` of the file `p` is
replaced by `out` (up to the line ends that stand for directives) and leaves the macros and files `w'`.
Big-step, by recursion on the text; neither the include stack nor the stack of conditionals occurs.
-/

namespace Verif.Preproc

open Verif.Context (Location)
open Verif.Lexer (Tok Punct DocTarget CommentKind)

/-- what the text of a file can change -/
structure World where
  /-- the macros -/
  defs : DefineMap
  /-- files included so far -/
  seen : List (Fin 65536)
  /-- files that asked to be included again -/
  again : List (Fin 65536)
  /-- maps -/
  maps : List Path
  /-- skins -/
  skins : List Path
  /-- scripts -/
  scripts : List Path
deriving DecidableEq

/-- the meaning of a text; `room` is the number of nested expansions that are possible -/
inductive Program (env : Env) : Path → Nat → World → List LTok → List LTok → World → Prop
  | nil {p : Path} {room : Nat} {w : World} : Program env p room w [] [] w
  /-- a stretch of text -/
  | text {p : Path} {room : Nat} {w w' : World} {a b o o' : List LTok} :
      Expands env w.defs (env.pathText p) room a o → Program env p room w b o' w' →
      Program env p room w (a ++ b) (o ++ o') w'
  /-- `#define`; `DEBUG` can only be defined in the environment file -/
  | define {p : Path} {room : Nat} {w w' : World} {l1 l2 l3 : Location} {ws : Bool} {n : Name}
      {t : LTok} {line b o : List LTok} {d : Define} :
      DefineLine ((t :: line).map LTok.tok) n d →
      Program env p room
        (if n = "DEBUG".toList ∧ p ≠ env.envFile then w
         else { w with defs := (w.defs.insert n (t.loc, d)).2 }) b o w' →
      Program env p room w (⟨l1, hash⟩ :: dirTok l2 ws "define" :: t :: (line ++ ⟨l3, newline⟩ :: b)) o w'
  /-- `#undef` -/
  | undef {p : Path} {room : Nat} {w w' : World} {l1 l2 l3 l4 : Location} {ws ws' : Bool} {n : Name}
      {b o : List LTok} :
      Program env p room
        (if (w.defs.get n).isSome then { w with defs := (w.defs.remove n).2 } else w) b o w' →
      Program env p room w
        (⟨l1, hash⟩ :: dirTok l2 ws "undef" :: ⟨l3, .ident n ws'⟩ :: ⟨l4, newline⟩ :: b) o w'
  /-- `#pragma multiple` -/
  | multiple {p : Path} {room : Nat} {w w' : World} {l1 l2 l3 : Location} {ws ws' : Bool}
      {b o : List LTok} :
      Program env p room { w with again := l3.file :: w.again } b o w' →
      Program env p room w
        (⟨l1, hash⟩ :: dirTok l2 ws "pragma" :: ⟨l3, .ident "multiple".toList ws'⟩ :: b) o w'
  /-- `#include` of a source file -/
  | source {p q : Path} {room : Nat} {w w1 w' : World} {l1 l2 l3 l4 : Location} {ws : Bool}
      {path : List Char} {ts b o o' : List LTok} :
      env.resolve p path = .dm q → env.openFile q = some ts →
      (env.fileId q ∈ w.seen → env.fileId q ∈ w.again) →
      Program env q (room - 1)
        (if env.fileId q ∈ w.seen then w else { w with seen := env.fileId q :: w.seen }) ts o w1 →
      Program env p room w1 b o' w' →
      Program env p room w
        (⟨l1, hash⟩ :: dirTok l2 ws "include" :: ⟨l3, .str path⟩ :: ⟨l4, newline⟩ :: b) (o ++ o') w'
  /-- `#include` of a source file that was included before -/
  | included {p q : Path} {room : Nat} {w w' : World} {l1 l2 l3 l4 : Location} {ws : Bool}
      {path : List Char} {ts b o : List LTok} :
      env.resolve p path = .dm q → env.openFile q = some ts → env.fileId q ∈ w.seen →
      env.fileId q ∉ w.again → Program env p room w b o w' →
      Program env p room w
        (⟨l1, hash⟩ :: dirTok l2 ws "include" :: ⟨l3, .str path⟩ :: ⟨l4, newline⟩ :: b) o w'
  /-- `#include` of a map -/
  | map {p q : Path} {room : Nat} {w w' : World} {l1 l2 l3 l4 : Location} {ws : Bool}
      {path : List Char} {b o : List LTok} :
      env.resolve p path = .dmm q → Program env p room { w with maps := q :: w.maps } b o w' →
      Program env p room w
        (⟨l1, hash⟩ :: dirTok l2 ws "include" :: ⟨l3, .str path⟩ :: ⟨l4, newline⟩ :: b) o w'
  /-- `#include` of a skin -/
  | skin {p q : Path} {room : Nat} {w w' : World} {l1 l2 l3 l4 : Location} {ws : Bool}
      {path : List Char} {b o : List LTok} :
      env.resolve p path = .dmf q → Program env p room { w with skins := q :: w.skins } b o w' →
      Program env p room w
        (⟨l1, hash⟩ :: dirTok l2 ws "include" :: ⟨l3, .str path⟩ :: ⟨l4, newline⟩ :: b) o w'
  /-- `#include` of a script -/
  | script {p q : Path} {room : Nat} {w w' : World} {l1 l2 l3 l4 : Location} {ws : Bool}
      {path : List Char} {b o : List LTok} :
      env.resolve p path = .dms q → Program env p room { w with scripts := q :: w.scripts } b o w' →
      Program env p room w
        (⟨l1, hash⟩ :: dirTok l2 ws "include" :: ⟨l3, .str path⟩ :: ⟨l4, newline⟩ :: b) o w'
  /-- a conditional one of whose branches is selected -/
  | selected {p : Path} {room : Nat} {w w1 w' : World} {G : Tok → Prop} {first : Branch}
      {elifs : List Branch} {els : Option (List LTok × List LTok)} {fin body b o o' : List LTok} :
      ¬ G newline → Ordinary w.defs G → WellFormed G env w.defs p room first elifs els fin →
      selectedText (first :: elifs) els = some body →
      Program env p room w body o w1 → Ordinary w1.defs G → Program env p room w1 b o' w' →
      Program env p room w (chainText (first :: elifs) els fin ++ b) (o ++ o') w'
  /-- a conditional none of whose branches is selected -/
  | unselected {p : Path} {room : Nat} {w w' : World} {G : Tok → Prop} {first : Branch}
      {elifs : List Branch} {els : Option (List LTok × List LTok)} {fin b o : List LTok} :
      ¬ G newline → Ordinary w.defs G → WellFormed G env w.defs p room first elifs els fin →
      selectedText (first :: elifs) els = none →
      Program env p room w b o w' →
      Program env p room w (chainText (first :: elifs) els fin ++ b) o w'

/-- a text without its line ends -/
def inline (ts : List LTok) : List LTok := ts.filter fun t => t.tok ≠ newline

end Verif.Preproc
