import Verif.Docs.Model

/-!
# Model of what is on the page of a module (crates/dmdoc/src/main.rs)

The comments and items of a module are given as they were collected, with their lines; what an item is does not matter.
-/

namespace Verif.Dmdoc

open Verif.Docs (Comment)

/-- `ModuleItem` before the modules are finished (main.rs:1530-1556): a comment, or something else. -/
inductive Wip (α : Type)
  | comment (c : Comment)
  | item (x : α)

/-- `ModuleItem` as it is rendered: `docs` has the text of the comments, and whether it is parsed for a title, which becomes the
name of the module (main.rs:594-606). -/
inductive Shown (α : Type)
  | docs (titled : Bool) (text : Option (List Char))
  | item (x : α)
  deriving DecidableEq

/-- The comment that is put where lines are missing (main.rs:619). -/
def blank : Comment := ⟨.line, []⟩

/-- `push_docs!` (main.rs:577-609): the docs that remain, whether no docs were shown yet, and what is shown. -/
def pushDocs {α : Type} (ws : Char → Bool) (docs : List Comment) (first : Bool) : List Comment × Bool × List (Shown α) :=
  if Docs.collectionEmpty ws docs then (docs, first, []) else ([], false, [.docs first (Docs.text ws docs)])

/-- The loop (main.rs:611-631) and the last `push_docs!` (main.rs:632). -/
def finalizeLoop {α : Type} (ws : Char → Bool) : List (Nat × Wip α) → List Comment → Bool → Nat → List (Shown α)
  | [], docs, first, _ => (pushDocs ws docs first).2.2
  | (line, .comment c) :: rest, docs, first, last =>
    finalizeLoop ws rest ((if line > last + 1 then docs ++ [blank] else docs) ++ [c]) first line
  | (_, .item x) :: rest, docs, first, last =>
    let p := pushDocs ws docs first
    p.2.2 ++ .item x :: finalizeLoop ws rest p.1 p.2.1 last

/-- The items of a finished module (main.rs:575-632); the lines are not near the end of `u32`. -/
def finalize {α : Type} (ws : Char → Bool) (wip : List (Nat × Wip α)) : List (Shown α) :=
  finalizeLoop ws (wip.mergeSort fun a b => decide (a.1 ≤ b.1)) [] true 0

end Verif.Dmdoc
