import Verif.Dmdoc.ModuleModel

/-!
# What is to be on the page of a module
-/

namespace Verif.Dmdoc

open Verif.Docs (Comment)

/-- The comments of a run, with an empty line comment where they are not on neighbouring lines. -/
inductive Spaced : List (Nat × Comment) → List Comment → Prop
  | nil : Spaced [] []
  | one (n : Nat) (c : Comment) : Spaced [(n, c)] [c]
  | near {n m : Nat} {c d : Comment} {r : List (Nat × Comment)} {cs : List Comment} :
      m ≤ n + 1 → Spaced ((m, d) :: r) cs → Spaced ((n, c) :: (m, d) :: r) (c :: cs)
  | far {n m : Nat} {c d : Comment} {r : List (Nat × Comment)} {cs : List Comment} :
      n + 1 < m → Spaced ((m, d) :: r) cs → Spaced ((n, c) :: (m, d) :: r) (c :: ⟨.line, []⟩ :: cs)

/-- What is shown for a run of comments: one text, or nothing if they say nothing. -/
def RunShown {α : Type} (ws : Char → Bool) (first : Bool) (run : List (Nat × Comment)) (p : List (Shown α)) : Prop :=
  ((∀ e ∈ run, e.2.isEmpty ws = true) ∧ p = []) ∨
    ((∃ e ∈ run, e.2.isEmpty ws = false) ∧ ∃ cs, Spaced run cs ∧ p = [.docs first (Docs.text ws cs)])

def asComments {α : Type} (run : List (Nat × Comment)) : List (Nat × Wip α) := run.map fun e => (e.1, .comment e.2)

/-- Runs of comments and items are shown in turn; the first text there is has the title. -/
inductive Laid {α : Type} (ws : Char → Bool) : Bool → List (Nat × Wip α) → List (Shown α) → Prop
  | last {first : Bool} {run : List (Nat × Comment)} {p : List (Shown α)} :
      RunShown ws first run p → Laid ws first (asComments run) p
  | item {first : Bool} {run : List (Nat × Comment)} {p out : List (Shown α)} {n : Nat} {x : α} {rest : List (Nat × Wip α)} :
      RunShown ws first run p → Laid ws (first && p.isEmpty) rest out →
      Laid ws first (asComments run ++ (n, .item x) :: rest) (p ++ .item x :: out)

end Verif.Dmdoc
