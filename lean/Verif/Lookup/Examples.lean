import Verif.Lookup.Agree

/-!
# A small environment

```
var/score                          // types: 0 is the root
/proc/Log()
/datum                             // 1
/obj                               // 2, under /datum
    var/mob/owner                  // with docs
    proc/Use(mob/target)
/obj/item                          // 3
    owner = null                   // with docs
    Use(mob/target)
        ...
    Use(mob/target, extra)         // defined again
/mob                               // 4, under /datum
    var/obj/item/held
    var/plain
    verb/Say()
/list                              // 5
```
-/

namespace Verif.Lookup

open Verif.Typing (Ident Loc PathOp)
open Verif.Refs (Sym)

/-- The environment. -/
def env : World where
  parent := fun i => match i with
    | 1 | 2 | 4 => some (if i = 1 then 0 else 1)
    | 3 => some 2
    | 5 => some 0
    | _ => none
  rank := fun i => match i with
    | 0 => 0
    | 1 => 1
    | 2 => 2
    | 3 => 3
    | 4 => 2
    | 5 => 1
    | _ => 0
  rank_lt := by
    intro c p h
    match c, h with
    | 1, h => cases h; decide
    | 2, h => cases h; decide
    | 3, h => cases h; decide
    | 4, h => cases h; decide
    | 5, h => cases h; decide
  children := fun i => match i with
    | 0 => [("datum", 1), ("list", 5), ("mob", 4), ("obj", 2)]
    | 2 => [("item", 3)]
    | _ => []
  navigate := fun i op x =>
    if i = 0 ∧ op = .slash ∧ x = "obj" then some 2
    else if i = 0 ∧ op = .slash ∧ x = "mob" then some 4
    else if i = 2 ∧ op = .slash ∧ x = "item" then some 3
    else none
  vars := fun i => match i with
    | 0 => [("score", { decl := some [] })]
    | 2 => [("owner", { decl := some ["mob"], docs := true })]
    | 3 => [("owner", { decl := none, docs := true })]
    | 4 => [("held", { decl := some ["obj", "item"] }), ("plain", { decl := some [] })]
    | _ => []
  procs := fun i => match i with
    | 0 => [("Log", { decl := some false, defs := [([], false)] })]
    | 2 => [("Use", { decl := some false, defs := [([⟨["mob"], "target"⟩], true)] })]
    | 3 => [("Use", { decl := none, defs := [([⟨["mob"], "target"⟩], false), ([⟨["mob"], "target"⟩, ⟨[], "extra"⟩], false)] })]
    | 4 => [("Say", { decl := some true, defs := [([], false)] })]
    | _ => []
  macros := ["DEBUG"]

/-- Inside the second definition of `/obj/item/Use`, where `x` is a local variable, of an outer block and of an inner one. -/
def inUse : Place :=
  [(10, .procBody ["obj", "item", "Use"] 1), (20, .localVar ["obj"] "x"), (30, .localVar ["mob"] "x")]

/-- Every name goes. -/
def any : Ident → Ident → Bool := fun _ _ => true

/-- The code belongs to `/obj/item`. -/
example : Home env inUse 3 := (home_iff ..).1 (by decide +kernel)

/-- `target.held.` offers the members of `/obj/item`: `owner` of `/obj/item` itself, as it has a value of its own there, and
the overridden `Use`; nothing of the root. -/
example : env.completion any (inUse ++ [(40, .missingIdent ["target", "held"])]) = [.var 3 "owner", .proc 3 "Use"] := by
  decide +kernel

/-- And going to it then leads there. -/
example : env.goto (inUse ++ [(40, .scopedVar ["target", "held"] "owner")]) = [.var 3 "owner"] := by decide +kernel

theorem framed {e : Ann} (h : isFrame e = true) : WellFormed e ∧ ¬ IsError e ∧ ¬ IsName e := by
  cases e <;> first | exact ⟨trivial, id, id⟩ | cases h

theorem inUse_framed : ∀ y ∈ inUse, isFrame y.2 = true := by decide

/-- As `complete_then_goto` says. -/
example : env.gotoOf (inUse ++ [(40, .other)]) (.scopedVar ["target", "held"] "owner") = some (.var 3 "owner") :=
  (complete_then_goto env any (inUse ++ [(40, .missingIdent ["target", "held"])]) (inUse ++ [(40, .other)])
    (by
      intro y hy
      rcases List.mem_append.1 hy with hy | hy
      · exact (framed (inUse_framed y hy)).1
      · rw [List.mem_singleton] at hy; subst hy; trivial)
    40 ["target", "held"] "owner" 3 rfl
    ⟨inUse, [], rfl, trivial, fun y hy => (framed (inUse_framed y hy)).2.1⟩ rfl).1.1 (by decide +kernel)

/-- Where a name can start: the local variables, the parameters of this definition, macros, members and globals; of keywords
only those that were asked for. -/
example : env.completion (fun n query => n.length == 5 && query == "a" || n == "x" || n == "DEBUG")
      (inUse ++ [(40, .unscopedVar "a")]) =
    [.keyword "throw", .keyword "while", .keyword "spawn", .keyword "catch", .keyword "break", .local "x", .local "x",
      .param "extra", .macro "DEBUG", .var 3 "owner", .var 0 "score"] := by decide +kernel

/-- An inner variable that shadows an outer one is not found: `x` is the one of the outer block, with its type. -/
example : env.goto (inUse ++ [(40, .unscopedVar "x")]) = [.local 20] ∧
    env.gotoType (inUse ++ [(40, .unscopedVar "x")]) = some 2 := by decide +kernel

/-- Parameters and members. -/
example : env.goto (inUse ++ [(40, .unscopedVar "extra")]) = [.param 3 "Use" "extra"] ∧
    env.goto (inUse ++ [(40, .unscopedVar "owner")]) = [.var 3 "owner"] ∧
    env.goto (inUse ++ [(40, .unscopedCall "Log")]) = [.proc 0 "Log"] ∧
    env.gotoType (inUse ++ [(40, .unscopedVar "owner")]) = some 4 := by decide +kernel

/-- The symbol is that of the declaration, on `/obj`. -/
example : env.symbolAt (inUse ++ [(40, .unscopedVar "owner")]) = some (.var 2 "owner") ∧
    env.symbolAt (inUse ++ [(40, .scopedCall ["target", "held"] "Use")]) = some (.proc 2 "Use") := by decide +kernel

/-- Local variables and parameters have none. -/
example : env.symbolAt (inUse ++ [(40, .unscopedVar "x")]) = none ∧
    env.symbolAt (inUse ++ [(40, .unscopedVar "extra")]) = none := by decide +kernel

/-- After a variable without a type, all globals are offered, as if it was of the type of the root. -/
example : env.completion any (inUse ++ [(40, .missingIdent ["target", "plain"])]) = [.var 0 "score", .proc 0 "Log"] ∧
    env.goto (inUse ++ [(40, .scopedVar ["target", "plain"] "score")]) = [.var 0 "score"] := by decide +kernel

/-- `target.score` is listed under the global variable, but the cursor on it finds nothing. -/
example : (Refs.varDecl env.tree 4 "score").map Prod.fst = some 0 ∧
    env.symbolAt (inUse ++ [(40, .scopedVar ["target"] "score")]) = none := ⟨by rfl, by decide +kernel⟩

/-- `..()` leads to the definition before, and that of the first one to the proc of the parent. -/
example : env.goto (inUse ++ [(40, .parentCall)]) = [.procDef 3 "Use" 0] ∧
    env.goto [(10, .procBody ["obj", "item", "Use"] 0), (40, .parentCall)] = [.proc 2 "Use"] := by decide +kernel

/-- A path with a mistake leads to the type before the mistake. -/
example : env.goto (inUse ++ [(40, .typePath [(.slash, "obj"), (.slash, "typo")])]) = [.type 2] ∧
    env.goto (inUse ++ [(40, .typePath [(.slash, "obj"), (.slash, "item")])]) = [.type 3] ∧
    env.goto (inUse ++ [(40, .typePath [(.slash, "obj"), (.slash, "item"), (.slash, "proc"), (.slash, "Use")])]) =
      [.proc 3 "Use"] := by decide +kernel

/-- The part of a path under the cursor. -/
example : env.goto (inUse ++ [(40, .typePath [(.slash, "obj"), (.slash, "item")]), (40, .inSequence 0)]) = [.type 2] := by
  decide +kernel

/-- After `/obj/item/proc/`, a proc of `/obj` that `/obj/item` overrides is not offered; after `/obj/proc/` it is. -/
example : env.completion any (inUse ++ [(40, .incompleteTypePath [(.slash, "obj"), (.slash, "item"), (.slash, "proc")] .slash)])
      = [] ∧
    env.completion any (inUse ++ [(40, .incompleteTypePath [(.slash, "obj"), (.slash, "proc")] .slash)]) = [.proc 2 "Use"] ∧
    env.completion any (inUse ++ [(40, .incompleteTypePath [(.slash, "mob"), (.slash, "verb")] .slash)]) = [.proc 4 "Say"] ∧
    env.completion any (inUse ++ [(40, .incompleteTypePath [(.slash, "obj")] .slash)]) =
      [.keyword "proc", .keyword "verb", .type "item" 3] := by decide +kernel

/-- In a block of declarations of `/obj/item`, also the global variables and procs are offered, though they cannot be
overridden. -/
example : env.completion any [(5, .treeBlock ["obj", "item"])] =
    [.keyword "proc", .keyword "var", .keyword "verb", .var 3 "owner", .proc 3 "Use", .var 0 "score", .proc 0 "Log"] := by
  decide +kernel

/-- A path in a block, which leads to the proc that is overridden. -/
example : env.goto [(5, .treeBlock ["obj", "item"]), (40, .treePath false ["Use"])] = [.proc 2 "Use"] ∧
    env.goto [(5, .treeBlock ["obj"]), (40, .treePath false ["item"])] = [.type 3] ∧
    env.goto [(5, .treeBlock ["obj"]), (40, .treePath false ["var", "list", "mob"])] = [.type 4] := by decide +kernel

/-- A header and a variable stand for what they declare or override. -/
example : env.symbolAt [(5, .procHeader ["obj", "item", "Use"] 1)] = some (.proc 2 "Use") ∧
    env.symbolAt [(5, .procHeader ["obj", "proc", "Use"] 0)] = some (.proc 2 "Use") ∧
    env.symbolAt [(5, .variable ["obj", "item", "owner"])] = some (.var 2 "owner") := by decide +kernel

/-- The docs of `/obj` are shown, not the ones of `/obj/item`. -/
example : env.hoverVar "owner" (env.line 3) = ([2], some 2) ∧ env.hoverProc "Use" (env.line 3) = ([2], some 2) := by
  decide +kernel

/-- The call and the argument that the cursor is in. -/
example : env.signature (inUse ++ [(40, .arguments ["target", "held"] "Use" 0), (45, .argument 1)]) = some (3, "Use", 1) ∧
    env.signature (inUse ++ [(40, .arguments [] "Log" 0)]) = some (0, "Log", 0) := by decide +kernel

end Verif.Lookup
