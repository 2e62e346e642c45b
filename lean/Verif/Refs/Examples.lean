import Verif.Typing.Examples
import Verif.Refs.Main

/-!
# A small program and its references

```
/obj
    var/mob/owner = new /mob/living("x")   // 10, 11
    proc/Use(mob/target)                   // 20, parameter at 21
        var/mob/living/L = target          // 22, 23
        L.Say(src.owner)                   // 24, 25, 26, 27
        if(L)                              // 28
            var/x = 1                      // 29
        world_log(x)                       // 31, 32: no such proc
        return x                           // 33, 34
/mob/proc/Say(text)                        // 40, 41
/mob/living/Say(text)                      // 50, 51
    return text                            // 52, 53
```
-/

namespace Verif.Refs

open Verif.Typing (Ident Loc PathOp Tree VarDecl Proc modifiers Defines ParentOf demo)

/-- The types and variables of `Verif.Typing.demo`, with procs. -/
def world : Tree := { demo with
  procs := fun i n =>
    if i = 1 ∧ n = "New" then [{ params := [] }]
    else if i = 3 ∧ n = "Say" then [{ params := ["text"] }]
    else if i = 5 ∧ n = "Say" then [{ params := ["text"] }]
    else if i = 4 ∧ n = "Use" then [{ params := ["target"] }]
    else []
  kind := fun i n =>
    if i = 1 ∧ n = "New" then some "proc"
    else if i = 3 ∧ n = "Say" then some "proc"
    else if i = 4 ∧ n = "Use" then some "proc"
    else none }

/-- A name. -/
def nameAt (l : Loc) (n : Ident) : Expr := .base l (.ident n) .nil

/-- The body of `/obj/proc/Use`. -/
def useBody : Block :=
  .cons 22 (.vars [{ path := ["mob", "living"], name := "L", value := some (nameAt 23 "target") }]) <|
  .cons 24 (.expr (.base 24 (.ident "L") (.cons 25 (.call "Say" (.cons (.base 26 (.ident "src") (.cons 27 (.field "owner") .nil)) .nil)) .nil))) <|
  .cons 28 (.ifs (.cons 28 (nameAt 28 "L") (.cons 29 (.vars [{ path := [], name := "x", value := some (.base 30 .plain .nil) }]) .nil) .noElse)) <|
  .cons 31 (.expr (.base 31 (.call "world_log" (.cons (nameAt 32 "x") .nil)) .nil)) <|
  .cons 33 (.ret (some (nameAt 34 "x"))) .nil

/-- The program. -/
def prog : Prog where
  tree := world
  navigate := fun i op x =>
    if i = 0 ∧ op = .slash ∧ x = "mob" then some 3
    else if i = 3 ∧ op = .slash ∧ x = "living" then some 5
    else if i = 0 ∧ op = .slash ∧ x = "obj" then some 4
    else none
  types := [0, 1, 2, 3, 5, 4]
  tyLoc := fun i => i
  vars := fun i => if i = 4 then
    [("owner", 10, some (.base 11 (.newPrefab [(.slash, "mob"), (.slash, "living")] .nil (.cons (.base 12 (.string "x") .nil) .nil)) .nil))]
    else []
  procs := fun i =>
    if i = 3 then [("Say", [{ loc := 40, params := [{ loc := 41, path := [], name := "text", default := none }], code := none }])]
    else if i = 4 then [("Use", [{ loc := 20, params := [{ loc := 21, path := ["mob"], name := "target", default := none }], code := some useBody }])]
    else if i = 5 then [("Say", [⟨50, [⟨51, [], "text", none⟩], some (.cons 52 (.ret (some (nameAt 53 "text"))) .nil)⟩])]
    else []

theorem sorted_of {ls ks : List Loc} (h : ls = ks) (hs : ks.Pairwise (fun a b => decide (a ≤ b) = true)) :
    ls.mergeSort (fun a b => decide (a ≤ b)) = ks := by
  rw [h]; exact List.mergeSort_of_pairwise hs

/-- A call on a value of type `/mob/living` counts for the declaration on `/mob`. -/
example : prog.Named (.proc 3 "Say") 25 := (references_iff ..).1 (by decide +kernel)

/-- The only one: the definition on `/mob/living` is an implementation. -/
example : prog.references (.proc 3 "Say") = [25] ∧ prog.implementations (.proc 3 "Say") = [40, 50] := ⟨sorted_of (by decide +kernel) (by decide), sorted_of (by decide +kernel) (by decide)⟩

/-- A field. -/
example : prog.references (.var 4 "owner") = [27] ∧ prog.implementations (.var 4 "owner") = [10] := ⟨sorted_of (by decide +kernel) (by decide), sorted_of (by decide +kernel) (by decide)⟩

/-- Types: `new` in the value of a variable, and the declared type of `L`. -/
example : prog.references (.type 5) = [11, 22] ∧ prog.references (.type 3) = [21] := ⟨sorted_of (by decide +kernel) (by decide), sorted_of (by decide +kernel) (by decide)⟩

/-- Local variables, numbered over the whole program: 0 to 3 are `.`, `args`, `usr` and `src` of `/mob/living/Say`, 4 its
parameter, 5 to 8 those of `/obj/proc/Use`, 9 its parameter, then `L` and `x`.  The `x` after the `if` counts as the one
declared in it, except that the arguments of the unknown `world_log` are not looked at. -/
example : prog.references (.local 4) = [51, 53] ∧ prog.references (.local 9) = [21, 23] ∧
    prog.references (.local 10) = [22, 24, 28] ∧ prog.references (.local 11) = [29, 34] := ⟨sorted_of (by decide +kernel) (by decide), sorted_of (by decide +kernel) (by decide), sorted_of (by decide +kernel) (by decide), sorted_of (by decide +kernel) (by decide)⟩

/-- `src` and the returned `.` of `/obj/proc/Use`. -/
example : prog.references (.local 8) = [20, 26] ∧ prog.references (.local 5) = [20, 33] := ⟨sorted_of (by decide +kernel) (by decide), sorted_of (by decide +kernel) (by decide)⟩

/-- What is not named is not listed: the `x` in the arguments of the unknown proc, at 32. -/
example : ¬ prog.Named (.local 11) 32 := fun h => absurd (((table_refs _).1 _ _).2 h) (by decide +kernel)

/-- And that place names nothing. -/
example : ∀ k ≤ 12, ¬ prog.Named (.local k) 32 := fun k hk h =>
  absurd (((table_refs _).1 _ _).2 h) ((by decide +kernel : ∀ k ≤ 12, 32 ∉ prog.table.refs (.local k)) k hk)

end Verif.Refs
