import Verif.Typing.Examples
import Verif.Typing.AnnProps

/-!
# Return types: examples, and where the program and the documentation part ways
-/

namespace Verif.Typing

/-- `_`. -/
def under : Expr := .base 9 (.ident "_") .nil

/-- `loud[_].type || text`. -/
def demoAnn : Expr :=
  .binary .or (.base 1 (.ident "loud") (.cons 2 (.index under) (.cons 3 (.field .dot "type") .nil)))
    (.base 4 (.ident "text") .nil)

/-- `Say` on `/mob` is annotated with `/list/mob` and then `loud[_].type || text`. -/
def demoReturns : Returns where
  tree := demo
  declares := fun i n => if i = 3 ∧ n = "Say" then some (.words (inputBits [.mob])) else none
  code := fun p => if p = ⟨3, "Say", 0⟩ then
      some [⟨"SpacemanDMM_return_type", .base 1 (.prefab [(.slash, "list"), (.slash, "mob")]) .nil⟩,
        ⟨"SpacemanDMM_return_type", demoAnn⟩, ⟨"SpacemanDMM_return_type", .base 1 (.ident "who") .nil⟩]
    else none

/-- A call with a path for `text` and a list of objects for `loud`. -/
def demoArgs : List An := [{ value := some (.prefab ["mob", "living"]) }, { st := .list (.type 4) }]

/-- The same with something of no type for `loud`. -/
def demoArgs' : List An := [{ value := some (.prefab ["mob", "living"]) }, {}]

def demoExprs : List Expr := [.base 5 .null .nil, .base 6 .null .nil]

def demoCall : Ctx := { demoCtx with returns := demoReturns.table }

example : demoReturns.gather ⟨3, "Say", 0⟩ =
    (some (.cond (.paramStatic "loud" 1 1) (.paramStatic "loud" 1 1) (.paramPath "text" 0 0)), [.noParam "who"]) := by rfl
example : returnType demoCall 7 ⟨3, "Say", 0⟩ demoExprs demoArgs = (.ofType (.type 4), []) := by decide +kernel
example : returnType demoCall 7 ⟨3, "Say", 0⟩ demoExprs demoArgs' = (.ofType (.type 5), []) := by decide +kernel

example : Accepted demo ["text", "loud"] demoAnn :=
  .or (.refType (.param (n := "loud") (i := 1) ⟨rfl, fun j hj => by
      match j, hj with
      | 0, _ => decide⟩ (.more ⟨9, rfl⟩ .type)))
    (.ref (.param (n := "text") (i := 0) ⟨rfl, fun j hj => absurd hj (Nat.not_lt_zero _)⟩ .none))

/-- The theorem at work on the example. -/
example : CallReads demoReturns ⟨3, "Say", 0⟩ (Given demoExprs demoArgs) (some (.type 4)) :=
  ((call_type demoReturns demoCall rfl rfl 7 ⟨3, "Say", 0⟩ demoExprs demoArgs rfl (by decide)).1 _).2 (by decide +kernel)

example : WordsPath [.mob, .turf, .turf] ["atom"] := (wordsPath_iff _ _).1 rfl
example : WordsPath [.movable] ["atom", "movable"] := (wordsPath_iff _ _).1 rfl
example : ¬ WordsPath [.mob, .null] ["mob"] := fun h => absurd ((wordsPath_iff _ _).2 h) (by decide +kernel)

/-- `param[_]` without `.type` is accepted, and the `[_]` is not looked at: the type is that of the path, not of what the list
holds. -/
theorem index_without_type_ignored (t : Tree) (params : List Ident) (n : Ident) (i k : Nat) (get : Ident → Nat → Option An) :
    (TExpr.paramPath n i k).eval t get = (TExpr.paramPath n i 0).eval t get := rfl

/-- A path with dots is read as if it had slashes. -/
theorem path_separators_ignored (t : Tree) (params : List Ident) (l : Loc) (ps qs : List (PathOp × Ident))
    (h : ps.map Prod.snd = qs.map Prod.snd) :
    annotate t params (.base l (.prefab ps) .nil) = annotate t params (.base l (.prefab qs) .nil) := by
  simp only [annotate, Expr.asTerm, pathNames, h]

/-- A raw path to a type that does not exist replaces an earlier annotation, other mistakes leave it. -/
theorem raw_missing_replaces : (gatherLoop demo ["text"] none
      [⟨"SpacemanDMM_return_type", .base 1 (.prefab [(.slash, "mob")]) .nil⟩,
       ⟨"SpacemanDMM_return_type", .base 1 (.prefab [(.slash, "mbo")]) .nil⟩]).1 = some (.static .none) ∧
    (gatherLoop demo ["text"] none
      [⟨"SpacemanDMM_return_type", .base 1 (.prefab [(.slash, "mob")]) .nil⟩,
       ⟨"SpacemanDMM_return_type", .base 1 (.expr (.base 1 (.prefab [(.slash, "mbo")]) .nil)) .nil⟩]).1 =
      some (.static (.type 3)) := by
  exact ⟨rfl, rfl⟩

end Verif.Typing
