import Verif.Typing.StmtOverride
import Verif.Typing.Examples

/-!
# Proc bodies in the small world of `Verif.Typing.Examples`, and where the checker is wrong
-/

namespace Verif.Typing

/-- `demo` with `/atom` (6) above `/mob` and `/obj`, `/world` (7), `/alist` (8), with `Use` on `/datum` and again on `/obj`,
and with absolute paths. -/
def demo2 : Tree where
  parent := fun
    | 1 => some 0
    | 2 => some 1
    | 3 => some 6
    | 4 => some 6
    | 5 => some 3
    | 6 => some 1
    | 7 => some 0
    | 8 => some 1
    | _ => none
  rank := fun
    | 1 => 1
    | 2 => 2
    | 3 => 3
    | 4 => 3
    | 5 => 4
    | 6 => 2
    | 7 => 1
    | 8 => 2
    | _ => 0
  rank_lt := by
    intro c p h
    match c, h with
    | 1, h => cases h; decide
    | 2, h => cases h; decide
    | 3, h => cases h; decide
    | 4, h => cases h; decide
    | 5, h => cases h; decide
    | 6, h => cases h; decide
    | 7, h => cases h; decide
    | 8, h => cases h; decide
  path := fun
    | 6 => ["atom"]
    | 7 => ["world"]
    | 8 => ["alist"]
    | i => demo.path i
  find := fun p =>
    if p = ["atom"] then some 6
    else if p = ["world"] then some 7
    else if p = ["alist"] then some 8
    else demo.find p
  nav := fun _ p => demo.find (p.map Prod.snd)
  vars := demo.vars
  procs := fun i n =>
    if i = 1 ∧ n = "Use" then [{ params := [] }]
    else if i = 4 ∧ n = "Use" then [{ params := [] }]
    else if i = 0 ∧ n = "Weigh" then [{ params := ["it"] }]
    else demo.procs i n
  kind := demo.kind

/-- Inside `/obj/Use`. -/
def demoWalk : Walk where
  toCtx := { demoCtx with tree := demo2, locals := fun _ => none }
  pure := fun p => p.name = "Weigh"

/-- `Use` may not be overridden without a call of the parent. -/
def demoRules : Rules where
  notOverride := fun _ => none
  notCallParent := fun _ => none
  callParent := fun p => if p.name = "Use" then some ⟨1, "Use", 0⟩ else none
  redefinable := fun _ => false

/-- A name. -/
def nm (l : Loc) (n : Ident) : Expr := .base l (.ident n) .nil

/-- `a.b` -/
def dotted (l : Loc) (a b : Ident) : Expr := .base l (.ident a) (.cons (l + 1) (.field .dot b) .nil)

/-- `..()` -/
def parentCall (l : Loc) : Stmt := .expr (.base l (.parentCall .nil) .nil)

/-- ```
/obj/Use(mob/user)
    for(var/obj/o in user.held)
        o.owner = user
    o.owner = null      // no `o` here
    ..()
``` -/
def scopes : Block :=
  .cons 10 (.forIn (some ["obj"]) "o" (some (dotted 11 "user" "held"))
    (.cons 13 (.expr (.assign .assign (dotted 13 "o" "owner") (nm 15 "user"))) .nil))
  (.cons 20 (.expr (.assign .assign (dotted 21 "o" "owner") (.base 23 .null .nil)))
  (.cons 30 (parentCall 30) .nil))


/-- A loop variable is not known after the loop; `..()` is noted. -/
theorem scopes_reports : demoWalk.run demoRules [⟨1, "user", ["mob"]⟩] scopes =
    ([(21, .expr (.msg (.undefinedVar "o"))), (22, .expr (.msg (.fieldNeedsType "owner"))), (30, .expr .callsParent),
      (30, .expr (.call ⟨⟨1, "Use", 0⟩, false, 4, true, true⟩))], []) := by decide +kernel

/-- ```
/obj/Use(mob/user, datum/d)
    if(user.held)
        return
        ..()            // not reached
    Weigh(user)         // discards the weight
    spawn(5)
        for(var/x in d)
            continue
``` -/
def findings : Block :=
  .cons 10 (.ifs (.cons ⟨11, dotted 11 "user" "held", none, false⟩
    (.cons 12 (.ret none) (.cons 13 (parentCall 13) .nil)) .noElse))
  (.cons 20 (.expr (.base 20 (.call "Weigh" (.cons (nm 21 "user") .nil)) .nil))
  (.cons 30 (.spawn (some (.base 31 (.int 5) .nil))
    (.cons 32 (.forIn (some []) "x" (some (nm 33 "d")) (.cons 34 (.cont none) .nil)) .nil)) .nil))

/-- Without the statement that is not reached, there is no call of the parent. -/
theorem findings_reports : demoWalk.run demoRules [⟨1, "user", ["mob"]⟩, ⟨2, "d", ["datum"]⟩] findings =
    ([(20, .pureDiscarded "Weigh"), (20, .expr (.call ⟨⟨0, "Weigh", 0⟩, false, 4, false, true⟩)),
      (32, .iteratesDatum)],
     [.noParentCall ⟨1, "Use", 0⟩]) := by decide +kernel

/-! ## Where the checker is wrong -/

/-- `nothing << 1` as a statement: the left side is looked at twice, and its errors are reported twice. -/
theorem shift_reports_twice : ∃ e, demoWalk.body [] (.cons 1 (.expr (.binary .lshift e (.base 3 (.int 1) .nil))) .nil) =
    [(2, .expr (.msg (.undefinedVar "nothing"))), (2, .expr (.msg (.undefinedVar "nothing")))] :=
  ⟨nm 2 "nothing", by decide +kernel⟩

/-- `for(x = nothing to 5)`: an undefined name in the start of a loop is not reported if the loop does not declare its
variable, although it is if it does. -/
theorem start_not_looked_at : ∃ e,
    demoWalk.body [] (.cons 1 (.forTo none "x" e (.base 3 (.int 5) .nil) none none none .none .nil) .nil) = [] ∧
    demoWalk.body [] (.cons 1 (.forTo (some []) "x" e (.base 3 (.int 5) .nil) none none none .none .nil) .nil) =
      [(2, .expr (.msg (.undefinedVar "nothing")))] :=
  ⟨nm 2 "nothing", by decide +kernel, by decide +kernel⟩

/-- `var/p = /mob; p = /obj; p::owner`: the variable keeps the constant value of its declaration, and a variable that the
value does have is reported as undefined. -/
theorem stale_constant : demoWalk.body []
    (.cons 1 (.vars [⟨[], "p", some (.base 2 (.prefab [(.slash, "mob")]) .nil)⟩])
    (.cons 3 (.expr (.assign .assign (nm 4 "p") (.base 5 (.prefab [(.slash, "obj")]) .nil)))
    (.cons 6 (.expr (.base 6 (.ident "p") (.cons 7 (.staticField "owner") .nil))) .nil))) =
    [(7, .expr (.msg (.undefinedField "owner" 3)))] := by decide +kernel

/-- `SpacemanDMM_unlint(..())` calls the parent, but the checker says the proc never does. -/
theorem unlint_hides_parent_call : (demoWalk.run demoRules []
    (.cons 1 (.expr (.base 1 (.call "SpacemanDMM_unlint" (.cons (.base 2 (.parentCall .nil) .nil) .nil)) .nil)) .nil)).2 =
    [.noParentCall ⟨1, "Use", 0⟩] := by decide +kernel

/-- The same in `/obj/Use`'s head of a `for(x = ..() to 5)`. -/
theorem start_hides_parent_call : (demoWalk.run demoRules []
    (.cons 1 (.forTo none "x" (.base 2 (.parentCall .nil) .nil) (.base 3 (.int 5) .nil) none none none .none .nil)
      .nil)).2 = [.noParentCall ⟨1, "Use", 0⟩] := by decide +kernel

end Verif.Typing
