import Verif.Typing.Props

/-!
# A small world, and the messages about undefined names spelled out
-/

namespace Verif.Typing

/-- `/datum`, `/list`, `/mob` and `/obj` (numbers 1 to 4), `/mob/living` (5) under `/mob`. -/
def demo : Tree where
  parent := fun
    | 1 => some 0
    | 2 => some 1
    | 3 => some 1
    | 4 => some 1
    | 5 => some 3
    | _ => none
  rank := fun
    | 1 => 1
    | 2 => 2
    | 3 => 2
    | 4 => 2
    | 5 => 3
    | _ => 0
  rank_lt := by
    intro c p h
    match c, h with
    | 1, h => cases h; decide
    | 2, h => cases h; decide
    | 3, h => cases h; decide
    | 4, h => cases h; decide
    | 5, h => cases h; decide
  path := fun
    | 1 => ["datum"]
    | 2 => ["list"]
    | 3 => ["mob"]
    | 4 => ["obj"]
    | 5 => ["mob", "living"]
    | _ => []
  find := fun p =>
    if p = [] then some 0
    else if p = ["datum"] then some 1
    else if p = ["list"] then some 2
    else if p = ["mob"] then some 3
    else if p = ["obj"] then some 4
    else if p = ["mob", "living"] then some 5
    else none
  nav := fun _ _ => none
  vars := fun i n =>
    if i = 1 ∧ n = "tag" then some { path := [] }
    else if i = 2 ∧ n = "len" then some { path := [] }
    else if i = 3 ∧ n = "key" then some { path := [], isPrivate := true }
    else if i = 3 ∧ n = "held" then some { path := ["list", "obj"] }
    else if i = 4 ∧ n = "owner" then some { path := ["mob"] }
    else if i = 4 ∧ n = "broken" then some { path := ["mbo"] }
    else none
  procs := fun i n =>
    if i = 1 ∧ n = "New" then [{ params := [] }]
    else if i = 3 ∧ n = "Say" then [{ params := ["text", "loud"] }]
    else []
  kind := fun _ _ => none

/-- Inside a proc of `/obj`. -/
def demoCtx : Ctx where
  tree := demo
  returns := fun _ => none
  privateBy := fun _ => none
  protectedBy := fun _ => none
  ty := 4
  proc := ⟨4, "Use", 0⟩
  newContext := false
  locals := fun n => if n = "L" then some { st := .type 5 } else none

/-- `owner.held[1].owner.tag` says nothing. -/
def demoGood : Expr :=
  .base 1 (.ident "owner") (.cons 2 (.field .dot "held") (.cons 3 (.index (.base 4 (.int 1) .nil))
    (.cons 5 (.field .dot "owner") (.cons 6 (.field .dot "tag") .nil))))

/-- `owner.held[1].key`: the objects held have no `key`. -/
def demoBad : Expr :=
  .base 1 (.ident "owner") (.cons 2 (.field .dot "held") (.cons 3 (.index (.base 4 (.int 1) .nil))
    (.cons 5 (.field .dot "key") .nil)))

/-- `L.Say("x", lood = 1)`: there is no such parameter. -/
def demoKwarg : Expr :=
  .base 1 (.ident "L") (.cons 2 (.call .dot "Say" (.cons (.base 3 (.string "x") .nil)
    (.cons (.assign .assign (.base 4 (.ident "lood") .nil) (.base 5 (.int 1) .nil)) .nil))) .nil)

example : (visitExpr demoCtx 0 none demoGood).2 = [] := by decide +kernel
example : (visitExpr demoCtx 0 none demoBad).2 = [(5, .msg (.undefinedField "key" 4))] := by decide +kernel
example : (visitExpr demoCtx 0 none demoKwarg).2 =
    [(2, .call ⟨⟨3, "Say", 0⟩, false, 5, false, false⟩), (2, .msg (.badKwarg "lood" ⟨3, "Say", 0⟩))] := by decide +kernel
example : (visitExpr demoCtx 0 none (.base 1 (.ident "L") (.cons 2 (.field .dot "key") .nil))).2 =
    [(2, .msg (.privateVar "key" 5))] := by decide +kernel
example : (visitExpr demoCtx 0 none (.base 1 (.ident "broken") .nil)).2 =
    [(1, .msg (.undefinedType ["mbo"]))] := by decide +kernel

theorem badFlag_not_var {s : Ident} {r : FlagRule} {n : Ident} {x : Expr} {m : Msg} (hm : m = .undefinedVar n)
    (h : BadFlag s r x m) : False := by
  induction h with
  | left _ _ ih => exact ih hm
  | right _ _ ih => exact ih hm
  | _ => cases hm

theorem badFlag_not_field {s : Ident} {r : FlagRule} {n : Ident} {i : Nat} {x : Expr} {m : Msg} (hm : m = .undefinedField n i)
    (h : BadFlag s r x m) : False := by
  induction h with
  | left _ _ ih => exact ih hm
  | right _ _ ih => exact ih hm
  | _ => cases hm

theorem badFlag_not_proc {s : Ident} {r : FlagRule} {n : Ident} {i : Nat} {x : Expr} {m : Msg} (hm : m = .undefinedProc n i)
    (h : BadFlag s r x m) : False := by
  induction h with
  | left _ _ ih => exact ih hm
  | right _ _ ih => exact ih hm
  | _ => cases hm

/-- **C79**: the message about an undefined variable comes exactly for an identifier that is no local variable, not `type`,
and that neither the type of the proc nor an ancestor declares. -/
theorem undefinedVar_iff (c : Ctx) (e : Expr) (l : Loc) (h : Option Nat) (l' : Loc) (n : Ident) :
    (l', .msg (.undefinedVar n)) ∈ (visitExpr c l h e).2 ↔
      c.locals n = none ∧ n ≠ "type" ∧ (∀ d, ¬ Declares c.tree c.ty n d) ∧ ∃ h', At c l h e (.term l' h' (.ident n)) := by
  rw [effects_iff]
  constructor
  · rintro ⟨s, h1, h2, rfl⟩
    cases h2 with
    | undefinedVar a b d => exact ⟨a, b, d, _, h1⟩
    | call _ hc => cases hc with | filter _ _ _ hf => cases hf with | flag _ _ _ _ _ hb => exact (badFlag_not_var rfl hb).elim
  · rintro ⟨a, b, d, h', h1⟩
    exact ⟨_, h1, .undefinedVar a b d, rfl⟩

/-- **C79**: the message about an undefined field comes exactly for a `.` or `?.` access, or a `::`, on something whose type
is known and neither that type nor an ancestor declares the name. -/
theorem undefinedField_iff (c : Ctx) (e : Expr) (l : Loc) (h : Option Nat) (l' : Loc) (n : Ident) (i : Nat) :
    (l', .msg (.undefinedField n i)) ∈ (visitExpr c l h e).2 ↔
      (∀ d, ¬ Declares c.tree i n d) ∧
      ((∃ a k, k.checked ∧ Basic c.tree a.st i ∧ ¬ (c.tree.path i = ["callee"] ∧ n = "proc") ∧
          At c l h e (.follow l' a (.field k n))) ∨
        ∃ a, Scope c a i ∧ At c l h e (.follow l' a (.staticField n))) := by
  rw [effects_iff]
  constructor
  · rintro ⟨s, h1, h2, rfl⟩
    cases h2 with
    | undefinedField a b d f => exact ⟨f, .inl ⟨_, _, a, b, d, h1⟩⟩
    | undefinedScoped a b => exact ⟨b, .inr ⟨_, a, h1⟩⟩
    | call _ hc => cases hc with | filter _ _ _ hf => cases hf with | flag _ _ _ _ _ hb => exact (badFlag_not_field rfl hb).elim
  · rintro ⟨f, ⟨a, k, h1, h2, h3, h4⟩ | ⟨a, h1, h2⟩⟩
    · exact ⟨_, h4, .undefinedField h1 h2 h3 f, rfl⟩
    · exact ⟨_, h2, .undefinedScoped h1 f, rfl⟩

/-- **C79**: the message about an undefined proc comes exactly for an unscoped call, a method call or a proc reference on a
type that neither defines nor inherits it. -/
theorem undefinedProc_iff (c : Ctx) (e : Expr) (l : Loc) (h : Option Nat) (l' : Loc) (n : Ident) (i : Nat) :
    (l', .msg (.undefinedProc n i)) ∈ (visitExpr c l h e).2 ↔
      (∀ p, ¬ Defines c.tree i n p) ∧
      ((∃ h' es, i = c.ty ∧ n ∉ ["__PROC__", "SpacemanDMM_unlint", "SpacemanDMM_debug"] ∧
          At c l h e (.term l' h' (.call n es))) ∨
        (∃ a k es, k.checked ∧ Basic c.tree a.st i ∧ At c l h e (.follow l' a (.call k n es))) ∨
        ∃ a, Scope c a i ∧ At c l h e (.follow l' a (.procRef n))) := by
  rw [effects_iff]
  constructor
  · rintro ⟨s, h1, h2, rfl⟩
    cases h2 with
    | undefinedProc a b => exact ⟨a, .inl ⟨_, _, rfl, b, h1⟩⟩
    | undefinedMethod a b d => exact ⟨d, .inr (.inl ⟨_, _, _, a, b, h1⟩)⟩
    | undefinedProcRef a b => exact ⟨b, .inr (.inr ⟨_, a, h1⟩)⟩
    | call _ hc => cases hc with | filter _ _ _ hf => cases hf with | flag _ _ _ _ _ hb => exact (badFlag_not_proc rfl hb).elim
  · rintro ⟨f, ⟨h', es, rfl, h1, h2⟩ | ⟨a, k, es, h1, h2, h3⟩ | ⟨a, h1, h2⟩⟩
    · exact ⟨_, h2, .undefinedProc f h1, rfl⟩
    · exact ⟨_, h3, .undefinedMethod h1 h2 f, rfl⟩
    · exact ⟨_, h2, .undefinedProcRef h1 f, rfl⟩

end Verif.Typing
