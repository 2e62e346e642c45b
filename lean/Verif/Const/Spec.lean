import Verif.Const.Model

/-!
# Specification of constant evaluation

The value of a variable is what its definition evaluates to when every variable in it stands for its own value.
There is no state here: nothing is remembered and nothing is marked.
-/

namespace Verif.Const

/-- the variable a name refers to on a type: the one on the nearest type up the chain of parents.  It must be
declared. -/
def resolveIn (env : Env) (name : Ident) : List Nat → Option Key
  | [] => none
  | t :: ts =>
    if (env.decl t name).isNone then none
    else if (env.var (t, name)).isSome then some (t, name)
    else resolveIn env name ts

def resolve (env : Env) (t : Nat) (name : Ident) : Option Key := resolveIn env name (env.chain t)

/-- a computation, with the variables given by `f` -/
def Comp.value {α : Type} (f : Nat → Ident → Bool → Option Cst) : Comp α → Option α
  | .ret a => some a
  | .err _ => none
  | .look t n m k => (f t n m).bind fun c => (k c).value f

/-- whether a variable may be read as a field of a typed `null` (`GLOB.name`), where only `const` variables are
allowed -/
def constOk (env : Env) (k : Key) : Bool :=
  match env.decl k.1 k.2, env.var k with
  | some d, some v => d.isConst || v.const.isSome || v.expr.isNone
  | _, _ => false

/-- the value of a variable, where definitions are unfolded to a depth; `none` is an error or too deep.  With
`strict`, a variable that is not `const` is an error where only `const` variables are allowed. -/
def valueAt (strict : Bool) (lib : Lib) (env : Env) : Nat → Key → Option Cst
  | 0, _ => none
  | n + 1, k =>
    match env.decl k.1 k.2, env.var k with
    | some d, some v =>
      match v.const with
      | some c => some c
      | none =>
        match v.expr with
        | none => some (.null (some d.typePath))
        | some e =>
          if d.evaluable then
            (defComp lib env k d e).value fun t name must =>
              (resolve env t name).bind fun k' =>
                if strict && must && !constOk env k' then none else valueAt strict lib env n k'
          else none
    | _, _ => none

/-- `c` is the value of the variable `k` -/
def Value (lib : Lib) (env : Env) (k : Key) (c : Cst) : Prop := ∃ n, valueAt false lib env n k = some c

/-- `c` is the value of the variable `k`, and no variable is read that is not allowed -/
def StrictValue (lib : Lib) (env : Env) (k : Key) (c : Cst) : Prop := ∃ n, valueAt true lib env n k = some c

/-- a computation asks for a variable, when the variables it asks for before have values -/
inductive Asks (lib : Lib) (env : Env) : Comp Cst → Key → Prop where
  | here {t n m f k} : resolve env t n = some k → Asks lib env (.look t n m f) k
  | later {t n m f k k' c} : resolve env t n = some k' → Value lib env k' c → Asks lib env (f c) k →
      Asks lib env (.look t n m f) k

/-- the definition of `k` refers to `k'` -/
def RefersTo (lib : Lib) (env : Env) (k k' : Key) : Prop :=
  ∃ d v e, env.decl k.1 k.2 = some d ∧ env.var k = some v ∧ v.const = none ∧ v.expr = some e ∧
    Asks lib env (defComp lib env k d e) k'

end Verif.Const
