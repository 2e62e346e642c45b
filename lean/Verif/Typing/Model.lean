import Verif.Typing.Tree

/-!
# Model of DreamChecker's analysis of expressions

`crates/dreamchecker/src/lib.rs`, `AnalyzeProc::visit_expression` and what it calls (lines 2186-3534), and the evaluation
of return types (`type_expr.rs`).  The visitor is modelled as a function returning the analysis of the expression and the
list of its effects in order.  Left out everywhere: `Analysis::aset`, which nothing reads (`conflicts_with` has no caller),
and `Analysis::fix_hint`, which only adds a note to two of the messages.  The text of messages is left out, what they speak
about is kept.
-/

namespace Verif.Typing

/-- `UnaryOp` (crates/dreammaker/src/ast.rs:99-112). -/
inductive UnaryOp
  | neg | not | bitNot | preIncr | postIncr | preDecr | postDecr | reference | dereference
  deriving DecidableEq, Repr

/-- `BinaryOp` (ast.rs:185-243), those with an effect on this analysis or in a return type, and `other` for the rest. -/
inductive BinaryOp
  | add | sub | bitAnd | bitXor | bitOr | lshift | isIn | or | and | other
  deriving DecidableEq, Repr

/-- `AssignOp` (ast.rs:290-322): plain assignment and the compound ones. -/
inductive AssignOp
  | assign | compound
  deriving DecidableEq, Repr

/-- `PropertyAccessKind` (ast.rs:276-287). -/
inductive Access
  | dot | colon | safeDot | safeColon | scope
  deriving DecidableEq, Repr

mutual

/-- `Expression` (ast.rs:958-994). -/
inductive Expr
  | base (l : Loc) (t : Term) (fs : Follows)
  | binary (op : BinaryOp) (l r : Expr)
  | assign (op : AssignOp) (l r : Expr)
  | ternary (c a b : Expr)

/-- `Term` (ast.rs:1121-1208).  Simplified: the variables of a prefab, the expression of `new foo.bar()`, the input type of
`input()` and the text between the parts of an interpolated string are left out, as this analysis does not look at them;
`args: None` of `new` is the empty list (lib.rs:2709); the weights and choices of `pick` are one list in the order in which
they are visited (lib.rs:2623-2628); an optional expression is a list of at most one. -/
inductive Term
  | null
  | int (n : Int)
  | float
  | string (s : Ident)
  | resource
  | as
  | ident (n : Ident)
  | globalIdent (n : Ident)
  | expr (e : Expr)
  | prefab (path : List (PathOp × Ident))
  | interp (parts : Exprs)
  | call (n : Ident) (args : Exprs)
  | selfCall (args : Exprs)
  | parentCall (args : Exprs)
  | globalCall (n : Ident) (args : Exprs)
  | newImplicit (args : Exprs)
  | newPrefab (path : List (PathOp × Ident)) (args : Exprs)
  | newMini
  | list (args : Exprs)
  | input (args inList : Exprs)
  | locate (args inList : Exprs)
  | pick (choices : Exprs)
  | dynCall (lhs rhs : Exprs)
  | extCall (library : Exprs) (function : Expr) (args : Exprs)
  | typeMacro
  | procMacro
  | impliedType

/-- `Follow` (ast.rs:1318-1337). -/
inductive Follow
  | unary (op : UnaryOp)
  | index (e : Expr)
  | field (k : Access) (n : Ident)
  | call (k : Access) (n : Ident) (args : Exprs)
  | staticField (n : Ident)
  | procRef (n : Ident)

/-- The follows of an expression, each with its place. -/
inductive Follows
  | nil
  | cons (l : Loc) (f : Follow) (fs : Follows)

/-- A list of expressions. -/
inductive Exprs
  | nil
  | cons (e : Expr) (es : Exprs)

end

/-- The same as a list. -/
def Exprs.toList : Exprs → List Expr
  | .nil => []
  | .cons e es => e :: es.toList

/-- The same as a list. -/
def Follows.toList : Follows → List (Loc × Follow)
  | .nil => []
  | .cons l f fs => (l, f) :: fs.toList

/-- `Expression::as_term` (ast.rs:998-1003). -/
def Expr.asTerm : Expr → Option Term
  | .base _ t .nil => some t
  | _ => none

/-- `Term::as_kwarg_key` (ast.rs:1283-1289). -/
def Term.kwargKey : Term → Option Ident
  | .ident i => some i
  | .string s => some s
  | _ => none

/-- The name of a keyword argument (lib.rs:3263-3274, 3489-3497). -/
def Expr.kwarg : Expr → Option Ident
  | .assign .assign lhs _ => lhs.asTerm.bind Term.kwargKey
  | _ => none

/-- `Constant` (crates/dreammaker/src/constants.rs:34-70), of which only strings and paths are looked into here. The paths
that come up here never carry variables (`Pop::from_path_str`), so that test (lib.rs:2886-2890) is left out. -/
inductive Val
  | null
  | num
  | str (s : Ident)
  | res
  | prefab (path : List Ident)
  deriving DecidableEq, Repr

/-- `Analysis` (lib.rs:211-218).  `is_impure` is only ever `None` or `Some(true)`. -/
structure An where
  st : STy := .none
  value : Option Val := none
  impure : Bool := false
  deriving DecidableEq, Repr

/-- `Analysis::empty` (lib.rs:221-229). -/
def An.empty : An := {}

/-- `Analysis::from(StaticType)` (lib.rs:311-327). -/
def An.ofType (s : STy) : An := { st := s }

/-- What the checker says about an expression; each kind is one call of `error(..)`. -/
inductive Msg
  | undefinedType (path : List Ident)        -- lib.rs:1217-1220
  | undefinedVar (n : Ident)                 -- lib.rs:2425
  | undefinedGlobalVar (n : Ident)           -- lib.rs:2438
  | badPath                                  -- lib.rs:2457, 2560
  | undefinedProc (n : Ident) (on : Nat)     -- lib.rs:2503, 2974, 3006
  | undefinedGlobalProc (n : Ident)          -- lib.rs:2542
  | noParentProc                             -- lib.rs:2522
  | noTypeHint                               -- lib.rs:2551
  | noNew (on : Nat)                         -- lib.rs:2722
  | improperIndex (on : Nat)                 -- lib.rs:2805
  | undefinedProcField (n : Ident)           -- lib.rs:2819
  | privateVar (n : Ident) (on : Nat)        -- lib.rs:2832
  | protectedVar (n : Ident) (on : Nat)      -- lib.rs:2842
  | undefinedField (n : Ident) (on : Nat)    -- lib.rs:2854, 2903
  | fieldNeedsType (n : Ident)               -- lib.rs:2859
  | noTypepath (n : Ident)                   -- lib.rs:2876, 2983
  | notTypepath                              -- lib.rs:2881, 2988
  | missingTypepath (path : List Ident)      -- lib.rs:2892, 2999
  | privateProc (p : Proc)                   -- lib.rs:2926, 3241
  | protectedProc (p : Proc)                 -- lib.rs:2945
  | callNeedsType (n : Ident)                -- lib.rs:2962
  | noOverload (op : Ident)                  -- lib.rs:3065
  | ambiguousIn                              -- lib.rs:2243-2313
  | ambiguousNot                             -- lib.rs:3107
  | badKwarg (n : Ident) (p : Proc)          -- lib.rs:3279
  | kwargOrder (p : Proc)                    -- lib.rs:3337
  | emptyFind                                -- lib.rs:3386
  | filterNoType                             -- lib.rs:3399
  | filterBadType                            -- lib.rs:3408
  | filterUnknownType (s : Ident)            -- lib.rs:3419
  | filterBadArg (s arg : Ident)             -- lib.rs:3430
  | filterExclusive (s : Ident)              -- lib.rs:3152
  | filterFollow                             -- lib.rs:3180
  | filterBadFlag (s flag : Ident)           -- lib.rs:3191
  | filterBadValue (s : Ident)               -- lib.rs:3198
  | filterWrong (s : Ident)                  -- lib.rs:3205
  deriving DecidableEq, Repr

/-- `CallEdge` (lib.rs:601-608). -/
structure Edge where
  proc : Proc
  newContext : Bool
  src : Nat
  exact : Bool
  inherit : Bool
  deriving DecidableEq, Repr

/-- What visiting an expression does: a diagnostic, an entry in the call tree, a note that the proc sleeps or is impure, a
use of a keyword argument (lib.rs:3298-3316), a call of the parent proc (lib.rs:2516). -/
inductive Effect
  | msg (m : Msg)
  | call (e : Edge)
  | sleep (what : Ident)
  | impure (what : Ident)
  | kwarg (src : Nat) (p : Proc) (n : Ident)
  | callsParent
  deriving DecidableEq, Repr

/-- An effect and the place it is recorded at. -/
abbrev Ev := Loc × Effect

/-- A diagnostic at a place. -/
def say (l : Loc) (m : Msg) : List Ev := [(l, .msg m)]

/-- `TypeExpr` (type_expr.rs:32-57). -/
inductive TExpr
  | static (s : STy)
  | paramPath (name : Ident) (idx ct : Nat)
  | paramStatic (name : Ident) (idx ct : Nat)
  | cond (c a b : TExpr)
  deriving DecidableEq, Repr

/-- The parts of `AnalyzeObjectTree` and `AnalyzeProc` (lib.rs:611-635, 1404-1412) read while an expression is visited.
`privateBy p` is the definition named by `private.get_self_or_parent(p)` if its flag is true (see C58), likewise
`protectedBy`. -/
structure Ctx where
  tree : Tree
  returns : Proc → Option TExpr
  privateBy : Proc → Option Proc
  protectedBy : Proc → Option Proc
  ty : Nat
  proc : Proc
  newContext : Bool
  locals : Ident → Option An

/-- `AnalyzeObjectTree::static_type` and `AnalyzeProc::static_type` (lib.rs:1173-1181, 3505-3507). -/
def Ctx.typed (c : Ctx) (l : Loc) (path : List Ident) : An × List Ev :=
  match c.tree.staticType path with
  | .ok s => (.ofType s, [])
  | .error p => (.empty, say l (.undefinedType p))

/-- The analysis of a constant path to a type (lib.rs:2407-2413, 2445-2453, 2672-2679). -/
def Ctx.pathTo (c : Ctx) (i : Nat) : An := { value := some (.prefab (c.tree.path i)) }

/-- `visit_term` on an identifier (lib.rs:2398-2428). -/
def visitIdent (c : Ctx) (l : Loc) (n : Ident) : An × List Ev :=
  match c.locals n with
  | some a => (a, [])
  | none =>
    if n == "type" then (c.pathTo c.ty, [])
    else match c.tree.varDecl c.ty n with
      | some d => let r := c.typed l d.path; ({ r.1 with impure := true }, r.2)
      | none => (.empty, say l (.undefinedVar n))

/-- `visit_term` on `::name` (lib.rs:2429-2441). -/
def visitGlobal (c : Ctx) (l : Loc) (n : Ident) : An × List Ev :=
  match c.tree.varDecl 0 n with
  | some d => let r := c.typed l d.path; ({ r.1 with impure := true }, r.2)
  | none => (.empty, say l (.undefinedGlobalVar n))

/-- The built-in procs that sleep (lib.rs:2470-2479). -/
def sleepers (c : Ctx) (l : Loc) (n : Ident) : List Ev :=
  if !c.newContext && ["sleep", "alert", "shell", "winexists", "winget"].contains n then [(l, .sleep n)] else []

/-- `check_type_sleepers` (lib.rs:2729-2754). -/
def typeSleepers (c : Ctx) (ty : Nat) (l : Loc) (n : Ident) : List Ev :=
  if c.tree.path ty == ["client"] then
    if !c.newContext && ["SoundQuery", "MeasureText"].contains n then [(l, .sleep ("client." ++ n))] else []
  else if c.tree.path ty == ["world"] then
    if !c.newContext && ["Import", "Export"].contains n then [(l, .sleep ("world." ++ n))] else []
  else []

/-- The keyword-argument part of the loop over the arguments (lib.rs:3263-3320).  Left out: the notes about overrides that
do have the parameter. -/
def kwargEvents (c : Ctx) (l : Loc) (src : Nat) (p : Proc) (exact : Bool) (e : Expr) : List Ev :=
  match e.kwarg with
  | none => []
  | some n =>
    if (c.tree.info p).params.contains n then
      if exact then [] else [(l, .kwarg src p n)]
    else say l (.badKwarg n p)

/-- The check of the order of arguments (lib.rs:3333-3348). -/
def orderEvents (l : Loc) (p : Proc) (any : Bool) (e : Expr) : List Ev :=
  if any && e.kwarg.isNone && !(p.ty == 0 && p.name == "animate") then say l (.kwargOrder p) else []

/-- The loop over the arguments (lib.rs:3259-3358), given what visiting the value of each has done; `any` is
`any_kwargs_yet`. -/
def argEvents (c : Ctx) (l : Loc) (src : Nat) (p : Proc) (exact : Bool) : Bool → List Expr → List (An × List Ev) → List Ev
  | any, e :: es, v :: vs =>
    let any' := any || e.kwarg.isSome
    kwargEvents c l src p exact e ++ orderEvents l p any' e ++ v.2 ++ argEvents c l src p exact any' es vs
  | _, _, _ => []

/-- `param_idx_map` (lib.rs:3355-3357): the arguments without a name, in order. -/
def positional (es : List Expr) (vs : List An) : List An :=
  ((es.zip vs).filter fun x => x.1.kwarg.isNone).map Prod.snd

/-- `param_name_map` and `param_expr_map` (lib.rs:3352-3354): a later argument replaces an earlier one of the same name. -/
def named (es : List Expr) (vs : List An) (n : Ident) : Option (An × Expr) :=
  ((es.zip vs).reverse.find? fun x => x.1.kwarg == some n).map fun x => (x.2, x.1)

/-- Whether the first argument is a call of `arglist` (lib.rs:3321-3331): `param_name_map` is empty and `param_idx` is 0. -/
def usesArglist : List Expr → Bool
  | [] => false
  | e :: _ =>
    match e.asTerm with
    | some (.call n _) => n == "arglist"
    | _ => false

/-- `TypeExprContext::get` (type_expr.rs:20-28). -/
def argOf (es : List Expr) (vs : List An) (n : Ident) (i : Nat) : Option An :=
  match named es vs n with
  | some a => some a.1
  | none => (positional es vs)[i]?

/-- `TypeExpr::evaluate` (type_expr.rs:72-116); `get` is `TypeExprContext::get`. -/
def TExpr.eval (t : Tree) (get : Ident → Nat → Option An) : TExpr → Except (List Ident) STy
  | .static s => .ok s
  | .cond c a b =>
    match c.eval t get with
    | .error e => .error e
    | .ok s => if s.truthy then a.eval t get else b.eval t get
  | .paramPath n i _ =>
    match get n i with
    | some ⟨_, some (.prefab p), _⟩ => t.staticType p
    | _ => .ok .none
  | .paramStatic n i k =>
    match get n i with
    | some a => .ok (a.st.strips k)
    | none => .ok .none

/-- `global_builtin_returntype` (lib.rs:3509-3533). -/
def builtinReturn (t : Tree) (n : Ident) : STy :=
  if ["argslist", "flist", "icon_states", "splittext", "typesof"].contains n then .list .none
  else if n == "block" then .list (.type (t.expect "turf"))
  else if ["bounds", "obounds", "orange", "oview", "range", "view"].contains n then .list (.type (t.expect "atom"))
  else if ["hearers", "ohearers", "oviewers", "viewers"].contains n then .list (.type (t.expect "mob"))
  else if n == "get_step" then .type (t.expect "turf")
  else if n == "icon" then .type (t.expect "icon")
  else if n == "matrix" then .type (t.expect "matrix")
  else if n == "regex" then .type (t.expect "regex")
  else .none

/-- `VALID_FILTER_TYPES` (crates/dreammaker/src/ast.rs:1624-1639). -/
def filterTypes : List (Ident × List Ident) :=
  [("alpha", ["x", "y", "icon", "render_source", "flags"]),
   ("angular_blur", ["x", "y", "size"]),
   ("bloom", ["threshold", "size", "offset", "alpha"]),
   ("color", ["color", "space"]),
   ("displace", ["x", "y", "size", "icon", "render_source", "flags"]),
   ("drop_shadow", ["x", "y", "size", "offset", "color"]),
   ("blur", ["size"]),
   ("layer", ["x", "y", "icon", "render_source", "flags", "color", "transform", "blend_mode"]),
   ("motion_blur", ["x", "y"]),
   ("outline", ["size", "color", "flags"]),
   ("radial_blur", ["x", "y", "size"]),
   ("rays", ["x", "y", "size", "color", "offset", "density", "threshold", "factor", "flags"]),
   ("ripple", ["x", "y", "size", "repeat", "radius", "falloff", "flags"]),
   ("wave", ["x", "y", "size", "offset", "flags"])]

/-- An entry of `VALID_FILTER_FLAGS`. -/
structure FlagRule where
  field : Ident
  exclusive : Bool
  canBeZero : Bool
  flags : List Ident

/-- `VALID_FILTER_FLAGS` (ast.rs:1642-1651). -/
def filterFlags : List (Ident × FlagRule) :=
  [("alpha", ⟨"flags", false, true, ["MASK_INVERSE", "MASK_SWAP"]⟩),
   ("color", ⟨"space", true, false, ["FILTER_COLOR_RGB", "FILTER_COLOR_HSV", "FILTER_COLOR_HSL", "FILTER_COLOR_HCY"]⟩),
   ("displace", ⟨"flags", false, true, ["FILTER_OVERLAY"]⟩),
   ("layer", ⟨"flags", true, true, ["FILTER_OVERLAY", "FILTER_UNDERLAY"]⟩),
   ("rays", ⟨"flags", false, true, ["FILTER_OVERLAY", "FILTER_UNDERLAY"]⟩),
   ("outline", ⟨"flags", false, true, ["OUTLINE_SHARP", "OUTLINE_SQUARE"]⟩),
   ("ripple", ⟨"flags", false, true, ["WAVE_BOUNDED"]⟩),
   ("wave", ⟨"flags", false, true, ["WAVE_SIDEWAYS", "WAVE_BOUNDED"]⟩)]

/-- `check_filter_flag` (lib.rs:3138-3210). -/
def flagEvents (l : Loc) (s : Ident) (r : FlagRule) : Expr → List Ev
  | .binary .bitOr a b =>
    if r.exclusive then say l (.filterExclusive s) else flagEvents l s r a ++ flagEvents l s r b
  | .base _ _ (.cons _ _ _) => say l .filterFollow
  | .base _ (.ident n) .nil => if r.flags.contains n then [] else say l (.filterBadFlag s n)
  | .base _ (.int 0) .nil => if r.canBeZero then [] else say l (.filterBadValue s)
  | .base _ _ .nil => say l (.filterBadValue s)
  | _ => say l (.filterWrong s)

/-- The value given to a keyword argument (lib.rs:3273). -/
def Expr.kwargValue : Expr → Expr
  | .assign _ _ r => r
  | e => e

/-- The names of the keyword arguments, each once (`param_name_map.keys()`, lib.rs:3428). -/
def keys (es : List Expr) : List Ident := (es.filterMap Expr.kwarg).eraseDups

/-- The check of `filter()` (lib.rs:3396-3450): what it says, and whether the rest of `visit_call` is skipped.  The order of
the keyword arguments is that of a hash map, here that of the call. -/
def filterEvents (l : Loc) (es : List Expr) (vs : List An) : List Ev × Bool :=
  match named es vs "type" with
  | none => (if usesArglist es then [] else say l .filterNoType, true)
  | some (a, _) =>
    match a.value with
    | some (.str s) =>
      match filterTypes.lookup s with
      | none => (say l (.filterUnknownType s), true)
      | some args =>
        (((keys es).flatMap fun k =>
            if k != "type" && k != "name" && !args.contains k then say l (.filterBadArg s k) else []) ++
          (match filterFlags.lookup s with
          | none => []
          | some r =>
            match named es vs r.field with
            | none => []
            | some (_, e) => flagEvents l s r e.kwargValue), false)
    | _ => (say l .filterBadType, true)

/-- The type of `astype(x, /path)` (lib.rs:3360-3379), `none` if this is not such a call. -/
def astype (c : Ctx) (p : Proc) (es : List Expr) (vs : List An) : Option An :=
  if p.ty == 0 && p.name == "astype" then
    match (positional es vs)[1]?.bind An.value with
    | some (.prefab path) =>
      match c.tree.find path with
      | some i => some (.ofType (.type i))
      | none => (positional es vs)[0]?.map fun a => .ofType a.st
    | _ => (positional es vs)[0]?.map fun a => .ofType a.st
  else none

/-- The warning about `list.Find()` (lib.rs:3381-3393). -/
def findEvents (c : Ctx) (l : Loc) (p : Proc) (es : List Expr) : List Ev :=
  if (c.tree.info p).builtin && es.isEmpty && p.name == "Find" &&
      (c.tree.path p.ty == ["list"] || c.tree.path p.ty == ["alist"]) then say l .emptyFind
  else []

/-- The type of a call (lib.rs:3452-3476). -/
def returnType (c : Ctx) (l : Loc) (p : Proc) (es : List Expr) (vs : List An) : An × List Ev :=
  if p.ty == 0 && (c.tree.info p).builtin then (.ofType (builtinReturn c.tree p.name), [])
  else match c.returns p with
    | none => (.empty, [])
    | some t =>
      match t.eval c.tree (argOf es vs) with
      | .ok s => (.ofType s, [])
      | .error path => (.empty, say l (.undefinedType path))

/-- `visit_call` (lib.rs:3212-3477), given the visits of the arguments. -/
def visitCall (c : Ctx) (l : Loc) (src : Nat) (p : Proc) (exact inherit : Bool) (es : List Expr)
    (visits : List (An × List Ev)) : An × List Ev :=
  let vs := visits.map Prod.fst
  let head := (l, Effect.call ⟨p, c.newContext, src, exact, inherit⟩) ::
    (match c.privateBy p with
      | some q => if c.ty != q.ty then say l (.privateProc q) else []
      | none => []) ++
    argEvents c l src p exact false es visits
  match astype c p es vs with
  | some a => (a, head)
  | none =>
    let f := if p.ty == 0 && p.name == "filter" then filterEvents l es vs else ([], false)
    if f.2 then (.empty, head ++ findEvents c l p es ++ f.1)
    else
      let r := returnType c l p es vs
      (r.1, head ++ findEvents c l p es ++ f.1 ++ r.2)

/-- `visit_new` (lib.rs:2697-2727), given the visits of the arguments for when there is a `New`. -/
def visitNew (c : Ctx) (l : Loc) (ty : Nat) (es : List Expr) (visits : List (An × List Ev)) : An × List Ev :=
  match c.tree.getProc ty "New" with
  | some p => (.empty, (visitCall c l ty p true false es visits).2)
  | none =>
    if [["list"], ["alist"], ["vector"], ["pixloc"]].contains (c.tree.path ty) then (.empty, [])
    else (.empty, say l (.noNew ty))

/-- `check_operator_overload` (lib.rs:3034-3071). -/
def visitOverload (c : Ctx) (l : Loc) (a : An) (op : Ident) : An × List Ev :=
  let pre : List Ev := if a.impure then [(l, .impure (op ++ " done on non-local var"))] else []
  match a.st with
  | .none => (.empty, pre)
  | .proc => (.empty, pre)
  | .type i =>
    match c.tree.getProc i op with
    | some p => let r := visitCall c l i p true false [] []; (r.1, pre ++ r.2)
    | none => (.empty, pre ++ say l (.noOverload op))
  | .list _ => (.empty, pre ++ say l (.noOverload op))

/-- `visit_unary` (lib.rs:3073-3096). -/
def visitUnary (c : Ctx) (l : Loc) (a : An) : UnaryOp → An × List Ev
  | .preIncr => visitOverload c l a "operator++"
  | .postIncr => visitOverload c l a "operator++"
  | .preDecr => visitOverload c l a "operator--"
  | .postDecr => visitOverload c l a "operator--"
  | _ => (.empty, [])

/-- Reading `lhs.name` or `lhs?.name` (lib.rs:2815-2867). -/
def visitField (c : Ctx) (l : Loc) (a : An) (n : Ident) : An × List Ev :=
  match a.st with
  | .proc =>
    (.empty, if ["type", "name", "desc", "category", "invisibility"].contains n then [] else say l (.undefinedProcField n))
  | s =>
    match s.basic c.tree with
    | none => (.empty, say l (.fieldNeedsType n))
    | some i =>
      if c.tree.path i == ["callee"] && n == "proc" then (.ofType .proc, [])
      else match c.tree.varDecl i n with
        | none => (.empty, say l (.undefinedField n i))
        | some d =>
          let r := c.typed l d.path
          (r.1, (if i != c.ty && d.isPrivate then say l (.privateVar n i)
            else if !c.tree.isSubtype c.ty i && d.isProtected then say l (.protectedVar n i)
            else []) ++ r.2)

/-- The type on the left of `::` (lib.rs:2869-2899, 2976-3003). -/
def scopeType (c : Ctx) (l : Loc) (a : An) (n : Ident) : Nat ⊕ List Ev :=
  match a.st.basic c.tree with
  | some i => .inl i
  | none =>
    match a.value with
    | none => .inr (say l (.noTypepath n))
    | some (.prefab p) =>
      match c.tree.find p with
      | some i => .inl i
      | none => .inr (say l (.missingTypepath p))
    | some _ => .inr (say l .notTypepath)

/-- `lhs::name` (lib.rs:2868-2911). -/
def visitStaticField (c : Ctx) (l : Loc) (a : An) (n : Ident) : An × List Ev :=
  match scopeType c l a n with
  | .inr evs => (.empty, evs)
  | .inl i =>
    match c.tree.varDecl i n with
    | none => (.empty, say l (.undefinedField n i))
    | some d => c.typed l d.path

/-- `lhs::name()` (lib.rs:2975-3030). -/
def visitProcRef (c : Ctx) (l : Loc) (a : An) (n : Ident) : An × List Ev :=
  match scopeType c l a n with
  | .inr evs => (.empty, evs)
  | .inl i =>
    match c.tree.getProc i n with
    | none => (.empty, say l (.undefinedProc n i))
    | some p =>
      ({ value := some (.prefab (c.tree.path i ++ (c.tree.declKind p.ty p.name).toList ++ [n])) }, [])

/-- `lhs.name(..)` or `lhs?.name(..)` (lib.rs:2913-2973), given the visits of the arguments for when they happen. -/
def visitMethod (c : Ctx) (l : Loc) (a : An) (n : Ident) (es : List Expr) (visits : List (An × List Ev)) : An × List Ev :=
  match a.st.basic c.tree with
  | none => (.empty, say l (.callNeedsType n))
  | some i =>
    let sl := typeSleepers c i l n
    match c.tree.getProc i n with
    | none => (.empty, sl ++ say l (.undefinedProc n i))
    | some p =>
      let ok := let r := visitCall c l i p false false es visits
        (r.1, sl ++ (match c.protectedBy p with
          | some q => if !c.tree.isSubtype c.ty q.ty then say l (.protectedProc q) else []
          | none => []) ++ r.2)
      match c.privateBy p with
      | some q => if i != q.ty then (.empty, sl ++ say l (.privateProc q)) else ok
      | none => ok

/-- `lhs[..]` (lib.rs:2792-2813), after the index has been visited. -/
def visitIndex (c : Ctx) (l : Loc) (a : An) : An × List Ev :=
  match a.st with
  | .list k => (.ofType k, [])
  | .type i => (a, if (c.tree.getProc i "operator[]").isNone then say l (.improperIndex i) else [])
  | _ => (a, [])

/-- `visit_binary` (lib.rs:3120-3135). -/
def visitBinary (c : Ctx) (a : An) : BinaryOp → An
  | .add | .sub | .bitOr | .bitAnd | .bitXor => if a.st.isList c.tree then .ofType a.st else .empty
  | _ => .empty

/-- The check of the left side of `in` (lib.rs:2238-2315). -/
def inEvents (l : Loc) (op : BinaryOp) (lhs : Expr) : List Ev :=
  if op == .isIn then
    match lhs with
    | .base _ _ fs => if fs.toList.any fun f => match f.2 with | .unary _ => true | _ => false then say l .ambiguousIn else []
    | _ => say l .ambiguousIn
  else []

/-- `<<` onto a mob, a savefile or a list (lib.rs:2209-2228). -/
def shiftEvents (c : Ctx) (l : Loc) (op : BinaryOp) (a : An) : List Ev :=
  if op == .lshift then
    if a.st == .type (c.tree.expect "mob") then [(l, .impure "LShift onto mob")]
    else if a.st == .type (c.tree.expect "savefile") then [(l, .impure "LShift onto savefile")]
    else if a.st == .type (c.tree.expect "list") then [(l, .impure "LShift onto list")]
    else []
  else []

/-- `check_negated_bitwise` (lib.rs:3098-3118, called at 2334-2345). -/
def notEvents (l : Loc) (op : BinaryOp) (lhs : Expr) : List Ev :=
  if op == .bitAnd || op == .bitOr || op == .bitXor then
    match lhs with
    | .base _ _ fs => if fs.toList.any fun f => match f.2 with | .unary .not => true | _ => false then say l .ambiguousNot else []
    | _ => []
  else []

mutual

/-- `visit_expression` (lib.rs:2186-2368). -/
def visitExpr (c : Ctx) (l : Loc) (hint : Option Nat) : Expr → An × List Ev
  | .base tl t fs =>
    let r := visitTerm c tl (match fs with | .nil => hint | .cons _ _ _ => none) t
    let s := visitFollows c r.1 fs
    (s.1, r.2 ++ s.2)
  | .binary op lhs rhs =>
    let h := if op == .or then hint else none
    let a := visitExpr c l h lhs
    let b := visitExpr c l h rhs
    (visitBinary c a.1 op, inEvents l op lhs ++ a.2 ++ shiftEvents c l op a.1 ++ b.2 ++ notEvents l op lhs)
  | .assign _ lhs rhs =>
    let a := visitExpr c l none lhs
    let b := visitExpr c l (a.1.st.basic c.tree) rhs
    (b.1, a.2 ++ (if a.1.impure then [(l, .impure "Assignment on purity breaking expression")] else []) ++ b.2)
  | .ternary cond x y =>
    let a := visitExpr c l none cond
    let b := visitExpr c l hint x
    let d := visitExpr c l hint y
    (b.1, a.2 ++ b.2 ++ d.2)

/-- `visit_term` (lib.rs:2370-2695).  `input()` also depends on nothing but its arguments here, as its type only enters the
assumptions. -/
def visitTerm (c : Ctx) (l : Loc) (hint : Option Nat) : Term → An × List Ev
  | .null => ({ value := some .null }, [])
  | .int _ => ({ value := some .num }, [])
  | .float => ({ value := some .num }, [])
  | .string s => ({ value := some (.str s) }, [])
  | .resource => ({ value := some .res }, [])
  | .as => (.empty, [])
  | .ident n => visitIdent c l n
  | .globalIdent n => visitGlobal c l n
  | .expr e => visitExpr c l hint e
  | .prefab path =>
    match c.tree.nav c.ty path with
    | some i => (c.pathTo i, [])
    | none => (.empty, say l .badPath)
  | .interp parts => (.empty, visitAll c l parts)
  | .call n args =>
    let pre := sleepers c l n ++ typeSleepers c c.ty l n
    match c.tree.getProc c.ty n with
    | some p => let r := visitCall c l c.ty p false true args.toList (visitArgs c l args); (r.1, pre ++ r.2)
    | none =>
      if n == "__PROC__" then
        let r := visitCall c l c.ty c.proc false true args.toList (visitArgs c l args); (r.1, pre ++ r.2)
      else if n == "SpacemanDMM_unlint" then (.empty, pre)
      else if n == "SpacemanDMM_debug" then (.empty, pre ++ visitAll c l args)
      else (.empty, pre ++ say l (.undefinedProc n c.ty))
  | .selfCall args => visitCall c l c.ty c.proc true true args.toList (visitArgs c l args)
  | .parentCall args =>
    match c.tree.parentProc c.proc with
    | some p =>
      let r := visitCall c l c.ty p true true args.toList (visitArgs c l args)
      (r.1, (l, .callsParent) :: r.2)
    | none => (.empty, (l, .callsParent) :: say l .noParentProc)
  | .globalCall n args =>
    match c.tree.getProc 0 n with
    | some p => visitCall c l 0 p true false args.toList (visitArgs c l args)
    | none => (.empty, say l (.undefinedGlobalProc n))
  | .newImplicit args =>
    match hint with
    | some i => visitNew c l i args.toList (visitArgs c l args)
    | none => (.empty, say l .noTypeHint)
  | .newPrefab path args =>
    match c.tree.nav c.ty path with
    | some i => visitNew c l i args.toList (visitArgs c l args)
    | none => (.empty, say l .badPath)
  | .newMini => (.empty, [])
  | .list args => (.ofType (.type (c.tree.expect "list")), (visitArgs c l args).flatMap Prod.snd)
  | .input args inList =>
    (.empty, (if c.newContext then [] else [(l, .sleep "input")]) ++ (visitArgs c l args).flatMap Prod.snd ++
      visitAll c l inList)
  | .locate args inList => (.empty, (visitArgs c l args).flatMap Prod.snd ++ visitAll c l inList)
  | .pick choices => (.empty, visitAll c l choices)
  | .dynCall lhs rhs => (.empty, (visitArgs c l lhs).flatMap Prod.snd ++ (visitArgs c l rhs).flatMap Prod.snd)
  | .extCall lib f args =>
    (.empty, visitAll c l lib ++ (visitExpr c l none f).2 ++ (visitArgs c l args).flatMap Prod.snd)
  | .typeMacro => (c.pathTo c.ty, [])
  | .procMacro => (.empty, [])
  | .impliedType =>
    match hint with
    | none => (.empty, [])
    | some _ => (c.pathTo c.ty, [])

/-- `visit_follow` (lib.rs:2756-3032), along the follows of an expression (lib.rs:2197-2199). -/
def visitFollows (c : Ctx) (a : An) : Follows → An × List Ev
  | .nil => (a, [])
  | .cons l f fs =>
    let r : An × List Ev := match f with
      | .unary op => visitUnary c l a op
      | .index e => let i := visitExpr c l none e; let r := visitIndex c l a; (r.1, i.2 ++ r.2)
      | .field .colon _ => (.empty, [])
      | .field .safeColon _ => (.empty, [])
      | .field _ n => visitField c l a n
      | .call .colon _ args => (.empty, (visitArgs c l args).flatMap Prod.snd)
      | .call .safeColon _ args => (.empty, (visitArgs c l args).flatMap Prod.snd)
      | .call _ n args => visitMethod c l a n args.toList (visitArgs c l args)
      | .staticField n => visitStaticField c l a n
      | .procRef n => visitProcRef c l a n
    let s := visitFollows c r.1 fs
    (s.1, r.2 ++ s.2)

/-- The visits of the values of arguments (lib.rs:3350, 3479-3503): of a keyword argument, only what is on the right. -/
def visitArgs (c : Ctx) (l : Loc) : Exprs → List (An × List Ev)
  | .nil => []
  | .cons e es =>
    (match e with
      | .assign op lhs rhs =>
        if (Expr.assign op lhs rhs).kwarg.isSome then visitExpr c l none rhs else visitExpr c l none (.assign op lhs rhs)
      | e => visitExpr c l none e) :: visitArgs c l es

/-- Expressions visited one after the other for their effects. -/
def visitAll (c : Ctx) (l : Loc) : Exprs → List Ev
  | .nil => []
  | .cons e es => (visitExpr c l none e).2 ++ visitAll c l es

end

end Verif.Typing
