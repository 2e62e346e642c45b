import Verif.Const.F32

/-!
# Model of the constant folder (`crates/dreammaker/src/constants.rs`)

* Strings are lists of characters.  `f32` is `F32`; `powf`, the trigonometric functions and the conversion from
  the HSV, HSL and HCY colour spaces are parameters (`Lib`).
* Source locations and the text of errors are not modelled; an error is one of the kinds of `Err`, and a Rust
  panic is `Err.panic`.
* The syntax tree (ast.rs) is kept as far as the folder looks at it.
* The folder touches the object tree only through `recursive_lookup`; it is modelled as a computation `Comp`
  that asks for variables, run against a state by `run`.  This makes no difference to the order of events.
* The object tree around the variables (parents, paths, procs) does not change during evaluation and is `Env`.
-/

namespace Verif.Const

abbrev Ident := List Char
abbrev TreePath := List Ident

/-! ## Syntax (ast.rs) -/

/-- `UnaryOp` (ast.rs:28-38) -/
inductive UnaryOp where
  | neg | not | bitNot | preIncr | postIncr | preDecr | postDecr | reference | dereference
deriving DecidableEq

/-- `BinaryOp` (ast.rs:116-142) -/
inductive BinaryOp where
  | add | sub | mul | div | pow | mod | floatMod | eq | notEq | less | greater | lessEq | greaterEq
  | lessOrGreater | equiv | notEquiv | bitAnd | bitXor | bitOr | lShift | rShift | and | or | in_ | to
deriving DecidableEq

/-- `PathOp` (ast.rs) -/
inductive PathOp where
  | slash | dot | colon
deriving DecidableEq

/-- `Follow` (ast.rs:1318-1337); indexing and calls are never constant and are `other` -/
inductive Follow where
  | field (name : Ident)
  | unary (op : UnaryOp)
  | staticField (name : Ident)
  | procReference (name : Ident)
  | other
deriving DecidableEq

mutual
/-- `Expression` (ast.rs:958-994); of an assignment operator only whether it is `=` is kept -/
inductive Expr where
  | base (term : Term) (follow : List Follow)
  | binary (op : BinaryOp) (lhs rhs : Expr)
  | ternary (cond if_ else_ : Expr)
  | assign (plain : Bool) (lhs rhs : Expr)
/-- `Term` (ast.rs:1121-1207); terms that are never constant are `other`.  `Option<Box<[Expression]>>` is a flag
and a list. -/
inductive Term where
  | null
  | int (i : Int)
  | float (f : F32)
  | ident (name : Ident)
  | string (s : List Char)
  | resource (s : List Char)
  | typeMacro
  | impliedType
  | expr (e : Expr)
  | prefab (path : List (PathOp × Ident)) (vars : VarList)
  | call (name : Ident) (args : ExprList)
  | newImplicit (hasArgs : Bool) (args : ExprList)
  | newPrefab (path : List (PathOp × Ident)) (vars : VarList) (hasArgs : Bool) (args : ExprList)
  | newMini
  | list (args : ExprList)
  | globalIdent (name : Ident)
  | other
inductive ExprList where
  | nil
  | cons (e : Expr) (rest : ExprList)
inductive VarList where
  | nil
  | cons (name : Ident) (e : Expr) (rest : VarList)
end

def ExprList.length : ExprList → Nat
  | .nil => 0
  | .cons _ r => r.length + 1

def ExprList.ofList : List Expr → ExprList
  | [] => .nil
  | e :: r => .cons e (ofList r)

/-! ## Constants (constants.rs:75-175) -/

/-- `ConstFn` (constants.rs:157-176) -/
inductive ConstFn where
  | icon | matrix | newlist | sound | filter | file | generator | vector
deriving DecidableEq

mutual
/-- `Constant` (constants.rs:79-103) -/
inductive Cst where
  | null (hint : Option TreePath)
  | newImplicit (hasArgs : Bool) (args : CArgs)
  | newPrefab (path : TreePath) (vars : CVars) (hasArgs : Bool) (args : CArgs)
  | list (args : CArgs)
  | call (f : ConstFn) (args : CArgs)
  | prefab (path : TreePath) (vars : CVars)
  | string (s : List Char)
  | resource (s : List Char)
  | float (f : F32)
/-- `Arguments` (constants.rs:22) -/
inductive CArgs where
  | nil
  | pos (c : Cst) (rest : CArgs)
  | kw (key value : Cst) (rest : CArgs)
/-- `IndexMap<Ident, Constant>`, in insertion order -/
inductive CVars where
  | nil
  | cons (name : Ident) (c : Cst) (rest : CVars)
end

def CArgs.toList : CArgs → List (Cst × Option Cst)
  | .nil => []
  | .pos c r => (c, none) :: r.toList
  | .kw k v r => (k, some v) :: r.toList

def CVars.isEmpty : CVars → Bool
  | .nil => true
  | .cons _ _ _ => false

def CVars.length : CVars → Nat
  | .nil => 0
  | .cons _ _ r => r.length + 1

/-- `IndexMap::get` -/
def CVars.get (k : Ident) : CVars → Option Cst
  | .nil => none
  | .cons k' c r => if k = k' then some c else r.get k

/-- `IndexMap::insert` -/
def CVars.insert (k : Ident) (c : Cst) : CVars → CVars
  | .nil => .cons k c .nil
  | .cons k' c' r => if k = k' then .cons k c r else .cons k' c' (r.insert k c)

mutual
/-- `Constant::eq` (constants.rs:128-152) -/
def Cst.beq : Cst → Cst → Bool
  | .null p, .null q => decide (p = q)
  | .newImplicit h a, .newImplicit h' a' => (h == h') && a.beq a'
  | .newPrefab p v h a, .newPrefab p' v' h' a' =>
    decide (p = p') && (v.length == v'.length && v.sub v') && (h == h') && a.beq a'
  | .list a, .list a' => a.beq a'
  | .call f a, .call f' a' => decide (f = f') && a.beq a'
  | .prefab p v, .prefab p' v' => decide (p = p') && (v.length == v'.length && v.sub v')
  | .string s, .string s' => decide (s = s')
  | .resource s, .resource s' => decide (s = s')
  | .float f, .float f' => f.oeq f'
  | _, _ => false
def CArgs.beq : CArgs → CArgs → Bool
  | .nil, .nil => true
  | .pos c r, .pos c' r' => c.beq c' && r.beq r'
  | .kw k v r, .kw k' v' r' => k.beq k' && v.beq v' && r.beq r'
  | _, _ => false
/-- the second half of `IndexMap::eq`: every entry is in the other map -/
def CVars.sub : CVars → CVars → Bool
  | .nil, _ => true
  | .cons k c r, m => (match m.get k with | some c' => c.beq c' | none => false) && r.sub m
end

/-- `Constant::from(bool)` (constants.rs:309-316) -/
def Cst.ofBool (b : Bool) : Cst := .float (if b then F32.ofInt 1 else F32.ofInt 0)

/-- `from_bit_op` (constants.rs:106-112) -/
def Cst.ofBits (x : Nat) : Cst := .float (F32.ofInt ((x &&& 0xffffff : Nat) : Int))

/-- `to_bool` (constants.rs:201-208) -/
def Cst.toBool : Cst → Bool
  | .null _ => false
  | .float f => f.nonzero
  | .string s => !s.isEmpty
  | _ => true

/-- `to_int` (constants.rs:217-222) -/
def Cst.toInt : Cst → Option Int
  | .float f => some f.toI32
  | _ => none

/-- `as_str` (constants.rs:224-229) -/
def Cst.asStr : Cst → Option (List Char)
  | .string s => some s
  | _ => none

/-! ## The surroundings of the folder -/

/-- the colour spaces of `rgb()` (constants.rs:1097-1102) -/
inductive Space where
  | rgb | hsv | hsl | hcy
deriving DecidableEq

/-- the parts of the platform that are not modelled: `f32::powf`, the trigonometric functions, and the crate
`color_space` with the rounding to bytes -/
structure Lib where
  powf : F32 → F32 → F32
  sin : F32 → F32
  cos : F32 → F32
  asin : F32 → F32
  acos : F32 → F32
  colour : Space → Int → Int → Int → Fin 256 × Fin 256 × Fin 256

/-- kinds of error -/
inductive Err where
  | recursive (name : Ident)
  | notEvaluable (name : Ident)
  | notConst (name : Ident)
  | unknownVar (name : Ident)
  | noContext
  | other
  | panic
deriving DecidableEq

/-- the part of `VarType` (ast.rs:1386-1390) the folder looks at -/
structure Decl where
  isConst : Bool
  isStatic : Bool
  isProtected : Bool
  typePath : TreePath

/-- `VarTypeFlags::is_const_evaluable` (ast.rs:651-654) -/
def Decl.evaluable (d : Decl) : Bool := d.isConst || !(d.isStatic || d.isProtected)

/-- `TypeVar` with `VarValue` (objtree.rs:62-82) at the start of evaluation; `const` is set for built-ins -/
structure Var where
  expr : Option Expr
  const : Option Cst
  decl : Option Decl

/-- a variable: the type it is on and its name -/
abbrev Key := Nat × Ident

/-- the object tree during evaluation -/
structure Env where
  vars : List (Key × Var)
  parent : Nat → Option Nat
  depth : Nat
  path : Nat → List Char
  find : List Char → Option Nat
  navigate : Nat → List (PathOp × Ident) → Option TreePath
  getProc : Nat → Ident → Option (Option Ident)

/-- `ConstantFolder` (constants.rs:607-613) -/
structure Ctx where
  lib : Lib
  tree : Option Env
  defines : Option (Ident → Bool)
  fexists : Option (List Char → Option Bool)
  ty : Nat

/-- a computation that looks up variables -/
inductive Comp (α : Type) where
  | ret (a : α)
  | err (e : Err)
  | look (ty : Nat) (name : Ident) (mustBeConst : Bool) (k : Cst → Comp α)

def Comp.bind {α β : Type} : Comp α → (α → Comp β) → Comp β
  | .ret a, f => f a
  | .err e, _ => .err e
  | .look t n m k, f => .look t n m fun c => (k c).bind f

/-! ## Operators -/

/-- `unary` (constants.rs:753-770) -/
def unary (op : UnaryOp) (c : Cst) : Except Err Cst :=
  match op, c with
  | .neg, .float f => .ok (.float f.neg)
  | .bitNot, .float f => .ok (.ofBits (2 ^ 32 - 1 - f.toU32))
  | .not, c => .ok (.ofBool !c.toBool)
  | _, _ => .error .other

/-- `u32::checked_shl`, with the bits above 32 dropped -/
def checkedShl (a n : Nat) : Option Nat := if n < 32 then some ((a <<< n) % 2 ^ 32) else none

/-- `u32::checked_shr` -/
def checkedShr (a n : Nat) : Option Nat := if n < 32 then some (a >>> n) else none

def shifted : Option Nat → Except Err Cst
  | some x => .ok (.ofBits x)
  | none => .error .other

/-- the operators on two numbers (constants.rs:775-812) -/
def binaryFloat (lib : Lib) (op : BinaryOp) (l r : F32) : Except Err Cst :=
  match op with
  | .add => .ok (.float (l.add r))
  | .sub => .ok (.float (l.sub r))
  | .mul => .ok (.float (l.mul r))
  | .div => .ok (.float (l.div r))
  | .mod => .ok (.float (l.rem r))
  | .less => .ok (.ofBool (l.lt r))
  | .lessEq => .ok (.ofBool (l.le r))
  | .greater => .ok (.ofBool (r.lt l))
  | .greaterEq => .ok (.ofBool (r.le l))
  | .floatMod => .ok (.float (l.sub ((l.div r).floor.mul r)))
  | .pow => .ok (.float (lib.powf l r))
  | .bitOr => .ok (.ofBits (l.toU32 ||| r.toU32))
  | .bitAnd => .ok (.ofBits (l.toU32 &&& r.toU32))
  | .bitXor => .ok (.ofBits (l.toU32 ^^^ r.toU32))
  | .lShift => shifted (checkedShl l.toU32 r.toU32)
  | .rShift => shifted (checkedShr l.toU32 r.toU32)
  | .eq => .ok (.ofBool (l.oeq r))
  | .notEq => .ok (.ofBool !(l.oeq r))
  | .and => .ok (.float (if l.nonzero then r else l))
  | .or => .ok (.float (if l.nonzero then l else r))
  | _ => .error .other

/-- the operators on any two constants (constants.rs:814-821) -/
def binaryAny (op : BinaryOp) (l r : Cst) : Except Err Cst :=
  match op with
  | .eq => .ok (.ofBool (l.beq r))
  | .notEq => .ok (.ofBool !(l.beq r))
  | .and => .ok (if l.toBool then r else l)
  | .or => .ok (if l.toBool then l else r)
  | _ => .error .other

/-- `binary` (constants.rs:772-823) -/
def binary (lib : Lib) (op : BinaryOp) (l r : Cst) : Except Err Cst :=
  match l, r with
  | .float a, .float b => binaryFloat lib op a b
  | .string a, .string b => if op = .add then .ok (.string (a ++ b)) else binaryAny op (.string a) (.string b)
  | l, r => binaryAny op l r

def Comp.lift {α : Type} : Except Err α → Comp α
  | .ok a => .ret a
  | .error e => .err e

/-! ## `rgb()` (constants.rs:1096-1306) -/

/-- `ColorArgs` (constants.rs:1104-1116); the flags `r`, `g` and `b` are only used together -/
structure ColorArgs where
  rgb : Bool := false
  h : Bool := false
  s : Bool := false
  v : Bool := false
  l : Bool := false
  c : Bool := false
  y : Bool := false
  a : Option Int := none
  space : Option Space := none

/-- the keywords -/
inductive Kw where
  | rgb | h | s | v | l | c | y | a | space
deriving DecidableEq

def kwOf (s : List Char) : Option Kw :=
  if s = "r".toList || s = "red".toList || s = "g".toList || s = "green".toList || s = "b".toList ||
    s = "blue".toList then some .rgb
  else if s = "h".toList || s = "hue".toList then some .h
  else if s = "s".toList || s = "saturation".toList then some .s
  else if s = "v".toList || s = "value".toList then some .v
  else if s = "l".toList || s = "luminance".toList then some .l
  else if s = "c".toList || s = "chroma".toList then some .c
  else if s = "y".toList then some .y
  else if s = "a".toList || s = "alpha".toList then some .a
  else if s = "space".toList then some .space
  else none

def spaceOf : Option Int → Option Space
  | some 0 => some .rgb
  | some 1 => some .hsv
  | some 2 => some .hsl
  | some 3 => some .hcy
  | _ => none

/-- one keyword of the first loop (constants.rs:1136-1163) -/
def noteKw (ca : ColorArgs) (kw : Kw) (value : Cst) : Except Err ColorArgs :=
  match kw with
  | .rgb => .ok { ca with rgb := true }
  | .h => .ok { ca with h := true }
  | .s => .ok { ca with s := true }
  | .v => .ok { ca with v := true }
  | .l => .ok { ca with l := true }
  | .c => .ok { ca with c := true }
  | .y => .ok { ca with y := true }
  | .a => .ok { ca with a := value.toInt }
  | .space =>
    match spaceOf value.toInt with
    | some sp => .ok { ca with space := some sp }
    | none => .error .other

/-- the first loop (constants.rs:1131-1171) -/
def scanKws : List (Cst × Option Cst) → ColorArgs → Except Err ColorArgs
  | [], ca => .ok ca
  | (_, none) :: t, ca => scanKws t ca
  | (k, some v) :: t, ca =>
    match k.asStr with
    | none => .error .other
    | some s =>
      match kwOf s with
      | none => .error .other
      | some kw =>
        match noteKw ca kw v with
        | .error e => .error e
        | .ok ca' => scanKws t ca'

/-- the colour space (constants.rs:1173-1200) -/
def pickSpace (ca : ColorArgs) : Except Err Space :=
  match ca.space with
  | some sp => .ok sp
  | none =>
    if ca.rgb then .ok .rgb
    else if ca.h then
      if ca.c && ca.y then .ok .hcy
      else if ca.s then
        if ca.v then .ok .hsv
        else if ca.l then .ok .hsl
        else .error .other
      else .error .other
    else .ok .rgb

/-- the largest value allowed at a position (constants.rs:1208-1228) -/
def posMax (sp : Space) (pos : Nat) : Int :=
  match pos with
  | 0 => if sp = .rgb then 255 else 360
  | 1 => if sp = .rgb then 255 else 100
  | 2 => if sp = .rgb then 255 else 100
  | _ => 255

/-- the largest value allowed for a keyword (constants.rs:1235-1248); `space` is skipped -/
def kwMax : Kw → Option Int
  | .rgb => some 255
  | .h => some 360
  | .s => some 100
  | .v => some 100
  | .c => some 100
  | .l => some 100
  | .y => some 100
  | .a => some 255
  | .space => none

/-- the range check (constants.rs:1256-1273) -/
def checkValue (c : Cst) (max : Int) : Except Err Int :=
  match c.toInt with
  | some i => if 0 ≤ i ∧ i ≤ max then .ok i else .error .other
  | none => .error .other

/-- the second loop (constants.rs:1204-1274) -/
def collect (sp : Space) : Nat → List (Cst × Option Cst) → Except Err (List Int)
  | _, [] => .ok []
  | pos, (c, none) :: t =>
    match checkValue c (posMax sp pos) with
    | .error e => .error e
    | .ok i =>
      match collect sp (pos + 1) t with
      | .error e => .error e
      | .ok l => .ok (i :: l)
  | pos, (k, some v) :: t =>
    match k.asStr.bind kwOf with
    | none => .error .other
    | some kw =>
      match kwMax kw with
      | none => collect sp (pos + 1) t
      | some max =>
        match checkValue v max with
        | .error e => .error e
        | .ok i =>
          match collect sp (pos + 1) t with
          | .error e => .error e
          | .ok l => .ok (i :: l)

def hexDigit (n : Nat) : Char := if n < 10 then Char.ofNat (48 + n) else Char.ofNat (87 + n)

/-- `{:02x}` for a value below 256 -/
def hex2 (n : Nat) : List Char := [hexDigit (n / 16 % 16), hexDigit (n % 16)]

/-- the colour as bytes (constants.rs:1278-1288): the conversion from `Rgb` is the identity -/
def toBytes (lib : Lib) (sp : Space) (x y z : Int) : Nat × Nat × Nat :=
  match sp with
  | .rgb => (x.toNat, y.toNat, z.toNat)
  | sp => let c := lib.colour sp x y z; (c.1, c.2.1, c.2.2)

/-- the end of `rgb` (constants.rs:1276-1305): the `assert!` panics with fewer than three values -/
def formatRgb (lib : Lib) (sp : Space) (a : Option Int) : List Int → Except Err (List Char)
  | x :: y :: z :: rest =>
    let c := toBytes lib sp x y z
    let body := '#' :: (hex2 c.1 ++ (hex2 c.2.1 ++ hex2 c.2.2))
    match a.or rest.head? with
    | some alpha => .ok (body ++ hex2 alpha.toNat)
    | none => .ok body
  | _ => .error .panic

/-- `rgb` after its arguments have been evaluated -/
def rgbOf (lib : Lib) (args : List (Cst × Option Cst)) : Except Err (List Char) :=
  match scanKws args {} with
  | .error e => .error e
  | .ok ca =>
    match pickSpace ca with
    | .error e => .error e
    | .ok sp =>
      match collect sp 0 args with
      | .error e => .error e
      | .ok vals => formatRgb lib sp ca.a vals

/-! ## Expressions -/

/-- `treepath_from_str` (ast.rs:883-888): the parts between slashes that are not empty; `cur` is the part being
read, reversed -/
def splitSlash : List Char → List Char → List Ident
  | cur, [] => if cur.isEmpty then [] else [cur.reverse]
  | cur, c :: t =>
    if c = '/' then (if cur.isEmpty then splitSlash [] t else cur.reverse :: splitSlash [] t)
    else splitSlash (c :: cur) t

def pathFromStr (s : List Char) : TreePath := splitSlash [] s

/-- `FormatTreePath` (ast.rs:890-899) -/
def formatPath : TreePath → List Char
  | [] => []
  | x :: t => '/' :: (x ++ formatPath t)

mutual
/-- the identifier a keyword argument is written as, after `Term::from` (ast.rs:1292-1308) -/
def Expr.kwIdent : Expr → Option Ident
  | .base t [] => t.kwIdent
  | _ => none
def Term.kwIdent : Term → Option Ident
  | .ident i => some i
  | .expr e => e.kwIdent
  | _ => none
end

/-- `Follow::nameof` (ast.rs:1340-1347) -/
def Follow.nameof : Follow → Option Ident
  | .field i => some i
  | .staticField i => some i
  | .procReference i => some i
  | _ => none

mutual
/-- `Expression::nameof` (ast.rs:1092-1103) -/
def Expr.nameof : Expr → Option Ident
  | .base t fs =>
    match fs.getLast? with
    | some f => f.nameof
    | none => t.nameof
  | _ => none
/-- `Term::nameof` (ast.rs:1273-1281) -/
def Term.nameof : Term → Option Ident
  | .expr e => e.nameof
  | .ident i => some i
  | .prefab path .nil => path.getLast?.map (·.2)
  | .globalIdent i => some i
  | _ => none
end

/-- `Expression::as_term` (ast.rs:998-1003) -/
def Expr.asTerm : Expr → Option Term
  | .base t [] => some t
  | _ => none

/-- `recursive_lookup` (constants.rs:1047-1070) as a request -/
def lookup (ctx : Ctx) (ty : Nat) (name : Ident) (must : Bool) : Comp Cst :=
  match ctx.tree with
  | none => .err .noContext
  | some _ => .look ty name must .ret

/-- `proc_ref_lookup` (constants.rs:1072-1094) -/
def procRef (env : Env) (ty : Nat) (name : Ident) : Comp Cst :=
  match env.getProc ty name with
  | none => .err .other
  | some kind =>
    .ret (.prefab (pathFromStr (env.path ty) ++ ((match kind with | some k => [k] | none => []) ++ [name])) .nil)

/-- `follow` (constants.rs:682-751) -/
def follow (ctx : Ctx) (c : Cst) (f : Follow) : Comp Cst :=
  match f with
  | .field name =>
    match c with
    | .null (some hint) =>
      match ctx.tree.bind fun env => env.find (formatPath hint) with
      | some idx => lookup ctx idx name true
      | none => .err .other
    | _ => .err .other
  | .unary op => .lift (unary op c)
  | .staticField name =>
    match c with
    | .prefab path .nil =>
      match ctx.tree with
      | none => .err .noContext
      | some env =>
        match env.find (formatPath path) with
        | some idx => lookup ctx idx name false
        | none => .err .other
    | _ => .err .other
  | .procReference name =>
    match c with
    | .prefab path .nil =>
      match ctx.tree with
      | none => .err .noContext
      | some env =>
        match env.find (formatPath path) with
        | some idx => procRef env idx name
        | none => .err .other
    | _ => .err .other
  | .other => .err .other

def follows (ctx : Ctx) : Cst → List Follow → Comp Cst
  | c, [] => .ret c
  | c, f :: fs => (follow ctx c f).bind fun c' => follows ctx c' fs

/-- the constructors which remain as they are (constants.rs:846-854) -/
def constFn (name : Ident) : Option ConstFn :=
  if name = "matrix".toList then some .matrix
  else if name = "newlist".toList then some .newlist
  else if name = "icon".toList then some .icon
  else if name = "sound".toList then some .sound
  else if name = "filter".toList then some .filter
  else if name = "file".toList then some .file
  else if name = "generator".toList then some .generator
  else if name = "vector".toList then some .vector
  else none

/-- the trigonometric functions (constants.rs:856-859) -/
def trigFn (lib : Lib) (name : Ident) : Option (F32 → F32) :=
  if name = "sin".toList then some lib.sin
  else if name = "cos".toList then some lib.cos
  else if name = "arcsin".toList then some lib.asin
  else if name = "arccos".toList then some lib.acos
  else none

/-- the path of a prefab (constants.rs:991-1026) -/
def prefabPath (ctx : Ctx) (path : List (PathOp × Ident)) : Except Err TreePath :=
  if path.all fun p => p.1 = .slash then .ok (path.map (·.2))
  else
    match ctx.tree with
    | none => .error .noContext
    | some env =>
      match env.navigate ctx.ty path with
      | none => .error .other
      | some p => .ok p

/-- the type of the current scope (constants.rs:907-935, 944-952) -/
def ownType (ctx : Ctx) : Comp Cst :=
  match ctx.tree with
  | none => .err .noContext
  | some env => .ret (.prefab (pathFromStr (env.path ctx.ty)) .nil)

/-- identifiers (constants.rs:903-937) -/
def identTerm (ctx : Ctx) (name : Ident) : Comp Cst :=
  if name = "type".toList then ownType ctx
  else if name = "parent_type".toList then
    match ctx.tree with
    | none => .err .noContext
    | some env =>
      match env.parent ctx.ty with
      | none => .err .other
      | some p => .ret (.prefab (pathFromStr (env.path p)) .nil)
  else lookup ctx ctx.ty name false

/-- the single argument of a call -/
def ExprList.single : ExprList → Option Expr
  | .cons e .nil => some e
  | _ => none

/-- calls that do not evaluate their arguments (constants.rs:861-899) -/
def lazyCall (ctx : Ctx) (name : Ident) (arg : Option Expr) : Comp Cst :=
  if name = "defined".toList && ctx.defines.isSome then
    match ctx.defines, arg.bind Expr.asTerm with
    | some d, some (.ident i) => .ret (.ofBool (d i))
    | _, _ => .err .other
  else if name = "nameof".toList then
    match arg.bind Expr.nameof with
    | some n => .ret (.string n)
    | none => .err .other
  else if name = "fexists".toList && ctx.defines.isSome && ctx.fexists.isSome then
    match ctx.fexists, arg.bind Expr.asTerm with
    | some f, some (.string p) =>
      match f p with
      | some b => .ret (.ofBool b)
      | none => .err .other
    | _, _ => .err .other
  else .err .other

/-- the rest of a trigonometric call (constants.rs:981-986) -/
def trigResult (f : F32 → F32) : Cst → Comp Cst
  | .float x => .ret (.float (f x))
  | _ => .err .other

mutual
/-- `expr` (constants.rs:622-648) -/
def evalExpr (ctx : Ctx) (hint : Option TreePath) : Expr → Comp Cst
  | .base t fs =>
    (evalTerm ctx (if fs.isEmpty then hint else none) t).bind fun c => follows ctx c fs
  | .binary op l r =>
    (evalExpr ctx none l).bind fun a => (evalExpr ctx none r).bind fun b => .lift (binary ctx.lib op a b)
  | .ternary c a b =>
    (evalExpr ctx none c).bind fun v => if v.toBool then evalExpr ctx hint a else evalExpr ctx hint b
  | .assign _ _ _ => .err .other
/-- `term` (constants.rs:825-969) -/
def evalTerm (ctx : Ctx) (hint : Option TreePath) : Term → Comp Cst
  | .null => .ret (.null hint)
  | .newPrefab path vars h args =>
    (evalVars ctx vars .nil).bind fun vs =>
      (Comp.lift (prefabPath ctx path)).bind fun p =>
        if h then (evalArgs ctx args).bind fun as => .ret (.newPrefab p vs true as)
        else .ret (.newPrefab p vs false .nil)
  | .newImplicit h args =>
    if h then (evalArgs ctx args).bind fun as => .ret (.newImplicit true as)
    else .ret (.newImplicit false .nil)
  | .newMini => .err .other
  | .list args => (evalArgs ctx args).bind fun as => .ret (.list as)
  | .call name args =>
    match constFn name with
    | some f => (evalArgs ctx args).bind fun as => .ret (.call f as)
    | none =>
      match trigFn ctx.lib name with
      | some f =>
        match args with
        | .cons e .nil => (evalExpr ctx none e).bind (trigResult f)
        | _ => .err .other
      | none =>
        if name = "rgb".toList then
          if args.length = 3 ∨ args.length = 4 ∨ args.length = 5 then
            (evalArgs ctx args).bind fun as => (Comp.lift (rgbOf ctx.lib as.toList)).bind fun s => .ret (.string s)
          else .err .other
        else lazyCall ctx name args.single
  | .prefab path vars =>
    (evalVars ctx vars .nil).bind fun vs =>
      (Comp.lift (prefabPath ctx path)).bind fun p => .ret (.prefab p vs)
  | .ident name => identTerm ctx name
  | .string s => .ret (.string s)
  | .resource s => .ret (.resource s)
  | .int i => .ret (.float (F32.ofInt i))
  | .float f => .ret (.float f)
  | .expr e => evalExpr ctx hint e
  | .typeMacro => ownType ctx
  | .impliedType =>
    match hint with
    | some p => .ret (.prefab p .nil)
    | none => .err .other
  | .globalIdent _ => .err .other
  | .other => .err .other
/-- `arguments` (constants.rs:660-680).  A key that is not an identifier is evaluated through `Term::from`, which
only drops parentheses. -/
def evalArgs (ctx : Ctx) : ExprList → Comp CArgs
  | .nil => .ret .nil
  | .cons (.assign true l r) rest =>
    Comp.bind
      (match l.kwIdent with
        | some i => .ret (.string i)
        | none => evalExpr ctx none l) fun k =>
        (evalExpr ctx none r).bind fun v => (evalArgs ctx rest).bind fun as => .ret (.kw k v as)
  | .cons e rest => (evalExpr ctx none e).bind fun c => (evalArgs ctx rest).bind fun as => .ret (.pos c as)
/-- `vars` (constants.rs:1029-1040) -/
def evalVars (ctx : Ctx) : VarList → CVars → Comp CVars
  | .nil, acc => .ret acc
  | .cons k e rest, acc => (evalExpr ctx none e).bind fun c => evalVars ctx rest (acc.insert k c)
end

/-! ## Variables -/

def Env.var (env : Env) (k : Key) : Option Var := (env.vars.find? fun p => p.1 = k).map (·.2)

/-- a type and its parents.  The loops of the code follow `parent_type_index` while there is one; the object tree
has no cycles of parents. -/
def Env.chainFrom (env : Env) : Nat → Nat → List Nat
  | 0, t => [t]
  | n + 1, t => t :: (match env.parent t with | none => [] | some p => env.chainFrom n p)

def Env.chain (env : Env) (t : Nat) : List Nat := env.chainFrom env.depth t

/-- `get_var_declaration` (objtree.rs:204-219) -/
def Env.decl (env : Env) (t : Nat) (name : Ident) : Option Decl :=
  (env.chain t).findSome? fun t' => (env.var (t', name)).bind (·.decl)

/-- what evaluation changes in the variables: `VarValue::constant` and `being_evaluated` -/
structure State where
  done : Key → Option Cst
  busy : Key → Bool

def State.init (env : Env) : State := ⟨fun k => (env.var k).bind (·.const), fun _ => false⟩

def State.setDone (s : State) (k : Key) (c : Cst) : State :=
  { s with done := fun k' => if k' = k then some c else s.done k' }

def State.setBusy (s : State) (k : Key) (b : Bool) : State :=
  { s with busy := fun k' => if k' = k then b else s.busy k' }

/-- `ConstLookup` (constants.rs:524-527); of `Continue` it matters whether there is a declaration -/
inductive Found where
  | found (c : Cst)
  | next
  | undeclared

abbrev Look (α : Type) := State → Option (Except Err α × State)

/-- run a computation; `none` is out of fuel -/
def run {α : Type} (rec : Nat → Ident → Bool → Look Cst) : Comp α → Look α
  | .ret a, s => some (.ok a, s)
  | .err e, s => some (.error e, s)
  | .look t n m k, s =>
    match rec t n m s with
    | none => none
    | some (.error e, s') => some (.error e, s')
    | some (.ok c, s') => run rec (k c) s'

/-- the folder `constant_ident_lookup` makes for a variable (constants.rs:584-591) -/
def treeCtx (lib : Lib) (env : Env) (ty : Nat) : Ctx :=
  { lib := lib
    tree := some env
    defines := none
    fexists := none
    ty := ty }

/-- the definition of a variable as a computation -/
def defComp (lib : Lib) (env : Env) (k : Key) (d : Decl) (e : Expr) : Comp Cst :=
  evalExpr (treeCtx lib env k.1) (if d.typePath.isEmpty then none else some d.typePath) e

/-- the end of `constant_ident_lookup` (constants.rs:583-604) -/
def evaluate (rec : Nat → Ident → Bool → Look Cst) (lib : Lib) (env : Env) (k : Key) (d : Decl) (e : Expr) :
    Look Found := fun s =>
  match run rec (defComp lib env k d e) (s.setBusy k true) with
  | none => none
  | some (.error err, s') => some (.error err, s')
  | some (.ok c, s') => some (.ok (.found c), (s'.setDone k c).setBusy k false)

/-- `constant_ident_lookup` (constants.rs:529-605) -/
def identLookup (rec : Nat → Ident → Bool → Look Cst) (lib : Lib) (env : Env) (k : Key) (must : Bool) :
    Look Found := fun s =>
  match env.decl k.1 k.2 with
  | none => some (.ok .undeclared, s)
  | some d =>
    match env.var k with
    | none => some (.ok .next, s)
    | some v =>
      match s.done k with
      | some c => some (.ok (.found c), s)
      | none =>
        match v.expr with
        | none => some (.ok (.found (.null (some d.typePath))), s.setDone k (.null (some d.typePath)))
        | some e =>
          if s.busy k then some (.error (.recursive k.2), s)
          else if !d.evaluable then some (.error (.notEvaluable k.2), s)
          else if !d.isConst && must then some (.error (.notConst k.2), s)
          else evaluate rec lib env k d e s

/-- the loop of `recursive_lookup` (constants.rs:1047-1070) -/
def climb (at_ : Key → Bool → Look Found) (name : Ident) (must : Bool) : List Nat → Look Cst
  | [], s => some (.error (.unknownVar name), s)
  | t :: ts, s =>
    match at_ (t, name) must s with
    | none => none
    | some (.error e, s') => some (.error e, s')
    | some (.ok (.found c), s') => some (.ok c, s')
    | some (.ok .next, s') => climb at_ name must ts s'
    | some (.ok .undeclared, s') => some (.error (.unknownVar name), s')

/-- `recursive_lookup` with fuel for nested evaluations -/
def recLookup (lib : Lib) (env : Env) : Nat → Nat → Ident → Bool → Look Cst
  | 0, _, _, _, _ => none
  | n + 1, ty, name, must, s => climb (identLookup (recLookup lib env n) lib env) name must (env.chain ty) s

/-- `constant_ident_lookup` with fuel -/
def lookupVar (lib : Lib) (env : Env) (n : Nat) (k : Key) (must : Bool) : Look Found :=
  identLookup (recLookup lib env n) lib env k must

/-- whether `evaluate_all` evaluates a variable (constants.rs:504-509); type 0 is the root -/
def Env.included (env : Env) (k : Key) : Bool :=
  match env.decl k.1 k.2 with
  | none => true
  | some d => d.evaluable && (d.isConst || k.1 != 0)

/-- `evaluate_all` (constants.rs:500-522): the result is the variables with an error; an undeclared variable is
one of them -/
def evaluateAllFrom (lib : Lib) (env : Env) (n : Nat) : List Key → State → Option (List (Key × Err) × State)
  | [], s => some ([], s)
  | k :: ks, s =>
    if env.included k then
      match lookupVar lib env n k false s with
      | none => none
      | some (r, s') =>
        match evaluateAllFrom lib env n ks s' with
        | none => none
        | some (es, s'') =>
          match r with
          | .error e => some ((k, e) :: es, s'')
          | .ok (.found _) => some (es, s'')
          | .ok _ => some ((k, .unknownVar k.2) :: es, s'')
    else evaluateAllFrom lib env n ks s

def evaluateAll (lib : Lib) (env : Env) (n : Nat) : Option (List (Key × Err) × State) :=
  evaluateAllFrom lib env n (env.vars.map (·.1)) (State.init env)

end Verif.Const
