import Verif.Lookup.Model

/-!
# What a name in the editor stands for, and what completion should offer

A specification without the loops of `Verif.Lookup.Model`.
-/

namespace Verif.Lookup

open Verif.Typing (Ident Loc PathOp)
open Verif.Refs (Sym)

/-- The nearest of a type and its ancestors for which something holds.  If `root` is false, the root counts only for code
that is on it. -/
inductive Nearest (W : World) (root : Bool) (has : Nat → Prop) : Nat → Nat → Prop
  | here {i : Nat} : has i → Nearest W root has i i
  | up {i p j : Nat} : ¬ has i → W.parent i = some p → (root = true ∨ p ≠ 0) → Nearest W root has p j → Nearest W root has i j

/-- The type has a variable of that name, be it declared or only given a value there. -/
def HasVar (W : World) (n : Ident) (i : Nat) : Prop := ∃ v, (n, v) ∈ W.vars i

/-- The type has a proc of that name. -/
def HasProc (W : World) (n : Ident) (i : Nat) : Prop := ∃ q, (n, q) ∈ W.procs i

/-- The type has a declaration of that variable, with this type path. -/
def DeclaresVar (W : World) (n : Ident) (i : Nat) (path : List Ident) : Prop :=
  ∃ v, (W.vars i).lookup n = some v ∧ v.decl = some path

/-- The type has a declaration of that proc. -/
def DeclaresProc (W : World) (n : Ident) (i : Nat) : Prop :=
  ∃ q v, (W.procs i).lookup n = some q ∧ q.decl = some v

/-- The way down the tree. -/
inductive Down (W : World) : Nat → List Ident → Nat → Prop
  | here {i : Nat} : Down W i [] i
  | step {i j k : Nat} {x : Ident} {rest : List Ident} :
      (W.children i).lookup x = some j → Down W j rest k → Down W i (x :: rest) k

/-- The type of a path; anything under `list` is a list. -/
inductive TypeAt (W : World) : List Ident → Nat → Prop
  | list {i : Nat} {rest : List Ident} : (W.children 0).lookup "list" = some i → TypeAt W ("list" :: rest) i
  | down {p : List Ident} {i : Nat} : p.head? ≠ some "list" → Down W 0 p i → TypeAt W p i

/-- The first annotation of some form. -/
def Earliest (a : Place) (P : Ann → Prop) (l : Loc) (x : Ann) : Prop :=
  ∃ pre post, a = pre ++ (l, x) :: post ∧ P x ∧ ∀ y ∈ pre, ¬ P y.2

/-- The forms. -/
def IsBody : Ann → Prop | .procBody _ _ => True | _ => False
/-- The forms. -/
def IsBlock : Ann → Prop | .treeBlock _ => True | _ => False
/-- The forms. -/
def IsLocal (n : Ident) : Ann → Prop | .localVar _ m => m = n | _ => False

/-- The place is in a definition of a proc: its path and its number among the definitions. -/
def InBody (a : Place) (p : List Ident) (idx : Nat) : Prop := ∃ l, Earliest a IsBody l (.procBody p idx)

/-- The place is in a block of declarations. -/
def InBlock (a : Place) (p : List Ident) : Prop := ∃ l, Earliest a IsBlock l (.treeBlock p)

/-- A path without one of some words at its end. -/
inductive Chopped (words : List Ident) : List Ident → List Ident → Prop
  | word {q : List Ident} {k : Ident} : k ∈ words → Chopped words (q ++ [k]) q
  | plain {q : List Ident} : (∀ q' k, q = q' ++ [k] → k ∉ words) → Chopped words q q

/-- The type that the proc around the place is defined on. -/
inductive BodyOwner (W : World) (a : Place) : Nat → Prop
  | named {p q : List Ident} {n : Ident} {idx i : Nat} :
      InBody a (p ++ [n]) idx → Chopped ["proc", "verb"] p q → TypeAt W q i → BodyOwner W a i
  | empty {idx i : Nat} : InBody a [] idx → TypeAt W [] i → BodyOwner W a i

/-- The type that the code at the place belongs to. -/
inductive Owner (W : World) (a : Place) : Nat → Prop
  | body {i : Nat} : BodyOwner W a i → Owner W a i
  | block {p q : List Ident} {i : Nat} :
      (∀ j, ¬ BodyOwner W a j) → InBlock a p → Chopped ["proc", "verb", "var"] p q → TypeAt W q i → Owner W a i

/-- The type where unqualified names are looked up. -/
inductive Home (W : World) (a : Place) : Nat → Prop
  | owner {i : Nat} : Owner W a i → Home W a i
  | root : (∀ i, ¬ Owner W a i) → Home W a 0

/-- The parameters of the proc around the place. -/
def ParamsAt (W : World) (a : Place) (ps : List Param) : Prop :=
  ∃ p n idx i q d, InBody a (p ++ [n]) idx ∧ Home W a i ∧ (W.procs i).lookup n = some q ∧ q.defs[idx]? = some (ps, d)

/-- A local variable of that name, with the start of its scope and its type path: the first one listed at the place. -/
def LocalAt (a : Place) (n : Ident) (l : Loc) (path : List Ident) : Prop := Earliest a (IsLocal n) l (.localVar path n)

/-- A parameter of that name: the first one. -/
def ParamAt (W : World) (a : Place) (n : Ident) (p : Param) : Prop :=
  ∃ ps pre post, ParamsAt W a ps ∧ ps = pre ++ p :: post ∧ p.name = n ∧ ∀ x ∈ pre, x.name ≠ n

/-- An unqualified name is the variable of type `j`: there is no local variable and no parameter of that name. -/
def VarAt (W : World) (a : Place) (n : Ident) (j : Nat) : Prop :=
  (∀ l path, ¬ LocalAt a n l path) ∧ (∀ p, ¬ ParamAt W a n p) ∧ ∃ i, Home W a i ∧ Nearest W true (HasVar W n) i j

/-- The declaration of a variable that counts on a type. -/
def DeclOn (W : World) (n : Ident) (i j : Nat) (path : List Ident) : Prop :=
  Nearest W true (fun k => ∃ p, DeclaresVar W n k p) i j ∧ DeclaresVar W n j path

/-- The type path of an unqualified name. -/
inductive NamePath (W : World) (a : Place) (n : Ident) : List Ident → Prop
  | local {l : Loc} {path : List Ident} : LocalAt a n l path → NamePath W a n path
  | param {p : Param} : (∀ l path, ¬ LocalAt a n l path) → ParamAt W a n p → NamePath W a n p.path
  | var {i j : Nat} {path : List Ident} : VarAt W a n i → DeclOn W n i j path → NamePath W a n path

/-- The names with a fixed meaning. -/
def fixedNames : List Ident := ["args", "global", "src", "usr", "caller", "callee"]

/-- The type of the first name of `a.b.c`. -/
inductive FirstTy (W : World) (a : Place) : Ident → Nat → Prop
  | args {i : Nat} : TypeAt W ["list"] i → FirstTy W a "args" i
  | global : FirstTy W a "global" 0
  | src {i : Nat} : Owner W a i → FirstTy W a "src" i
  | usr {i : Nat} : TypeAt W ["mob"] i → FirstTy W a "usr" i
  | caller {i : Nat} : TypeAt W ["callee"] i → FirstTy W a "caller" i
  | callee {i : Nat} : TypeAt W ["callee"] i → FirstTy W a "callee" i
  | name {n : Ident} {path : List Ident} {i : Nat} : n ∉ fixedNames → NamePath W a n path → TypeAt W path i → FirstTy W a n i

/-- The type reached over some fields. -/
inductive FieldsTy (W : World) : Nat → List Ident → Nat → Prop
  | nil {i : Nat} : FieldsTy W i [] i
  | cons {i j k m : Nat} {n : Ident} {ns path : List Ident} :
      DeclOn W n i j path → TypeAt W path k → FieldsTy W k ns m → FieldsTy W i (n :: ns) m

/-- The type of `a.b.c`; of nothing, the type of the code. -/
inductive ScopedTy (W : World) (a : Place) : List Ident → Nat → Prop
  | nil {i : Nat} : Owner W a i → ScopedTy W a [] i
  | cons {n : Ident} {ns : List Ident} {i j : Nat} : FirstTy W a n i → FieldsTy W i ns j → ScopedTy W a (n :: ns) j

/-- The variables and procs offered for a type: those of the type and its ancestors, each at the nearest type with it. -/
inductive Member (W : World) (root : Bool) (i : Nat) : Ident → Item → Prop
  | var {n : Ident} {j : Nat} : Nearest W root (HasVar W n) i j → Member W root i n (.var j n)
  | proc {n : Ident} {j : Nat} : Nearest W root (HasProc W n) i j → Member W root i n (.proc j n)

/-- What is offered after `a.b.`. -/
inductive ScopedOffer (W : World) (a : Place) (priors : List Ident) : Ident → Item → Prop
  | mk {i : Nat} {n : Ident} {x : Item} : ScopedTy W a priors i → Member W false i n x → ScopedOffer W a priors n x

/-- What is offered where a name can start. -/
inductive UnscopedOffer (W : World) (a : Place) : Ident → Item → Prop
  | keyword {p : List Ident} {n : Ident} {idx : Nat} {k : Ident} :
      InBody a (p ++ [n]) idx → k ∈ procKeywords → UnscopedOffer W a k (.keyword k)
  | local {l : Loc} {path : List Ident} {n : Ident} : (l, Ann.localVar path n) ∈ a → UnscopedOffer W a n (.local n)
  | param {ps : List Param} {p : Param} : ParamsAt W a ps → p ∈ ps → UnscopedOffer W a p.name (.param p.name)
  | macro {n : Ident} : n ∈ W.macros → UnscopedOffer W a n (.macro n)
  | member {i : Nat} {n : Ident} {x : Item} : Home W a i → Member W true i n x → UnscopedOffer W a n x

/-- What is offered in a tree of declarations at a type; `exact` if the whole path is that of the type. -/
inductive TreeOffer (W : World) (exact : Bool) (i : Nat) : Ident → Item → Prop
  | keyword {k : Ident} : k ∈ ["proc", "var", "verb"] → TreeOffer W exact i k (.keyword k)
  | child {n : Ident} {j : Nat} : exact = true → (n, j) ∈ W.children i → TreeOffer W exact i n (.type n j)
  | member {n : Ident} {x : Item} : i ≠ 0 → Member W true i n x → TreeOffer W exact i n x

/-- What is offered after a path of a type, or after `proc/` or `verb/` at its end: only procs whose nearest definition is
on a type that declares them. -/
inductive PathOffer (W : World) : PathResult → Ident → Item → Prop
  | keyword {i : Nat} {k : Ident} : k ∈ ["proc", "verb"] → PathOffer W ⟨i, none, none⟩ k (.keyword k)
  | child {i j : Nat} {n : Ident} : (n, j) ∈ W.children i → PathOffer W ⟨i, none, none⟩ n (.type n j)
  | proc {i j : Nat} {n : Ident} {verb : Bool} {q : ProcEntry} :
      Nearest W false (HasProc W n) i j → (W.procs j).lookup n = some q → q.decl = some verb →
      PathOffer W ⟨i, some verb, none⟩ n (.proc j n)

/-! ### Paths -/

/-- The forms. -/
def IsPart : Ann → Prop | .inSequence _ => True | _ => False

/-- A path up to the part under the cursor, or all of it if there is none. -/
inductive CutAt {α : Type} (a : Place) (p : List α) : List α → Prop
  | part {l : Loc} {i : Nat} : Earliest a IsPart l (.inSequence i) → CutAt a p (p.take (i + 1))
  | whole : (∀ x ∈ a, ¬ IsPart x.2) → CutAt a p p

/-- What comes after the first `var` of a path; the whole path if there is none. -/
inductive AfterVar : List Ident → List Ident → Prop
  | cut {pre q : List Ident} : "var" ∉ pre → AfterVar (pre ++ "var" :: q) q
  | same {p : List Ident} : "var" ∉ p → AfterVar p p

/-- The path that a path in the tree of declarations is relative to. -/
inductive BlockPath (a : Place) : List Ident → Prop
  | block {b q : List Ident} : InBlock a b → AfterVar b q → BlockPath a q
  | outside : (∀ b, ¬ InBlock a b) → BlockPath a []

/-- The full path of a path in the tree of declarations. -/
inductive FullPath (a : Place) : Bool → List Ident → List Ident → Prop
  | absolute {p c q : List Ident} {k : Nat} {absolute : Bool} :
      CutAt a p c → (absolute = true ∨ "var" ∈ c) → AfterVar c (List.replicate k "list" ++ q) → q.head? ≠ some "list" →
      FullPath a absolute p q
  | relative {p c q b : List Ident} {k : Nat} :
      CutAt a p c → "var" ∉ c → c = List.replicate k "list" ++ q → q.head? ≠ some "list" → BlockPath a b →
      FullPath a false p (b ++ q)

/-- The last type on the way down a path, and whether this is the end of the path; anything under `list` is a list. -/
inductive Reach (W : World) : List Ident → Bool → Nat → Prop
  | all {p : List Ident} {i : Nat} : TypeAt W p i → Reach W p true i
  | part {p rest : List Ident} {x : Ident} {i : Nat} :
      TypeAt W p i → p.head? ≠ some "list" → (W.children i).lookup x = none → Reach W (p ++ x :: rest) false i

/-- The last type on the way down a path before one of some words. -/
inductive WalkTo (W : World) (words : List Ident) : List Ident → Nat → Prop
  | all {p : List Ident} {i : Nat} : (∀ x ∈ p, x ∉ words) → Down W 0 p i → WalkTo W words p i
  | part {p rest : List Ident} {x : Ident} {i : Nat} :
      (∀ x ∈ p, x ∉ words) → Down W 0 p i → (x ∈ words ∨ (W.children i).lookup x = none) → WalkTo W words (p ++ x :: rest) i

/-- A path of a type without `/list` in front. -/
inductive Unlisted : List (PathOp × Ident) → List (PathOp × Ident) → Prop
  | list {p : List (PathOp × Ident)} : p ≠ [] → Unlisted ((.slash, "list") :: p) p
  | same {p : List (PathOp × Ident)} : (∀ q, q ≠ [] → p ≠ (.slash, "list") :: q) → Unlisted p p

/-- Where a path starts. -/
inductive Start (W : World) (a : Place) : List (PathOp × Ident) → Nat → Prop
  | nil : Start W a [] 0
  | slash {x : Ident} {p : List (PathOp × Ident)} : Start W a ((.slash, x) :: p) 0
  | dot {x : Ident} {p : List (PathOp × Ident)} {i : Nat} : Home W a i → Start W a ((.dot, x) :: p) i

/-- Following the parts of a path as far as types can be found; what is left starts with `proc` or `verb`, or is a missing
type and then given up. -/
inductive Followed (W : World) : Nat → List (PathOp × Ident) → Nat → Option (Bool × List (PathOp × Ident)) → Prop
  | stop {i : Nat} : Followed W i [] i none
  | missing {i : Nat} {op : PathOp} {x : Ident} {p : List (PathOp × Ident)} :
      x ≠ "proc" → x ≠ "verb" → W.navigate i op x = none → Followed W i ((op, x) :: p) i none
  | proc {i : Nat} {op : PathOp} {p : List (PathOp × Ident)} : Followed W i ((op, "proc") :: p) i (some (false, p))
  | verb {i : Nat} {op : PathOp} {p : List (PathOp × Ident)} : Followed W i ((op, "verb") :: p) i (some (true, p))
  | step {i j k : Nat} {op : PathOp} {x : Ident} {p : List (PathOp × Ident)} {r : Option (Bool × List (PathOp × Ident))} :
      x ≠ "proc" → x ≠ "verb" → W.navigate i op x = some j → Followed W j p k r → Followed W i ((op, x) :: p) k r

/-- What a path in an expression stands for. -/
inductive PathTy (W : World) (a : Place) (p : List (PathOp × Ident)) : PathResult → Prop
  | type {c q : List (PathOp × Ident)} {i j : Nat} :
      CutAt a p c → Unlisted c q → Start W a q i → Followed W i q j none → PathTy W a p ⟨j, none, none⟩
  | decl {c q : List (PathOp × Ident)} {i j : Nat} {verb : Bool} :
      CutAt a p c → Unlisted c q → Start W a q i → Followed W i q j (some (verb, [])) → PathTy W a p ⟨j, some verb, none⟩
  | proc {c q rest : List (PathOp × Ident)} {i j k : Nat} {verb : Bool} {op : PathOp} {n : Ident} :
      CutAt a p c → Unlisted c q → Start W a q i → Followed W i q j (some (verb, (op, n) :: rest)) →
      Nearest W true (HasProc W n) j k → PathTy W a p ⟨j, some verb, some (n, k)⟩
  | unknown {c q rest : List (PathOp × Ident)} {i j : Nat} {verb : Bool} {op : PathOp} {n : Ident} :
      CutAt a p c → Unlisted c q → Start W a q i → Followed W i q j (some (verb, (op, n) :: rest)) →
      (∀ k, ¬ Nearest W true (HasProc W n) j k) → PathTy W a p ⟨j, some verb, none⟩

/-! ### Completion -/

/-- The errors that completion can help with. -/
def IsError : Ann → Prop
  | .missingIdent _ | .incompleteTypePath _ _ | .incompleteTreePath _ _ => True
  | _ => False

/-- The names. -/
def IsName : Ann → Prop
  | .treePath _ _ | .typePath _ | .unscopedCall _ | .unscopedVar _ | .scopedCall _ _ | .scopedVar _ _ => True
  | _ => False

/-- What is offered for a name, given what has been typed of it. -/
inductive NameOffer (W : World) (a : Place) : Ann → Ident → Ident → Item → Prop
  | treePath {absolute e : Bool} {p full : List Ident} {query n : Ident} {i : Nat} {x : Item} :
      FullPath a absolute p full → Reach W full e i → TreeOffer W e i n x →
      NameOffer W a (.treePath absolute (p ++ [query])) query n x
  | typePath {p : List (PathOp × Ident)} {op : PathOp} {query n : Ident} {t : PathResult} {x : Item} :
      PathTy W a p t → PathOffer W t n x → NameOffer W a (.typePath (p ++ [(op, query)])) query n x
  | unscopedCall {query n : Ident} {x : Item} : UnscopedOffer W a n x → NameOffer W a (.unscopedCall query) query n x
  | unscopedVar {query n : Ident} {x : Item} : UnscopedOffer W a n x → NameOffer W a (.unscopedVar query) query n x
  | scopedCall {priors : List Ident} {query n : Ident} {x : Item} :
      ScopedOffer W a priors n x → NameOffer W a (.scopedCall priors query) query n x
  | scopedVar {priors : List Ident} {query n : Ident} {x : Item} :
      ScopedOffer W a priors n x → NameOffer W a (.scopedVar priors query) query n x

/-- What is offered where nothing has been typed yet. -/
inductive ErrorOffer (W : World) (a : Place) : Ann → Ident → Item → Prop
  | missingIdent {priors : List Ident} {n : Ident} {x : Item} :
      ScopedOffer W a priors n x → ErrorOffer W a (.missingIdent priors) n x
  | typePath {p : List (PathOp × Ident)} {op : PathOp} {n : Ident} {t : PathResult} {x : Item} :
      PathTy W a p t → PathOffer W t n x → ErrorOffer W a (.incompleteTypePath p op) n x
  | treePath {absolute e : Bool} {p full : List Ident} {n : Ident} {i : Nat} {x : Item} :
      FullPath a absolute p full → Reach W full e i → TreeOffer W e i n x →
      ErrorOffer W a (.incompleteTreePath absolute p) n x

/-- What completion offers: for the first error; if there is none, for all names; if there is no name either, for the
surroundings. -/
inductive Offered (W : World) (q : Ident → Ident → Bool) (a : Place) : Item → Prop
  | error {l : Loc} {e : Ann} {n : Ident} {x : Item} :
      Earliest a IsError l e → ErrorOffer W a e n x → q n "" = true → Offered W q a x
  | name {l : Loc} {e : Ann} {query n : Ident} {x : Item} :
      (∀ y ∈ a, ¬ IsError y.2) → (l, e) ∈ a → NameOffer W a e query n x → q n query = true → Offered W q a x
  | body {p : List Ident} {m n : Ident} {idx : Nat} {x : Item} :
      (∀ y ∈ a, ¬ IsError y.2) → (∀ y ∈ a, ¬ IsName y.2) → InBody a (p ++ [m]) idx → UnscopedOffer W a n x →
      q n "" = true → Offered W q a x
  | tree {n : Ident} {i : Nat} {x : Item} :
      (∀ y ∈ a, ¬ IsError y.2) → (∀ y ∈ a, ¬ IsName y.2) → (∀ p m idx, ¬ InBody a (p ++ [m]) idx) → Home W a i →
      TreeOffer W true i n x → q n "" = true → Offered W q a x

/-- Names are not empty. -/
def WellFormed : Ann → Prop
  | .treePath _ p => p ≠ []
  | .typePath p => p ≠ []
  | _ => True

/-! ### Going to what a name stands for -/

/-- What a name leads to. -/
inductive Leads (W : World) (a : Place) : Ann → Target → Prop
  | treeType {absolute : Bool} {p full : List Ident} {i : Nat} :
      FullPath a absolute p full → TypeAt W full i → Leads W a (.treePath absolute p) (.type i)
  | override {absolute : Bool} {p full : List Ident} {n : Ident} {i k j : Nat} :
      FullPath a absolute p (full ++ [n]) → (∀ i, ¬ TypeAt W (full ++ [n]) i) → TypeAt W full i → W.parent i = some k →
      Nearest W true (HasProc W n) k j → Leads W a (.treePath absolute p) (.proc j n)
  | pathType {p : List (PathOp × Ident)} {i : Nat} : PathTy W a p ⟨i, none, none⟩ → Leads W a (.typePath p) (.type i)
  | pathProc {p : List (PathOp × Ident)} {i k : Nat} {verb : Bool} {n : Ident} :
      PathTy W a p ⟨i, some verb, some (n, k)⟩ → Leads W a (.typePath p) (.proc k n)
  | call {n : Ident} {i j : Nat} : Home W a i → Nearest W true (HasProc W n) i j → Leads W a (.unscopedCall n) (.proc j n)
  | local {n : Ident} {l : Loc} {path : List Ident} : LocalAt a n l path → Leads W a (.unscopedVar n) (.local l)
  | param {n m : Ident} {p : Param} {body : List Ident} {idx i : Nat} :
      (∀ l path, ¬ LocalAt a n l path) → ParamAt W a n p → InBody a (body ++ [m]) idx → Home W a i →
      Leads W a (.unscopedVar n) (.param i m n)
  | var {n : Ident} {j : Nat} : VarAt W a n j → Leads W a (.unscopedVar n) (.var j n)
  | scopedCall {priors : List Ident} {n : Ident} {i j : Nat} :
      ScopedTy W a priors i → Nearest W false (HasProc W n) i j → Leads W a (.scopedCall priors n) (.proc j n)
  | scopedVar {priors : List Ident} {n : Ident} {i j : Nat} :
      ScopedTy W a priors i → Nearest W false (HasVar W n) i j → Leads W a (.scopedVar priors n) (.var j n)
  | parent {p : List Ident} {n : Ident} {i k j : Nat} :
      Owner W a i → InBody a (p ++ [n]) 0 → W.parent i = some k → Nearest W true (HasProc W n) k j →
      Leads W a .parentCall (.proc j n)
  | earlier {p : List Ident} {n : Ident} {i k : Nat} {q : ProcEntry} :
      Owner W a i → InBody a (p ++ [n]) (k + 1) → (W.procs i).lookup n = some q → k < q.defs.length →
      Leads W a .parentCall (.procDef i n k)
  | macro {n : Ident} {l : Loc} : Leads W a (.macroUse n l) (.macro l)

/-- The symbol that a name stands for: that of its declaration. -/
inductive Means (W : World) (a : Place) : Ann → Sym → Prop
  | variable {p path : List Ident} {n : Ident} {i j : Nat} :
      WalkTo W ["var"] p i → DeclOn W n i j path → Means W a (.variable (p ++ [n])) (.var j n)
  | header {p : List Ident} {n : Ident} {idx i j : Nat} :
      WalkTo W ["proc", "verb"] p i → Nearest W true (DeclaresProc W n) i j → Means W a (.procHeader (p ++ [n]) idx) (.proc j n)
  | treePath {absolute : Bool} {p full : List Ident} {i : Nat} :
      FullPath a absolute p full → TypeAt W full i → Means W a (.treePath absolute p) (.type i)
  | pathType {p : List (PathOp × Ident)} {i : Nat} : PathTy W a p ⟨i, none, none⟩ → Means W a (.typePath p) (.type i)
  | pathProc {p : List (PathOp × Ident)} {i k j : Nat} {verb : Bool} {n : Ident} :
      PathTy W a p ⟨i, some verb, some (n, k)⟩ → Nearest W true (DeclaresProc W n) i j → Means W a (.typePath p) (.proc j n)
  | call {n : Ident} {i j : Nat} :
      Home W a i → Nearest W true (DeclaresProc W n) i j → Means W a (.unscopedCall n) (.proc j n)
  | var {n : Ident} {i j : Nat} {path : List Ident} :
      VarAt W a n i → DeclOn W n i j path → Means W a (.unscopedVar n) (.var j n)
  | scopedCall {priors : List Ident} {n : Ident} {i j : Nat} :
      ScopedTy W a priors i → Nearest W false (DeclaresProc W n) i j → Means W a (.scopedCall priors n) (.proc j n)
  | scopedVar {priors : List Ident} {n : Ident} {i j : Nat} :
      ScopedTy W a priors i → Nearest W false (fun k => ∃ p, DeclaresVar W n k p) i j →
      Means W a (.scopedVar priors n) (.var j n)

/-- The type path of the variable that a name stands for. -/
inductive TypePathOf (W : World) (a : Place) : Ann → List Ident → Prop
  | unscoped {n : Ident} {path : List Ident} : NamePath W a n path → TypePathOf W a (.unscopedVar n) path
  | scoped {priors path : List Ident} {n : Ident} {i j : Nat} :
      ScopedTy W a priors i → Nearest W false (fun k => ∃ p, DeclaresVar W n k p) i j → DeclaresVar W n j path →
      TypePathOf W a (.scopedVar priors n) path

/-- The last of the annotations for which there is something. -/
def Last {α : Type} (a : Place) (R : Ann → α → Prop) (y : α) : Prop :=
  ∃ pre l x post, a = pre ++ (l, x) :: post ∧ R x y ∧ ∀ z ∈ post, ∀ y', ¬ R z.2 y'

end Verif.Lookup
