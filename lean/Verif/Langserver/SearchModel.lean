import Mathlib.Data.List.Basic

/-!
# Model of the symbol search (`crates/dm-langserver/src/symbol_search.rs`, and `WorkspaceSymbol` in `main.rs`)

A string is its list of characters.  `char::to_lowercase`, `str::to_lowercase` and `char::is_alphanumeric` are
parameters; what the theorems need of them they say.
-/

namespace Verif.Search

/-- the functions of Unicode -/
structure Uni where
  lower : Char → List Char
  lowerStr : List Char → List Char
  alnum : Char → Bool

/-- `Query` (symbol_search.rs:5-11) -/
inductive Query where
  | anything (q : List Char)
  | define (q : List Char)
  | type (q : List Char)
  | var (q : List Char)
  | proc (q : List Char)
deriving DecidableEq

variable (U : Uni)

/-- `simplify` (symbol_search.rs:73-77) -/
def simplify (s : List Char) : List Char := (s.flatMap U.lower).filter U.alnum

/-- `any_alphanumeric` (symbol_search.rs:102-106) -/
def anyAlphanumeric (s : List Char) : Bool := (s.flatMap U.lower).any U.alnum

/-- `a.zip(&mut b).all(|(a, b)| a == b)`: the result, and what is left of `b` -/
def zipAll : List Char → List Char → Bool × List Char
  | [], q => (true, q)
  | _ :: _, [] => (true, [])
  | a :: f, b :: q => if a = b then zipAll f q else (false, q)

/-- `starts_with` (symbol_search.rs:80-86) -/
def startsWith (fulltext query : List Char) : Bool :=
  let r := zipAll (simplify U fulltext) (simplify U query)
  r.1 && r.2.isEmpty

/-- the loop of `contains` (symbol_search.rs:90-98) -/
def containsGo (query : List Char) : List Char → Bool
  | [] => let r := zipAll [] query; r.1 && r.2.isEmpty
  | a :: f => let r := zipAll (a :: f) query; (r.1 && r.2.isEmpty) || containsGo query f

/-- `contains` (symbol_search.rs:88-99) -/
def contains (fulltext query : List Char) : Bool := containsGo (simplify U query) (simplify U fulltext)

/-- `str::strip_prefix` -/
def stripPrefix : List Char → List Char → Option (List Char)
  | [], s => some s
  | _ :: _, [] => none
  | a :: p, b :: s => if a = b then stripPrefix p s else none

/-- `str::contains` of a string -/
def strContains (q : List Char) : List Char → Bool
  | [] => q.isEmpty
  | c :: s => (stripPrefix q (c :: s)).isSome || strContains q s

/-- `Query::parse` (symbol_search.rs:15-36) -/
def parse (query : List Char) : Option Query :=
  if anyAlphanumeric U query then
    match stripPrefix ['#'] query with
    | some q => some (.define (U.lowerStr q))
    | none =>
      match stripPrefix ['v', 'a', 'r', '/'] query with
      | some q => if anyAlphanumeric U q then some (.var (U.lowerStr q)) else none
      | none =>
        match stripPrefix ['p', 'r', 'o', 'c', '/'] query with
        | some q => if anyAlphanumeric U q then some (.proc (U.lowerStr q)) else none
        | none => if query.contains '/' then some (.type (U.lowerStr query)) else some (.anything (U.lowerStr query))
  else none

/-- `Query::matches_define` (symbol_search.rs:39-45) -/
def matchesDefine (name : List Char) : Query → Bool
  | .anything q | .define q => startsWith U name q
  | _ => false

/-- `Query::matches_type` (symbol_search.rs:47-53) -/
def matchesType (name path : List Char) : Query → Bool
  | .anything q => startsWith U name q
  | .type q => strContains q (U.lowerStr path)
  | _ => false

/-- `Query::matches_on_type` (symbol_search.rs:55-57) -/
def matchesOnType : Query → Bool
  | .anything _ | .proc _ | .var _ => true
  | _ => false

/-- `Query::matches_var` (symbol_search.rs:59-64) -/
def matchesVar (name : List Char) : Query → Bool
  | .anything q | .var q => startsWith U name q
  | _ => false

/-- `Query::matches_proc` (symbol_search.rs:66-71) -/
def matchesProc (name : List Char) : Query → Bool
  | .anything q | .proc q => startsWith U name q
  | _ => false

/-- what the search looks at of a type: variables and procs with whether the type declares them -/
structure Ty where
  name : List Char
  path : List Char
  isRoot : Bool
  vars : List (List Char × Bool)
  procs : List (List Char × Bool)

inductive Sym where
  | define (name : List Char)
  | type (path name : List Char)
  | var (path name : List Char)
  | proc (path name : List Char)
deriving DecidableEq

/-- the results for one type (main.rs:1491-1543) -/
def typeSymbols (q : Query) (ty : Ty) : List Sym :=
  (if matchesType U ty.name ty.path q && !ty.isRoot then [.type ty.path ty.name] else []) ++
    if matchesOnType q then
      (ty.vars.flatMap fun v => if v.2 && matchesVar U v.1 q then [.var ty.path v.1] else []) ++
        ty.procs.flatMap fun p => if p.2 && matchesProc U p.1 q then [.proc ty.path p.1] else []
    else []

/-- `WorkspaceSymbol` (main.rs:1463-1547), without locations and kinds; the conversion of locations does not fail -/
def workspaceSymbol (defines : List (List Char)) (types : List Ty) (query : List Char) : Option (List Sym) :=
  match parse U query with
  | none => none
  | some q =>
    some ((defines.flatMap fun n => if matchesDefine U n q then [.define n] else []) ++
      types.flatMap (typeSymbols U q))

end Verif.Search
