import Mathlib.Data.List.Basic

/-!
# Model of documentation comments (`crates/dreammaker/src/docs.rs`)

A string is its list of characters; lengths and slices are in bytes, and a slice that does not start and end between
characters, or ends before it starts, is a panic (no result).  `ws` is `char::is_whitespace`; what the theorems need of
it they say.  `trim_start_matches` and `trim_end_matches` are `dropWhile` from either end.
-/

namespace Verif.Docs

/-- `str::len` -/
def blen : List Char → Nat
  | [] => 0
  | c :: l => c.utf8Size + blen l

/-- `&s[n..]` -/
def dropBytes : Nat → List Char → Option (List Char)
  | 0, l => some l
  | _ + 1, [] => none
  | n + 1, c :: l => if c.utf8Size ≤ n + 1 then dropBytes (n + 1 - c.utf8Size) l else none

/-- `&s[..n]` -/
def takeBytes : Nat → List Char → Option (List Char)
  | 0, _ => some []
  | _ + 1, [] => none
  | n + 1, c :: l =>
    if c.utf8Size ≤ n + 1 then (takeBytes (n + 1 - c.utf8Size) l).map (c :: ·) else none

/-- `&s[a..b]` -/
def slice (s : List Char) (a b : Nat) : Option (List Char) :=
  if a ≤ b then (dropBytes a s).bind (takeBytes (b - a)) else none

/-- the `\r` before a `\n` -/
def stripCr (l : List Char) : List Char := if l.getLast? = some '\r' then l.dropLast else l

/-- `str::lines`; `cur` is the line so far -/
def linesGo (cur : List Char) : List Char → List (List Char)
  | [] => if cur = [] then [] else [cur]
  | c :: r => if c = '\n' then stripCr cur :: linesGo [] r else linesGo (cur ++ [c]) r

def lines (t : List Char) : List (List Char) := linesGo [] t

/-- characters to ignore at the ends of lines -/
def ign (ws : Char → Bool) (ic c : Char) : Bool := ws c || c == ic

/-- `is_empty` (docs.rs:224-226) -/
def isEmpty (ws : Char → Bool) (text : List Char) (ic : Char) : Bool := text.all (ign ws ic)

/-- `this_prefix` (docs.rs:152-155) -/
def linePrefix (ws : Char → Bool) (ic : Char) (line : List Char) : List Char := line.takeWhile (ign ws ic)

/-- `this_suffix` (docs.rs:175-177) -/
def lineSuffix (ws : Char → Bool) (ic : Char) (line : List Char) : List Char :=
  (line.reverse.takeWhile (ign ws ic)).reverse

/-- the loop that shortens the prefix (docs.rs:159-171); for the suffix it runs backwards (docs.rs:181-193) -/
def common : List Char → List Char → List Char
  | [], _ => []
  | _ :: _, [] => []
  | a :: l, b :: r => if a = b then a :: common l r else []

def shortenPrefix (this : List Char) : Option (List Char) → Option (List Char)
  | none => some this
  | some p => some (common p this)

def shortenSuffix (this : List Char) : Option (List Char) → Option (List Char)
  | none => some this
  | some s => some (common s.reverse this.reverse).reverse

/-- the prefix and suffix to strip (docs.rs:147-195) -/
def affixes (ws : Char → Bool) (ic : Char) :
    List (List Char) → Option (List Char) × Option (List Char) → Option (List Char) × Option (List Char)
  | [], acc => acc
  | line :: ls, acc =>
    if isEmpty ws line ic then affixes ws ic ls acc
    else affixes ws ic ls (shortenPrefix (linePrefix ws ic line) acc.1, shortenSuffix (lineSuffix ws ic line) acc.2)

def optLen : Option (List Char) → Nat
  | none => 0
  | some s => blen s

/-- the loop that strips (docs.rs:201-221) -/
def strip (ws : Char → Bool) (ic : Char) (pl sl : Nat) :
    List (List Char) → Nat → Bool → List Char → Option (List Char × Bool)
  | [], _, anything, out => some (out, anything)
  | line :: ls, newlines, anything, out =>
    if isEmpty ws line ic then
      strip ws ic pl sl ls (if newlines > 0 then newlines + 1 else newlines) anything out
    else if blen line < sl then none
    else
      match slice line pl (blen line - sl) with
      | none => none
      | some x => strip ws ic pl sl ls 1 true (out ++ List.replicate newlines '\n' ++ x)

/-- `simplify` (docs.rs:136-222): what is in `out` afterwards, and the result -/
def simplify (ws : Char → Bool) (out text : List Char) (ic : Char) : Option (List Char × Bool) :=
  if text = [] then some (out, false)
  else
    let a := affixes ws ic (lines text) (none, none)
    strip ws ic (optLen a.1) (optLen a.2) (lines text) 0 false out

/-- `CommentKind` (docs.rs:118-125) -/
inductive Kind where
  | block | line
deriving DecidableEq

/-- `CommentKind::ignore_char` (docs.rs:127-134) -/
def Kind.ignoreChar : Kind → Char
  | .block => '*'
  | .line => '/'

/-- `DocComment` (docs.rs:73-79), without the target -/
structure Comment where
  kind : Kind
  text : List Char

/-- `DocComment::is_empty` (docs.rs:91-94) -/
def Comment.isEmpty (ws : Char → Bool) (c : Comment) : Bool := Docs.isEmpty ws c.text c.kind.ignoreChar

/-- line comments gathered so far are put out (docs.rs:38-41, 57-59) -/
def flush (ws : Char → Bool) (output lineComments : List Char) : Option (List Char) :=
  if lineComments = [] then some output else (simplify ws output lineComments '/').map (·.1)

/-- a block comment (docs.rs:42-49) -/
def pushBlock (ws : Char → Bool) (output : List Char) (c : Comment) : Option (List Char) :=
  if c.isEmpty ws then some output
  else (simplify ws (output ++ ['\n']) c.text '*').map fun r => if r.2 then r.1 ++ ['\n'] else r.1

/-- the loop of `DocCollection::text` (docs.rs:32-61) -/
def textGo (ws : Char → Bool) : List Comment → List Char → List Char → Option (List Char)
  | [], output, lineComments => flush ws output lineComments
  | c :: cs, output, lineComments =>
    match c.kind with
    | .block =>
      match (flush ws output lineComments).bind (fun o => pushBlock ws o c) with
      | none => none
      | some o => textGo ws cs o []
    | .line => textGo ws cs output (lineComments ++ c.text ++ ['\n'])

/-- `DocCollection::text` (docs.rs:30-61) -/
def text (ws : Char → Bool) (cs : List Comment) : Option (List Char) := textGo ws cs [] []

/-- `DocCollection::is_empty` (docs.rs:25-28) -/
def collectionEmpty (ws : Char → Bool) (cs : List Comment) : Bool := cs.all (·.isEmpty ws)

end Verif.Docs
