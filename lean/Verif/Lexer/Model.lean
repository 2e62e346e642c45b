/-!
# Model of `crates/dreammaker/src/lexer.rs`

Bytes are modelled by `Char`s (`b'x'` is `'x'`), byte strings by `List Char`.  The conversion of
collected bytes to a `String` (`from_utf8_or_latin1`, lexer.rs:433-456) is left out: tokens carry
the bytes.  `FileId` is dropped from locations (it never changes inside one lexer).

Panics: every `panic!`, failed `assert_eq!`, arithmetic overflow and out-of-bounds index of the code
sets the sticky flag `panic` of the state, and so does a loop of the model that runs out of fuel;
what the model computes after that is meaningless.  Nothing ever resets the flag.
-/

namespace Verif.Lexer

/-- `Punctuation` (lexer.rs:59-139).  The enum has one variant per literal of `PUNCT_TABLE`, plus
`CloseColon`; a variant is modelled by its literal and whether it is the `close` variant. -/
structure Punct where
  lit : List Char
  close : Bool := false
deriving DecidableEq, Repr

/-- `PUNCT_TABLE` (lexer.rs:60-138), in order -/
def punctTable : List (List Char) :=
  ["\t", "\n", " ", "!", "!=", "\"", "#", "##", "%", "%%", "%%=", "%=", "&", "&&", "&&=", "&=", "'",
   "(", ")", "*", "**", "*=", "+", "++", "+=", ",", "-", "--", "-=", ".", "..", "...", "/", "/*",
   "//", "/=", ":", "::", ":=", ";", "<", "<<", "<<=", "<=", "<=>", "<>", "=", "==", ">", ">=", ">>",
   ">>=", "?", "?.", "?:", "?[", "[", "]", "^", "^=", "{", "{\"", "|", "|=", "||", "||=", "}", "~",
   "~!", "~=", "in"].map String.toList

/-- `SPEEDY_TABLE` (lexer.rs:151-169), without its `(0, 0)` entries: byte, start, end -/
def speedyTable : List (Char × Nat × Nat) :=
  [('\t', 0, 1), ('\n', 1, 2), (' ', 2, 3), ('!', 3, 5), ('"', 5, 6), ('#', 6, 8), ('%', 8, 12),
   ('&', 12, 16), ('\'', 16, 17), ('(', 17, 18), (')', 18, 19), ('*', 19, 22), ('+', 22, 25),
   (',', 25, 26), ('-', 26, 29), ('.', 29, 32), ('/', 32, 36), (':', 36, 39), (';', 39, 40),
   ('<', 40, 46), ('=', 46, 48), ('>', 48, 52), ('?', 52, 56), ('[', 56, 57), (']', 57, 58),
   ('^', 58, 60), ('{', 60, 62), ('|', 62, 66), ('}', 66, 67), ('~', 67, 70)]

/-- `filter_punct_table` (lexer.rs:219-222) -/
def filterPunctTable (filter : Char) : List (List Char) :=
  let se := (speedyTable.lookup filter).getD (0, 0)
  (punctTable.drop se.1).take (se.2 - se.1)

/-- `filter_punct` (lexer.rs:225-241): skip to the first entry with the prefix, then take the run of
entries with the prefix -/
def filterPunct (input : List (List Char)) (filter : List Char) : List (List Char) :=
  (input.dropWhile (fun e => !filter.isPrefixOf e)).takeWhile (fun e => filter.isPrefixOf e)

/-- the payload of a `DocComment` token (docs.rs `CommentKind`, `DocTarget`) -/
inductive CommentKind | block | line
deriving DecidableEq, Repr
/-- docs.rs `DocTarget` -/
inductive DocTarget | followingItem | enclosingItem
deriving DecidableEq, Repr

/-- `Token` (lexer.rs:244-273).  `Eof` is not emitted by the lexer.  `Int` carries the value, `Float`
the bit pattern of the `f32`. -/
inductive Tok
  | punct (p : Punct)
  | ident (name : List Char) (ws : Bool)
  | str (s : List Char)
  | interpBegin (s : List Char)
  | interpPart (s : List Char)
  | interpEnd (s : List Char)
  | resource (s : List Char)
  | int (v : Nat)
  | float (bits : Nat)
  | doc (k : CommentKind) (t : DocTarget) (text : List Char)
deriving DecidableEq, Repr

/-- `Directive` (lexer.rs:467-472) -/
inductive Directive | none | hash | ordinary | stringy
deriving DecidableEq, Repr

/-- which diagnostic was registered (the messages of `self.error(…)`) -/
inductive Err
  | commentAtEof | backslashInComment | precisionLoss | badInt | badFloat
  | unterminatedResource | unterminatedString | unterminatedRaw | unterminatedRawTerminator
  | emptyRawTerminator | illegalByte
deriving DecidableEq, Repr

/-- line and column -/
structure Loc where
  line : Nat
  col : Nat
deriving DecidableEq, Repr

/-- The `Lexer` (lexer.rs:624-633) together with its `LocationTracker` (lexer.rs:530-536): `prev` are
the bytes already read from `inner`, newest first, and `rem` the others, so that
`inner = prev.reverse ++ rem` and `offset = prev.length`.  The last element of Rust's `interp_stack`
is the head here.  `errs` are the registered diagnostics, newest first. -/
structure Lexer where
  prev : List Char
  rem : List Char
  line : Nat := 0
  col : Nat := 0
  atLineEnd : Bool := true
  nxt : Option Char := none
  finalNewline : Bool := false
  atLineHead : Bool := true
  closeAllowed : Bool := true
  directive : Directive := .none
  interp : List (List Char × Nat) := []
  errs : List (Loc × Err) := []
  panic : Bool := false
deriving DecidableEq, Repr

/-- `Lexer::location` (lexer.rs:653-655) -/
def Lexer.loc (s : Lexer) : Loc := ⟨s.line, s.col⟩

/-- the UTF-8 byte order mark (lexer.rs:556) -/
def bom : List Char := ['\xef', '\xbb', '\xbf']

/-- `LocationTracker::new` + `Lexer::from_input` (lexer.rs:543-560, 659-671) -/
def Lexer.new (text : List Char) : Lexer :=
  if bom.isPrefixOf text then { prev := bom.reverse, rem := text.drop 3 }
  else { prev := [], rem := text }

/-- number of bytes the lexer can still hand out -/
def Lexer.size (s : Lexer) : Nat := s.rem.length + s.nxt.toList.length

/-- `context.register_error(DMError::new(loc, …))` -/
def Lexer.errAt (s : Lexer) (l : Loc) (e : Err) : Lexer := { s with errs := (l, e) :: s.errs }
/-- `context.register_error(self.error(…))` -/
def Lexer.err (s : Lexer) (e : Err) : Lexer := s.errAt s.loc e

/-- `u32::MAX` -/
def lineLimit : Nat := 4294967295
/-- `u16::MAX` -/
def colLimit : Nat := 65535

/-- the head of `LocationTracker::next` (lexer.rs:593-600): moving to the next line -/
def Lexer.bumpLine (s : Lexer) : Lexer :=
  if s.atLineEnd then
    { s with atLineEnd := false, line := s.line + 1, col := 0,
             panic := s.panic || decide (s.line ≥ lineLimit) }
  else s

/-- the rest of `LocationTracker::next` (lexer.rs:602-616) -/
def Lexer.trackRead (s : Lexer) : Option Char × Lexer :=
  match s.rem with
  | [] => (none, s)
  | ch :: r =>
    (some ch, { s with prev := ch :: s.prev, rem := r, atLineEnd := s.atLineEnd || (ch == '\n'),
                       col := s.col + 1, panic := s.panic || decide (s.col ≥ colLimit) })

/-- `LocationTracker::next` (lexer.rs:592-617) -/
def Lexer.trackNext (s : Lexer) : Option Char × Lexer := s.bumpLine.trackRead

/-- `Lexer::next` (lexer.rs:712-731) -/
def Lexer.next (s : Lexer) : Option Char × Lexer :=
  match s.nxt with
  | some c => (some c, { s with nxt := none })
  | none =>
    let r := s.trackNext
    let s2 := if r.2.line > s.line then { r.2 with atLineHead := true, directive := .none } else r.2
    match r.1 with
    | none => (none, s2)
    | some ch => (some ch, if ch ≠ '\t' ∧ ch ≠ ' ' then { s2 with atLineHead := false } else s2)

/-- `Lexer::put_back` (lexer.rs:733-738) -/
def Lexer.putBack (s : Lexer) (v : Option Char) : Lexer :=
  { s with panic := s.panic || s.nxt.isSome, nxt := v }

/-- out of fuel -/
def Lexer.stuck (s : Lexer) : Lexer := { s with panic := true }

/-! ## Comments -/

/-- the loop of `skip_block_comments` (lexer.rs:764-787).  `b1` is `buffer[1]` (NUL = `'\x00'`),
`text` is `comment_text` reversed, `depth` the `i32` nesting depth (its overflow is not modelled:
it needs 2^31 nested comment openers).  The `-= 1` cannot underflow since the loop stops at 0. -/
def blockLoop (isDoc : Bool) : Nat → Lexer → Nat → Char → List Char → List Char × Lexer
  | 0, s, _, _, text => (text, s.stuck)
  | fuel + 1, s, depth, b1, text =>
    let b0 := b1
    match s.next with
    | (none, s) => (text, s.err .commentAtEof)
    | (some b1, s) =>
      if b0 = '/' ∧ b1 = '*' then
        blockLoop isDoc fuel s (depth + 1) b1 (if b0 ≠ '\x00' ∧ isDoc then b0 :: text else text)
      else if b0 = '*' ∧ b1 = '/' then
        if depth - 1 = 0 then (text, s)
        else
          blockLoop isDoc fuel s (depth - 1) b1 (if b0 ≠ '\x00' ∧ isDoc then b0 :: text else text)
      else blockLoop isDoc fuel s depth b1 (if b0 ≠ '\x00' ∧ isDoc then b0 :: text else text)

/-- `skip_block_comments` (lexer.rs:740-793) -/
def skipBlockComments (s : Lexer) : Option Tok × Lexer :=
  let r := s.next
  let target : Option DocTarget :=
    if r.1 = some '*' then some .followingItem
    else if r.1 = some '!' then some .enclosingItem else none
  let b1 : Char := if r.1 = some '!' then '\x00' else r.1.getD '\x00'
  let q := blockLoop target.isSome (r.2.size + 1) r.2 1 b1 []
  (if q.1.isEmpty then none else target.map (fun t => .doc .block t q.1.reverse), q.2)

/-- the loop of `skip_line_comment` (lexer.rs:816-838) -/
def lineLoop (isDoc : Bool) : Nat → Lexer → Bool → List Char → List Char × Lexer
  | 0, s, _, text => (text, s.stuck)
  | fuel + 1, s, backslash, text =>
    match s.next with
    | (none, s) => (text, s)
    | (some ch, s) =>
      let text := if ch ≠ '\r' ∧ ch ≠ '\n' ∧ isDoc then ch :: text else text
      if ch = '\r' then lineLoop isDoc fuel s backslash text
      else if backslash then
        lineLoop isDoc fuel (if ch = '\n' then s.err .backslashInComment else s) false text
      else if ch = '\n' then (text, s.putBack (some ch))
      else if ch = '\\' then lineLoop isDoc fuel s true text
      else lineLoop isDoc fuel s false text

/-- `skip_line_comment` (lexer.rs:795-844) -/
def skipLineComment (s : Lexer) : Option Tok × Lexer :=
  let r := s.next
  if r.1 = some '\n' then (none, r.2.putBack (some '\n'))
  else
    let target : Option DocTarget :=
      if r.1 = some '/' then some .followingItem
      else if r.1 = some '!' then some .enclosingItem else none
    let q := lineLoop target.isSome (r.2.size + 1) r.2 (r.1 = some '\\') []
    (target.map (fun t => .doc .line t q.1.reverse), q.2)

/-! ## Numbers -/

/-- the parts of `f32` the lexer uses: `f32::from_str` and `to_string`; arbitrary functions in this
model -/
structure FloatOps where
  parse : List Char → Option Nat
  show_ : Nat → List Char

/-- `char::to_digit` (digits of radix at most 16) -/
def digitVal (c : Char) : Option Nat :=
  if '0' ≤ c ∧ c ≤ '9' then some (c.toNat - 48)
  else if 'a' ≤ c ∧ c ≤ 'f' then some (c.toNat - 87)
  else if 'A' ≤ c ∧ c ≤ 'F' then some (c.toNat - 55)
  else none

/-- `char::is_digit` -/
def isDigitRadix (radix : Nat) (c : Char) : Bool :=
  match digitVal c with
  | some d => decide (d < radix)
  | none => false

/-- `i32::from_str_radix` on a text without sign: digits of the radix, value at most `i32::MAX`
(the standard library's contract). -/
def fromStrRadix (buf : List Char) (radix : Nat) : Option Nat :=
  if buf.isEmpty || !buf.all (isDigitRadix radix) then none
  else
    let v := buf.foldl (fun n c => n * radix + (digitVal c).getD 0) 0
    if v ≤ 2147483647 then some v else none

/-- the `#INF`/`#IND` suffix reader (lexer.rs:879-890): up to three more bytes, each of which must
keep the text in the list; `false` = gave up. -/
def infLoop : Nat → Lexer → List Char → List Char → (Bool × List Char) × Lexer
  | 0, s, _, got => ((true, got), s)
  | k + 1, s, buf, got =>
    match s.next with
    | (none, s) => ((false, got), s)
    | (some ch, s) =>
      let got := got ++ [ch]
      if got ∈ ["I".toList, "IN".toList, "INF".toList, "IND".toList] then infLoop k s buf got
      else ((false, got), s)

/-- the loop of `read_number_inner` (lexer.rs:863-909); result `(integer, radix, buf)` -/
def numLoop : Nat → Lexer → Bool → Bool → Nat → List Char → (Bool × Nat × List Char) × Lexer
  | 0, s, integer, _, radix, buf => ((integer, radix, buf), s.stuck)
  | fuel + 1, s, integer, exponent, radix, buf =>
    match s.next with
    | (none, s) => ((integer, radix, buf), s.putBack none)
    | (some ch, s) =>
      if ch = '_' then numLoop fuel s integer exponent radix buf
      else if ch = '.' ∨ ch = 'e' ∨ ch = 'E' then
        if radix ≠ 16 then
          numLoop fuel s false (exponent || (ch == 'e') || (ch == 'E')) radix (buf ++ [ch])
        else numLoop fuel s integer exponent radix (buf ++ [ch])
      else if (ch = '+' ∨ ch = '-') ∧ exponent then
        numLoop fuel s integer exponent radix (buf ++ [ch])
      else if ch = '#' then
        let r := infLoop 3 s buf []
        if r.1.1 then
          if r.1.2 = "INF".toList then ((false, 10, "inf".toList), r.2)
          else ((false, 10, "NaN".toList), r.2)
        else ((false, 10, buf ++ '#' :: r.1.2), r.2)
      else if isDigitRadix (max radix 10) ch then
        numLoop fuel s integer false radix (buf ++ [ch])
      else ((integer, radix, buf), s.putBack (some ch))

/-- `read_number_inner` (lexer.rs:846-910).  `first` is a digit here: the only caller
(lexer.rs:1289) passes `b'0'..=b'9'`, so the branch for `.` (853-854) is left out. -/
def readNumberInner (s : Lexer) (first : Char) : (Bool × Nat × List Char) × Lexer :=
  if first = '0' then
    let r := s.next
    if r.1 = some 'x' then numLoop (r.2.size + 1) r.2 true false 16 [first]
    else
      let s := r.2.putBack r.1
      numLoop (s.size + 1) s true false 8 [first]
  else numLoop (s.size + 1) s true false 10 [first]

/-- `read_number` (lexer.rs:912-950) -/
def readNumber (fo : FloatOps) (s : Lexer) (first : Char) : Tok × Lexer :=
  let r := readNumberInner s first
  let integer := r.1.1
  let radix := r.1.2.1
  let buf := r.1.2.2
  let s := r.2
  if integer then
    match fromStrRadix buf radix with
    | some v => (.int v, s)
    | none =>
      match (if radix = 10 then fo.parse buf else none) with
      | some v => (.float v, if fo.show_ v ≠ buf then s.err .precisionLoss else s)
      | none => (.int 0, s.err .badInt)
  else
    match fo.parse buf with
    | some v => (.float v, s)
    | none => (.float 0, s.err .badFloat)

/-! ## Identifiers, resources, strings -/

/-- `is_digit` (lexer.rs:425-427) -/
def isDigit (c : Char) : Bool := '0' ≤ c && c ≤ '9'
/-- `is_ident` (lexer.rs:429-431) -/
def isIdent (c : Char) : Bool := ('a' ≤ c && c ≤ 'z') || ('A' ≤ c && c ≤ 'Z') || c == '_'

/-- the loop of `read_ident` (lexer.rs:957-968): the final `end - start` and `ws` -/
def identLoop : Nat → Lexer → Nat → (Nat × Bool) × Lexer
  | 0, s, len => ((len, false), s.stuck)
  | fuel + 1, s, len =>
    match s.next with
    | (none, s) => ((len, false), s.putBack none)
    | (some ch, s) =>
      if isIdent ch || isDigit ch then identLoop fuel s (len + 1)
      else ((len, ch == ' ' || ch == '\t'), s.putBack (some ch))

/-- `read_ident` (lexer.rs:952-971): `start = offset - 1`, the `assert_eq!` on
`inner[start]`, and the slice `inner[start..end]` -/
def readIdent (s : Lexer) (first : Char) : (List Char × Bool) × Lexer :=
  let start := s.prev.length - 1
  let s := { s with panic := s.panic || decide (s.prev.head? ≠ some first) }
  let r := identLoop (s.size + 1) s 1
  let inner := r.2.prev.reverse ++ r.2.rem
  (((inner.drop start).take r.1.1, r.1.2), r.2)

/-- the loop of `read_resource` (lexer.rs:977-993); `buf` reversed -/
def resourceLoop (start : Loc) : Nat → Lexer → Bool → List Char → List Char × Lexer
  | 0, s, _, buf => (buf, s.stuck)
  | fuel + 1, s, backslash, buf =>
    match s.next with
    | (none, s) => (buf, s.errAt start .unterminatedResource)
    | (some ch, s) =>
      if backslash then resourceLoop start fuel s false (ch :: buf)
      else if ch = '\\' then resourceLoop start fuel s true buf
      else if ch = '\'' then (buf, s)
      else resourceLoop start fuel s false (ch :: buf)

/-- `read_resource` (lexer.rs:973-995) -/
def readResource (s : Lexer) : List Char × Lexer :=
  let r := resourceLoop s.loc (s.size + 1) s false []
  (r.1.reverse, r.2)

/-- the loop of `skip_ws` (lexer.rs:1174-1189).  `sn` is the shadowing `skip_newlines` counter. -/
def wsLoop : Nat → Lexer → Nat → Option Char × Lexer
  | 0, s, _ => (none, s.stuck)
  | fuel + 1, s, sn =>
    match s.next with
    | (none, s) => (none, s)
    | (some ch, s) =>
      if ch = '\r' then wsLoop fuel s sn
      else if (ch = ' ' ∨ ch = '\t') ∧ (!s.atLineHead ∨ sn > 0) then
        wsLoop fuel { s with closeAllowed := false } sn
      else if ch = '\n' ∧ sn = 2 then wsLoop fuel { s with closeAllowed := true } 1
      else (some ch, s)

/-- `skip_ws` (lexer.rs:1174-1190) -/
def skipWs (s : Lexer) (skipNewlines : Bool) : Option Char × Lexer :=
  wsLoop (s.size + 1) s (if skipNewlines then 2 else 0)

/-- the loop of `read_string` (lexer.rs:1004-1055).  `stop` is `end`, `buf` reversed; the result
says whether an interpolation was opened.  An out-of-range `end[idx]` would be a panic. -/
def stringLoop (stop : List Char) (start : Loc) :
    Nat → Lexer → Nat → Bool → List Char → (List Char × Bool) × Lexer
  | 0, s, _, _, buf => ((buf, false), s.stuck)
  | fuel + 1, s, idx, backslash, buf =>
    match s.next with
    | (none, s) => ((buf, false), s.errAt start .unterminatedString)
    | (some ch, s) =>
      if stop[idx]? = some ch ∧ !backslash then
        if idx + 1 = stop.length then ((buf, false), s)
        else stringLoop stop start fuel s (idx + 1) backslash buf
      else if idx > 0 ∧ stop[idx - 1]? = some ch ∧
          stop.take (idx - 1) = (stop.take idx).drop 1 ∧ !backslash then
        stringLoop stop start fuel s idx backslash ((stop.take 1).reverse ++ buf)
      else
        let buf := (stop.take idx).reverse ++ buf
        let s := { s with panic := s.panic || decide (idx ≥ stop.length) }
        if (ch = '\r' ∨ ch = '\n') ∧ backslash then
          let r := skipWs s true
          stringLoop stop start fuel (r.2.putBack r.1) 0 false buf
        else if backslash then stringLoop stop start fuel s 0 false (ch :: '\\' :: buf)
        else if ch = '[' then ((buf, true), { s with interp := (stop, 1) :: s.interp })
        else if ch = '\\' then stringLoop stop start fuel s 0 true buf
        else stringLoop stop start fuel s 0 false (ch :: buf)

/-- `read_string` (lexer.rs:997-1065) -/
def readString (s : Lexer) (stop : List Char) (interpClosed : Bool) : Tok × Lexer :=
  let r := stringLoop stop s.loc (s.size + 1) s 0 false []
  let string := r.1.1.reverse
  (if r.1.2 then
     if interpClosed then .interpPart string else .interpBegin string
   else if interpClosed then .interpEnd string else .str string, r.2)

/-- the loop of `read_raw_string_inner` (lexer.rs:1070-1083); `buf` reversed -/
def rawLoop (term : List Char) (start : Loc) : Nat → Lexer → List Char → List Char × Lexer
  | 0, s, buf => (buf, s.stuck)
  | fuel + 1, s, buf =>
    match s.next with
    | (none, s) => (buf, s.errAt start .unterminatedRaw)
    | (some ch, s) =>
      if term.reverse.isPrefixOf (ch :: buf) then ((ch :: buf).drop term.length, s)
      else rawLoop term start fuel s (ch :: buf)

/-- `read_raw_string_inner` (lexer.rs:1067-1085).  After an unterminated read the Rust code breaks
out of the loop before the `ends_with` test, like the `none` case here. -/
def readRawStringInner (s : Lexer) (term : List Char) : Tok × Lexer :=
  let r := rawLoop term s.loc (s.size + 1) s []
  (.str r.1.reverse, r.2)

/-- the terminator loop of `read_raw_string` (lexer.rs:1098-1108); `none` = end of input -/
def termLoop : Nat → Lexer → List Char → Option (List Char) × Lexer
  | 0, s, _ => (none, s.stuck)
  | fuel + 1, s, term =>
    match s.next with
    | (none, s) => (none, s)
    | (some ch, s) => if ch = ')' then (some term, s) else termLoop fuel s (term ++ [ch])

/-- `read_raw_string` (lexer.rs:1087-1129) -/
def readRawString (s : Lexer) : Tok × Lexer :=
  match s.next with
  | (none, s) => (.str [], s.err .unterminatedRaw)
  | (some ch, s) =>
    if ch = '\n' then (.str [], s.err .unterminatedRaw)
    else if ch = '(' then
      match termLoop (s.size + 1) s [] with
      | (none, s) => (.str [], s.err .unterminatedRawTerminator)
      | (some term, s) =>
        if term.isEmpty then (.str [], s.err .emptyRawTerminator) else readRawStringInner s term
    else if ch = '{' then
      match s.next with
      | (other, s) =>
        if other = some '"' then readRawStringInner s ['"', '}']
        else readRawStringInner (s.putBack other) ['{']
    else readRawStringInner s [ch]

/-! ## Punctuation -/

/-- the loop of `read_punct` (lexer.rs:1137-1153); the result says whether the loop ended because no
entry is left (`while` condition) or by a `return`.  `needle` has room for 8 bytes. -/
def punctLoop : Nat → Lexer → List Char → List (List Char) → Option (List Char) →
    (Option (List Char) × Bool × List Char) × Lexer
  | 0, s, needle, _, cand => ((cand, true, needle), s.stuck)
  | fuel + 1, s, needle, items, cand =>
    match items with
    | [] => ((cand, false, needle), s)
    | it :: more =>
      let cand := if it = needle then some it else cand
      if more.isEmpty then ((cand, true, needle), s)
      else
        match s.next with
        | (none, s) => ((cand, true, needle), s)
        | (some b, s) =>
          let s := { s with panic := s.panic || decide (needle.length ≥ 8) }
          punctLoop fuel s (needle ++ [b]) (filterPunct (it :: more) (needle ++ [b])) cand

/-- `read_punct` (lexer.rs:1131-1158) -/
def readPunct (s : Lexer) (first : Char) : Option Punct × Lexer :=
  let r := punctLoop (s.size + 2) s [first] (filterPunctTable first) none
  let cand := r.1.1.map (fun l => ({ lit := l } : Punct))
  if r.1.2.1 then (cand, r.2)
  else if r.1.2.2.length > 1 then (cand, r.2.putBack r.1.2.2.getLast?)
  else (cand, r.2)

/-- `Punctuation::close` (lexer.rs:46-53): only `Colon` has a `close` variant -/
def Punct.closed (p : Punct) : Punct := if p = { lit := [':'] } then { lit := [':'], close := true } else p

/-- `check_close` (lexer.rs:1160-1172) -/
def checkClose (s : Lexer) (p : Punct) : Punct × Lexer :=
  if p ≠ p.closed then
    let r := s.next
    let p := if r.1 = some '\r' ∨ r.1 = some ' ' ∨ r.1 = some '\t' ∨ r.1 = some '\n' then p else p.closed
    (p, r.2.putBack r.1)
  else (p, s)

/-! ## The token iterator -/

/-- what one pass of the main loop does: emit a token (with its location), stop, or `continue` with
new values of `skip_newlines` and `found_illegal` -/
inductive Step
  | emit (l : Loc) (t : Tok)
  | done
  | cont (skipNewlines foundIllegal : Bool)
deriving DecidableEq, Repr

/-- the `match punct` of the main loop for `Some(_)` (lexer.rs:1240-1286) -/
def onPunct (s : Lexer) (loc : Loc) (p : Punct) (foundIllegal : Bool) : Step × Lexer :=
  if p.lit = ['#'] ∧ s.directive = .none then (.emit loc (.punct p), { s with directive := .hash })
  else if p.lit = "/*".toList then
    let r := skipBlockComments s
    match r.1 with
    | some t => (.emit loc t, r.2)
    | none => (.cont false foundIllegal, r.2)
  else if p.lit = "//".toList then
    let r := skipLineComment s
    match r.1 with
    | some t => (.emit loc t, r.2)
    | none => (.cont false foundIllegal, r.2)
  else if p.lit = ['\''] then
    let r := readResource s
    (.emit loc (.resource r.1), r.2)
  else if p.lit = ['"'] then
    let r := readString s ['"'] false
    (.emit loc r.1, r.2)
  else if p.lit = "{\"".toList then
    let r := readString s ['"', '}'] false
    (.emit loc r.1, r.2)
  else if p.lit = ['['] ∨ p.lit = "?[".toList then
    (.emit loc (.punct p),
      { s with interp := match s.interp with | [] => [] | (e, d) :: st => (e, d + 1) :: st })
  else if p.lit = [']'] then
    match s.interp with
    | [] => (.emit loc (.punct p), { s with closeAllowed := true })
    | (e, d) :: st =>
      let s := { s with panic := s.panic || decide (d = 0) }
      if d - 1 = 0 then
        let r := readString { s with interp := st } e true
        (.emit loc r.1, r.2)
      else (.emit loc (.punct p), { s with interp := (e, d - 1) :: st, closeAllowed := true })
  else if p.lit = [')'] then (.emit loc (.punct p), { s with closeAllowed := true })
  else (.emit loc (.punct p), s)

/-- the `match first` of the main loop for `None` (lexer.rs:1287-1327) -/
def onOther (fo : FloatOps) (s : Lexer) (loc : Loc) (first : Char) (foundIllegal : Bool) :
    Step × Lexer :=
  if isDigit first then
    let r := readNumber fo s first
    (.emit loc r.1, r.2)
  else if isIdent first then
    let r := readIdent s first
    let name := r.1.1
    let s := r.2
    let s := if s.directive = .hash then
        { s with directive := if name = "warn".toList ∨ name = "error".toList then .stringy else .ordinary }
      else s
    if name = "in".toList then (.emit loc (.punct { lit := "in".toList }), s)
    else (.emit loc (.ident name r.1.2), { s with closeAllowed := true })
  else if first = '\\' then (.cont true foundIllegal, { s with atLineHead := false })
  else if first = '@' then
    let r := readRawString s
    (.emit loc r.1, r.2)
  else
    (.cont false true, if foundIllegal then s else s.err .illegalByte)

/-- the end of the input (lexer.rs:1205-1218): the final newline -/
def onEof (s : Lexer) : Step × Lexer :=
  if s.finalNewline then (.done, s)
  else (.emit ⟨s.line, s.col + 1⟩ (.punct { lit := ['\n'] }),
    { s with finalNewline := true, panic := s.panic || decide (s.col ≥ colLimit) })

/-- one pass of the main loop after `skip_ws` returned `first` (lexer.rs:1221-1328) -/
def onFirst (fo : FloatOps) (s : Lexer) (first : Char) (foundIllegal : Bool) : Step × Lexer :=
  let loc := s.loc
  if s.directive = .stringy then
    let s := ({ s with directive := .none } : Lexer).putBack (some first)
    let r := readString s ['\n'] false
    (.emit loc r.1, r.2)
  else
    let r := readPunct s first
    match r.1 with
    | some p =>
      let q := if r.2.closeAllowed then checkClose r.2 p else (p, r.2)
      onPunct q.2 loc q.1 foundIllegal
    | none => onOther fo r.2 loc first foundIllegal

/-- one pass of the main loop (lexer.rs:1202-1328) -/
def step (fo : FloatOps) (s : Lexer) (skipNewlines foundIllegal : Bool) : Step × Lexer :=
  let r := skipWs s skipNewlines
  match r.1 with
  | none => onEof r.2
  | some first => onFirst fo r.2 first foundIllegal

/-- the main loop (lexer.rs:1202-1328) -/
def tokenLoop (fo : FloatOps) : Nat → Lexer → Bool → Bool → Option (Loc × Tok) × Lexer
  | 0, s, _, _ => (none, s.stuck)
  | fuel + 1, s, sn, fi =>
    match step fo s sn fi with
    | (.emit l t, s) => (some (l, t), s)
    | (.done, s) => (none, s)
    | (.cont sn fi, s) => tokenLoop fo fuel s sn fi

/-- `<Lexer as Iterator>::next` (lexer.rs:1196-1330) -/
def nextToken (fo : FloatOps) (s : Lexer) : Option (Loc × Tok) × Lexer :=
  tokenLoop fo (s.size + 1) s false false

/-- draining the iterator -/
def drain (fo : FloatOps) : Nat → Lexer → List (Loc × Tok) × Lexer
  | 0, s => ([], s.stuck)
  | fuel + 1, s =>
    match nextToken fo s with
    | (none, s) => ([], s)
    | (some t, s) =>
      let r := drain fo fuel s
      (t :: r.1, r.2)

/-- the whole token stream of a text, with the final state (diagnostics, `panic`) -/
def lexAll (fo : FloatOps) (text : List Char) : List (Loc × Tok) × Lexer :=
  drain fo (text.length + 2) (Lexer.new text)

end Verif.Lexer
