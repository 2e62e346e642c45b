import Mathlib.Tactic.Common
import Mathlib.Data.List.Basic
import Mathlib.Algebra.BigOperators.Group.List.Basic
import Mathlib.Tactic.Linarith

/-!
# Model of document synchronisation (`crates/dm-langserver/src/document.rs`)

* A Rust `String` is a `List Char`; every offset is a *byte* offset into its UTF-8 encoding, as in the
  code, so slicing off a character boundary is a panic.
* `Res.err` is a returned `jsonrpc::Error` (its message is dropped), `Res.panic` a Rust panic.
* `u32`/`usize` counters are `Nat` (a document has fewer than 2^32 lines and columns).
-/

namespace Verif.Langserver

/-- outcome of a fallible Rust function that may also panic -/
inductive Res (α : Type) where
  | ok (a : α)
  | err
  | panic
deriving DecidableEq

/-- `?` -/
def Res.bind {α β : Type} : Res α → (α → Res β) → Res β
  | .ok a, f => f a
  | .err, _ => .err
  | .panic, _ => .panic

/-- `str::len`: the number of UTF-8 bytes -/
def bytes : List Char → Nat
  | [] => 0
  | c :: t => c.utf8Size + bytes t

/-- `char::len_utf16` -/
def u16 (c : Char) : Nat := if c.toNat < 0x10000 then 1 else 2

/-- `&text[off..]`; `none` is the panic (offset out of range or inside a character) -/
def sliceFrom : List Char → Nat → Option (List Char)
  | [], n => if n = 0 then some [] else none
  | c :: t, n =>
    if n = 0 then some (c :: t) else if n < c.utf8Size then none else sliceFrom t (n - c.utf8Size)

/-- `&text[..off]`; `none` is the panic -/
def sliceTo : List Char → Nat → Option (List Char)
  | [], n => if n = 0 then some [] else none
  | c :: t, n =>
    if n = 0 then some [] else if n < c.utf8Size then none
    else (sliceTo t (n - c.utf8Size)).map (c :: ·)

/-- `str::find('\n')`: byte offset of the first line feed -/
def findNl : List Char → Option Nat
  | [] => none
  | c :: t => if c = '\n' then some 0 else (findNl t).map (· + c.utf8Size)

/-- `line_offset` (document.rs:155-165): `n` iterations left, at `start_pos` -/
def lineOffset (text : List Char) : Nat → Nat → Res Nat
  | 0, s => .ok s
  | n + 1, s =>
    match sliceFrom text s with
    | none => .panic
    | some r =>
      match findNl r with
      | some k => lineOffset text n (s + (k + 1))
      | none => .err

/-- the loop of `total_offset` (document.rs:172-178): what `chars` still holds -/
def takeUnits : List Char → Nat → List Char
  | [], _ => []
  | c :: t, n => if n = 0 then c :: t else takeUnits t (n - u16 c)

/-- `total_offset` (document.rs:167-180) -/
def totalOffset (text : List Char) (line character : Nat) : Res Nat :=
  (lineOffset text line 0).bind fun start =>
    match sliceFrom text start with
    | none => .panic
    | some chars => .ok (bytes text - bytes (takeUnits chars character))

/-- a position (`lsp_types::Position`) -/
structure Pos where
  line : Nat
  character : Nat
deriving DecidableEq, Repr

/-- the loop of `offset_to_position` (document.rs:184-191): (line, line_start); fuel bounds the
number of iterations by the length of the text -/
def otpLoop (text : List Char) (offset : Nat) : Nat → Nat → Nat → Option (Nat × Nat)
  | 0, _, _ => none
  | fuel + 1, line, ls =>
    match sliceFrom text ls with
    | none => none
    | some r =>
      match findNl r with
      | some k => if ls + k < offset then otpLoop text offset fuel (line + 1) (ls + (k + 1)) else some (line, ls)
      | none => some (line, ls)

/-- sum of `len_utf16` (document.rs:194-196) -/
def units : List Char → Nat
  | [] => 0
  | c :: t => u16 c + units t

/-- `offset_to_position` (document.rs:183-199); `none` is a panic -/
def offsetToPosition (text : List Char) (offset : Nat) : Option Pos :=
  match otpLoop text offset (text.length + 1) 0 0 with
  | none => none
  | some (line, ls) =>
    match sliceTo text offset with
    | none => none
    | some pre =>
      match sliceFrom pre ls with
      | none => none
      | some l => some ⟨line, units l⟩

/-- `get_range` (document.rs:201-206) -/
def getRange (text : List Char) (a b : Pos) : Res (List Char) :=
  (totalOffset text a.line a.character).bind fun s =>
    (totalOffset text b.line b.character).bind fun e =>
      match (sliceTo text e).bind (sliceFrom · s) with
      | some r => .ok r
      | none => .panic

/-- `String::replace_range(start..end, new)`; `none` is the panic -/
def replaceRange (text : List Char) (s e : Nat) (new : List Char) : Option (List Char) :=
  if s ≤ e then
    match sliceTo text s, sliceFrom text e with
    | some a, some b => some (a ++ new ++ b)
    | _, _ => none
  else none

/-- `TextDocumentContentChangeEvent`: range (absent = whole document) and new text -/
structure Change where
  range : Option (Pos × Pos)
  text : List Char

/-- `Document` (document.rs:120-123) -/
structure Document where
  version : Int
  text : List Char
deriving DecidableEq

/-- `Document::change` (document.rs:133-149): the new text -/
def applyChange (text : List Char) (c : Change) : Res (List Char) :=
  match c.range with
  | none => .ok c.text
  | some (a, b) =>
    (totalOffset text a.line a.character).bind fun s =>
      (totalOffset text b.line b.character).bind fun e =>
        match replaceRange text s e c.text with
        | some t => .ok t
        | none => .panic

/-- the loop of `DocumentStore::change` (document.rs:72-77): every change is attempted; a failed one
leaves the text as it was and makes the overall result an error. `none` = a panic. -/
def applyChanges : List Char → List Change → Option (List Char × Bool)
  | t, [] => some (t, true)
  | t, c :: cs =>
    match applyChange t c with
    | .ok t' => applyChanges t' cs
    | .err => (applyChanges t cs).map fun r => (r.1, false)
    | .panic => none

/-- `DocumentStore` (document.rs:20-23), keyed by URLs -/
abbrev Store (U : Type) := U → Option Document

section
variable {U : Type} [DecidableEq U]

/-- `HashMap::insert`/`remove` -/
def Store.set (m : Store U) (u : U) (d : Option Document) : Store U :=
  fun v => if v = u then d else m v

/-- `DocumentStore::open` (document.rs:26-34): the new store, and whether the result is `Ok` -/
def Store.open (m : Store U) (u : U) (version : Int) (text : List Char) : Store U × Bool :=
  (m.set u (some ⟨version, text⟩), (m u).isNone)

/-- `DocumentStore::close` (document.rs:36-44) -/
def Store.close (m : Store U) (u : U) : Store U × Bool :=
  (m.set u none, (m u).isSome)

/-- `DocumentStore::change` (document.rs:46-79); `none` is a panic.  (The `document.version`
assignment precedes the edits.) -/
def Store.change (m : Store U) (u : U) (version : Int) (cs : List Change) :
    Option (Store U × Bool) :=
  match m u with
  | none => some (m, false)
  | some d =>
    if version < d.version then some (m, false)
    else
      match applyChanges d.text cs with
      | none => none
      | some (t, okay) => some (m.set u (some ⟨version, t⟩), okay)

/-- `DocumentStore::get_contents` (document.rs:81-97); `disk` is the rest of the function: what
opening the URL as a file gives -/
def Store.getContents {E : Type} (disk : U → Except E (List Char)) (m : Store U) (u : U) :
    Except E (List Char) :=
  match m u with
  | some d => .ok d.text
  | none => disk u
end

/-- `Cursor` (document.rs:246-249) over the UTF-8 bytes -/
structure Cursor where
  inner : List UInt8
  pos : Nat

/-- `Cursor::fill_buf` (document.rs:274-277) -/
def Cursor.fillBuf (c : Cursor) : List UInt8 := c.inner.drop (min c.pos c.inner.length)

/-- `Cursor::read` (document.rs:258-262) into a buffer of `n` bytes (`<&[u8] as Read>::read` copies
the minimum of the two lengths) -/
def Cursor.read (c : Cursor) (n : Nat) : List UInt8 × Cursor :=
  let got := c.fillBuf.take n
  (got, { c with pos := c.pos + got.length })

end Verif.Langserver
