import Mathlib.Tactic.Common
import Mathlib.Data.List.Basic
import Verif.Langserver.Document

/-!
# Model of the JSON-RPC transport (`crates/dm-langserver/src/jrpc_io.rs`)

Streams are lists of bytes; a Rust string is a list of characters, with `encode`/`decode` the UTF-8
codec of Lean's core library (`String::from_utf8`, `str::as_bytes`).
-/

namespace Verif.Langserver

/-- `str::as_bytes` -/
def encode (m : List Char) : List UInt8 := m.flatMap String.utf8EncodeChar

/-- `String::from_utf8(..).ok()` -/
def decode (b : List UInt8) : Option (List Char) := b.toByteArray.utf8Decode?.map Array.toList

/-- the bytes `BufRead::read_line` takes: through the first line feed, or everything -/
def readLine : List UInt8 → List UInt8 × List UInt8
  | [] => ([], [])
  | b :: t => if b = 10 then ([b], t) else let r := readLine t; (b :: r.1, r.2)

/-- `str::split(' ')` -/
def splitSpace : List Char → List (List Char)
  | [] => [[]]
  | c :: t =>
    if c = ' ' then [] :: splitSpace t
    else match splitSpace t with
      | [] => [[c]]
      | p :: ps => (c :: p) :: ps

/-- `char::is_whitespace` -/
def isWhite (c : Char) : Bool :=
  let n := c.toNat
  (9 ≤ n && n ≤ 13) || n = 32 || n = 0x85 || n = 0xA0 || n = 0x1680 || (0x2000 ≤ n && n ≤ 0x200A)
    || n = 0x2028 || n = 0x2029 || n = 0x202F || n = 0x205F || n = 0x3000

/-- `str::trim` -/
def trim (s : List Char) : List Char :=
  ((s.dropWhile isWhite).reverse.dropWhile isWhite).reverse

/-- digits of `usize::from_str_radix(_, 10)` -/
def parseDigits : Nat → List Char → Option Nat
  | acc, [] => some acc
  | acc, c :: t => if c.isDigit then parseDigits (10 * acc + (c.toNat - 48)) t else none

/-- `from_str_radix` accepts a leading `+` -/
def stripPlus : List Char → List Char
  | [] => []
  | c :: t => if c = '+' then t else c :: t

/-- `str::parse::<usize>`: an optional `+`, at least one digit, at most 2^64 - 1 -/
def parseUsize (s : List Char) : Option Nat :=
  let ds := stripPlus s
  if ds = [] then none
  else match parseDigits 0 ds with
    | none => none
    | some n => if n < 2 ^ 64 then some n else none

/-- `eq_ignore_ascii_case` -/
def eqIgnoreCase (a b : List Char) : Bool := a.map Char.toLower = b.map Char.toLower

/-- outcome of `read`: `Ok(None)`, `Err(_)`, or `Ok(Some(message))` with the rest of the stream -/
inductive ReadR where
  | done
  | fail
  | msg (m : List Char) (rest : List UInt8)
deriving DecidableEq

/-- `read` (jrpc_io.rs:21-48) -/
def readMsg (inp : List UInt8) : ReadR :=
  let l1 := readLine inp
  match decode l1.1 with
  | none => .fail
  | some buffer =>
    if buffer = [] then .done
    else
      match splitSpace buffer with
      | [p0, p1] =>
        if eqIgnoreCase p0 "content-length:".toList then
          match parseUsize (trim p1) with
          | none => .fail
          | some size =>
            let l2 := readLine l1.2
            match decode l2.1 with
            | none => .fail
            | some _ =>
              if l2.2.length < size then .fail
              else
                match decode (l2.2.take size) with
                | none => .fail
                | some m => .msg m (l2.2.drop size)
        else .done
      | _ => .done

/-- how `run_with_read` ends: quietly, or by the panic of `expect("JSON-RPC read error")` -/
inductive Ended where
  | quietly
  | panicked
  | outOfFuel
deriving DecidableEq

/-- `run_with_read`/`run_until_stdin_eof` (jrpc_io.rs:7-19): the messages passed to `f`, in order.
The fuel bounds the number of messages. -/
def runRead : Nat → List UInt8 → List (List Char) × Ended
  | 0, _ => ([], .outOfFuel)
  | fuel + 1, inp =>
    match readMsg inp with
    | .done => ([], .quietly)
    | .fail => ([], .panicked)
    | .msg m rest => let r := runRead fuel rest; (m :: r.1, r.2)

/-- the run over a whole stream: every message takes at least one byte -/
def run (inp : List UInt8) : List (List Char) × Ended := runRead (inp.length + 1) inp

/-- `write_to` (jrpc_io.rs:56-59): the bytes written for one message; `json.len()` counts bytes -/
def frame (json : List Char) : List UInt8 :=
  encode ("Content-Length: ".toList ++ Nat.toDigits 10 (encode json).length ++ "\r\n\r\n".toList ++ json)

end Verif.Langserver
