import Mathlib.Data.List.Basic

/-!
# Model of the colours in a document (`crates/dm-langserver/src/color.rs`)

* A string is its list of characters; places are in bytes.
* The regular expression is a function: each of its repetitions is followed by something that cannot be part of the
  repetition, so there is at most one way to match at a place.  `dg` and `sp` are its classes of digits and of white
  space.
-/

namespace Verif.Color

/-- the classes `\d` and `\s` -/
structure Classes where
  dg : Char → Bool
  sp : Char → Bool

structure Rgba where
  r : Nat
  g : Nat
  b : Nat
  a : Nat
deriving DecidableEq

/-- the channels are `u8` -/
def Rgba.Valid (c : Rgba) : Prop := c.r < 256 ∧ c.g < 256 ∧ c.b < 256 ∧ c.a < 256

/-- `ColorFormat` (color.rs:19-30) -/
inductive Format where
  | hex (singleQuoted short alpha : Bool)
  | rgb (alpha : Bool)
deriving DecidableEq

/-- `str::len` -/
def blen : List Char → Nat
  | [] => 0
  | c :: l => c.utf8Size + blen l

def rgbWord : List Char := ['r', 'g', 'b']

/-- `ColorFormat::parse` (color.rs:33-52) -/
def Format.parse (input : List Char) : Option Format :=
  if input.take 3 = rgbWord then some (.rgb (decide (2 < input.countP (· == ','))))
  else if input.take 2 = ['\'', '#'] ∧ input.getLast? = some '\'' then
    some (.hex true (decide (blen input ≤ 7)) (decide (blen input = 7 ∨ blen input = 11)))
  else if input.take 2 = ['"', '#'] ∧ input.getLast? = some '"' then
    some (.hex false (decide (blen input ≤ 7)) (decide (blen input = 7 ∨ blen input = 11)))
  else none

/-- a digit in lower case, as `{:x}` writes it -/
def hexChar (d : Nat) : Char := Nat.digitChar d
/-- `{:02x}` of a byte -/
def hex2 (v : Nat) : List Char := [hexChar (v / 16), hexChar (v % 16)]
/-- `{:x}` of `v / 0x11` for a byte `v` -/
def hex1 (v : Nat) : List Char := [hexChar (v / 17)]
/-- `{}` of a byte -/
def dec (v : Nat) : List Char :=
  if v < 10 then [hexChar v]
  else if v < 100 then [hexChar (v / 10), hexChar (v % 10)]
  else [hexChar (v / 100), hexChar (v / 10 % 10), hexChar (v % 10)]

def quote (single : Bool) : Char := if single then '\'' else '"'

/-- `ColorFormat::format` (color.rs:54-85) -/
def Format.format (f : Format) (c : Rgba) : List Char :=
  match f with
  | .hex single short alpha =>
    let short := short && c.r % 17 == 0 && c.g % 17 == 0 && c.b % 17 == 0 && c.a % 17 == 0
    let alpha := alpha || c.a != 255
    let q := quote single
    match short, alpha with
    | false, false => q :: '#' :: (hex2 c.r ++ hex2 c.g ++ hex2 c.b ++ [q])
    | false, true => q :: '#' :: (hex2 c.r ++ hex2 c.g ++ hex2 c.b ++ hex2 c.a ++ [q])
    | true, false => q :: '#' :: (hex1 c.r ++ hex1 c.g ++ hex1 c.b ++ [q])
    | true, true => q :: '#' :: (hex1 c.r ++ hex1 c.g ++ hex1 c.b ++ hex1 c.a ++ [q])
  | .rgb alpha =>
    if alpha || c.a != 255 then
      rgbWord ++ ['('] ++ dec c.r ++ [',', ' '] ++ dec c.g ++ [',', ' '] ++ dec c.b ++ [',', ' '] ++ dec c.a ++ [')']
    else rgbWord ++ ['('] ++ dec c.r ++ [',', ' '] ++ dec c.g ++ [',', ' '] ++ dec c.b ++ [')']

/-- `Default for ColorFormat` (color.rs:88-96) -/
def Format.default : Format := .hex false false false

/-- the text offered for a colour in place of `chunk` (main.rs:2336-2358) -/
def present (chunk : List Char) (c : Rgba) : List Char := ((Format.parse chunk).getD .default).format c

def hexDigits : List (Char × Nat) :=
  [('0', 0), ('1', 1), ('2', 2), ('3', 3), ('4', 4), ('5', 5), ('6', 6), ('7', 7), ('8', 8), ('9', 9),
    ('a', 10), ('b', 11), ('c', 12), ('d', 13), ('e', 14), ('f', 15),
    ('A', 10), ('B', 11), ('C', 12), ('D', 13), ('E', 14), ('F', 15)]

/-- `char::to_digit(16)` -/
def toDigit (c : Char) : Option Nat := hexDigits.lookup c

/-- `[0-9A-Fa-f]` -/
def isHex (c : Char) : Bool := (toDigit c).isSome

/-- `parse_hex` (color.rs:119-156), without a bound on `sum` (it is at most 8 digits, so it fits 32 bits) -/
def parseHex (hex : List Char) : Option Rgba :=
  let sum := hex.foldl (fun s c => 16 * s + (toDigit c).getD 0) 0
  if hex.length = 8 then
    some ⟨sum / 2 ^ 24 % 256, sum / 2 ^ 16 % 256, sum / 2 ^ 8 % 256, sum % 256⟩
  else if hex.length = 6 then
    some ⟨sum / 2 ^ 16 % 256, sum / 2 ^ 8 % 256, sum % 256, 255⟩
  else if hex.length = 4 then
    some ⟨17 * (sum / 2 ^ 12 % 16) % 256, 17 * (sum / 2 ^ 8 % 16) % 256, 17 * (sum / 2 ^ 4 % 16) % 256,
      17 * (sum % 16) % 256⟩
  else if hex.length = 3 then
    some ⟨17 * (sum / 2 ^ 8 % 16) % 256, 17 * (sum / 2 ^ 4 % 16) % 256, 17 * (sum % 16) % 256, 255⟩
  else none

/-- a decimal digit -/
def decVal (c : Char) : Option Nat := (hexDigits.take 10).lookup c

/-- `str::parse::<u8>` of digits; those that are not ASCII are an error -/
def parseU8 (s : List Char) : Option Nat :=
  match s with
  | [] => none
  | _ => (s.foldlM (fun v c => (decVal c).map (10 * v + ·)) 0).filter (· < 256)

/-- `parse_rgba` (color.rs:158-165) -/
def parseRgba (r g b : List Char) (a : Option (List Char)) : Option Rgba := do
  let r ← parseU8 r
  let g ← parseU8 g
  let b ← parseU8 b
  return ⟨r, g, b, (a.bind parseU8).getD 255⟩

/-- the groups of the regular expression -/
inductive Capture where
  | hex (h : List Char)
  | rgb (r g b : List Char) (a : Option (List Char))

/-- a word at the start -/
def lit : List Char → List Char → Option (List Char)
  | [], s => some s
  | _ :: _, [] => none
  | a :: p, b :: s => if a = b then lit p s else none

/-- a run of `lo` to `hi` characters of a class -/
def run (p : Char → Bool) (lo hi : Nat) (s : List Char) : Option (List Char × List Char) :=
  if lo ≤ (s.takeWhile p).length ∧ (s.takeWhile p).length ≤ hi then some (s.takeWhile p, s.dropWhile p) else none

/-- `q#([0-9A-Fa-f]{3,8})q` (color.rs:100) -/
def matchHex (q : Char) (s : List Char) : Option (Capture × List Char) := do
  let s ← lit [q, '#'] s
  let (h, s) ← run isHex 3 8 s
  let s ← lit [q] s
  return (.hex h, s)

/-- `rgb\(\s*(\d{1,3}),\s*(\d{1,3}),\s*(\d{1,3})(?:,\s*(\d{1,3}))?\s*\)` (color.rs:100) -/
def matchRgb (k : Classes) (s : List Char) : Option (Capture × List Char) := do
  let s ← lit (rgbWord ++ ['(']) s
  let (r, s) ← run k.dg 1 3 (s.dropWhile k.sp)
  let s ← lit [','] s
  let (g, s) ← run k.dg 1 3 (s.dropWhile k.sp)
  let s ← lit [','] s
  let (b, s) ← run k.dg 1 3 (s.dropWhile k.sp)
  match (lit [','] s).bind (fun s => run k.dg 1 3 (s.dropWhile k.sp)) with
  | some (a, s) =>
    let s ← lit [')'] (s.dropWhile k.sp)
    return (.rgb r g b (some a), s)
  | none =>
    let s ← lit [')'] (s.dropWhile k.sp)
    return (.rgb r g b none, s)

/-- the regular expression at the start of `s` (color.rs:98-101) -/
def matchAt (k : Classes) (s : List Char) : Option (Capture × List Char) :=
  match matchHex '"' s with
  | some x => some x
  | none =>
    match matchHex '\'' s with
    | some x => some x
    | none => matchRgb k s

/-- `parse_capture` (color.rs:103-117) -/
def parseCapture : Capture → Option Rgba
  | .hex h => parseHex h
  | .rgb r g b a => parseRgba r g b a

/-- `extract_colors` (color.rs:10-17): the matches from the left that do not overlap, with their places.  The fuel is
the number of characters -/
def extractGo (k : Classes) : Nat → Nat → List Char → List (Nat × Nat × Rgba)
  | 0, _, _ => []
  | _ + 1, _, [] => []
  | n + 1, pos, c :: s =>
    match matchAt k (c :: s) with
    | none => extractGo k n (pos + c.utf8Size) s
    | some (cap, rest) =>
      let fin := pos + (blen (c :: s) - blen rest)
      match parseCapture cap with
      | none => extractGo k n fin rest
      | some rgba => (pos, fin, rgba) :: extractGo k n fin rest

def extractColors (k : Classes) (s : List Char) : List (Nat × Nat × Rgba) := extractGo k (s.length + 1) 0 s

end Verif.Color
