import Mathlib.Data.Nat.Digits.Lemmas
import Mathlib.Tactic.Common

/-!
# Model of map keys and coordinates (`crates/dmm-tools/src/dmm.rs`)

A byte of a file is represented by the `Char` with that code (0–255).
-/

namespace Verif.Dmm

/-- outcome of a fallible operation: value, `Err(..)`, or a Rust panic (debug build) -/
inductive Res (α : Type) where
  | ok (a : α)
  | err
  | panic
deriving DecidableEq

/-- `BASE_52` (dmm.rs:395) -/
def base52 : List Char := "abcdefghijklmnopqrstuvwxyzABCDEFGHIJKLMNOPQRSTUVWXYZ".toList

/-- `BASE_52[i]` for `i < 52` -/
def base52Char (i : Nat) : Char := base52.getD i 'a'

/-- the digit loop of `FormatKey::fmt` (dmm.rs:385-389) with `n` iterations left -/
def formatDigits (key : Nat) : Nat → Nat → List Char
  | 0, _ => []
  | n + 1, current => base52Char ((key / current) % 52) :: formatDigits key n (current / 52)

/-- `FormatKey` display (dmm.rs:376-393).  `none` = panic: the explicit one at 382, the underflow of
`key_length as u32 - 1` at 385 for length 0, and the overflow of `52usize.pow` there. -/
def formatKey (keyLength key : Nat) : Option (List Char) :=
  if keyLength < 3 ∧ key ≥ 52 ^ keyLength then none
  else if keyLength = 0 then none
  else if 52 ^ (keyLength - 1) ≥ 2 ^ 64 then none
  else some (formatDigits key keyLength (52 ^ (keyLength - 1)))

/-- `base_52_reverse` (dmm.rs:397-405) -/
def base52Reverse (ch : Char) : Option Nat :=
  if 'a'.toNat ≤ ch.toNat ∧ ch.toNat ≤ 'z'.toNat then some (ch.toNat - 'a'.toNat)
  else if 'A'.toNat ≤ ch.toNat ∧ ch.toNat ≤ 'Z'.toNat then some (26 + ch.toNat - 'A'.toNat)
  else none

/-- `advance_key` (dmm.rs:407-415): checked `u16` arithmetic -/
def advanceDigit (current digit : Nat) : Option Nat :=
  if current * 52 + digit < 65536 then some (current * 52 + digit) else none

/-- `advance_key` of the reader (read.rs:299-307) -/
def advanceKey (current : Nat) (ch : Char) : Option Nat :=
  (base52Reverse ch).bind (advanceDigit current)

/-- reading a whole key text as the reader does, one character after the other starting from
`curr_key = 0` (read.rs:170-174, 260) -/
def parseKey (txt : List Char) : Option Nat := txt.foldlM advanceKey 0

/-- `Map::adjust_key_length` (dmm.rs:245-256) given the keys of the dictionary in sorted order and
the old length -/
def adjustKeyLength (keys : List Nat) (old : Nat) : Nat :=
  match keys.max? with
  | none => old
  | some m => if m ≥ 2704 then 3 else if m ≥ 52 then 2 else 1

/-! ## Coordinates -/

/-- `as i32` -/
def asI32 (n : Nat) : Int := Int.bmod n (2 ^ 32)

/-- `Coord3` (dmm.rs:95-99) -/
structure Coord3 where
  x : Int
  y : Int
  z : Int
deriving DecidableEq

/-- `Coord2` (dmm.rs:32-35) -/
structure Coord2 where
  x : Int
  y : Int
deriving DecidableEq

/-- `Coord3::to_raw` (dmm.rs:115-139), dims in (z, y, x) order; `none` = assertion failure -/
def Coord3.toRaw (c : Coord3) (d : Nat × Nat × Nat) : Option (Nat × Nat × Nat) :=
  if c.x ≥ 1 ∧ c.x ≤ asI32 d.2.2 then
    if c.y ≥ 1 ∧ c.y ≤ asI32 d.2.1 then
      if c.z ≥ 1 ∧ c.z ≤ asI32 d.1 then
        some (c.z.toNat - 1, d.2.1 - c.y.toNat, c.x.toNat - 1)
      else none
    else none
  else none

/-- `Coord3::from_raw` (dmm.rs:142-151); `usize` subtraction assumed not to underflow -/
def Coord3.fromRaw (r : Nat × Nat × Nat) (d : Nat × Nat × Nat) : Coord3 :=
  ⟨asI32 r.2.2 + 1, asI32 (d.2.1 - r.2.1), asI32 r.1 + 1⟩

/-- `Coord2::to_raw` (dmm.rs:52-66), dims in (y, x) order -/
def Coord2.toRaw (c : Coord2) (d : Nat × Nat) : Option (Nat × Nat) :=
  if c.x ≥ 1 ∧ c.x ≤ asI32 d.2 then
    if c.y ≥ 1 ∧ c.y ≤ asI32 d.1 then some (d.1 - c.y.toNat, c.x.toNat - 1) else none
  else none

/-- `Coord2::from_raw` (dmm.rs:68-73) -/
def Coord2.fromRaw (r : Nat × Nat) (d : Nat × Nat) : Coord2 :=
  ⟨asI32 r.2 + 1, asI32 (d.1 - r.1)⟩

end Verif.Dmm
