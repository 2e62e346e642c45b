import Verif.Dmi.Dir
import Verif.Langserver.Jrpc

/-!
# DMI metadata (`crates/dreammaker/src/dmi.rs`): parser and lookups (C29, C30)

* A text is a list of characters.  Delays are parsed by `f32::from_str`, which is a parameter
  `parseDelay : List Char → Option D` with `isOne : D → Bool` for the test `== 1.`.
* A Rust panic (`unwrap`, `panic!`, slice out of range) is `Parsed.panic` / `none`.
* Counters (`usize`, and the `u32` duplicate counter) are natural numbers: no overflow.
-/

namespace Verif.Dmi

open Verif.Langserver (trim parseDigits stripPlus)

/-- `Dirs` (dmi.rs:242-246) -/
inductive Dirs where
  | one | four | eight
deriving DecidableEq, Repr

/-- `Dirs::count` (dmi.rs:378-384) -/
def Dirs.count : Dirs → Nat
  | one => 1
  | four => 4
  | eight => 8

/-- `Frames` (dmi.rs:250-258) -/
inductive Frames (D : Type) where
  | one
  | count (n : Nat)
  | delays (v : List D)
deriving DecidableEq

/-- `Frames::count` (dmi.rs:388-394) -/
def Frames.num {D : Type} : Frames D → Nat
  | .one => 1
  | .count n => n
  | .delays v => v.length

/-- `State` (dmi.rs:223-238) -/
structure State (D : Type) where
  name : List Char
  movement : Bool
  offset : Nat
  loop : Nat
  dup : Nat
  rewind : Bool
  dirs : Dirs
  frames : Frames D
deriving DecidableEq

/-- `num_sprites` (dmi.rs:347-349) -/
def State.numSprites {D : Type} (s : State D) : Nat := s.dirs.count * s.frames.num

/-- `Metadata` (dmi.rs:209-220); the `BTreeMap` is a lookup function -/
structure Meta (D : Type) where
  width : Nat
  height : Nat
  states : List (State D)
  names : List Char × Nat → Option Nat

/-- result of `parse_metadata`: `Ok`, `Err`, or a panic -/
inductive Parsed (D : Type) where
  | ok (m : Meta D)
  | err
  | panic

/-- a line, given reversed, without a carriage return at its end -/
def stripCr (cur : List Char) : List Char :=
  match cur with
  | [] => []
  | d :: cur' => if d = '\r' then cur'.reverse else cur.reverse

/-- `str::lines`: at line feeds, a carriage return before one being dropped; `cur` is the current line
reversed -/
def linesOf : List Char → List Char → List (List Char)
  | cur, [] => if cur = [] then [] else [cur.reverse]
  | cur, c :: t => if c = '\n' then stripCr cur :: linesOf [] t else linesOf (c :: cur) t

/-- `split_once(" = ")` -/
def splitEq : List Char → Option (List Char × List Char)
  | [] => none
  | c :: t =>
    if [' ', '=', ' '].isPrefixOf (c :: t) then some ([], (c :: t).drop 3)
    else (splitEq t).map fun r => (c :: r.1, r.2)

/-- `str::parse` for an unsigned integer type with values below `bound` -/
def parseUInt (bound : Nat) (s : List Char) : Option Nat :=
  let ds := stripPlus s
  if ds = [] then none
  else match parseDigits 0 ds with
    | none => none
    | some n => if n < bound then some n else none

/-- `value[1..value.len() - 1]` (dmi.rs:447): panics unless the first and last characters (different
ones) are one byte long -/
def unquote : List Char → Option (List Char)
  | [] => none
  | c :: rest =>
    match rest.getLast? with
    | none => none
    | some d => if c.utf8Size = 1 ∧ d.utf8Size = 1 then some rest.dropLast else none

/-- `str::split(',')` -/
def splitComma : List Char → List (List Char)
  | [] => [[]]
  | c :: t =>
    if c = ',' then [] :: splitComma t
    else match splitComma t with
      | [] => [[c]]
      | p :: ps => (c :: p) :: ps

/-- the variables of `parse_metadata` (dmi.rs:408-432) -/
structure PState (D : Type) where
  meta' : Meta D
  cur : Option (State D)
  framesSoFar : Nat
  dups : List Char → Nat

section
variable {D : Type} (parseDelay : List Char → Option D) (isOne : D → Bool)

/-- change the current state; `state.as_mut().unwrap()` -/
def PState.onCur (p : PState D) (f : State D → Option (State D)) : Option (PState D) :=
  match p.cur with
  | none => none
  | some s => (f s).map fun s' => { p with cur := some s' }

/-- `state.take()` and the push of the finished state (dmi.rs:443-446): `frames_so_far` and the states -/
def PState.flush (p : PState D) : Nat × List (State D) :=
  match p.cur with
  | some s => (p.framesSoFar + s.frames.num * s.dirs.count, p.meta'.states ++ [s])
  | none => (p.framesSoFar, p.meta'.states)

/-- the `"state"` arm (dmi.rs:442-474) -/
def PState.newState (p : PState D) (value : List Char) : Option (PState D) :=
  match unquote value with
  | none => none
  | some name =>
    if name.contains '\\' || name.contains '"' then none
    else
      let so := p.flush.1
      let states := p.flush.2
      let count := p.dups name
      let names := match p.meta'.names (name, count) with
        | some _ => p.meta'.names
        | none => fun k => if k = (name, count) then some states.length else p.meta'.names k
      some
        { meta' := { p.meta' with
            states := states
            names := names }
          cur := some
            { name := name
              movement := false
              offset := so
              loop := 0
              dup := count
              rewind := false
              dirs := .one
              frames := .one }
          framesSoFar := so
          dups := fun n => if n = name then count + 1 else p.dups n }

/-- the `"dirs"` arm (dmi.rs:475-484) -/
def setDirs (value : List Char) (s : State D) : Option (State D) :=
  match parseUInt 256 value with
  | none => none
  | some n =>
    if n = 1 then some { s with dirs := .one }
    else if n = 4 then some { s with dirs := .four }
    else if n = 8 then some { s with dirs := .eight }
    else none

/-- the `"frames"` arm (dmi.rs:485-492) -/
def setFrames (value : List Char) (s : State D) : Option (State D) :=
  match s.frames with
  | .one => (parseUInt (2 ^ 64) value).map fun n => { s with frames := .count n }
  | _ => none

/-- the `"delay"` arm (dmi.rs:493-516) -/
def setDelay (value : List Char) (s : State D) : Option (State D) :=
  match (splitComma value).mapM parseDelay with
  | none => none
  | some v =>
    match s.frames with
    | .one => some { s with frames := if v.all isOne then .count v.length else .delays v }
    | .count n =>
      let v' := v.take n
      some { s with frames := if v'.all isOne then .count n else .delays v' }
    | .delays _ => none

/-- one `key = value` line (dmi.rs:439-522); `none` is a panic -/
def PState.entry (p : PState D) (key value : List Char) : Option (PState D) :=
  if key = "width".toList then
    (parseUInt (2 ^ 32) value).map fun n => { p with meta' := { p.meta' with width := n } }
  else if key = "height".toList then
    (parseUInt (2 ^ 32) value).map fun n => { p with meta' := { p.meta' with height := n } }
  else if key = "state".toList then p.newState value
  else if key = "dirs".toList then p.onCur (setDirs value)
  else if key = "frames".toList then p.onCur (setFrames value)
  else if key = "delay".toList then p.onCur (setDelay parseDelay isOne value)
  else if key = "loop".toList then
    p.onCur fun s => (parseUInt (2 ^ 32) value).map fun n => { s with loop := n }
  else if key = "rewind".toList then
    p.onCur fun s => (parseUInt 256 value).map fun n => { s with rewind := n != 0 }
  else if key = "hotspot".toList then some p
  else if key = "movement".toList then
    p.onCur fun s => (parseUInt 256 value).map fun n => { s with movement := n != 0 }
  else none

/-- one line (dmi.rs:438-522) -/
def PState.line (p : PState D) (line : List Char) : Option (PState D) :=
  match splitEq (trim line) with
  | none => none
  | some (key, value) => p.entry parseDelay isOne key value

/-- the loop over the lines after the header (dmi.rs:434-523) -/
def PState.lines : PState D → List (List Char) → Option (PState D)
  | p, [] => some p
  | p, l :: ls =>
    if "# END DMI".toList.isPrefixOf l then some p
    else match p.line parseDelay isOne l with
      | none => none
      | some p' => PState.lines p' ls

/-- the metadata before any line (dmi.rs:409-414) -/
def Meta.init : Meta D :=
  { width := 32
    height := 32
    states := []
    names := fun _ => none }

/-- `parse_metadata` (dmi.rs:408-527) -/
def parseMetadata (data : List Char) : Parsed D :=
  if data = [] then .ok Meta.init
  else
    match linesOf [] data with
    | l1 :: l2 :: rest =>
      if l1 = "# BEGIN DMI".toList ∧ l2 = "version = 4.0".toList then
        match PState.lines parseDelay isOne
            { meta' := Meta.init
              cur := none
              framesSoFar := 0
              dups := fun _ => 0 } rest with
        | none => .panic
        | some p => .ok { p.meta' with states := p.meta'.states ++ p.cur.toList }
      else .err
    | _ => .err

end

/-! ## Lookups -/

section
variable {D : Type}

/-- `get_icon_state` (dmi.rs:329-335); the inner `none` is "no such state", the outer one the index
panic -/
def Meta.getIconState (m : Meta D) (k : List Char × Nat) : Option (Option (State D)) :=
  match m.names k with
  | none => some none
  | some i => (m.states[i]?).map some

/-- `dir_idx` in `index_of_dir` (dmi.rs:352-362) -/
def dirIdx (dirs : Dirs) (dir : Dir) : Nat :=
  match dirs, dir with
  | .one, _ => 0
  | .eight, .northwest => 7
  | .eight, .northeast => 6
  | .eight, .southwest => 5
  | .eight, .southeast => 4
  | _, .west => 3
  | _, .east => 2
  | _, .north => 1
  | _, _ => 0

/-- `index_of_dir` (dmi.rs:351-365); 32-bit overflow is not modelled -/
def State.indexOfDir (s : State D) (dir : Dir) : Nat := s.offset + dirIdx s.dirs dir

/-- `index_of_frame` (dmi.rs:368-370) -/
def State.indexOfFrame (s : State D) (dir : Dir) (frame : Nat) : Nat := s.indexOfDir dir + frame * s.dirs.count

/-- `is_animated` (dmi.rs:339-345) -/
def State.isAnimated (s : State D) : Bool :=
  match s.frames with
  | .one => false
  | .count n => n != 1
  | .delays _ => true

/-- a rectangle: x, y, width, height -/
structure Rect where
  x : Nat
  y : Nat
  w : Nat
  h : Nat
deriving DecidableEq, Repr

/-- `IconFile::rect_of_index` (dmm-tools/src/dmi.rs:53-62), also the end of `rect_of`
(dmi.rs:316-326); `none` is a division by zero -/
def Meta.rectOfIndex (m : Meta D) (bitmapWidth index : Nat) : Option Rect :=
  if m.width = 0 then none
  else
    let count := bitmapWidth / m.width
    if count = 0 then none
    else some ⟨index % count * m.width, index / count * m.height, m.width, m.height⟩

/-- `Metadata::rect_of` (dmi.rs:306-327); outer `none` is a panic, inner "no such state" -/
def Meta.rectOf (m : Meta D) (bitmapWidth : Nat) (k : List Char × Nat) (dir : Dir) (frame : Nat) :
    Option (Option Rect) :=
  if m.states = [] then some (some ⟨0, 0, m.width, m.height⟩)
  else match m.getIconState k with
    | none => none
    | some none => some none
    | some (some s) => (m.rectOfIndex bitmapWidth (s.indexOfFrame dir frame)).map some

end

end Verif.Dmi
