import Verif.Dmm.Keys

/-!
# Model of the map reader and the TGM writer
(`crates/dmm-tools/src/dmm/read.rs`, `crates/dmm-tools/src/dmm/save_tgm.rs`)

* A file is a `List Char`, one `Char` per byte.
* Variable values have an abstract type `C`; `showV` models `Display for Constant`
  (constants.rs:357-428) and `evalV` models `evaluate_str(..).ok()` (constants.rs:448-466).
* `from_utf8_or_latin1` is the identity on the bytes (strings are represented by their UTF-8 bytes;
  the Latin-1 fallback for invalid UTF-8 is not modelled).
* Source locations, used only in error messages, are dropped; so are the location-tracker limits
  (2^16 columns, 2^32 lines) and memory exhaustion.
* `usize` is 64 bits, and arithmetic overflow panics (debug build).
-/

namespace Verif.Dmm

/-- `Prefab` (dmm.rs:170-175); the `IndexMap` is its list of entries in order -/
structure Prefab (C : Type) where
  path : List Char
  vars : List (List Char × C)
deriving DecidableEq

/-- `Map` (dmm.rs:155-162): the `BTreeMap` is its sorted list of entries; the `Array3` is its
dimensions (z, y, x) and the nested lists of cells in z/y/x order -/
structure Map (C : Type) where
  keyLength : Nat
  dict : List (Nat × List (Prefab C))
  dimZ : Nat
  dimY : Nat
  dimX : Nat
  grid : List (List (List Nat))
deriving DecidableEq

/-- `BTreeMap::insert` -/
def dictInsert {α : Type} (k : Nat) (v : α) : List (Nat × α) → List (Nat × α)
  | [] => [(k, v)]
  | (k', v') :: r =>
    if k < k' then (k, v) :: (k', v') :: r
    else if k = k' then (k, v) :: r
    else (k', v') :: dictInsert k v r

/-- `IndexMap::insert`: replace in place, or append -/
def varsInsert {C : Type} (k : List Char) (v : C) : List (List Char × C) → List (List Char × C)
  | [] => [(k, v)]
  | (k', v') :: r => if k = k' then (k, v) :: r else (k', v') :: varsInsert k v r

/-- `char::is_whitespace` on a byte taken as Latin-1 (read.rs:116) -/
def isWs (c : Char) : Bool :=
  (9 ≤ c.toNat && c.toNat ≤ 13) || c.toNat = 32 || c.toNat = 0x85 || c.toNat = 0xA0

/-- read.rs:114-119: drop trailing whitespace -/
def trimEnd (t : List Char) : List Char := (t.reverse.dropWhile isWs).reverse

/-- the locals of `parse_map` used by the dictionary loop (read.rs:17-36) plus `map.key_length` and
`map.dictionary` -/
structure DState (C : Type) where
  inComment : Bool := false
  trig : Bool := false
  data : List (Prefab C) := []
  fab : Prefab C := ⟨[], []⟩
  var : List Char := []
  datum : List Char := []
  key : Nat := 0
  keyLen : Nat := 0
  inQuote : Bool := false
  inKey : Bool := false
  inData : Bool := false
  inVar : Bool := false
  afterData : Bool := false
  esc : Bool := false
  skipWs : Bool := false
  mapKeyLen : Nat := 0
  dict : List (Nat × List (Prefab C)) := []

/-- outcome of one iteration of the dictionary loop -/
inductive Step (σ : Type) where
  | cont (s : σ)
  | brk (s : σ)
  | err
  | panic

section
variable {C : Type} (evalV : List Char → Option C)

/-- `insert_current_var!` (read.rs:48-64) followed by `k`.  When evaluation fails the error note
formats the current key, which can itself panic. -/
def insertVar (s : DState C) (k : DState C → Step (DState C)) : Step (DState C) :=
  match evalV s.datum with
  | some v =>
    k { s with fab := ⟨s.fab.path, varsInsert s.var v s.fab.vars⟩, var := [], datum := [] }
  | none => match formatKey s.keyLen s.key with
    | some _ => .err
    | none => .panic

/-- inside a quoted part of a value (read.rs:88-104) -/
def stepQuote (s : DState C) (ch : Char) : Step (DState C) :=
  if ch = '\\' then .cont { s with datum := s.datum ++ [ch], esc := true }
  else if s.esc then .cont { s with datum := s.datum ++ [ch], esc := false }
  else if ch = '"' then .cont { s with datum := s.datum ++ [ch], inQuote := false }
  else .cont { s with datum := s.datum ++ [ch] }

/-- inside a `{…}` block, outside quotes, after the whitespace check (read.rs:113-138) -/
def stepVarCore (s : DState C) (ch : Char) : Step (DState C) :=
  if ch = '"' then .cont { s with datum := s.datum ++ [ch], inQuote := true }
  else if ch = '=' ∧ s.var = [] then
    .cont { s with var := trimEnd s.datum, datum := [], skipWs := true }
  else if ch = ';' then insertVar evalV s fun s => .cont { s with skipWs := true }
  else if ch = '}' then
    if s.var ≠ [] then insertVar evalV s fun s => .cont { s with inVar := false }
    else .cont { s with inVar := false }
  else .cont { s with datum := s.datum ++ [ch] }

/-- inside a `{…}` block, outside quotes (read.rs:105-138) -/
def stepVar (s : DState C) (ch : Char) : Step (DState C) :=
  if s.skipWs ∧ ch = ' ' then .cont { s with skipWs := false }
  else stepVarCore evalV { s with skipWs := false } ch

/-- read.rs:143-145, 148-150: finish the path of the current prefab and push it -/
def pushFab (s : DState C) : DState C :=
  let s := if s.fab.path = [] ∧ s.datum ≠ [] then
      { s with fab := ⟨s.datum, s.fab.vars⟩, datum := [] } else s
  { s with data := s.data ++ [s.fab], fab := ⟨[], []⟩ }

/-- inside a `(…)` block, outside `{…}` (read.rs:139-161) -/
def stepData (s : DState C) (ch : Char) : Step (DState C) :=
  if ch = '{' then
    .cont { s with fab := ⟨s.datum, s.fab.vars⟩, datum := [], inVar := true }
  else if ch = ',' then .cont (pushFab s)
  else if ch = ')' then
    let s := pushFab s
    .cont { s with key := 0, data := [], keyLen := 0, dict := dictInsert s.key s.data s.dict,
                   inData := false, afterData := true }
  else .cont { s with datum := s.datum ++ [ch] }

/-- inside a key (read.rs:162-174): the assertion on the key length, and the checked `u8` counter -/
def stepKey (s : DState C) (ch : Char) : Step (DState C) :=
  if ch = '"' then
    if s.mapKeyLen = 0 ∨ s.mapKeyLen = s.keyLen then
      .cont { s with inKey := false, mapKeyLen := s.keyLen }
    else .panic
  else match advanceKey s.key ch with
    | none => .err
    | some k =>
      if s.keyLen + 1 < 256 then .cont { s with key := k, keyLen := s.keyLen + 1 } else .panic

/-- between entries (read.rs:175-188) -/
def stepTop (s : DState C) (ch : Char) : Step (DState C) :=
  if ch = '"' then .cont { s with inKey := true, afterData := false }
  else if ch = '(' then
    if s.afterData then .brk { s with key := 0, keyLen := 0 }
    else .cont { s with inData := true, afterData := false }
  else .cont s

/-- dispatch on the block we are in (read.rs:86-188) -/
def stepMain (s : DState C) (ch : Char) : Step (DState C) :=
  if s.inData then
    if s.inVar then
      if s.inQuote then stepQuote s ch else stepVar evalV s ch
    else stepData s ch
  else if s.inKey then stepKey s ch
  else stepTop s ch

/-- one iteration of the dictionary loop (read.rs:66-189) -/
def step (s : DState C) (ch : Char) : Step (DState C) :=
  if ch = '\n' ∨ ch = '\r' then .cont { s with inComment := false, trig := false }
  else if s.inComment then .cont s
  else if ch = '\t' then .cont s
  else if ch = '/' ∧ s.inQuote = false then
    if s.trig then .cont { s with inComment := true }
    else stepMain evalV { s with trig := true } ch
  else stepMain evalV { s with trig := false } ch

/-- the dictionary loop (read.rs:66-189); returns the final state and the unread input -/
def dictLoop : DState C → List Char → Res (DState C × List Char)
  | s, [] => .ok (s, [])
  | s, c :: cs => match step evalV s c with
    | .cont s' => dictLoop s' cs
    | .brk s' => .ok (s', cs)
    | .err => .err
    | .panic => .panic

end

/-- `Coord` (read.rs:191-197) -/
inductive Axis where
  | X | Y | Z
deriving DecidableEq

/-- locals of the grid loop (read.rs:199-210), with `curr_key` and `curr_key_length` -/
structure GState where
  grid : List ((Nat × Nat × Nat) × Nat) := []
  axis : Axis := .X
  x : Nat := 0
  y : Nat := 0
  z : Nat := 0
  maxX : Nat := 0
  maxY : Nat := 0
  maxZ : Nat := 0
  num : Nat := 0
  baseX : Nat := 0
  inCoord : Bool := true
  inStr : Bool := false
  adjustY : Bool := true
  key : Nat := 0
  keyLen : Nat := 0
deriving DecidableEq

/-- `BTreeMap::get` of the grid -/
def gridGet (g : List ((Nat × Nat × Nat) × Nat)) (p : Nat × Nat × Nat) : Option Nat := g.lookup p

/-- inside a coordinate block (read.rs:213-246) -/
def gstepCoord (s : GState) (ch : Char) : Res GState :=
  if ch = ',' then
    match s.axis with
    | .X => .ok { s with x := s.num, num := 0, maxX := max s.maxX s.num, baseX := s.num, axis := .Y }
    | .Y => .ok { s with y := s.num, num := 0, maxY := max s.maxY s.num, axis := .Z }
    | .Z => .err
  else if ch = ')' then
    if s.axis = .Z then
      .ok { s with z := s.num, num := 0, maxZ := max s.maxZ s.num, inCoord := false, axis := .X }
    else .panic
  else if '0'.toNat ≤ ch.toNat ∧ ch.toNat ≤ '9'.toNat then
    if 10 * s.num + (ch.toNat - '0'.toNat) < 2 ^ 64 then
      .ok { s with num := 10 * s.num + (ch.toNat - '0'.toNat) }
    else .panic
  else .err

/-- inside a map string (read.rs:247-277) -/
def gstepStr (mapKeyLen : Nat) (s : GState) (ch : Char) : Res GState :=
  if ch = '"' then
    if s.y = 0 then .panic else .ok { s with inStr := false, adjustY := true, y := s.y - 1 }
  else if ch = '\r' then .ok s
  else if ch = '\n' then
    if s.adjustY then .ok { s with adjustY := false, x := s.baseX }
    else if s.y + 1 < 2 ^ 64 then .ok { s with y := s.y + 1, x := s.baseX } else .panic
  else match advanceKey s.key ch with
    | none => .err
    | some k =>
      if s.keyLen + 1 < 256 then
        if s.keyLen + 1 = mapKeyLen then
          match gridGet s.grid (s.x, s.y, s.z) with
          | some _ => .err
          | none =>
            if s.x + 1 < 2 ^ 64 then
              .ok { s with key := 0, keyLen := 0, grid := ((s.x, s.y, s.z), k) :: s.grid,
                           maxX := max s.maxX s.x, x := s.x + 1 }
            else .panic
        else .ok { s with key := k, keyLen := s.keyLen + 1 }
      else .panic

/-- one iteration of the grid loop (read.rs:212-282) -/
def gstep (mapKeyLen : Nat) (s : GState) (ch : Char) : Res GState :=
  if s.inCoord then gstepCoord s ch
  else if s.inStr then gstepStr mapKeyLen s ch
  else if ch = '(' then .ok { s with inCoord := true }
  else if ch = '"' then .ok { s with inStr := true }
  else .ok s

/-- the grid loop (read.rs:212-282) -/
def gridLoop (mapKeyLen : Nat) : GState → List Char → Res GState
  | s, [] => .ok s
  | s, c :: cs => match gstep mapKeyLen s c with
    | .ok s' => gridLoop mapKeyLen s' cs
    | .err => .err
    | .panic => .panic

/-- `Array3::from_shape_fn` with a fallible lookup (read.rs:283-297) -/
def buildGrid (g : List ((Nat × Nat × Nat) × Nat)) (dz dy dx : Nat) :
    Option (List (List (List Nat))) :=
  (List.range dz).mapM fun z => (List.range dy).mapM fun y => (List.range dx).mapM fun x =>
    gridGet g (x + 1, y + 1, z + 1)

/-- skip a UTF-8 byte-order mark (lexer.rs:554-557) -/
def skipBom : List Char → List Char
  | a :: b :: c :: r =>
    if a.toNat = 0xEF ∧ b.toNat = 0xBB ∧ c.toNat = 0xBF then r else a :: b :: c :: r
  | t => t

/-- `Map::from_file` / `parse_map` on the content of the file (dmm.rs:223-231, read.rs:13-297) -/
def parseMap {C : Type} (evalV : List Char → Option C) (txt : List Char) : Res (Map C) :=
  match dictLoop evalV {} (skipBom txt) with
  | .err => .err
  | .panic => .panic
  | .ok (s, rest) =>
    match gridLoop s.mapKeyLen {} rest with
    | .err => .err
    | .panic => .panic
    | .ok g =>
      let my := max g.maxY g.y
      match buildGrid g.grid g.maxZ my g.maxX with
      | none => .err
      | some cells => .ok ⟨s.mapKeyLen, s.dict, g.maxZ, my, g.maxX, cells⟩

/-! ## The writer -/

/-- decimal `Display` of a `usize` -/
def decimal (n : Nat) : List Char := Nat.toDigits 10 n

/-- sequencing of optional texts (`none` = panic in `format_key`) -/
def catOpt : List (Option (List Char)) → Option (List Char)
  | [] => some []
  | none :: _ => none
  | some t :: r => (catOpt r).map (t ++ ·)

/-- the header line (save_tgm.rs:8-9, 15) -/
def header : List Char :=
  "//MAP CONVERTED BY dmm2tgm.py THIS HEADER COMMENT PREVENTS RECONVERSION, DO NOT REMOVE\n".toList

section
variable {C : Type} (showV : C → List Char)

/-- the variables of a prefab (save_tgm.rs:24-29) -/
def varsText : List (List Char × C) → List Char
  | [] => []
  | [(n, v)] => "\n\t".toList ++ n ++ " = ".toList ++ showV v
  | (n, v) :: r => "\n\t".toList ++ n ++ " = ".toList ++ showV v ++ [';'] ++ varsText r

/-- one prefab (save_tgm.rs:21-31) -/
def fabText (f : Prefab C) : List Char :=
  f.path ++ (if f.vars = [] then [] else ['{'] ++ varsText showV f.vars ++ "\n\t}".toList)

/-- the prefabs of an entry (save_tgm.rs:20-35) -/
def fabsText : List (Prefab C) → List Char
  | [] => []
  | [f] => fabText showV f
  | f :: r => fabText showV f ++ ",\n".toList ++ fabsText r

/-- one dictionary entry (save_tgm.rs:18-37) -/
def entryText (keyLength : Nat) (e : Nat × List (Prefab C)) : Option (List Char) :=
  (formatKey keyLength e.1).map fun k =>
    ['"'] ++ k ++ "\" = (\n".toList ++ fabsText showV e.2 ++ ")\n".toList

end

/-- the cells of one column, each on its line (save_tgm.rs:44-46) -/
def cellsText (keyLength : Nat) (col : List Nat) : Option (List Char) :=
  catOpt (col.map fun k => (formatKey keyLength k).map (· ++ ['\n']))

/-- `z_grid.axis_iter(Axis(1))` at column `x`: the cells of that column from row 0 on -/
def column (level : List (List Nat)) (x : Nat) : List Nat := level.map (·.getD x 0)

/-- one column block (save_tgm.rs:43-47), `x`, `z` zero-based -/
def columnText (keyLength : Nat) (z x : Nat) (col : List Nat) : Option (List Char) :=
  (cellsText keyLength col).map fun t =>
    ['('] ++ decimal (x + 1) ++ ",1,".toList ++ decimal (z + 1) ++ ") = {\"\n".toList ++ t ++
      "\"}\n".toList

/-- one z-level (save_tgm.rs:41-48) -/
def levelText (keyLength : Nat) (dimX z : Nat) (level : List (List Nat)) : Option (List Char) :=
  (catOpt ((List.range dimX).map fun x => columnText keyLength z x (column level x))).map
    (['\n'] ++ ·)

/-- the levels from index `z` on (save_tgm.rs:40-49) -/
def levelsText (keyLength : Nat) (dimX : Nat) : Nat → List (List (List Nat)) → Option (List Char)
  | _, [] => some []
  | z, l :: r => (levelText keyLength dimX z l).bind fun a =>
      (levelsText keyLength dimX (z + 1) r).map (a ++ ·)

/-- `Map::to_writer` / `save_tgm` (save_tgm.rs:13-52); `none` = panic -/
def saveMap {C : Type} (showV : C → List Char) (m : Map C) : Option (List Char) :=
  (catOpt (m.dict.map (entryText showV m.keyLength))).bind fun d =>
    (levelsText m.keyLength m.dimX 0 m.grid).map fun g => header ++ d ++ g

end Verif.Dmm
