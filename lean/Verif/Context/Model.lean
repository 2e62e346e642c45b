import Verif.IntervalTree.Model
import Mathlib.Order.Fin.Basic

/-!
# Model of `crates/dreammaker/src/error.rs`, `config.rs`, `annotation.rs`
-/

namespace Verif.Context

open Verif.IntervalTree (Tree Range mkRange)

/-! ## Locations -/

/-- `Location` (error.rs:288-296) with `FileId(u16)`, `line: u32`, `column: u16`;
`#[derive(Ord)]` is lexicographic in field order. -/
abbrev Location := Fin 65536 ×ₗ Fin 4294967296 ×ₗ Fin 65536

/-- struct literal -/
def Location.mk (file : Fin 65536) (line : Fin 4294967296) (column : Fin 65536) : Location :=
  toLex (file, toLex (line, column))

/-- field `file` (error.rs:291) -/
def Location.file (l : Location) : Fin 65536 := (ofLex l).1
/-- field `line` (error.rs:293) -/
def Location.line (l : Location) : Fin 4294967296 := (ofLex (ofLex l).2).1
/-- field `column` (error.rs:295) -/
def Location.column (l : Location) : Fin 65536 := (ofLex (ofLex l).2).2

/-- `FILEID_BUILTINS` (error.rs:20) -/
def fileIdBuiltins : Fin 65536 := 0
/-- `FILEID_BAD` (error.rs:23) -/
def fileIdBad : Fin 65536 := 0xffff

/-- `Location::default()` (error.rs:25-29, 288) -/
def Location.default : Location := Location.mk fileIdBad 0 0

/-- the lowest location, whose `pred` panics -/
def Location.lowest : Location := Location.mk 0 0 0

/-- `Location::pack` (error.rs:308-310) -/
def Location.pack (l : Location) : Nat :=
  (l.file.val <<< 48) ||| (l.line.val <<< 16) ||| l.column.val

/-- `Location::pred` (error.rs:313-331); `none` = the panic at 328. -/
def Location.pred (l : Location) : Option Location :=
  if l.column ≠ 0 then
    some (Location.mk l.file l.line ⟨l.column.val - 1, by omega⟩)
  else if l.line ≠ 0 then
    some (Location.mk l.file ⟨l.line.val - 1, by omega⟩ 0xffff)
  else if l.file = fileIdBad then
    some l
  else if l.file ≠ 0 then
    some (Location.mk ⟨l.file.val - 1, by omega⟩ 0xffffffff 0xffff)
  else none

/-- `Location::add_columns` (error.rs:333-336); `none` = `u16` overflow (panics in debug builds). -/
def Location.addColumns (l : Location) (n : Nat) : Option Location :=
  if h : l.column.val + n < 65536 then some (Location.mk l.file l.line ⟨l.column.val + n, h⟩)
  else none

/-! ## File list -/

/-- `FileList` (error.rs:33-38).  `reverse_files: HashMap` is an association list with first-match
lookup (each key is inserted at most once). `P` is `PathBuf`. -/
structure FileList (P : Type) where
  files : List P
  reverse : List (P × Nat)

/-- `FileList::default()` -/
def FileList.empty {P : Type} : FileList P := ⟨[], []⟩

/-- what `get_path` can answer -/
inductive PathAnswer (P : Type) where
  | builtins
  | unknown
  | path (p : P)
deriving DecidableEq

variable {P : Type} [DecidableEq P]

/-- `FileList::get_id` (error.rs:71-73) -/
def FileList.getId (l : FileList P) (p : P) : Option Nat :=
  (l.reverse.find? fun e => e.1 = p).map Prod.snd

/-- `FileList::register` (error.rs:55-68); `none` = the panic at 61.  `len as u16` and
`len + FILEID_MIN.0` cannot wrap because `len ≤ 0xfffe` there. -/
def FileList.register (l : FileList P) (p : P) : Option (Nat × FileList P) :=
  match l.getId p with
  | some id => some (id, l)
  | none =>
    if l.files.length > 0xfffe then none
    else some (l.files.length + 1, ⟨l.files ++ [p], l.reverse ++ [(p, l.files.length + 1)]⟩)

omit [DecidableEq P] in
/-- `FileList::get_path` (error.rs:76-87); `none` = the index panic of line 85, reachable because the
guard at line 82 is `idx > files.len()`. -/
def FileList.getPath (l : FileList P) (file : Nat) : Option (PathAnswer P) :=
  if file = 0 then some .builtins
  else
    let idx := file - 1
    if idx > l.files.length then some .unknown
    else (l.files[idx]?).map .path

/-- a history of `register` calls: the ids returned and the final list -/
def FileList.registerAll (l : FileList P) : List P → Option (List Nat × FileList P)
  | [] => some ([], l)
  | p :: ps =>
    match l.register p with
    | none => none
    | some (id, l') => (registerAll l' ps).map fun (ids, l'') => (id :: ids, l'')

/-! ## Diagnostics configuration -/

/-- `enum Severity` (error.rs:360-366), ordered by discriminant -/
inductive Severity where
  | error | warning | info | hint
deriving DecidableEq, Repr

/-- the discriminants (error.rs:362-365) -/
def Severity.rank : Severity → Nat
  | .error => 1 | .warning => 2 | .info => 3 | .hint => 4

/-- `enum WarningLevel` (config.rs:72-85) -/
inductive WarningLevel where
  | error | warning | info | hint | disabled | unset
deriving DecidableEq, Repr

/-- the fields of `DMError` that matter here (error.rs:427-435); `body` stands for the rest. -/
structure DMError (B : Type) where
  severity : Severity
  errortype : Option String
  body : B
deriving DecidableEq

/-- the fields of `Config` that matter here (config.rs:20-21, 35).  The `HashMap` is a lookup function. -/
structure Config where
  errorLevel : WarningLevel
  diagnostics : String → Option WarningLevel

variable {B : Type}

/-- `config_warninglevel` (config.rs:124-129) -/
def Config.warningLevel (c : Config) (e : DMError B) : Option WarningLevel :=
  match e.errortype with
  | some t => c.diagnostics t
  | none => none

/-- `set_configured_severity` (config.rs:136-145) -/
def Config.setConfiguredSeverity (c : Config) (e : DMError B) : Option (DMError B) :=
  match c.warningLevel e with
  | some .error => some { e with severity := .error }
  | some .warning => some { e with severity := .warning }
  | some .info => some { e with severity := .info }
  | some .hint => some { e with severity := .hint }
  | some .disabled => none
  | some .unset => some e
  | none => some e

/-- `WarningLevel::applies_to` (config.rs:154-163) -/
def WarningLevel.appliesTo (w : WarningLevel) (s : Severity) : Bool :=
  match w with
  | .disabled => false
  | .error => decide (s.rank ≤ Severity.error.rank)
  | .warning => decide (s.rank ≤ Severity.warning.rank)
  | .info => decide (s.rank ≤ Severity.info.rank)
  | .hint => decide (s.rank ≤ Severity.hint.rank)
  | .unset => true

/-- `Context::register_error` (error.rs:178-194) on the errors list; printing is not modelled. -/
def registerError (c : Config) (errors : List (DMError B)) (e : DMError B) : List (DMError B) :=
  match c.setConfiguredSeverity e with
  | none => errors
  | some e' => if !(c.errorLevel.appliesTo e'.severity) then errors else errors ++ [e']

/-! ## Annotation tree -/

/-- `AnnotationTree` (annotation.rs:55-67) -/
structure AnnotationTree (A : Type) where
  tree : Tree Location A
  len : Nat

variable {A : Type}

/-- `AnnotationTree::default` (annotation.rs:60-67) -/
def AnnotationTree.empty : AnnotationTree A := ⟨.nil, 0⟩

/-- `AnnotationTree::insert` (annotation.rs:70-74); `none` = panic -/
def AnnotationTree.insert (t : AnnotationTree A) (start stop : Location) (a : A) :
    Option (AnnotationTree A) :=
  stop.pred.bind fun e => (t.tree.insert (mkRange start e) a).map fun tr => ⟨tr, t.len + 1⟩

/-- `AnnotationTree::merge` (annotation.rs:76-79) -/
def AnnotationTree.merge (t o : AnnotationTree A) : Option (AnnotationTree A) :=
  (t.tree.merge o.tree).map fun tr => ⟨tr, t.len + o.len⟩

/-- `AnnotationTree::get_location` (annotation.rs:93-95) -/
def AnnotationTree.getLocation (t : AnnotationTree A) (loc : Location) :
    Option (IntervalTree.RangeIter Location A) :=
  loc.pred.map fun p => IntervalTree.range t.tree (mkRange p loc)

/-- `AnnotationTree::get_range` (annotation.rs:97-99) -/
def AnnotationTree.getRange (t : AnnotationTree A) (start stop : Location) :
    Option (IntervalTree.RangeIter Location A) :=
  stop.pred.map fun e => IntervalTree.range t.tree (mkRange start e)

/-- how an annotation tree can be produced through the public API -/
inductive Build (A : Type) where
  | empty
  | insert (b : Build A) (start stop : Location) (a : A)
  | merge (b c : Build A)

/-- run a construction -/
def Build.run : Build A → Option (AnnotationTree A)
  | .empty => some .empty
  | .insert b s e a => b.run.bind fun t => t.insert s e a
  | .merge b c => b.run.bind fun t => c.run.bind fun u => t.merge u

/-- the annotations inserted, with the source range given by the caller -/
def Build.entries : Build A → List (Location × Location × A)
  | .empty => []
  | .insert b s e a => b.entries ++ [(s, e, a)]
  | .merge b c => b.entries ++ c.entries

end Verif.Context
