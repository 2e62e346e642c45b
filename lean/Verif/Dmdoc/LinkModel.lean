import Verif.Dmdoc.IndexModel
import Mathlib.Data.List.Dedup

/-!
# Model of the links and pages of dmdoc (crates/dmdoc/src/main.rs, template.rs)

The object tree, the history of macros and the files are given.  A link to a page of the site is the name of the page without
`.html` and perhaps an anchor; the `base` element makes all links relative to the root of the site.  The markdown parser is not
modelled: that a text has a description is given (and does not depend on whether its links are fixed), and the markup is left
out.
-/

namespace Verif.Dmdoc

/-- A var or proc of a type, by its main value: `docs.is_empty()`, whether it is declared here, the file it is in, and, if that
is the builtins, the place in the reference. -/
structure Member where
  name : Str
  documented : Bool
  declared : Bool
  file : Str
  builtin : Option (Option Str)

/-- A type: `docs` tells whether there are docs and whether they have a description; `supers` are the paths of the parent type,
its parent and so on, without the root. -/
structure TypeD where
  path : Str
  docs : Option Bool
  vars : List Member
  procs : List Member
  file : Str
  builtin : Option (Option Str)
  supers : List Str

structure MacroD where
  name : Str
  documented : Bool
  file : Str

/-- What dmdoc is run on: the types in the order of `recurse`, the define history, the files with module comments, the markdown
files found, `module_path` and which files exist. -/
structure World where
  types : List TypeD
  macros : List MacroD
  comments : List Str
  walk : List Str
  modulePath : Str → Str
  fileExists : Str → Bool

/-- `ObjectTree::find` (dreammaker objtree.rs:745-750). -/
def World.find (w : World) (p : Str) : Option TypeD := w.types.find? fun t => t.path = p

def hasName (ms : List Member) (n : Str) : Bool := ms.any fun m => m.name = n

def hasDocs (ms : List Member) (n : Str) : Bool := ms.any fun m => m.documented && decide (m.name = n)

/-! ## Types with docs -/

/-- Whether a type is put in `types_with_docs` (main.rs:131-161). -/
def TypeD.withDocs (t : TypeD) : Bool := t.docs.getD false || t.vars.any Member.documented || t.procs.any Member.documented

/-- `types_with_docs.get` (main.rs:127-162). -/
def World.withDocs (w : World) (p : Str) : Option TypeD := w.types.find? fun t => t.withDocs && decide (t.path = p)

/-! ## References -/

inductive Kind
  | aProc
  | aVar
  deriving DecidableEq, Repr

/-- What is printed for a reference (main.rs:887-1094). -/
inductive Msg
  | macroUndocumented
  | noModule (there : Bool)
  | correcting (ty : Str) (k : Kind) (name : Str)
  | guessing (known : Bool) (path : Str)
  | undocumented
  | unknown
  deriving DecidableEq, Repr

inductive Href
  | page (name : Str) (anchor : Option Str)
  | web (url : Str)
  deriving DecidableEq, Repr

def kindWord : Kind → Str
  | .aProc => ['p', 'r', 'o', 'c']
  | .aVar => ['v', 'a', 'r']

def verbWord : Str := ['v', 'e', 'r', 'b']

/-- `/word/`. -/
def marker (word : Str) : Str := '/' :: word ++ ['/']

def anchorOf (k : Kind) (n : Str) : Str := kindWord k ++ '/' :: n

def defineWord : Str := ['d', 'e', 'f', 'i', 'n', 'e']

def defineAnchor (n : Str) : Str := defineWord ++ '/' :: n

/-- `str::find` of a string: what is before and what is after. -/
def cutAt (pat : Str) : Str → Option (Str × Str)
  | [] => if pat.isPrefixOf [] then some ([], []) else none
  | c :: s => if pat.isPrefixOf (c :: s) then some ([], (c :: s).drop pat.length) else (cutAt pat s).map fun r => (c :: r.1, r.2)

/-- `str::rfind('/')`: what is before and what is after. -/
def cutLast : Str → Option (Str × Str)
  | [] => none
  | c :: s =>
    match cutLast s with
    | some (a, b) => some (c :: a, b)
    | none => if c = '/' then some ([], s) else none

def endsWith (s ext : Str) : Bool := ext.reverse.isPrefixOf s.reverse

/-- The extensions of modules (main.rs:890-892). -/
def moduleExts : List Str := [['.', 'd', 'm'], ['.', 't', 'x', 't'], ['.', 'm', 'd']]

structure Parsed where
  ty : Str
  member : Option (Kind × Str)
  known : Bool
  msgs : List Msg

def TypeD.has (t : TypeD) : Kind → Str → Bool
  | .aProc, n => hasName t.procs n
  | .aVar, n => hasName t.vars n

def knownIn (w : World) (ty : Str) (k : Kind) (n : Str) : Bool := (w.find ty).elim false fun t => t.has k n

/-- The part that parses the reference (main.rs:914-972). -/
def parseRef (w : World) (ref : Str) : Parsed :=
  match cutAt (marker (kindWord .aProc)) ref with
  | some (ty, n) => ⟨ty, some (.aProc, n), knownIn w ty .aProc n, []⟩
  | none =>
  match cutAt (marker verbWord) ref with
  | some (ty, n) => ⟨ty, some (.aProc, n), knownIn w ty .aProc n, []⟩
  | none =>
  match cutAt (marker (kindWord .aVar)) ref with
  | some (ty, n) => ⟨ty, some (.aVar, n), knownIn w ty .aVar n, []⟩
  | none =>
  if (w.find ref).isSome then ⟨ref, none, true, []⟩
  else
    match cutLast ref with
    | some (up, rest) =>
      match w.find up with
      | some t =>
        if t.has .aProc rest && !t.has .aVar rest then ⟨up, some (.aProc, rest), true, [.correcting up .aProc rest]⟩
        else if t.has .aVar rest then ⟨up, some (.aVar, rest), true, [.correcting up .aVar rest]⟩
        else ⟨ref, none, false, []⟩
      | none => ⟨ref, none, false, []⟩
    | none =>
      if knownIn w [] .aVar ref then ⟨[], some (.aVar, ref), true, [.correcting [] .aVar ref]⟩
      else ⟨ref, none, false, []⟩

/-- `DM_REFERENCE_BASE` (main.rs:35). -/
def referenceBase : Str := "https://www.byond.com/docs/ref/#".toList

/-- The URL in the reference of a builtin (main.rs:983-1010). -/
def reference (path : Str) (hash : Option Str) : Str := referenceBase ++ hash.getD path

def ownMember (ms : List Member) (n : Str) : Option Member := ms.find? fun m => m.name = n

/-- `get_value` and `get_proc` (dreammaker objtree.rs:449-451, 458-472): the type itself, its parents, the root. -/
def inherited (w : World) (t : TypeD) (sel : TypeD → List Member) (n : Str) : Option Member :=
  (ownMember (sel t) n).orElse fun _ => (t.supers ++ [[]]).findSome? fun p => (w.find p).bind fun s => ownMember (sel s) n

/-- `external_url` (main.rs:974-1013). -/
def external (w : World) (p : Parsed) : Option Str :=
  if p.known then
    match w.find p.ty with
    | none => none
    | some t =>
      match p.member with
      | some (.aVar, n) =>
        match inherited w t TypeD.vars n with
        | some m => m.builtin.map (reference (t.path ++ marker (kindWord .aVar) ++ n))
        | none => none
      | some (.aProc, n) =>
        match inherited w t TypeD.procs n with
        | some m => m.builtin.map (reference (t.path ++ marker (kindWord .aProc) ++ n))
        | none => none
      | none => t.builtin.map (reference t.path)
  else none

/-- Whether the page of a type shows what is referred to (main.rs:1021-1031, 1038-1048). -/
def TypeD.shows (t : TypeD) : Option (Kind × Str) → Bool
  | some (.aProc, n) => hasDocs t.procs n
  | some (.aVar, n) => hasDocs t.vars n
  | none => true

def World.shows (w : World) (m : Option (Kind × Str)) (p : Str) : Bool := (w.withDocs p).elim false fun t => t.shows m

/-- The loop over the parts of the type path (main.rs:1034-1050). -/
def climb (good : Str → Bool) : List Str → Str → Nat → Str × Nat
  | [], progress, best => (progress, best)
  | b :: bs, progress, best =>
    let p := progress ++ '/' :: b
    climb good bs p (if good p then p.length else best)

def globalWord : Str := ['g', 'l', 'o', 'b', 'a', 'l']

/-- `trim_start_matches('/')`. -/
def trimSlash (s : Str) : Str := s.dropWhile (· = '/')

/-- `progress` and `best` (main.rs:1015-1051). -/
def locate (w : World) (p : Parsed) : Str × Nat :=
  if p.ty = [] then
    ('/' :: globalWord, if w.shows p.member [] then ('/' :: globalWord).length else 0)
  else climb (w.shows p.member) (pieces (trimSlash p.ty)) [] 0

/-- What becomes of a reference to a type or a member (main.rs:1053-1097). -/
def resolve (w : World) (ref : Str) (p : Parsed) : Option (Href × Str) × List Msg :=
  let l := locate w p
  if l.2 > 0 then
    let guess := if l.2 < l.1.length then [Msg.guessing p.known (l.1.take l.2)] else []
    let progress := l.1.take l.2
    (some (.page (progress.drop 1) (p.member.map fun m => anchorOf m.1 m.2), progress), p.msgs ++ guess)
  else
    match external w p with
    | some url => (some (.web url, ref), p.msgs)
    | none => (none, p.msgs ++ [if p.known then .undocumented else .unknown])

/-- `macro_to_module_map` (main.rs:177-187): the last documented definition counts. -/
def World.macroModule (w : World) (n : Str) : Option Str :=
  ((w.macros.filter fun m => m.documented && decide (m.name = n)).getLast?).map fun m => w.modulePath m.file

/-- `modules_which_exist` (main.rs:175, 184). -/
def World.moduleExists (w : World) (m : Str) : Bool :=
  w.comments.any (fun f => w.modulePath f = m) || w.macros.any fun x => x.documented && decide (w.modulePath x.file = m)

/-- `broken_link_fixer` (main.rs:862-1098): the link and the tooltip, and what is printed. -/
def fixLink (w : World) (ref : Str) : Option (Href × Str) × List Msg :=
  match w.macroModule ref with
  | some m => (some (.page m (some (defineAnchor ref)), ref), [])
  | none =>
  if w.macros.any fun m => m.name = ref then (none, [.macroUndocumented])
  else if moduleExts.any (endsWith ref) then
    if w.moduleExists (w.modulePath ref) then (some (.page (w.modulePath ref) none, ref), [])
    else (none, [.noModule (w.fileExists ref)])
  else resolve w ref (parseRef w ref)

/-! ## Pages -/

/-- A page of the site: its name without `.html`, and the anchors of the template. -/
structure Page where
  name : Str
  anchors : List Str
  deriving DecidableEq, Repr

def TypeD.isRoot (t : TypeD) : Bool := t.path.isEmpty

/-- The documented vars or procs of a type (main.rs:356-357, 427-430). -/
def documentedNames (ms : List Member) : List Str := (ms.filter Member.documented).map Member.name

/-- `substance` (main.rs:324, 345, 423, 511). -/
def TypeD.substance (t : TypeD) : Bool :=
  let s := match t.docs with
    | some d => d
    | none => false
  let s := t.vars.foldl (fun s v => if v.documented then true else s) s
  t.procs.foldl (fun s v => if v.documented then true else s) s

/-- `anything` (main.rs:323, 344, 422, 510). -/
def TypeD.anything (t : TypeD) : Bool :=
  let s := t.docs.isSome
  let s := t.vars.foldl (fun s v => if v.documented then true else s) s
  t.procs.foldl (fun s v => if v.documented then true else s) s

/-- `htmlname` of a type with substance (main.rs:532-538). -/
def TypeD.htmlName (t : TypeD) : Str := if t.isRoot then globalWord else t.path.drop 1

/-- `pretty_path` (dreammaker objtree.rs:173-179). -/
def TypeD.prettyPath (t : TypeD) : Str := if t.isRoot then "(global)".toList else t.path

/-- The files `module_entry` is called for (main.rs:170, 234, 266, 389, 462, 517). -/
def World.moduleFiles (w : World) : List Str :=
  w.comments ++ (w.macros.filter MacroD.documented).map MacroD.file ++ w.walk ++
    w.types.flatMap fun t =>
      (if t.isRoot then ((t.vars ++ t.procs).filter Member.documented).map Member.file else []) ++
        (if t.docs.isSome then [t.file] else [])

/-- The keys of `modules1`. -/
def World.modules (w : World) : List Str := (w.moduleFiles.map w.modulePath).dedup

/-- The keys of `defines` of a module (main.rs:195-253). -/
def World.definesOf (w : World) (m : Str) : List Str :=
  (w.macros.filter fun x => x.documented && decide (w.modulePath x.file = m)).map MacroD.name

/-- `h2 id=..` and the `h3 id=..` under it (template.rs:322-325, 424-427, 461-464). -/
def section_ (word : Str) (names : List Str) : List Str :=
  if names.isEmpty then [] else word :: names.map fun n => word ++ '/' :: n

/-- `dm_module` (template.rs:225-352). -/
def World.modulePage (w : World) (m : Str) : Page := ⟨m, section_ defineWord (w.definesOf m)⟩

/-- `dm_type` (template.rs:354-511). -/
def TypeD.page (t : TypeD) : Page :=
  ⟨t.htmlName, section_ (kindWord .aVar) (documentedNames t.vars) ++ section_ (kindWord .aProc) (documentedNames t.procs)⟩

def modulesWord : Str := "modules".toList
def typesWord : Str := "types".toList
def indexWord : Str := "index".toList

/-- `dm_index` (template.rs:171-223). -/
def World.indexPage (w : World) : Page :=
  ⟨indexWord, (if w.modules.isEmpty then [] else [modulesWord]) ++ (if w.types.any TypeD.anything then [typesWord] else [])⟩

/-- The pages in the order they are written (main.rs:751-833); among the modules and among the types the order does not matter. -/
def World.site (w : World) : List Page :=
  w.indexPage :: (w.modules.map w.modulePage ++ (w.types.filter TypeD.substance).map TypeD.page)

/-! ## Links of the templates -/

/-- A piece of the output of `linkify_type`. -/
inductive Piece
  | text (s : Str)
  | link (page : Str) (s : Str)
  deriving DecidableEq, Repr

/-- `all_type_names` (main.rs:546-553). -/
def World.allTypeNames (w : World) : List Str := (w.types.filter TypeD.substance).map TypeD.prettyPath

def listPath : Str := ['/', 'l', 'i', 's', 't']

/-- The loop of `linkify_type` (main.rs:1141-1171). -/
def linkifyLoop (names : List Str) : List Str → Str → Str → List Piece
  | [], _, progress => [.text progress]
  | b :: bs, all, progress =>
    let all := all ++ '/' :: b
    let progress := progress ++ '/' :: b
    if all ∈ names then .text ['/'] :: .link (all.drop 1) (progress.drop 1) :: linkifyLoop names bs all []
    else if all = listPath then .text listPath :: linkifyLoop names bs [] []
    else linkifyLoop names bs all progress

/-- `linkify_type_array` (main.rs:1429-1434). -/
def World.linkify (w : World) (bits : List Str) : List Piece := linkifyLoop w.allTypeNames bits [] []

/-- `linkify_type_str` (main.rs:1422-1427). -/
def World.linkifyStr (w : World) (s : Str) : List Piece := w.linkify ((pieces s).dropWhile List.isEmpty)

def pieceLinks (ps : List Piece) : List Href := ps.filterMap fun
  | .text _ => none
  | .link p _ => some (.page p none)

/-- `linkify_input_type` (template.rs:533-541). -/
def World.linkifyWord (w : World) (path : Str) : List Href :=
  if path ∈ w.allTypeNames then [.page (path.drop 1) none] else []

/-- The documented parent of a var or proc (main.rs:358-369, 431-442). -/
def documentedParent (w : World) (t : TypeD) (k : Kind) (n : Str) : Option Str :=
  (t.supers.find? fun p => (w.find p).elim false fun s => s.shows (some (k, n))).map fun p => p.drop 1

/-- The arrows of a type page (template.rs:428-436, 465-473). -/
def arrows (w : World) (t : TypeD) (k : Kind) (ms : List Member) : List Href :=
  (ms.filter fun m => m.documented && !m.declared).filterMap fun m =>
    (documentedParent w t k m.name).map fun p => .page p (some (anchorOf k m.name))

/-- The links of a type page to details (template.rs:237-240, 367-374, 401-422). -/
def details (page word : Str) (names : List Str) : List Href :=
  if names.isEmpty then [] else .page page (some word) :: names.map fun n => .page page (some (word ++ '/' :: n))

/-- The links of a type page, but for those of type paths and in texts (template.rs:354-511). -/
def World.typeLinks (w : World) (t : TypeD) : List Href :=
  details t.htmlName (kindWord .aVar) (documentedNames t.vars) ++ details t.htmlName (kindWord .aProc) (documentedNames t.procs) ++
    arrows w t .aVar t.vars ++ arrows w t .aProc t.procs

/-- The links of a module page (template.rs:225-352), but for those in texts. -/
def World.moduleLinks (w : World) (m : Str) : List Href :=
  details m defineWord (w.definesOf m) ++
    w.types.flatMap fun t =>
      (if t.docs.isSome && decide (w.modulePath t.file = m) then
        if t.substance then [.page (t.prettyPath.drop 1) none] else pieceLinks (w.linkifyStr t.prettyPath)
       else []) ++
      (if t.isRoot then
        ((t.vars.filter fun v => v.documented && decide (w.modulePath v.file = m)).map fun v =>
          .page globalWord (some (anchorOf .aVar v.name))) ++
        ((t.procs.filter fun v => v.documented && decide (w.modulePath v.file = m)).map fun v =>
          .page globalWord (some (anchorOf .aProc v.name)))
       else [])

/-- The `htmlname`s of the index that are not empty (main.rs:759-781; C99). -/
def World.indexLinks (w : World) : List Href :=
  (w.modules.map fun m => .page m none) ++ (w.types.filter TypeD.substance).map fun t => .page t.htmlName none

/-- The exit code of a dry run (main.rs:659-665) as the operating system reports it. -/
def dryRunStatus (messages : List Msg) : Nat := messages.length % 256

end Verif.Dmdoc
