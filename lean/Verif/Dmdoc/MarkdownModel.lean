import Verif.Docs.Model

/-!
# Model of documentation blocks (crates/dmdoc/src/markdown.rs)

The events of pulldown-cmark are given; so is `render`, what `pulldown_cmark::html::push_html` appends for a list of events.
Strings are lists of characters, and ranges of them are in bytes as in C40.  `lower` is `char::to_lowercase`, `al`
`char::is_alphanumeric`, `ws` `char::is_whitespace`.
-/

namespace Verif.Dmdoc

/-- `Event`: those the code looks at. -/
inductive Ev
  | startH (level : Nat)
  | endH (level : Nat)
  | startP
  | endP
  | text (s : List Char)
  | html (s : List Char)
  | other (n : Nat)
  deriving DecidableEq, Repr

/-- `str::trim_end_matches`; `trim_right` (markdown.rs:115-118) with white space. -/
def trimEnd (ws : Char → Bool) (s : List Char) : List Char := (s.reverse.dropWhile ws).reverse

/-! ## Slugs -/

/-- The loop over the lowercase of a character (markdown.rs:168-178): what is put out and `want_dash`. -/
def slugLower (al : Char → Bool) : List Char → Bool → List Char × Bool
  | [], dash => ([], dash)
  | c :: cs, dash =>
    if !al c then
      if dash then
        let r := slugLower al cs false
        ('-' :: r.1, r.2)
      else slugLower al cs dash
    else
      let r := slugLower al cs true
      (c :: r.1, r.2)

/-- The loop over the characters (markdown.rs:164-179). -/
def slugLoop (al : Char → Bool) (lower : Char → List Char) : List Char → Bool → List Char
  | [], _ => []
  | c :: cs, dash =>
    if c = '\'' then slugLoop al lower cs dash
    else
      let r := slugLower al (lower c) dash
      r.1 ++ slugLoop al lower cs r.2

/-- `slugify` (markdown.rs:161-183). -/
def slugify (al : Char → Bool) (lower : Char → List Char) (s : List Char) : List Char :=
  trimEnd (fun c => decide (c = '-')) (slugLoop al lower s false)

/-! ## Headings -/

/-- What the linker needs to write tags. -/
structure Tags where
  al : Char → Bool
  lower : Char → List Char
  levelName : Nat → List Char

/-- `<h1 id="..">` (markdown.rs:152-154). -/
def Tags.opening (g : Tags) (level : Nat) (text : List Char) : Ev :=
  .html ('<' :: g.levelName level ++ [' ', 'i', 'd', '=', '"'] ++ slugify g.al g.lower text ++ ['"', '>'])

/-- `</h1>` (markdown.rs:150-151). -/
def Tags.closing (g : Tags) (level : Nat) : Ev := .html (['<', '/'] ++ g.levelName level ++ ['>'])

/-- The loop that reads a heading (markdown.rs:138-148): the text, what goes to the output, and the rest. -/
def readHeading : List Ev → List Char → List Ev → List Char × List Ev × List Ev
  | [], buf, out => (buf, out, [])
  | e :: es, buf, out =>
    let buf := match e with
      | .text s => buf ++ s
      | _ => buf
    match e with
    | .endH _ => (buf, out, es)
    | _ => readHeading es buf (out ++ [e])

/-- `HeadingLinker` (markdown.rs:120-125): `inner` and `output`. -/
structure Linker where
  inner : List Ev
  output : List Ev

/-- `next` (markdown.rs:130-158). -/
def Linker.next (g : Tags) (s : Linker) : Option Ev × Linker :=
  match s.output with
  | o :: output => (some o, ⟨s.inner, output⟩)
  | [] =>
    match s.inner with
    | [] => (none, ⟨[], []⟩)
    | .startH level :: inner =>
      let r := readHeading inner [] []
      (some (g.opening level r.1), ⟨r.2.2, r.2.1 ++ [g.closing level]⟩)
    | e :: inner => (some e, ⟨inner, []⟩)

/-- Everything `next` gives, up to a number of calls. -/
def Linker.collect (g : Tags) : Nat → Linker → List Ev
  | 0, _ => []
  | n + 1, s =>
    match s.next g with
    | (none, _) => []
    | (some e, s) => e :: Linker.collect g n s

/-! ## Blocks -/

/-- What the blocks need: the tags, the renderer of pulldown-cmark and white space. -/
structure Render where
  tags : Tags
  ws : Char → Bool
  html : List Ev → List Char

/-- `push_html` (markdown.rs:105-113): what is appended.  The linker gives at most two events for one. -/
def Render.push (r : Render) (evs : List Ev) : List Char := r.html (Linker.collect r.tags (2 * evs.length + 1) ⟨evs, []⟩)

/-- `DocBlock` (markdown.rs:19-23). -/
structure Block where
  html : List Char
  hasDescription : Bool
  teaser : Nat × Nat

/-- The loop that reads up to an end tag (markdown.rs:42-47, 82-87): what is before and the rest. -/
def readUntil (stop : Ev) : List Ev → List Ev → List Ev × List Ev
  | [], acc => (acc, [])
  | e :: es, acc => if e = stop then (acc, es) else readUntil stop es (acc ++ [e])

/-- `parse_main` (markdown.rs:75-103). -/
def parseMain (r : Render) (evs : List Ev) : Block :=
  match evs with
  | .startP :: rest =>
    let start := r.push [.startP]
    let p := readUntil .endP rest []
    let html := start ++ r.push p.1
    let teaser := (Docs.blen start, Docs.blen html)
    let html := html ++ r.push [.endP]
    ⟨trimEnd r.ws (html ++ r.push p.2), !p.2.isEmpty, teaser⟩
  | evs => ⟨trimEnd r.ws (r.push evs), !evs.isEmpty, (0, 0)⟩

/-- `DocBlock::parse_with_title` (markdown.rs:33-57). -/
def parseWithTitle (r : Render) (evs : List Ev) : Option (List Char) × Block :=
  match evs with
  | .startH 1 :: rest =>
    let p := readUntil (.endH 1) rest []
    (some (r.push p.1), parseMain r p.2)
  | evs => (none, parseMain r evs)

/-- `DocBlock::teaser` (markdown.rs:59-61): a panic is no result. -/
def Block.teaserText (b : Block) : Option (List Char) := Docs.slice b.html b.teaser.1 b.teaser.2

end Verif.Dmdoc
