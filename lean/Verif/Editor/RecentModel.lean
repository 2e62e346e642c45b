/-!
# The recent environments of the map editor, and what it opens when it starts

Models `/repo/crates/spaceman-dmm/src/config.rs` and, of `/repo/crates/spaceman-dmm/src/editor.rs`, `finish_init`, the
first two lines of `finish_loading_env` and the menu of recent environments. `P` is the type of paths with Rust's equality
of paths (by components). TOML is not modelled: a file that was written completely reads back as the list written, and a
file that was created but not yet written (it is empty, or ends in the middle of the list) is a configuration error.
Writing is taken to succeed (an error is printed and leaves what is on disk as it is, or torn).
-/

namespace Verif.Editor.Recent

variable {P : Type} [DecidableEq P]

/-- `Config::make_recent`, config.rs:21-30. -/
def makeRecent (recent : List P) (p : P) : List P :=
  if recent.head? = some p then recent else p :: recent.filter (fun q => decide (q ≠ p))

/-- The configuration file: not there, written only in part, or written. -/
inductive Disk (P : Type) where
  | absent
  | torn
  | full (recent : List P)

/-- `Config::load` and `load`, config.rs:11-13 and 50-62: no file or a file that does not parse give the default. -/
def Disk.load : Disk P → List P
  | .absent => []
  | .torn => []
  | .full r => r

/-- The running editor (its list, editor.rs:33 and :144) and the file. -/
structure World (P : Type) where
  recent : List P
  disk : Disk P

/-- What happens in sequence when an environment was loaded: `make_recent` (editor.rs:220), then `save` (editor.rs:221),
which creates the file, emptying it, and then writes it (config.rs:80). -/
def finishSteps (p : P) : List (World P → World P) :=
  [fun w => { w with recent := makeRecent w.recent p },
   fun w => { w with disk := .torn },
   fun w => { w with disk := .full w.recent }]

/-- `finish_loading_env`, editor.rs:220-221, completed. -/
def finish (w : World P) (p : P) : World P := (finishSteps p).foldl (fun w f => f w) w

/-- The editor is started, editor.rs:144. -/
def boot (d : Disk P) : World P := ⟨d.load, d⟩

/-- The editor runs once: it is started, environments are loaded one after the other, and it is closed or crashes while no
environment is being recorded. What stays is the file. -/
def session (d : Disk P) (loads : List P) : Disk P := (loads.foldl finish (boot d)).disk

/-- An argument of the command line, editor.rs:189-209: a `.dme`, a `.dmm` with the environment that belongs to it if one is
found (`detect_environment`, a parameter here), or something else. -/
inductive Arg (P : Type) where
  | dme (p : P)
  | dmm (p : P) (env : Option P)
  | other

/-- What the editor is told to open: environments, and maps. -/
structure Opened (P : Type) where
  envs : List P
  maps : List P

/-- One round of the loop of `finish_init`, editor.rs:189-209; the `Bool` is `loading_env`. -/
def argStep : Opened P × Bool → Arg P → Opened P × Bool
  | (o, l), .dme p => if !l then ({ o with envs := o.envs ++ [p] }, true) else (o, l)
  | (o, l), .dmm p env =>
    let (o, l) : Opened P × Bool :=
      if !l then
        match env with
        | some e => ({ o with envs := o.envs ++ [e] }, true)
        | none => (o, l)
      else (o, l)
    ({ o with maps := o.maps ++ [p] }, l)
  | (o, l), .other => (o, l)

/-- `finish_init`, editor.rs:184-217. -/
def finishInit (recent : List P) (args : List (Arg P)) : Opened P :=
  let (o, l) := args.foldl argStep (⟨[], []⟩, false)
  if !l then
    match recent.head? with
    | some p => { o with envs := o.envs ++ [p] }
    | none => o
  else o

/-- The menu of recent environments, editor.rs:461-481: the entries with their shortcut numbers, and the environment loaded
when entry `k` (counted from the top) is clicked. -/
def menu (recent : List P) : List (P × Nat) := recent.zipIdx 1

/-- editor.rs:466-479: the clicked path. The loop goes through all entries, `clicked` tells which of them report a click. -/
def menuClick (recent : List P) (clicked : Nat → Bool) : Option P :=
  recent.zipIdx.foldl (fun c e => if clicked e.2 then some e.1 else c) none

end Verif.Editor.Recent
