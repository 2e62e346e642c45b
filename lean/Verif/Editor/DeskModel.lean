import Verif.Editor.History

/-!
# Model of the map editor's open maps (`crates/spaceman-dmm/src/editor.rs`)

The list of open maps, which one is selected, the state each of them is in, the commands sent by file
dialogs, and the three kinds of background work: reading a map, preparing (or refreshing) it for an
environment, and loading an environment.

`P` is the type of paths, `D` that of maps as they are in files (`dmm_tools::dmm::Map`), `T` that of maps
being edited (`AtomMap`), `E` that of environments.  What the functions between them do is the subject of
other modules (`Save.lean`, `MapRepr.lean`), so they are parameters (`Ops`).

A thread that answers over a channel is represented by what it was given; whether its answer is there
when `run` looks is a parameter of `run`.  Rendering, the camera, the tools, the windows of
`edit_atoms` and the texts of messages are not modelled.  `MapState::Invalid` is only ever a placeholder
within one function and is left out.
-/

namespace Verif.Editor.Desk

open Verif.Editor

/-- the functions used on maps: `AtomMap::new` (map_repr.rs:71-97), `refresh_pops`
(map_repr.rs:171-177), `save` with the map it was loaded from (map_repr.rs:99-168) -/
structure Ops (D T E : Type) where
  prepare : E → D → T
  refresh : E → T → T
  save : T → D → D

/-- `MapState` (editor.rs:106-121) -/
inductive MapState (P D T E : Type) where
  /-- a thread reads `file` -/
  | loading (file : P)
  | pending (base : D)
  /-- a thread computes `prepare env base` -/
  | preparing (base : D) (env : E)
  /-- a thread computes `refresh env hist.current` -/
  | refreshing (base : D) (hist : History T E) (env : E)
  | active (base : D) (hist : History T E)

/-- `EditorMap` (editor.rs:96-104) -/
structure Tab (P D T E : Type) where
  path : Option P
  z : Nat
  state : MapState P D T E
  uid : Nat

/-- `Command` (editor.rs:71-81); a dialog that failed only leaves a message -/
inductive Command (P : Type) where
  | dialogError (message : Bool)
  | openEnvironment (path : P)
  | openMap (paths : List P)
  | saveMap (uid : Nat) (path : P) (copy : Bool)

/-- what is written to disk: `to_file` with the map `doc` of the tab `uid`.  `ok` says whether it worked,
`copy` whether it was "Save Copy As". -/
structure Write (P D T : Type) where
  uid : Nat
  path : P
  doc : T
  data : D
  copy : Bool
  ok : Bool

/-- the part of `EditorScene` (editor.rs:28-69) that concerns the open maps.  `dialogs` are the save
dialogs being shown, with what their callback will put into the command; `errors` counts messages and
`writes` is the history of what was written. -/
structure Desk (P D T E : Type) where
  tabs : List (Tab P D T E)
  cur : Nat
  uid : Nat
  env : Option E
  loadingEnv : Option P
  dialogs : List (Nat × Bool)
  queue : List (Command P)
  errors : Nat
  writes : List (Write P D T)

variable {P D T E : Type} [DecidableEq P]

/-- `EditorScene::new` (editor.rs:138-181) -/
def Desk.new : Desk P D T E :=
  { tabs := []
    cur := 0
    uid := 0
    env := none
    loadingEnv := none
    dialogs := []
    queue := []
    errors := 0
    writes := [] }

/-- `MapState::hist` (editor.rs:1628-1633) together with the base (`base_dmm`, editor.rs:1619-1626):
only an active map can be looked at, edited or saved -/
def MapState.hist : MapState P D T E → Option (D × History T E)
  | .active base h => some (base, h)
  | _ => none

/-- whether there are changes since the last save (editor.rs:812) -/
def Tab.dirty (t : Tab P D T E) : Bool :=
  match t.state.hist with
  | some (_, h) => h.isDirty
  | none => false

/-- the star in the title (editor.rs:813-821): only a map that has a file has one -/
def Tab.star (t : Tab P D T E) : Bool :=
  match t.path with
  | some _ => t.dirty
  | none => false

/-- replace the history of an active map (`hist_mut`, editor.rs:1635-1640) -/
def Tab.onHist (f : History T E → History T E) (t : Tab P D T E) : Tab P D T E :=
  match t.state with
  | .active base h => { t with state := .active base (f h) }
  | _ => t

/-- `load_map` (editor.rs:1436-1462) -/
def Desk.loadMap (d : Desk P D T E) (p : P) : Desk P D T E :=
  match d.tabs.findIdx? fun t => t.path == some p with
  | some i => { d with cur := i }
  | none =>
    { d with
      cur := d.tabs.length
      tabs := d.tabs ++ [{ path := some p, z := 0, state := .loading p, uid := d.uid }]
      uid := d.uid + 1 }

/-- the "New Map" window once its button was pressed (editor.rs:1019-1049); nothing happens until there
is an environment.  `base` is the map made by `Map::new`. -/
def Desk.create (o : Ops D T E) (d : Desk P D T E) (base : D) : Desk P D T E :=
  match d.env with
  | none => d
  | some e =>
    { d with
      cur := d.tabs.length
      tabs := d.tabs ++ [{ path := none, z := 0, state := .active base (History.new (o.prepare e base)),
                           uid := d.uid }]
      uid := d.uid + 1 }

/-- `close_map` (editor.rs:1464-1472) -/
def Desk.close (d : Desk P D T E) : Desk P D T E :=
  if d.cur + 1 = d.tabs.length then
    { d with tabs := d.tabs.eraseIdx d.cur, cur := d.cur - 1 }
  else if d.cur + 1 < d.tabs.length then
    { d with tabs := d.tabs.eraseIdx d.cur }
  else d

/-- writing the map of a tab (editor.rs:281-291, 1501-1504): a failure leaves a message -/
def Desk.write (o : Ops D T E) (d : Desk P D T E) (uid : Nat) (base : D) (h : History T E) (p : P)
    (copy ok : Bool) : Desk P D T E :=
  { d with
    writes := d.writes ++ [{ uid := uid, path := p, doc := h.current, data := o.save h.current base,
                             copy := copy, ok := ok }]
    errors := if ok then d.errors else d.errors + 1 }

/-- `save_map` (editor.rs:1474-1507); `ok` says which files can be written -/
def Desk.saveMap (o : Ops D T E) (ok : P → Bool) (d : Desk P D T E) : Desk P D T E :=
  match d.tabs[d.cur]? with
  | none => d
  | some t =>
    match t.state.hist with
    | none => d
    | some (base, h) =>
      match t.path with
      | none => { d with dialogs := d.dialogs ++ [(t.uid, false)] }
      | some p =>
        { d.write o t.uid base h p false (ok p) with
          tabs := d.tabs.modify d.cur (Tab.onHist History.markClean) }

/-- `save_map_as` (editor.rs:1509-1535) -/
def Desk.saveMapAs (d : Desk P D T E) (copy : Bool) : Desk P D T E :=
  match d.tabs[d.cur]? with
  | none => d
  | some t =>
    match t.state.hist with
    | none => d
    | some _ => { d with dialogs := d.dialogs ++ [(t.uid, copy)] }

/-- the loop of `save_all` (editor.rs:1540-1543) over the next `n` maps -/
def Desk.saveFrom (o : Ops D T E) (ok : P → Bool) (d : Desk P D T E) : Nat → Desk P D T E
  | 0 => d
  | n + 1 => Desk.saveFrom o ok { d.saveMap o ok with cur := d.cur + 1 } n

/-- `save_all` (editor.rs:1537-1545) -/
def Desk.saveAll (o : Ops D T E) (ok : P → Bool) (d : Desk P D T E) : Desk P D T E :=
  { Desk.saveFrom o ok { d with cur := 0 } d.tabs.length with cur := d.cur }

/-- `tab_between_maps` (editor.rs:1551-1557) with an offset of 1 or -1 -/
def Desk.tabBetween (d : Desk P D T E) (forward : Bool) : Desk P D T E :=
  if d.tabs = [] then d
  else { d with cur := (if forward then d.cur + d.tabs.length + 1 else d.cur + d.tabs.length - 1) % d.tabs.length }

/-- a click on a thumbnail (editor.rs:826-886), which is only there for a map that is ready -/
def Desk.click (d : Desk P D T E) (i z : Nat) : Desk P D T E :=
  match d.tabs[i]? with
  | none => d
  | some t =>
    match t.state.hist with
    | none => d
    | some _ => { d with cur := i, tabs := d.tabs.modify i fun t => { t with z := z } }

/-- an edit with a tool or a menu (editor.rs:903-935, 1105-1118), `undo` and `redo`
(editor.rs:1559-1577): on the selected map, if it is active and there is an environment -/
def Desk.act (d : Desk P D T E) (f : E → History T E → History T E) : Desk P D T E :=
  match d.env with
  | none => d
  | some e => { d with tabs := d.tabs.modify d.cur (Tab.onHist (f e)) }

/-- the maps when an environment has been loaded: `finish_loading_env` (editor.rs:225-258) -/
def Tab.newEnv (e : E) (t : Tab P D T E) : Tab P D T E :=
  match t.state with
  | .pending base => { t with state := .preparing base e }
  | .preparing base _ => { t with state := .preparing base e }
  | .active base h => { t with state := .refreshing base h e }
  | _ => t

/-- one command (editor.rs:268-296); `ok` as for `saveMap` -/
def Desk.command (o : Ops D T E) (ok : P → Bool) (d : Desk P D T E) : Command P → Desk P D T E
  | .dialogError message => if message then { d with errors := d.errors + 1 } else d
  | .openEnvironment p => { d with loadingEnv := some p }
  | .openMap ps => ps.foldl Desk.loadMap d
  | .saveMap uid p copy =>
    match d.tabs.findIdx? fun t => t.uid == uid with
    | none => d
    | some i =>
      match d.tabs[i]? with
      | none => d
      | some t =>
        match t.state.hist with
        | none => d
        | some (base, h) =>
          let d' := d.write o t.uid base h p copy (ok p)
          if copy then d'
          else { d' with tabs := d.tabs.modify i fun t => (Tab.onHist History.markClean) { t with path := some p } }

/-- what has come from the environment loader (editor.rs:298-311): nothing yet, an error (or it crashed),
an environment -/
inductive EnvResult (E : Type) where
  | empty
  | failed
  | done (e : E)

/-- `run`, the middle part (editor.rs:297-312) -/
def Desk.envArrives (d : Desk P D T E) : EnvResult E → Desk P D T E
  | .empty => d
  | .failed =>
    match d.loadingEnv with
    | none => d
    | some _ => { d with loadingEnv := none, errors := d.errors + 1 }
  | .done e =>
    match d.loadingEnv with
    | none => d
    | some _ => { d with loadingEnv := none, env := some e, tabs := d.tabs.map (Tab.newEnv e) }

/-- `run`, the last part, for one map (editor.rs:315-371).  `read` is the map that the reading thread has
sent, if it has; `ready` says whether the other threads have. -/
def Tab.poll (o : Ops D T E) (env : Option E) (read : Option D) (ready : Bool) (t : Tab P D T E) : Tab P D T E :=
  match t.state with
  | .loading file =>
    match read with
    | some base => { t with state := .pending base }
    | none => { t with state := .loading file }
  | .pending base =>
    match env with
    | some e => { t with state := .preparing base e }
    | none => t
  | .preparing base e =>
    if ready then { t with state := .active base (History.new (o.prepare e base)) } else t
  | .refreshing base h e =>
    if ready then { t with state := .active base (h.replaceCurrent (o.refresh e)) } else t
  | .active _ _ => t

/-- `run` (editor.rs:266-373): the commands in the queue, then the environment, then every map -/
def Desk.run (o : Ops D T E) (ok : P → Bool) (er : EnvResult E) (read : Nat → Option D) (ready : Nat → Bool)
    (d : Desk P D T E) : Desk P D T E :=
  let d1 := d.queue.foldl (Desk.command o ok) { d with queue := [] }
  let d2 := d1.envArrives er
  { d2 with tabs := d2.tabs.map fun t => t.poll o d2.env (read t.uid) (ready t.uid) }

/-- everything that can happen -/
inductive Event (P D T E : Type) where
  /-- the "Open" dialog was answered (or one of the dialogs failed) -/
  | send (c : Command P)
  | create (base : D)
  | close
  | tab (forward : Bool)
  | click (i z : Nat)
  | save (ok : P → Bool)
  | saveAs (copy : Bool)
  | saveAll (ok : P → Bool)
  /-- a save dialog is answered with a path or dismissed (editor.rs:1484-1493, 1519-1527) -/
  | answer (k : Nat) (p : Option P)
  | edit (f : EditFn T E)
  | undo
  | redo
  | run (ok : P → Bool) (er : EnvResult E) (read : Nat → Option D) (ready : Nat → Bool)

/-- commands that come from elsewhere than the save dialogs -/
def Command.isSave : Command P → Bool
  | .saveMap .. => true
  | _ => false

def Desk.step (o : Ops D T E) (d : Desk P D T E) : Event P D T E → Desk P D T E
  | .send c => if c.isSave then d else { d with queue := d.queue ++ [c] }
  | .create base => d.create o base
  | .close => d.close
  | .tab f => d.tabBetween f
  | .click i z => d.click i z
  | .save ok => d.saveMap o ok
  | .saveAs copy => d.saveMapAs copy
  | .saveAll ok => d.saveAll o ok
  | .answer k p =>
    match d.dialogs[k]? with
    | none => d
    | some (uid, copy) =>
      { d with
        dialogs := d.dialogs.eraseIdx k
        queue := d.queue ++ [match p with
          | some p => .saveMap uid p copy
          | none => .dialogError false] }
  | .edit f => d.act fun e h => h.edit e f
  | .undo => d.act fun e h => h.undo e
  | .redo => d.act fun e h => h.redo e
  | .run ok er read ready => d.run o ok er read ready

/-- the editor after `evs` -/
def after (o : Ops D T E) (evs : List (Event P D T E)) : Desk P D T E := evs.foldl (Desk.step o) Desk.new

end Verif.Editor.Desk
