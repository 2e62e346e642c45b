import Verif.Langserver.DocumentProps

/-!
# Model of a session of the language server: what its answers are computed from

`crates/dm-langserver/src/main.rs`, `background.rs`, on the documents of `Verif.Langserver`.

* The annotations of a document are a function of the history of defines and of the text; the model keeps these two (`D` and the
  text) in place of the `AnnotationTree`.
* What is on the disk is given anew with every request.
* Converting a url to a path, and the errors of `push_file`, are not modelled.
-/

namespace Verif.Session

open Verif.Langserver

variable {U D T : Type} [DecidableEq U]

/-- `Engine` (main.rs:275-296) -/
structure Engine (U D : Type) where
  /-- is there a workspace root? -/
  root : Bool
  docs : Store U
  defines : Option D
  /-- the keys of `annotations`, with what the annotations were made from -/
  annotations : U → Option (D × List Char)

/-- `Engine::new` (main.rs:299-320), after `Initialize` has set the root -/
def Engine.new (root : Bool) : Engine U D := ⟨root, fun _ => none, none, fun _ => none⟩

/-- `HashMap::remove` -/
def Engine.forget (e : Engine U D) (u : U) : Engine U D :=
  { e with annotations := fun v => if v = u then none else e.annotations v }

/-- what the annotations in an answer were made from: the file alone, or the file and the history of defines -/
inductive Source (D : Type) where
  | alone (text : List Char)
  | within (d : D) (text : List Char)
deriving DecidableEq

/-- `get_annotations` (main.rs:692-835); `none` is an error -/
def Engine.getAnnotations (e : Engine U D) (u : U) (disk : Option (List Char)) : Engine U D × Option (Source D) :=
  match e.annotations u with
  | some (d, text) => (e, some (.within d text))
  | none =>
    if e.root then
      match e.defines with
      | none => (e, none)
      | some d =>
        match (match e.docs u with | some doc => some doc.text | none => disk) with
        | none => (e, none)
        | some text => ({ e with annotations := fun v => if v = u then some (d, text) else e.annotations v }, some (.within d text))
    else
      match (match e.docs u with | some doc => some doc.text | none => disk) with
      | none => (e, none)
      | some text => (e, some (.alone text))

/-- the messages -/
inductive Msg (U D : Type) where
  | opened (u : U) (version : Int) (text : List Char)
  | changed (u : U) (version : Int) (cs : List Change)
  | closed (u : U)
  /-- `Initialized` and `Reparse` (main.rs:2461-2491): the new history, or `none` if the environment could not be opened -/
  | parse (d : Option D)
  /-- a request that looks at the annotations of a document -/
  | ask (u : U) (disk : Option (List Char))

/-- a notification or request: the new state, and whether the result was `Ok` (for `ask`: whether there are annotations); `none`
is a panic -/
def Engine.step (e : Engine U D) : Msg U D → Option (Engine U D × Bool)
  | .opened u v text =>                                       -- `DidOpenTextDocument` (main.rs:2510-2513)
    let r := e.docs.open u v text
    some ({ e with docs := r.1 }, r.2)
  | .closed u =>                                              -- `DidCloseTextDocument` (main.rs:2515-2519)
    let r := e.docs.close u
    some (if r.2 then { e with docs := r.1 }.forget u else { e with docs := r.1 }, r.2)
  | .changed u v cs =>                                        -- `DidChangeTextDocument` (main.rs:2521-2527)
    match e.docs.change u v cs with
    | none => none
    | some (docs, okay) => some (if okay then { e with docs := docs }.forget u else { e with docs := docs }, okay)
  | .parse d =>                                               -- `parse_environment` (main.rs:519-690)
    some (match d with | some d => { e with defines := some d } | none => e, true)
  | .ask u disk => let r := e.getAnnotations u disk; some (r.1, r.2.isSome)

/-- a session -/
def Engine.run (e : Engine U D) : List (Msg U D) → Option (Engine U D)
  | [] => some e
  | m :: ms => (e.step m).bind fun r => Engine.run r.1 ms

/-! ## The references -/

/-- `Background` (background.rs:6-9); a receiver is the number of its job -/
structure Background (T : Type) where
  value : Option T
  rx : Option Nat
deriving DecidableEq

/-- a job (background.rs:53-59): its thread runs, has sent its result, or has panicked -/
inductive Job (T : Type) where
  | running
  | sent (v : T)
  | dead
deriving DecidableEq

/-- `references_table` and the threads started for it -/
structure Tables (T : Type) where
  bg : Background T
  jobs : List (Job T)
deriving DecidableEq

def Tables.new : Tables T := ⟨⟨none, none⟩, []⟩

/-- `Background::poll` (background.rs:32-43) -/
def Tables.poll (s : Tables T) : Tables T :=
  match s.bg.rx with
  | none => s
  | some j =>
    let b : Background T := { s.bg with rx := none }
    match s.jobs[j]? with
    | some (.sent v) => { s with bg := { b with value := some v } }
    | some .running => { s with bg := { b with rx := some j } }
    | some .dead => { s with bg := b }
    | none => { s with bg := b }

/-- `Background::is_busy` (background.rs:45-47) -/
def Tables.isBusy (s : Tables T) : Bool := s.bg.rx.isSome

/-- what happens to it -/
inductive Event (T : Type) where
  /-- `Background::spawn` (background.rs:28-30), by `parse_environment` (main.rs:601) -/
  | spawn
  /-- the thread of the job sends its result -/
  | done (j : Nat) (v : T)
  /-- the thread of the job panics -/
  | die (j : Nat)
  /-- `poll`, by `References` and `GotoImplementation` (main.rs:1919, 1941) -/
  | poll

/-- the thread of a job ends -/
def Tables.finish (s : Tables T) (j : Nat) (r : Job T) : Tables T :=
  match s.jobs[j]? with
  | some .running => { s with jobs := s.jobs.set j r }
  | _ => s

def Tables.step (s : Tables T) : Event T → Tables T
  | .spawn => ⟨{ s.bg with rx := some s.jobs.length }, s.jobs ++ [.running]⟩
  | .done j v => s.finish j (.sent v)
  | .die j => s.finish j .dead
  | .poll => s.poll

def Tables.run (s : Tables T) (es : List (Event T)) : Tables T := es.foldl Tables.step s

end Verif.Session
