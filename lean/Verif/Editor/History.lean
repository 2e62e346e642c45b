import Mathlib.Tactic.Common
import Mathlib.Data.List.Basic
import Mathlib.Logic.Function.Basic

/-!
# Model of the editor's undo history (`crates/spaceman-dmm/src/history.rs`)

`T` is the document, `E` the environment handed to the closures.  Closures are functions; `&mut T`
becomes a returned `T`.  petgraph's graph is the list of its edges in insertion order (node and edge
indices are insertion numbers; the 2^32 limit on them is not modelled).  Descriptions are dropped.
-/

namespace Verif.Editor

/-- an undo closure `Fn(&E, &mut T)` -/
abbrev UndoFn (T E : Type) := E → T → T
/-- an edit closure `Fn(&E, &mut T) -> Box<dyn Fn(&E, &mut T)>` -/
abbrev EditFn (T E : Type) := E → T → T × UndoFn T E

/-- an edge of the graph with its weight `Edit` (history.rs:19-22) -/
structure Edge (T E : Type) where
  source : Nat
  target : Nat
  redo : EditFn T E
  undo : UndoFn T E

/-- `History` (history.rs:8-13); `nodes` is the number of nodes added -/
structure History (T E : Type) where
  current : T
  idx : Nat
  cleanIdx : Nat
  nodes : Nat
  edges : List (Edge T E)

variable {T E : Type}

namespace History

/-- `History::new` (history.rs:25-34) -/
def new (current : T) : History T E :=
  { current := current
    idx := 0
    cleanIdx := 0
    nodes := 1
    edges := [] }

/-- petgraph's `edges_directed(a, Outgoing)`: most recently added first -/
def outgoing (h : History T E) (a : Nat) : List (Edge T E) :=
  (h.edges.filter fun e => e.source == a).reverse

/-- petgraph's `edges_directed(a, Incoming)`: most recently added first -/
def incoming (h : History T E) (a : Nat) : List (Edge T E) :=
  (h.edges.filter fun e => e.target == a).reverse

/-- `is_dirty` (history.rs:46-48) -/
def isDirty (h : History T E) : Bool := h.cleanIdx != h.idx

/-- `mark_clean` (history.rs:50-52) -/
def markClean (h : History T E) : History T E := { h with cleanIdx := h.idx }

/-- `edit` (history.rs:54-75) -/
def edit (h : History T E) (env : E) (f : EditFn T E) : History T E :=
  let r := f env h.current
  { h with
    current := r.1
    idx := h.nodes
    nodes := h.nodes + 1
    edges := h.edges ++ [⟨h.idx, h.nodes, f, r.2⟩] }

/-- `replace_current` (history.rs:40-44) with a value computed from the current one (the editor does not
allow edits in between: `MapState::hist_mut`, editor.rs:1635-1640) -/
def replaceCurrent (h : History T E) (f : T → T) : History T E := { h with current := f h.current }

/-- `can_undo` (history.rs:77-85): `neighbors_directed(idx, Incoming).next().is_some()` -/
def canUndo (h : History T E) : Bool := (h.incoming h.idx).head?.isSome

/-- `undo` (history.rs:87-96) -/
def undo (h : History T E) (env : E) : History T E :=
  match (h.incoming h.idx).getLast? with
  | none => h
  | some e =>
    { h with
      current := e.undo env h.current
      idx := e.source }

/-- `can_redo` (history.rs:98-103) -/
def canRedo (h : History T E) : Bool := (h.outgoing h.idx).head?.isSome

/-- `edge_weight_mut(id).unwrap().undo = undo`; an edge is identified by its end points (there are no
parallel edges, since every edge leads to a new node) -/
def setUndo (es : List (Edge T E)) (a b : Nat) (u : UndoFn T E) : List (Edge T E) :=
  es.map fun e => if e.source = a ∧ e.target = b then { e with undo := u } else e

/-- `redo` (history.rs:105-117) -/
def redo (h : History T E) (env : E) : History T E :=
  match (h.outgoing h.idx).getLast? with
  | none => h
  | some e =>
    let r := e.redo env h.current
    { h with
      current := r.1
      idx := e.target
      edges := setUndo h.edges e.source e.target r.2 }

end History

/-- a user action; every action runs with whatever environment is loaded at that time -/
inductive Action (T E : Type) where
  | edit (env : E) (f : EditFn T E)
  | undo (env : E)
  | redo (env : E)
  | markClean
  /-- the document is recomputed (after the environment was reloaded) -/
  | replace (f : T → T)

/-- performing one action -/
def History.act (h : History T E) : Action T E → History T E
  | .edit env f => h.edit env f
  | .undo env => h.undo env
  | .redo env => h.redo env
  | .markClean => h.markClean
  | .replace f => h.replaceCurrent f

end Verif.Editor
