import Mathlib.Logic.Relation
import Mathlib.Data.Fintype.Card

/-!
# What the call-tree checks of dreamchecker are about

The *input* of the checks: which proc calls which, where, on what receiver;
which procs sleep or have side effects; which procs carry a directive.  And,
independently of how the checker walks it, what it means that a proc can be
reached.

`P` are procs, `T` types, `N` proc names and `L` source locations.
-/

namespace Verif.CallTree

/-- One call in the body of a proc.
Models `CallEdge`, crates/dreamchecker/src/lib.rs:603-610. -/
structure Edge (P T L : Type) where
  proc : P
  loc : L
  newContext : Bool
  src : T
  exact : Bool
  inheritReceiver : Bool

/-- What the checker knows about the program when it starts to look at the call
tree.  Models the fields of `AnalyzeObjectTree` used by `check_proc_call_tree`
(crates/dreamchecker/src/lib.rs:613-636), with the object tree reduced to the
questions asked of it: the type and name of a proc, the types at or below a type
(`TypeRef::recurse_types`, crates/dreammaker/src/objtree.rs:316-332), the last
definition of a name on exactly this type (objtree.rs:653-664). -/
structure Program (P T N L : Type) where
  calls : P → List (Edge P T L)
  ty : P → T
  name : P → N
  rootTy : T
  below : T → List T
  own : T → N → Option P
  /-- the body contains a call to a blocking built-in -/
  sleeps : P → Bool
  /-- `set waitfor = FALSE` -/
  waitfor : P → Bool
  /-- `set SpacemanDMM_allowed_to_sleep` -/
  exempt : P → Bool
  /-- `set SpacemanDMM_should_not_sleep` -/
  mustNot : P → Bool

variable {P T N L : Type}

/-- A caller is not held up by this proc, or the proc is checked for itself. -/
def Program.Stops (g : Program P T N L) (p : P) : Prop :=
  g.waitfor p = true ∨ g.exempt p = true ∨ g.mustNot p = true

/-- A proc being run: the proc, what is known about the object it is run on, and
whether it was named exactly or may be any override. -/
structure Frame (P T : Type) where
  proc : P
  receiver : T
  exact : Bool

/-- The receiver a call is made on. -/
def Edge.on (e : Edge P T L) (r : T) : T := if e.inheritReceiver then r else e.src

/-- `q` is an override that running `f` can be dispatched to: `f` is not exact, not
a global proc, and `q` is another proc, the definition in force on a type at or below
the receiver. -/
def Program.Dispatches (g : Program P T N L) (f : Frame P T) (q : P) : Prop :=
  q ≠ f.proc ∧ f.exact = false ∧ g.ty f.proc ≠ g.rootTy ∧
    ∃ t ∈ g.below f.receiver, g.own t (g.name f.proc) = some q

/-- `Waits g root f path`: `root`, run on an object of its own type, waits for
`f`: it calls a proc that calls a proc … that is `f`, none of them through
`spawn` and none of those in between sleeping, detached, exempt or itself checked.
`path` lists the calls, in order.  A call that is not exact can be dispatched to
any override on a type at or below the receiver. -/
inductive Waits (g : Program P T N L) (root : P) : Frame P T → List (P × L) → Prop
  | start {e : Edge P T L} : e ∈ g.calls root → e.newContext = false →
      Waits g root ⟨e.proc, e.on (g.ty root), e.exact⟩ [(e.proc, e.loc)]
  | call {f : Frame P T} {path : List (P × L)} {e : Edge P T L} : Waits g root f path →
      ¬ g.Stops f.proc → g.sleeps f.proc = false → e ∈ g.calls f.proc → e.newContext = false →
      Waits g root ⟨e.proc, e.on f.receiver, e.exact⟩ (path ++ [(e.proc, e.loc)])
  | dispatch {f : Frame P T} {path : List (P × L)} {q : P} : Waits g root f path →
      ¬ g.Stops f.proc → g.sleeps f.proc = false → g.Dispatches f q →
      Waits g root ⟨q, g.ty q, true⟩ path

/-- `Calls g root p`: the same with the calls as they are written only, without
dispatch to overrides. -/
inductive Calls (g : Program P T N L) (root : P) : P → Prop
  | start {e : Edge P T L} : e ∈ g.calls root → e.newContext = false → Calls g root e.proc
  | call {p : P} {e : Edge P T L} : Calls g root p →
      ¬ g.Stops p → g.sleeps p = false → e ∈ g.calls p → e.newContext = false →
      Calls g root e.proc

/-- `p` calls `q`, in the same or a new context. -/
def Program.CallsAny (g : Program P T N L) (p q : P) : Prop := ∃ e ∈ g.calls p, e.proc = q

/-- `q` is an ancestor of `p` for the relation "overrides". -/
inductive Ancestor (parent : P → Option P) : P → P → Prop
  | one {p q : P} : parent p = some q → Ancestor parent p q
  | up {p q r : P} : parent p = some q → Ancestor parent q r → Ancestor parent p r

/-- `Trail g root ps p`: a chain of calls from `root` to `p` through `ps`. -/
inductive Trail (g : Program P T N L) (root : P) : List P → P → Prop
  | start {q : P} : g.CallsAny root q → Trail g root [q] q
  | step {ps : List P} {p q : P} : Trail g root ps p → g.CallsAny p q → Trail g root (ps ++ [q]) q

/-- `Resolves set parent p v`: `v` is what is set on `p` itself or, if nothing is,
on the nearest ancestor that has something set. -/
inductive Resolves {V : Type} (set : P → Option V) (parent : P → Option P) : P → V → Prop
  | here {p : P} {v : V} : set p = some v → Resolves set parent p v
  | up {p q : P} {v : V} : set p = none → parent p = some q → Resolves set parent q v →
      Resolves set parent p v

end Verif.CallTree
