import Verif.Server.ExplorerMembers
import Mathlib.Data.List.TakeWhile

/-!
# Model of the window for the variables of an object (`crates/spaceman-dmm/src/edit_prefab.rs`)

and of `find_closest_type` (editor.rs:1593-1606), which finds the type it shows the variables of.

Only what the window does to the prefab and which rows it has are modelled, not how it looks.  A frame of
the immediate mode interface is given by which buttons and rows were clicked during it.
-/

namespace Verif.Editor.Prefab

open Verif.Objtree Verif.Explorer

/-- names and paths -/
abbrev Name := List Char

/-! ## The closest type -/

/-- `path.rfind("/")` and `&path[..idx]` (editor.rs:1598-1600) -/
def cut (path : Name) : Option Name :=
  if '/' ∈ path then some (path.reverse.dropWhile (· ≠ '/')).tail.reverse else none

theorem cut_length {path q : Name} (h : cut path = some q) : q.length < path.length := by
  unfold cut at h
  split at h
  · next hm =>
    injection h with h
    subst h
    have h1 : (path.reverse.dropWhile (· ≠ '/')).length ≤ path.length := by
      have := (List.dropWhile_suffix (l := path.reverse) (· ≠ '/')).length_le
      simpa using this
    have h2 : path.reverse.dropWhile (· ≠ '/') ≠ [] := by
      intro e
      rw [List.dropWhile_eq_nil_iff] at e
      have := e '/' (List.mem_reverse.2 hm)
      simp at this
    have h3 := List.length_pos_iff.2 h2
    simp only [List.length_reverse, List.length_tail]
    omega
  · cases h

/-- the loop of `find_closest_type` (editor.rs:1595-1604); `find` is `ObjectTree::find` -/
def closest (find : Name → Option Nat) (path : Name) : Option Nat :=
  match find path with
  | some t => some t
  | none =>
    if path = [] then none
    else
      match h : cut path with
      | some q => closest find q
      | none => none
termination_by path.length
decreasing_by exact cut_length h

/-- `find_closest_type` (editor.rs:1593-1606): whether to show the path in red, and the type -/
def findClosestType (find : Name → Option Nat) (path : Name) : Bool × Option Nat :=
  ((find path).isNone, closest find path)

/-! ## The window -/

/-- the flags of a declaration that are written out (ast.rs:696-718) -/
structure Flags where
  static : Bool := false
  const : Bool := false
  tmp : Bool := false
  final : Bool := false
  «private» : Bool := false
  «protected» : Bool := false

/-- `decl.var_type.flags.to_string().is_empty()` (edit_prefab.rs:123-124) -/
def Flags.none (f : Flags) : Bool :=
  !(f.static || f.const || f.tmp || f.final || f.private || f.protected)

/-- `TypeVar` (objtree.rs): its declaration, if it is declared here, and its value, if that is a constant -/
structure Var (V : Type) where
  decl : Option Flags
  constant : Option V

/-- the types: `line` lists a type and its ancestors up to the root, which is 0 -/
structure Types (V : Type) where
  find : Name → Option Nat
  line : Nat → List Nat
  vars : Nat → List (Name × Var V)

variable {V : Type}

/-- `ty.get_value(name).and_then(|v| v.constant.as_ref())` (edit_prefab.rs:146-149, objtree.rs:189-202) -/
def Types.value (w : Types V) (ty : Nat) (name : Name) : Option V :=
  ((w.line ty).findSome? fun t => (w.vars t).lookup name).bind Var.constant

/-- the types whose variables are shown: `search_ty` (edit_prefab.rs:107-108, 175) -/
def Types.shown (w : Types V) (ty : Nat) : List Nat :=
  match w.line ty with
  | [] => []
  | t :: ts => t :: ts.takeWhile (· ≠ 0)

/-- `UNMODIFIABLE_VARS` (edit_prefab.rs:181-204) -/
def unmodifiable : List Name :=
  ["appearance", "bounds", "loc", "locs", "maptext_height", "maptext_width", "maptext_x", "maptext_y", "maptext",
    "parent_type", "particles", "pixloc", "render_source", "render_target", "type", "vars", "verbs", "vis_contents",
    "vis_locs", "x", "y", "z"].map String.toList

/-- `name.contains(filter)` -/
def hasFilter (filter : Name) : Name → Bool
  | [] => filter.isEmpty
  | c :: cs => filter.isPrefixOf (c :: cs) || hasFilter filter cs

/-- `Prefab` (dmm.rs): path and variables, in the order in which they were set -/
structure Fab (V : Type) where
  path : Name
  vars : List (Name × V)

/-- the rows for a type (edit_prefab.rs:112-133) -/
def Types.rows (w : Types V) (filter : Name) (extra : Bool) (t : Nat) : List Name :=
  ((((w.vars t).filter fun v => !unmodifiable.contains v.1).mergeSort (byName Prod.fst)).filter fun v =>
    hasFilter filter v.1 && match v.2.decl with
      | some f => f.none || extra
      | none => false).map Prod.fst

/-- the reset buttons (edit_prefab.rs:71-94): `reset` says which were pressed -/
def resets (filter : Name) (reset : Name → Bool) (vars : List (Name × V)) : List (Name × V) :=
  vars.filter fun v => !(hasFilter filter v.1 && reset v.1)

/-- a click on a row (edit_prefab.rs:136-171): a variable that is not set gets the value it has anyway -/
def clickRow (w : Types V) (ty : Nat) (vars : List (Name × V)) (name : Name) : List (Name × V) :=
  match vars.lookup name with
  | some _ => vars
  | none =>
    match w.value ty name with
    | some c => vars ++ [(name, c)]
    | none => vars

/-- `show` (edit_prefab.rs:35-177): `click t name` says whether the row of `name` under the type `t` was
clicked.  Without an environment there are no rows. -/
def frame (w : Option (Types V)) (filter : Name) (extra : Bool) (reset : Name → Bool) (click : Nat → Name → Bool)
    (fab : Fab V) : Fab V :=
  let vars := resets filter reset fab.vars
  match w with
  | none => { fab with vars := vars }
  | some w =>
    match closest w.find fab.path with
    | none => { fab with vars := vars }
    | some ty =>
      { fab with
        vars := ((w.shown ty).flatMap fun t => (w.rows filter extra t).map fun n => (t, n)).foldl
          (fun vs r => if click r.1 r.2 then clickRow w ty vs r.2 else vs) vars }

end Verif.Editor.Prefab
