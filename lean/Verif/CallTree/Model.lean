import Verif.CallTree.Spec
import Mathlib.Data.Finset.Card
import Mathlib.Data.Fintype.Basic

/-!
# The call-tree checks of dreamchecker

Models `AnalyzeObjectTree::check_proc_call_tree`, `propagate_violations`, and
`ProcDirective` of crates/dreamchecker/src/lib.rs.  A diagnostic is represented by
the procs and the call stack it mentions; the text of the message only as far as
the choice between its three forms.
-/

namespace Verif.CallTree

variable {P T N L : Type}

/-- An entry of `to_visit`, lib.rs:757-758: proc, stack, new_context, parent_proc,
receiver, is_exact.  Of the stack's steps the `new_context` flag is left out: it is
never printed (lib.rs:541-546). -/
structure Task (P T L : Type) where
  proc : P
  stack : List (P × L)
  newContext : Bool
  parent : P
  receiver : T
  exact : Bool

/-- Which of the three messages, lib.rs:829-841. -/
inductive Kind
  | overrideOnSame
  | overrideChild
  | blocking
  deriving DecidableEq

/-- A `must_not_sleep` diagnostic: lib.rs:767-777 (`builtin`) and 843-848 (`via`). -/
inductive Report (P L : Type)
  | builtin (root : P)
  | via (root : P) (proc : P) (stack : List (P × L)) (kind : Kind)
  deriving DecidableEq

/-- The proc found sleeping by a report: `nextproc` or, for its own calls to
built-ins, `procref` itself. -/
def Report.proc : Report P L → P
  | .builtin r => r
  | .via _ p _ _ => p

/-- The proc whose directive a report is about: `procref`, lib.rs:761. -/
def Report.root : Report P L → P
  | .builtin r => r
  | .via r _ _ _ => r

/-- The entries pushed for the calls of `p`, lib.rs:780-799 (with the type of the
directive's proc as receiver and an empty stack) and 870-891. -/
def pushCalls (g : Program P T N L) (p : P) (receiver : T) (stack : List (P × L)) :
    List (Task P T L) :=
  (g.calls p).map fun e =>
    { proc := e.proc
      stack := stack ++ [(e.proc, e.loc)]
      newContext := e.newContext
      parent := e.proc
      receiver := if e.inheritReceiver then receiver else e.src
      exact := e.exact }

/-- The entries pushed for overrides, lib.rs:854-868 with
`recurse_children_within`, crates/dreammaker/src/objtree.rs:653-664. -/
def pushOverrides [DecidableEq T] (g : Program P T N L) (t : Task P T L) : List (Task P T L) :=
  if !t.exact && decide (g.ty t.proc ≠ g.rootTy) then
    (g.below t.receiver).filterMap fun ty =>
      (g.own ty (g.name t.proc)).map fun q =>
        { proc := q
          stack := t.stack
          newContext := false
          parent := t.proc
          receiver := g.ty q
          exact := true }
  else []

/-- The message for `proc`, found through `parent`, lib.rs:822-841. -/
def kindOf [DecidableEq T] (g : Program P T N L) (root parent proc : P) : Kind :=
  let same := decide (g.ty proc = g.ty root)
  let ovr := decide (g.ty proc ≠ g.ty parent)
  if same && ovr then .overrideOnSame else if ovr then .overrideChild else .blocking

section
variable [DecidableEq P] [DecidableEq T]

/-- The loop over `to_visit`, lib.rs:802-892.  `visited` is a hash set: only
membership matters. -/
def walk [Fintype P] (g : Program P T N L) (root : P) (visited : Finset P) :
    List (Task P T L) → Finset P × List (Report P L)
  | [] => (visited, [])
  | t :: rest =>
    if t.newContext then walk g root visited rest
    else if t.proc ∈ visited then walk g root visited rest
    else
      if g.waitfor t.proc then walk g root (insert t.proc visited) rest
      else if g.exempt t.proc then walk g root (insert t.proc visited) rest
      else if g.mustNot t.proc then walk g root (insert t.proc visited) rest
      else if g.sleeps t.proc then
        let r := walk g root (insert t.proc visited) rest
        (r.1, .via root t.proc t.stack (kindOf g root t.parent t.proc) :: r.2)
      else walk g root (insert t.proc visited)
        (rest ++ pushOverrides g t ++ pushCalls g t.proc t.receiver t.stack)
  termination_by q => ((Finset.univ \ visited).card, q.length)
  decreasing_by
  all_goals first
    | (apply Prod.Lex.right; simp; done)
    | (apply Prod.Lex.left
       apply Finset.card_lt_card
       refine Finset.ssubset_iff_subset_ne.2 ⟨?_, ?_⟩
       · intro x hx
         simp only [Finset.mem_sdiff, Finset.mem_univ, true_and, Finset.mem_insert, not_or] at hx ⊢
         exact hx.2
       · intro he
         have : t.proc ∈ Finset.univ \ insert t.proc visited := by
           rw [he]
           simp only [Finset.mem_sdiff, Finset.mem_univ, true_and]
           assumption
         simp at this)

/-- The loop over the procs that carry the directive, lib.rs:761-893. -/
def checkSleep [Fintype P] (g : Program P T N L) (visited : Finset P) : List P → List (Report P L)
  | [] => []
  | r :: rest =>
    if r ∈ visited then checkSleep g visited rest
    else
      let own := if g.sleeps r then [Report.builtin r] else []
      let w := walk g r (insert r visited) (pushCalls g r (g.ty r) [])
      own ++ w.2 ++ checkSleep g w.1 rest

/-- The first half of `check_proc_call_tree`, lib.rs:756-893; `roots` are the procs
with the directive, sorted by location. -/
def sleepReports [Fintype P] (g : Program P T N L) (roots : List P) : List (Report P L) :=
  checkSleep g ∅ roots

/-! ## Purity -/

/-- A `must_be_pure` diagnostic: lib.rs:899-908, 922-928, 931-944. -/
inductive Impurity (P L : Type)
  | direct (root : P)
  | via (root : P) (proc : P) (stack : List (P × L))
  | override (root : P) (proc : P) (child : P) (stack : List (P × L))
  deriving DecidableEq

/-- What a purity report says, without the stack: which proc, and whether it is the
proc with the directive itself, a callee, or which override of a callee. -/
def Impurity.key : Impurity P L → P × Option (Option P)
  | .direct r => (r, none)
  | .via _ p _ => (p, some none)
  | .override _ p c _ => (p, some (some c))

/-- What the purity check looks at besides the calls: which procs do impure
operations (`impure_procs`), the map `impure_overrides`, the type of a proc, the
subtype test, and where the directive of a proc was set. -/
structure PureInfo (P T L : Type) where
  impure : P → Bool
  overrides : P → List P
  sub : T → T → Bool
  setAt : P → L

/-- What is reported for `p` reached from `root`, lib.rs:922-945. -/
def impurities (g : Program P T N L) (i : PureInfo P T L) (root p : P) (stack : List (P × L)) :
    List (Impurity P L) :=
  if i.impure p then [.via root p stack]
  else ((i.overrides p).filter fun c =>
      !(i.sub (g.ty root) (g.ty p) && !i.sub (g.ty c) (g.ty root))).map
        fun c => .override root p c stack

/-- The entries pushed for the calls of a visited proc, lib.rs:946-952.  The location
added to the stack is that of the directive, as in lib.rs:949. -/
def pushPure (g : Program P T N L) (loc : L) (p : P) (stack : List (P × L)) :
    List (P × List (P × L)) :=
  (g.calls p).map fun e => (e.proc, stack ++ [(e.proc, loc)])

/-- The loop of the purity check, lib.rs:918-952. -/
def walkPure [Fintype P] (g : Program P T N L) (i : PureInfo P T L) (root : P) (visited : Finset P) :
    List (P × List (P × L)) → List (Impurity P L)
  | [] => []
  | (p, stack) :: rest =>
    if p ∈ visited then walkPure g i root visited rest
    else
      impurities g i root p stack ++
        walkPure g i root (insert p visited)
          (rest ++ pushPure g (i.setAt root) p stack)
  termination_by q => ((Finset.univ \ visited).card, q.length)
  decreasing_by
  all_goals first
    | (apply Prod.Lex.right; simp; done)
    | (apply Prod.Lex.left
       apply Finset.card_lt_card
       refine Finset.ssubset_iff_subset_ne.2 ⟨?_, ?_⟩
       · intro x hx
         simp only [Finset.mem_sdiff, Finset.mem_univ, true_and, Finset.mem_insert, not_or] at hx ⊢
         exact hx.2
       · intro he
         have : p ∈ Finset.univ \ insert p visited := by
           rw [he]
           simp only [Finset.mem_sdiff, Finset.mem_univ, true_and]
           assumption
         simp at this)

/-- The second half of `check_proc_call_tree`, lib.rs:896-954. -/
def pureReports [Fintype P] (g : Program P T N L) (i : PureInfo P T L) (roots : List P) :
    List (Impurity P L) :=
  roots.flatMap fun r =>
    (if i.impure r then [Impurity.direct r] else []) ++
      walkPure g i r ∅ ((g.calls r).map fun e => (e.proc, [(e.proc, e.loc)]))

end

/-! ## Overrides and directives

`parent` is `ProcRef::parent_proc` (crates/dreammaker/src/objtree.rs:608-619); that
following it comes to an end is part of the data, as a depth. -/

/-- The relation "overrides" between procs. -/
structure Parents (P : Type) where
  parent : P → Option P
  depth : P → Nat
  lower : ∀ {p q : P}, parent p = some q → depth q < depth p

/-- The procs visited by `while let Some(current) = next`, starting at the parent,
lib.rs:1083-1087. -/
def Parents.above (h : Parents P) (p : P) : List P :=
  match hq : h.parent p with
  | none => []
  | some q => q :: h.above q
  termination_by h.depth p
  decreasing_by exact h.lower hq

/-- `propagate_violations` for one proc, lib.rs:1077-1090: `ovr` is
`impure_overrides`, a proc without entry having the empty list. -/
def propagate [DecidableEq P] (h : Parents P) (isNew impure : P → Bool) (ovr : P → List P) (p : P) :
    P → List P :=
  if isNew p then ovr
  else if impure p then
    (h.above p).foldl (fun o c x => if x = c then o x ++ [p] else o x) ovr
  else ovr

/-- All procs, in the order of the traversal in lib.rs:381-386. -/
def propagateAll [DecidableEq P] (h : Parents P) (isNew impure : P → Bool) (procs : List P) : P → List P :=
  procs.foldl (propagate h isNew impure) fun _ => []

/-- What `ProcDirective::insert` answers, lib.rs:441-478. -/
inductive InsertError
  | onGlobal
  | disabled
  | twice
  deriving DecidableEq

/-- A directive: lib.rs:419-425, the map and two of the switches. -/
structure Directive (P L : Type) where
  set : P → Option (Bool × L)
  canBeDisabled : Bool
  canBeGlobal : Bool

/-- `ProcDirective::insert`, lib.rs:441-478.  `global` is `proc.ty().is_root()`. -/
def Directive.insert [DecidableEq P] (d : Directive P L) (global : P → Bool) (p : P) (enable : Bool)
    (loc : L) : Except InsertError (Directive P L) :=
  if global p && !d.canBeGlobal then .error .onGlobal
  else if !enable && !d.canBeDisabled then .error .disabled
  else if (d.set p).isSome then .error .twice
  else .ok { d with set := fun x => if x = p then some (enable, loc) else d.set x }

/-- `ProcDirective::get_self_or_parent`, lib.rs:486-495. -/
def Directive.selfOrParent (d : Directive P L) (h : Parents P) (p : P) : Option (P × Bool × L) :=
  match d.set p with
  | some (b, l) => some (p, b, l)
  | none =>
    match hq : h.parent p with
    | none => none
    | some q => d.selfOrParent h q
  termination_by h.depth p
  decreasing_by exact h.lower hq

/-- `ProcDirective::try_copy_from_parent`, lib.rs:499-507. -/
def Directive.copyFromParent [DecidableEq P] (d : Directive P L) (h : Parents P) (global : P → Bool)
    (p : P) : Directive P L :=
  if (d.set p).isSome then d
  else
    match h.parent p with
    | none => d
    | some q =>
      match d.selfOrParent h q with
      | some (_, true, loc) =>
        match d.insert global p true loc with
        | .ok d' => d'
        | .error _ => d
      | _ => d

/-- `check_proc` on the procs with a body, in order, as far as the directive is
concerned: lib.rs:368-374, 688-692. -/
def Directive.inherit [DecidableEq P] (d : Directive P L) (h : Parents P) (global : P → Bool)
    (procs : List P) : Directive P L :=
  procs.foldl (fun d p => d.copyFromParent h global p) d

end Verif.CallTree
