import Verif.Typing.Model

/-!
# Model of the check of keyword arguments against overrides

`crates/dreamchecker/src/lib.rs`: `used_kwargs` as filled by `visit_call` (3290-3316), `check_kwargs` (1092-1120) and
`finish_check_kwargs` (1123-1170), run one after the other (365-388).
-/

namespace Verif.Typing

/-- `entry(k).and_modify(upd).or_insert(new)` on a map.  The map is a list in order of insertion, a BTreeMap is sorted by
key; nothing here depends on the order of its entries except the order of notes. -/
def upsert {α β : Type} [DecidableEq α] (k : α) (new : β) (upd : β → β) : List (α × β) → List (α × β)
  | [] => [(k, new)]
  | (k', v) :: l => if k' = k then (k', upd v) :: l else (k', v) :: upsert k new upd l

/-- `get_mut(k)` and a change of what it gives. -/
def modify {α β : Type} [DecidableEq α] (k : α) (upd : β → β) : List (α × β) → List (α × β)
  | [] => []
  | (k', v) :: l => if k' = k then (k', upd v) :: l else (k', v) :: modify k upd l

/-- A keyword argument that exists, given in a call that is not exact: the effect `Effect.kwarg` of `Verif.Typing.Model`
and its place (lib.rs:3290-3316). -/
structure KwUse where
  src : Nat
  proc : Proc
  name : Ident
  loc : Loc
  deriving DecidableEq

/-- How the type is written in a key: `Display for TypeRef` writes the root as `(global)` (objtree.rs:173-179, 513-517),
`Display for ProcRef` writes its path, which is empty (objtree.rs:689). -/
inductive KeyTy
  | global
  | path (i : Nat)
  deriving DecidableEq

/-- The keys of `used_kwargs`, which are strings: type, name, and `[idx/len]` if `Display for ProcRef` adds it
(objtree.rs:687-695).  Simplified: the three parts are kept apart. -/
structure Key where
  ty : KeyTy
  name : Ident
  nth : Option (Nat × Nat)
  deriving DecidableEq

/-- `format!("{}/proc/{}", src, proc.name())` (lib.rs:3303). -/
def KwUse.key (u : KwUse) : Key := ⟨if u.src = 0 then .global else .path u.src, u.proc.name, none⟩

/-- `current.to_string()` (lib.rs:1099; objtree.rs:687-695). -/
def Tree.key (t : Tree) (p : Proc) : Key :=
  ⟨.path p.ty, p.name, if (t.procs p.ty p.name).length > 1 then some (p.idx, (t.procs p.ty p.name).length) else none⟩

/-- `KwargInfo` (lib.rs:396-415).  Definitions stand for their locations, types for their paths. -/
structure KwInfo where
  proc : Proc
  /-- keyword, first place, other places -/
  called : List (Ident × Loc × Nat)
  /-- type, definition, missing keywords -/
  bad : List (Nat × Proc × List Ident)

/-- `used_kwargs` -/
abbrev KwState := List (Key × KwInfo)

/-- `.called_at.entry(name).and_modify(|ca| ca.others += 1).or_insert(..)` (lib.rs:3308-3315). -/
def KwInfo.call (i : KwInfo) (n : Ident) (l : Loc) : KwInfo :=
  { i with called := upsert n (l, 0) (fun c => (c.1, c.2 + 1)) i.called }

/-- The use of a keyword argument (lib.rs:3301-3315). -/
def record (s : KwState) (u : KwUse) : KwState :=
  upsert u.key (KwInfo.call ⟨u.proc, [], []⟩ u.name u.loc) (fun i => i.call u.name u.loc) s

/-- How often `parent_proc` can be followed, at most. -/
def Tree.above (t : Tree) (p : Proc) : Nat := p.idx + ((t.chain p.ty).tail.map fun j => (t.procs j p.name).length).sum

/-- The loop over `parent_proc` (lib.rs:1097-1098, 1118), with a bound that is always enough. -/
def Tree.parentsFrom (t : Tree) : Nat → Proc → List Proc
  | 0, _ => []
  | f + 1, p => match t.parentProc p with
    | none => []
    | some q => q :: t.parentsFrom f q

/-- The definitions reached from a proc by `parent_proc`. -/
def Tree.parents (t : Tree) (p : Proc) : List Proc := t.parentsFrom (t.above p) p

/-- The missing keywords (lib.rs:1100-1106). -/
def KwInfo.missing (i : KwInfo) (params : List Ident) : List Ident :=
  (i.called.map Prod.fst).filter fun k => !params.contains k

/-- One round of the loop (lib.rs:1099-1117). -/
def KwInfo.check (params : List Ident) (p : Proc) (i : KwInfo) : KwInfo :=
  if (i.missing params).isEmpty then i
  else { i with bad := upsert p.ty (p, i.missing params) (fun _ => (p, i.missing params)) i.bad }

/-- `check_kwargs` (lib.rs:1092-1120). -/
def checkKwargs (t : Tree) (s : KwState) (p : Proc) : KwState :=
  (t.parents p).foldl (fun s q => modify (t.key q) (KwInfo.check (t.info p).params p) s) s

/-- A diagnostic of `finish_check_kwargs`: its place, the name in it, the notes about overrides and those about calls. -/
structure KwReport where
  proc : Proc
  base : Key
  notes : List (Nat × Proc × List Ident)
  sites : List (Ident × Loc × Nat)

/-- One round of `finish_check_kwargs` (lib.rs:1124-1168). -/
def KwInfo.report (k : Key) (i : KwInfo) : Option KwReport :=
  if i.bad.isEmpty then none
  else some ⟨i.proc, k, i.bad, i.called.filter fun c => (i.bad.flatMap fun b => b.2.2).contains c.1⟩

/-- `finish_check_kwargs` (lib.rs:1123-1170). -/
def finishKwargs (s : KwState) : List KwReport := s.filterMap fun x => x.2.report x.1

/-- The uses met while the bodies are analyzed, then `check_kwargs` on the procs in the order of `recurse` and
`iter_self_procs`, then `finish_check_kwargs` (lib.rs:369-388). -/
def kwReports (t : Tree) (uses : List KwUse) (order : List Proc) : List KwReport :=
  finishKwargs (order.foldl (checkKwargs t) (uses.foldl record []))

end Verif.Typing
