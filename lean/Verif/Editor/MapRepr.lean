import Mathlib.Tactic.Common
import Mathlib.Data.List.Basic
import Mathlib.Order.Defs.LinearOrder
import Mathlib.Data.List.Sort

/-!
# Model of the editor's map representation (`crates/spaceman-dmm/src/map_repr.rs`)

* `P` is the type of prefabs (`Arc<Prefab>`, compared by value), with its type path.
* `RPop K V` is what the map needs of a `RenderPop` (map_renderer.rs): its sort key in a linear order
  `K`, its texture, and the vertices of an instance.
* `pops` is a function; that the weak table drops entries whose prefab nobody holds any more is not
  modelled (every instance, every dead slot and every undo closure holds its prefab).
* A Rust panic (index out of bounds, `expect`, `debug_assert!`, underflow) is `none`.
* The freelist is a stack with its top at the head (in Rust: at the end of the `Vec`).
* `binary_search_by_key` is a parameter `search`, known only by its contract (`SearchOk`).
-/

namespace Verif.Editor

/-- the parts of `RenderPop` used here: `sort_key()`, `texture`, `instance(..)` -/
structure RPop (K V : Type) where
  key : K
  texture : Nat
  vert : Nat → Nat → V

/-- `Instance` (map_repr.rs:35-40) -/
structure Inst (P : Type) where
  x : Nat
  y : Nat
  pop : P
deriving DecidableEq

/-- `DrawCall` (map_renderer.rs:67-71) -/
structure Draw where
  texture : Nat
  len : Nat
deriving DecidableEq

/-- `AtomZ` (map_repr.rs:20-33) with its `DualPool` (map_repr.rs:481-486).  An index buffer entry
`indices(i)` (map_repr.rs:541-544) is represented by `i`. -/
structure Level (P V : Type) where
  keys : List (Inst P)
  vals : List V
  free : List Nat
  sorted : List Nat
  ib : List Nat
  ibDirty : Bool
  draws : List Draw

/-- `AtomZ::default` -/
def Level.empty {P V : Type} : Level P V :=
  { keys := []
    vals := []
    free := []
    sorted := []
    ib := []
    ibDirty := false
    draws := [] }

/-- `objtree::ispath` (objtree.rs:223-230); `parent` has been trimmed of trailing slashes -/
def ispath (path parent : List Char) : Bool :=
  if parent.isPrefixOf path then
    match path.drop parent.length with
    | [] => true
    | c :: _ => c = '/'
  else false

def turfPath : List Char := ['/', 't', 'u', 'r', 'f']
def areaPath : List Char := ['/', 'a', 'r', 'e', 'a']

/-- `should_replace(path, "/turf/", "/area/")` (map_repr.rs:559-567) -/
def shouldReplace (path : List Char) : Option (List Char) :=
  if ispath path turfPath then some turfPath
  else if ispath path areaPath then some areaPath
  else none

/-- `find_draw_call` (map_repr.rs:546-557), from the `i`-th call on, which starts at `start` -/
def findDraw : List Draw → Nat → Nat → Nat → Nat × Nat
  | [], _, i, start => (i, start)
  | d :: ds, pos, i, start =>
    if start ≤ pos ∧ pos < start + d.len then (i, start) else findDraw ds pos (i + 1) (start + d.len)

/-- `Vec::insert` -/
def vecInsert {α : Type} (l : List α) (i : Nat) (a : α) : Option (List α) :=
  if i ≤ l.length then some (l.take i ++ a :: l.drop i) else none

/-- `Vec::remove` -/
def vecRemove {α : Type} (l : List α) (i : Nat) : Option (List α) :=
  if i < l.length then some (l.take i ++ l.drop (i + 1)) else none

/-- `draw_calls[i].len += 6` etc. -/
def setLen (ds : List Draw) (i len : Nat) : List Draw :=
  ds.modify i fun d => { d with len := len }

/-- the draw call part of `add_instance` (map_repr.rs:266-311); `pos` is already multiplied by 6 -/
def addDraw (ds : List Draw) (pos texture : Nat) : Option (List Draw) :=
  let r := findDraw ds pos 0 0
  let i := r.1
  let start := r.2
  if pos = start then
    if 0 < i ∧ (ds[i - 1]?).any (fun d => d.texture = texture) then
      (ds[i - 1]?).map fun d => setLen ds (i - 1) (d.len + 6)
    else if i < ds.length ∧ (ds[i]?).any (fun d => d.texture = texture) then
      (ds[i]?).map fun d => setLen ds i (d.len + 6)
    else vecInsert ds i ⟨texture, 6⟩
  else
    match ds[i]? with
    | none => none
    | some d =>
      if d.texture = texture then some (setLen ds i (d.len + 6))
      else if start ≤ pos ∧ pos - start ≤ d.len then
        (vecInsert (setLen ds i (d.len - (pos - start))) i ⟨texture, 6⟩).bind fun ds' =>
          vecInsert ds' i ⟨d.texture, pos - start⟩
      else none

/-- the draw call part of `AtomZ::remove_instance` (map_repr.rs:447-453) -/
def removeDraw (ds : List Draw) (pos : Nat) : Option (List Draw) :=
  let i := (findDraw ds pos 0 0).1
  match ds[i]? with
  | none => none
  | some d =>
    if d.len < 6 then none
    else if d.len - 6 = 0 then vecRemove ds i
    else some (setLen ds i (d.len - 6))

section
variable {P K V : Type} [DecidableEq P] [LinearOrder K]

/-- `DualPool::push` (map_repr.rs:504-518) -/
def Level.push (lv : Level P V) (k : Inst P) (v : V) : Option (Level P V × Nat) :=
  match lv.free with
  | idx :: fr =>
    if idx < lv.keys.length ∧ idx < lv.vals.length then
      some ({ lv with
        keys := lv.keys.set idx k
        vals := lv.vals.set idx v
        free := fr }, idx)
    else none
  | [] =>
    if lv.keys.length = lv.vals.length then
      some ({ lv with
        keys := lv.keys ++ [k]
        vals := lv.vals ++ [v] }, lv.keys.length)
    else none

/-- `DualPool::keys_iter` (map_repr.rs:533-538): live slots in order -/
def Level.liveSlots (lv : Level P V) : List (Nat × Inst P) :=
  (lv.keys.zipIdx.map fun p => (p.2, p.1)).filter fun p => !lv.free.contains p.1

/-- `DualPool::len` (map_repr.rs:529-531) -/
def Level.len (lv : Level P V) : Nat := lv.keys.length - lv.free.length

/-- the `RenderPop` of a slot's prefab -/
def Level.rpop (pops : P → Option (RPop K V)) (lv : Level P V) (i : Nat) : Option (RPop K V) :=
  (lv.keys[i]?).bind fun k => pops k.pop

/-- `AtomZ::prep_instance` (map_repr.rs:424-435); `dflt` is `[Vertex::default(); 4]` -/
def Level.prep (pops : P → Option (RPop K V)) (dflt : V) (lv : Level P V) (x y : Nat) (fab : P) :
    Option (Level P V × Nat) :=
  lv.push ⟨x, y, fab⟩ (match pops fab with | some r => r.vert x y | none => dflt)

/-- `AtomZ::remove_instance` (map_repr.rs:437-461): the level and the removed instance -/
def Level.remove (lv : Level P V) (idx : Nat) : Option (Level P V × Inst P) :=
  match lv.keys[idx]? with
  | none => none
  | some old =>
    if lv.free.contains idx then none
    else
      let lv1 : Level P V := { lv with free := idx :: lv.free }
      if lv.sorted.contains idx then
        let pos := lv.sorted.idxOf idx
        match vecRemove lv.sorted pos, vecRemove lv.ib pos, removeDraw lv.draws (6 * pos) with
        | some s, some b, some d =>
          some ({ lv1 with
            sorted := s
            ib := b
            draws := d }, old)
        | _, _, _ => none
      else some (lv1, old)

/-- all the keys `binary_search_by_key` may look at; `none` is the `expect` -/
def Level.sortKeys (pops : P → Option (RPop K V)) (lv : Level P V) : Option (List K) :=
  lv.sorted.mapM fun i => (lv.rpop pops i).map RPop.key

/-- the replacement part of `add_instance` (map_repr.rs:229-242) -/
def Level.replaceOld (path : P → List Char) (lv : Level P V) (x y : Nat) (fab : P) :
    Option (Level P V × Option (Inst P)) :=
  match shouldReplace (path fab) with
  | none => some (lv, none)
  | some parent =>
    match lv.liveSlots.find? fun p => p.2.x = x ∧ p.2.y = y ∧ ispath (path p.2.pop) parent with
    | none => some (lv, none)
    | some p => (lv.remove p.1).map fun r => (r.1, some r.2)

/-- the insertion part of `add_instance` (map_repr.rs:244-311) -/
def Level.insertNew (pops : P → Option (RPop K V)) (search : List K → K → Nat) (dflt : V)
    (lv : Level P V) (x y : Nat) (fab : P) : Option (Level P V × Nat) :=
  match lv.prep pops dflt x y fab with
  | none => none
  | some (lv1, idx) =>
    match lv1.rpop pops idx, lv1.sortKeys pops with
    | some r, some ks =>
      let pos := search ks r.key
      match vecInsert lv1.sorted pos idx, vecInsert lv1.ib pos idx, addDraw lv1.draws (6 * pos) r.texture with
      | some s, some b, some d =>
        some ({ lv1 with
          sorted := s
          ib := b
          draws := d }, idx)
      | _, _, _ => none
    | _, _ => none

/-- `AddedInstance` (map_repr.rs:54-59) -/
structure Added (P : Type) where
  z : Nat
  idx : Nat
  replaced : Option (Inst P)

/-- `AtomMap::add_instance` (map_repr.rs:222-320) on one level -/
def Level.add (path : P → List Char) (pops : P → Option (RPop K V)) (search : List K → K → Nat) (dflt : V)
    (lv : Level P V) (x y : Nat) (fab : P) : Option (Level P V × Nat × Option (Inst P)) :=
  (lv.replaceOld path x y fab).bind fun r =>
    (r.1.insertNew pops search dflt x y fab).map fun r' => (r'.1, r'.2, r.2)

/-- `AtomMap::add_instance_unsorted` (map_repr.rs:203-220) on one level -/
def Level.addUnsorted (pops : P → Option (RPop K V)) (dflt : V) (lv : Level P V) (x y : Nat) (fab : P) :
    Option (Level P V × Nat) :=
  (lv.prep pops dflt x y fab).map fun r =>
    ({ r.1 with
      sorted := r.1.sorted ++ [r.2]
      ib := r.1.ib ++ [r.2] }, r.2)

/-- the draw call loop of `sort_again` (map_repr.rs:386-402); the last call is at the head -/
def drawLoop : List Draw → List Nat → List Draw
  | acc, [] => acc.reverse
  | [], t :: ts => drawLoop [⟨t, 6⟩] ts
  | d :: acc, t :: ts =>
    if d.texture = t then drawLoop (⟨d.texture, d.len + 6⟩ :: acc) ts
    else drawLoop (⟨t, 6⟩ :: d :: acc) ts

/-- `sort_again` (map_repr.rs:370-403) on one level; `sort_by_key` is a stable sort, hence
equal to insertion sort -/
def Level.sortAgain (pops : P → Option (RPop K V)) (lv : Level P V) : Option (Level P V) :=
  match lv.sorted.mapM (fun i => (lv.rpop pops i).map fun r => (r, i)) with
  | none => none
  | some l =>
    let l' := l.insertionSort fun a b => a.1.key ≤ b.1.key
    some { lv with
      sorted := l'.map Prod.snd
      ibDirty := true
      draws := drawLoop [] (l'.map fun a => a.1.texture) }

/-- `index_buffer` (map_repr.rs:410-420) -/
def Level.indexBuffer (lv : Level P V) : List Nat × Level P V :=
  if lv.ibDirty then (lv.sorted, { lv with
    ib := lv.sorted
    ibDirty := false }) else (lv.ib, lv)

/-- `get_instance` (map_repr.rs:330-338) on one level; `none` is the index panic -/
def Level.getInstance (lv : Level P V) (idx : Nat) : Option (Option (Inst P)) :=
  if idx ≥ lv.len ∨ lv.free.contains idx then some none
  else (lv.keys[idx]?).map some

/-- `iter_instances` (map_repr.rs:355-368) on one level -/
def Level.iterInstances (lv : Level P V) (x y : Nat) : List (Nat × P) :=
  lv.sorted.reverse.filterMap fun i =>
    match lv.keys[i]? with
    | none => none
    | some k => if k.x = x ∧ k.y = y then some (i, k.pop) else none

/-- `AtomMap` (map_repr.rs:12-18) -/
structure AtomMap (P K V : Type) where
  sizeX : Nat
  sizeY : Nat
  pops : P → Option (RPop K V)
  levels : List (Level P V)

/-- `add_pop` (map_repr.rs:180-196); `render` is `RenderPop::from_prefab(..).unwrap_or_default()` in
the current environment -/
def AtomMap.addPop (render : P → RPop K V) (m : AtomMap P K V) (fab : P) : AtomMap P K V :=
  match m.pops fab with
  | some _ => m
  | none => { m with pops := fun p => if p = fab then some (render fab) else m.pops p }

/-- `refresh_pops` (map_repr.rs:171-178) -/
def AtomMap.refresh (render : P → RPop K V) (m : AtomMap P K V) : Option (AtomMap P K V) :=
  let pops' := fun p => (m.pops p).map fun _ => render p
  (m.levels.mapM fun lv : Level P V => lv.sortAgain pops').map fun ls => { m with
    pops := pops'
    levels := ls }

/-- `AtomMap::add_instance` (map_repr.rs:222-320) -/
def AtomMap.add (path : P → List Char) (search : List K → K → Nat) (dflt : V) (m : AtomMap P K V)
    (x y z : Nat) (fab : P) : Option (AtomMap P K V × Added P) :=
  match m.levels[z]? with
  | none => none
  | some lv =>
    (lv.add path m.pops search dflt x y fab).map fun r =>
      ({ m with levels := m.levels.set z r.1 }, ⟨z, r.2.1, r.2.2⟩)

/-- `AtomMap::remove_instance` (map_repr.rs:340-343): the map and the old instance -/
def AtomMap.remove (m : AtomMap P K V) (z idx : Nat) : Option (AtomMap P K V × Inst P) :=
  match m.levels[z]? with
  | none => none
  | some lv => (lv.remove idx).map fun r => ({ m with levels := m.levels.set z r.1 }, r.2)

/-- `undo_add_instance` (map_repr.rs:322-328) -/
def AtomMap.undoAdd (path : P → List Char) (search : List K → K → Nat) (dflt : V) (m : AtomMap P K V)
    (a : Added P) : Option (AtomMap P K V) :=
  match a.replaced with
  | some old => (m.add path search dflt old.x old.y a.z old.pop).map Prod.fst
  | none => (m.remove a.z a.idx).map Prod.fst

/-- `undo_remove_instance` (map_repr.rs:345-353) -/
def AtomMap.undoRemove (path : P → List Char) (render : P → RPop K V) (search : List K → K → Nat) (dflt : V)
    (m : AtomMap P K V) (z : Nat) (old : Inst P) : Option (AtomMap P K V) :=
  ((m.addPop render old.pop).add path search dflt old.x old.y z old.pop).map Prod.fst

end

end Verif.Editor
