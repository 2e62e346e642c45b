import Verif.Editor.PlaceModel

/-!
# Theorems about the placement tool (C110)
-/

namespace Verif.Editor.Place

variable {F : Type}

/-! ## The palette -/

/-- nothing is clicked on an entry -/
def Act.Idle (a : Act F) : Prop := a.left = false ∧ a.remove = false

theorem frame_keep (e : Entry F) (a : Act F) (h : a.remove = false) : (e.frame a).2 = true := by
  unfold Entry.frame
  simp only
  split
  · rfl
  · simp [h]

/-- the loop when none of the entries from `i` on is clicked or removed -/
theorem loop_idle (acts : Nat → Act F) (i cur : Nat) (es : List (Entry F))
    (h : ∀ j, i ≤ j → j < i + es.length → (acts j).Idle) :
    loop acts i cur es = (es.mapIdx fun j e => (e.frame (acts (i + j))).1, cur) := by
  induction es generalizing i with
  | nil => rfl
  | cons e es ih =>
    obtain ⟨h1, h2⟩ := h i (Nat.le_refl i) (by simp)
    rw [loop]
    simp only [h1, frame_keep e _ h2, Bool.false_eq_true, if_false, if_true, Bool.not_true, Bool.false_and]
    rw [ih (i + 1) (fun j hj hl => h j (by omega) (by simp at hl ⊢; omega))]
    simp [List.mapIdx_cons, Nat.add_assoc, Nat.add_comm, Nat.add_left_comm]

theorem loop_split (acts : Nat → Act F) (i cur : Nat) (as bs : List (Entry F))
    (h : ∀ j, i ≤ j → j < i + as.length → (acts j).Idle) :
    loop acts i cur (as ++ bs) =
      ((as.mapIdx fun j e => (e.frame (acts (i + j))).1) ++ (loop acts (i + as.length) cur bs).1,
        (loop acts (i + as.length) cur bs).2) := by
  induction as generalizing i with
  | nil => simp
  | cons e es ih =>
    obtain ⟨h1, h2⟩ := h i (Nat.le_refl i) (by simp)
    rw [List.cons_append, loop]
    simp only [h1, frame_keep e _ h2, Bool.false_eq_true, if_false, if_true, Bool.not_true, Bool.false_and]
    rw [ih (i + 1) (fun j hj hl => h j (by omega) (by simp at hl ⊢; omega))]
    simp [List.mapIdx_cons, Nat.add_assoc, Nat.add_comm, Nat.add_left_comm]

/-- what a frame makes of the entry at index `j` -/
def Palette.after (p : Palette F) (acts : Nat → Act F) : List (Entry F) :=
  p.entries.mapIdx fun j e => (e.frame (acts j)).1

/-- **C110.** A frame in which nothing is selected or removed: the same entries in the same order, and the same
one is selected. -/
theorem frame_idle (p : Palette F) (acts : Nat → Act F) (h : ∀ j, (acts j).Idle) :
    p.frame acts = { entries := p.after acts, cur := p.cur } := by
  unfold Palette.frame Palette.after
  rw [loop_idle acts 0 p.cur p.entries (fun j _ _ => h j)]
  simp

/-- **C110.** A click on an icon selects that entry, and changes nothing else. -/
theorem frame_click (p : Palette F) (acts : Nat → Act F) (i : Nat) (hi : i < p.entries.length)
    (h : ∀ j, j ≠ i → (acts j).Idle) (hl : (acts i).left = true) (hr : (acts i).remove = false) :
    p.frame acts = { entries := p.after acts, cur := i } := by
  unfold Palette.frame Palette.after
  have hsp : p.entries = p.entries.take i ++ p.entries[i] :: p.entries.drop (i + 1) := by simp
  have hlen : (p.entries.take i).length = i := by simp; omega
  have e1 := loop_split acts 0 p.cur (p.entries.take i) (p.entries[i] :: p.entries.drop (i + 1))
    (fun j _ hj => h j (by omega))
  rw [hlen, Nat.zero_add, loop] at e1
  simp only [hl, frame_keep _ _ hr, if_true, Bool.not_true, Bool.false_and, Bool.false_eq_true, if_false] at e1
  rw [loop_idle acts (i + 1) i _ (fun j hj _ => h j (by omega))] at e1
  rw [← hsp] at e1
  rw [e1]
  simp only [Palette.mk.injEq, and_true]
  conv => rhs; rw [hsp]
  rw [List.mapIdx_append, List.mapIdx_cons, hlen]
  simp [Nat.add_assoc, Nat.add_comm, Nat.add_left_comm]

/-- **C110.** Removing an entry: the others stay in their order; the selected one stays selected, or if it is the
one removed, the next one is selected. -/
theorem frame_remove (p : Palette F) (acts : Nat → Act F) (i : Nat) (hi : i < p.entries.length)
    (h : ∀ j, j ≠ i → (acts j).Idle) (hl : (acts i).left = false)
    (hopen : (p.entries[i].edit).isSome ∨ (acts i).right = true) (hr : (acts i).remove = true) :
    (p.frame acts).entries = (p.after acts).eraseIdx i ∧
    (p.cur ≠ i → (p.frame acts).entries[(p.frame acts).cur]? = (p.after acts)[p.cur]?) ∧
    (p.cur = i → (p.frame acts).entries[(p.frame acts).cur]? = (p.after acts)[i + 1]?) := by
  have hk : (p.entries[i].frame (acts i)).2 = false := by
    unfold Entry.frame
    simp only [hl, Bool.false_eq_true, if_false]
    cases he : p.entries[i].edit with
    | some c => simp [he, hr]
    | none =>
      rw [he] at hopen
      have : (acts i).right = true := by simpa using hopen
      simp [this, hr]
  have hsp : p.entries = p.entries.take i ++ p.entries[i] :: p.entries.drop (i + 1) := by simp
  have hlen : (p.entries.take i).length = i := by simp; omega
  have e1 := loop_split acts 0 p.cur (p.entries.take i) (p.entries[i] :: p.entries.drop (i + 1))
    (fun j _ hj => h j (by omega))
  rw [hlen, Nat.zero_add, loop] at e1
  simp only [hl, hk, Bool.false_eq_true, if_false, Bool.not_false, Bool.true_and] at e1
  rw [loop_idle acts (i + 1) _ _ (fun j hj _ => h j (by omega)), ← hsp] at e1
  have hent : (p.frame acts).entries = (p.after acts).eraseIdx i := by
    unfold Palette.frame Palette.after
    rw [e1]
    simp only
    conv => rhs; rw [hsp]
    rw [List.mapIdx_append, List.mapIdx_cons, hlen,
      List.eraseIdx_append_of_length_le (by simp; omega)]
    simp only [List.length_mapIdx, hlen, Nat.sub_self, List.eraseIdx_cons_zero, Nat.zero_add]
    simp [Nat.add_assoc, Nat.add_comm, Nat.add_left_comm]
  have hcur : (p.frame acts).cur = if i < p.cur then p.cur - 1 else p.cur := by
    unfold Palette.frame
    rw [e1]
    simp
  refine ⟨hent, ?_, ?_⟩
  · intro hne
    rw [hent, hcur, List.getElem?_eraseIdx]
    split
    · next hlt =>
      split
      · omega
      · congr 1; omega
    · next hlt =>
      rw [if_pos (by omega)]
  · intro he
    rw [hent, hcur, he, if_neg (by omega), List.getElem?_eraseIdx, if_neg (by omega)]

/-- **C110.** What a frame makes of an entry: its prefab changes only by "Apply", to the copy in its window, which
the first right click makes of the prefab. -/
theorem entry_frame (e : Entry F) (a : Act F) :
    let copy := if e.edit = none ∧ a.right = true ∧ a.left = false then some e.fab else e.edit
    (e.frame a).1.fab = (if a.apply = true then copy.getD e.fab else e.fab) ∧
    (e.frame a).1.edit = (if a.close = true then none else copy.map a.shown) ∧
    (e.frame a).1.icon = e.icon ∧
    ((e.frame a).2 = false ↔ a.remove = true ∧ copy ≠ none) := by
  unfold Entry.frame
  obtain ⟨left, right, apply, remove, shown, close⟩ := a
  obtain ⟨fab, icon, edit⟩ := e
  cases left <;> cases right <;> cases apply <;> cases remove <;> cases close <;> cases edit <;> simp

/-- **C110.** "+" adds the type at the end, and selects it. -/
theorem add_selected [DecidableEq F] (p : Palette F) (fab : F) (shift : Bool) :
    (p.add fab shift).selected = some fab ∧
    (p.add fab shift).entries.map Entry.fab = p.entries.map Entry.fab ++ [fab] := by
  simp [Palette.add, Palette.selected, Entry.new]

/-- **C110.** Picking an object selects an entry that equals it; one is added only if there is none. -/
theorem pick_selected [DecidableEq F] (p : Palette F) (fab : F) :
    (p.pick fab).selected = some fab ∧
    (p.pick fab).entries.map Entry.fab =
      p.entries.map Entry.fab ++ if fab ∈ p.entries.map Entry.fab then [] else [fab] := by
  unfold Palette.pick Palette.selected
  cases hf : p.entries.findIdx? (fun e => decide (e.fab = fab)) with
  | some i =>
    rw [List.findIdx?_eq_some_iff_getElem] at hf
    obtain ⟨h1, h2, _⟩ := hf
    have h2 : p.entries[i].fab = fab := by simpa using h2
    refine ⟨by simp [h1, h2], ?_⟩
    rw [if_pos (List.mem_map.2 ⟨p.entries[i], List.getElem_mem h1, h2⟩), List.append_nil]
  | none =>
    rw [List.findIdx?_eq_none_iff] at hf
    refine ⟨by simp [Entry.new], ?_⟩
    rw [if_neg ?_]
    · simp [Entry.new]
    · intro hm
      obtain ⟨e, he, rfl⟩ := List.mem_map.1 hm
      have := hf e he
      simp at this

/-! ## Strokes -/

variable [DecidableEq F]

/-- the tile a frame paints on, if the button is held down on the map -/
def Mouse.tile (m : Mouse F) : Option (Nat × Nat) :=
  if m.captured = false ∧ m.ready = true ∧ m.down = true then m.target else none

theorem eraseDups_old {α : Type} [BEq α] [LawfulBEq α] (l : List α) (a : α) (h : a ∈ l) :
    (l ++ [a]).eraseDups = l.eraseDups := by
  rw [List.eraseDups_append]
  simp [List.removeAll, h]

theorem eraseDups_new {α : Type} [BEq α] [LawfulBEq α] (l : List α) (a : α) (h : a ∉ l) :
    (l ++ [a]).eraseDups = l.eraseDups ++ [a] := by
  rw [List.eraseDups_append]
  simp [List.removeAll, h, List.eraseDups_cons]

/-- the state of a brush after painting on `ts`, having begun with `old` placed -/
structure Painted (b : Brush F) (f : F) (z : Nat) (old : List (Loc × F)) (ts : List (Nat × Nat)) : Prop where
  placing : b.placing = (ts.map fun t => (t.1, t.2, z)).eraseDups
  placed : b.placed = old ++ (ts.map fun t => (t.1, t.2, z)).eraseDups.map fun l => (l, f)
  last : ∃ t ∈ ts, b.last = some t

theorem painted_drag {b : Brush F} {f : F} {z : Nat} {old : List (Loc × F)} {ts : List (Nat × Nat)}
    (h : Painted b f z old ts) (t : Nat × Nat) :
    Painted { b.drag (some f) (t.1, t.2, z) with last := some t } f z old (ts ++ [t]) := by
  have hm : ((t.1, t.2, z) ∈ b.placing) ↔ (t.1, t.2, z) ∈ ts.map fun t => (t.1, t.2, z) := by
    rw [h.placing, List.mem_eraseDups]
  have hl : ∃ t' ∈ ts ++ [t], some t = some t' := ⟨t, by simp, rfl⟩
  unfold Brush.drag
  by_cases hi : (t.1, t.2, z) ∈ b.placing
  · rw [if_pos hi]
    constructor
    · simp only [List.map_append, List.map_cons, List.map_nil]
      rw [eraseDups_old _ _ (hm.1 hi)]
      exact h.placing
    · simp only [List.map_append, List.map_cons, List.map_nil]
      rw [eraseDups_old _ _ (hm.1 hi)]
      exact h.placed
    · exact hl
  · rw [if_neg hi]
    constructor
    · simp only [List.map_append, List.map_cons, List.map_nil]
      rw [eraseDups_new _ _ (fun x => hi (hm.2 x)), h.placing]
    · simp only [List.map_append, List.map_cons, List.map_nil]
      rw [eraseDups_new _ _ (fun x => hi (hm.2 x)), h.placed]
      simp
    · exact hl

theorem painted_again {b : Brush F} {f : F} {z : Nat} {old : List (Loc × F)} {ts : List (Nat × Nat)}
    (h : Painted b f z old ts) (t : Nat × Nat) (ht : t ∈ ts) : Painted b f z old (ts ++ [t]) := by
  have hm : (t.1, t.2, z) ∈ ts.map fun t => (t.1, t.2, z) := List.mem_map.2 ⟨t, ht, rfl⟩
  obtain ⟨t', h1, h2⟩ := h.last
  refine ⟨?_, ?_, t', by simp [h1], h2⟩
  · simp only [List.map_append, List.map_cons, List.map_nil]
    rw [eraseDups_old _ _ hm]
    exact h.placing
  · simp only [List.map_append, List.map_cons, List.map_nil]
    rw [eraseDups_old _ _ hm]
    exact h.placed

theorem painted_move {b : Brush F} {f : F} {z : Nat} {old : List (Loc × F)} {ts : List (Nat × Nat)}
    (h : Painted b f z old ts) (m : Mouse F) (hz : m.z = z) (hs : m.sel = some f) (hc : m.captured = false) :
    Painted (b.move m) f z old (ts ++ m.tile.toList) := by
  obtain ⟨t', h1, h2⟩ := h.last
  unfold Brush.move Mouse.tile
  rw [h2]
  cases hT : m.target with
  | none => simpa using h
  | some t =>
    obtain ⟨x, y⟩ := t
    simp only
    cases hr : m.ready with
    | false => simpa using h
    | true =>
      cases hd : m.down with
      | false => simpa using h
      | true =>
        by_cases he : (x, y) = t'
        · simp only [he]
          simpa [hc] using painted_again h t' h1
        · simp only [hz, hs, hc, Bool.and_self, Bool.true_and, decide_eq_true_eq, ne_eq, he, not_false_eq_true,
            if_true, and_self, Option.toList_some]
          exact painted_drag h (x, y)

/-- **C110.** A stroke: the left button is pressed on a tile and held down while the mouse moves, with the same
prefab selected and the same level shown.  The prefab is placed on every tile the mouse was seen on, once, in the
order in which they were reached, and nowhere else; frames in which the interface has the mouse or it is off the
map count for nothing. -/
theorem stroke_exact (b : Brush F) (m : Mouse F) (ms : List (Mouse F)) (f : F) (t : Nat × Nat)
    (hclick : m.clicked = true) (htile : m.tile = some t)
    (hheld : ∀ m' ∈ ms, m'.clicked = false)
    (hsame : ∀ m' ∈ m :: ms, m'.sel = some f ∧ m'.z = m.z) :
    ((m :: ms).foldl Brush.frame b).placed =
      b.placed ++ (((m :: ms).filterMap Mouse.tile).map fun t => (t.1, t.2, m.z)).eraseDups.map fun l => (l, f) := by
  obtain ⟨hs, -⟩ := hsame m List.mem_cons_self
  have hcond : m.captured = false ∧ m.ready = true ∧ m.down = true := by
    unfold Mouse.tile at htile
    split at htile
    · next h => exact h
    · cases htile
  have hT : m.target = some t := by
    unfold Mouse.tile at htile
    rwa [if_pos hcond] at htile
  have h0 : Painted (b.frame m) f m.z b.placed [t] := by
    have hp : b.press m = ⟨[(t.1, t.2, m.z)], some t, b.placed ++ [((t.1, t.2, m.z), f)]⟩ := by
      unfold Brush.press
      rw [hT]
      simp [hclick, hcond.2.1, hs, Brush.click, Brush.drag]
    have hmv : (b.press m).move m = b.press m := by
      unfold Brush.move
      rw [hp, hT]
      simp
    unfold Brush.frame
    rw [if_neg (by simp [hcond.1]), hmv, hp]
    exact ⟨by simp [List.eraseDups_cons], by simp [List.eraseDups_cons], t, by simp, rfl⟩
  have key : ∀ (ms : List (Mouse F)) (b' : Brush F) (ts : List (Nat × Nat)), Painted b' f m.z b.placed ts →
      (∀ m' ∈ ms, m'.clicked = false ∧ m'.sel = some f ∧ m'.z = m.z) →
      Painted (ms.foldl Brush.frame b') f m.z b.placed (ts ++ ms.filterMap Mouse.tile) := by
    intro ms
    induction ms with
    | nil => intro b' ts h _; simpa using h
    | cons m' ms ih =>
      intro b' ts h hh
      obtain ⟨a1, a2, a3⟩ := hh m' List.mem_cons_self
      have hstep : Painted (b'.frame m') f m.z b.placed (ts ++ m'.tile.toList) := by
        unfold Brush.frame
        cases hc : m'.captured with
        | true =>
          have : m'.tile = none := by unfold Mouse.tile; simp [hc]
          simpa [this] using h
        | false =>
          have hp : b'.press m' = b' := by
            unfold Brush.press
            cases m'.target with
            | none => rfl
            | some t => simp [a1]
          simp only [Bool.false_eq_true, if_false, hp]
          exact painted_move h m' a3 a2 hc
      have := ih _ _ hstep (fun m'' hm => hh m'' (List.mem_cons_of_mem _ hm))
      rw [List.foldl_cons]
      have e : ts ++ (m' :: ms).filterMap Mouse.tile = ts ++ m'.tile.toList ++ ms.filterMap Mouse.tile := by
        rw [List.filterMap_cons]
        cases m'.tile <;> simp
      rw [e]
      exact this
  have hfin := (key ms _ _ h0 (fun m' hm => ⟨hheld m' hm, (hsame m' (List.mem_cons_of_mem _ hm)).1,
    (hsame m' (List.mem_cons_of_mem _ hm)).2⟩)).placed
  rw [List.foldl_cons, hfin, List.filterMap_cons, htile]
  rfl

/-- **C110.** Without a selected prefab, and while the button is not held down, nothing is placed. -/
theorem nothing_placed (b : Brush F) (m : Mouse F) (h : m.sel = none ∨ m.clicked = false ∧ m.down = false) :
    (b.frame m).placed = b.placed := by
  have hd : ∀ (b : Brush F) loc, (b.drag none loc).placed = b.placed := by
    intro b loc
    unfold Brush.drag
    split <;> rfl
  unfold Brush.frame
  split
  · rfl
  · rcases h with h | ⟨h1, h2⟩
    · have e1 : ∀ b : Brush F, (b.move m).placed = b.placed := by
        intro b
        unfold Brush.move
        split
        · split
          · simp only [h]; exact hd _ _
          · rfl
        · rfl
      rw [e1]
      unfold Brush.press
      split
      · split
        · simp only [h, Brush.click]
          exact hd _ _
        · rfl
      · rfl
    · have e1 : b.press m = b := by
        unfold Brush.press
        split
        · simp [h1]
        · rfl
      rw [e1]
      unfold Brush.move
      split
      · simp [h2]
      · rfl

/-! ## Undoing a stroke -/

section Undo

variable {T E A : Type}

/-- the edits of a stroke, one for each object placed (place.rs:136-144) -/
def strokeEdits (place : Loc → F → EditFn T E) (h : History T E) (env : E) (placed : List (Loc × F)) : History T E :=
  placed.foldl (fun h p => h.edit env (place p.1 p.2)) h

/-- `n` times undo -/
def undoTimes (h : History T E) (env : E) : Nat → History T E
  | 0 => h
  | n + 1 => undoTimes (h.undo env) env n

/-- placing one after the other takes (maps that stand for) `a` to `b`, and every placement can be undone -/
inductive Placeable (R : T → A → Prop) (place : Loc → F → EditFn T E) : A → List (Loc × F) → A → Prop
  | nil (a) : Placeable R place a [] a
  | cons {a b c p ps} : Reversible R (place p.1 p.2) a b → Placeable R place b ps c → Placeable R place a (p :: ps) c

theorem rep_stroke {R : T → A → Prop} (place : Loc → F → EditFn T E) (env : E) (placed : List (Loc × F)) :
    ∀ {h : History T E} {s : Snapshots A} {pth : Nat → List Nat} {c : A}, Rep R h s pth →
      Placeable R place (s.value s.cur) placed c →
      ∃ s' pth', Rep R (strokeEdits place h env placed) s' pth' ∧
        (∃ more, more.length = placed.length ∧ s'.cur = s.cur ++ more) ∧
        (∀ q, q.length ≤ s.cur.length → s'.value q = s.value q) ∧ s'.clean = s.clean ∧ s'.value s'.cur = c := by
  induction placed with
  | nil =>
    intro h s pth c r hp
    cases hp
    exact ⟨s, pth, r, ⟨[], rfl, by simp⟩, fun _ _ => rfl, rfl, rfl⟩
  | cons p ps ih =>
    intro h s pth c r hp
    cases hp with
    | @cons _ b _ _ _ hb hps =>
      have r1 := rep_edit r env (place p.1 p.2) b hb
      obtain ⟨s', pth', r2, ⟨more, hm, hc⟩, hval, hcl, hend⟩ := ih (c := c) r1 (by simpa using hps)
      refine ⟨s', pth', r2, ⟨s.kids s.cur :: more, by simp [hm], by rw [hc]; simp⟩, ?_, hcl, hend⟩
      intro q hq
      rw [hval q (by simp; omega)]
      simp only
      rw [if_neg]
      intro e
      have := congrArg List.length e
      simp at this
      omega

theorem rep_undos {R : T → A → Prop} (env : E) (n : Nat) :
    ∀ {h : History T E} {s : Snapshots A} {pth : Nat → List Nat} (p more : List Nat), Rep R h s pth →
      s.cur = p ++ more → more.length = n → Rep R (undoTimes h env n) { s with cur := p } pth := by
  induction n with
  | zero =>
    intro h s pth p more r hc hl
    have : more = [] := List.length_eq_zero_iff.1 hl
    subst this
    rw [List.append_nil] at hc
    rw [← hc]
    exact r
  | succ n ih =>
    intro h s pth p more r hc hl
    have hne : more ≠ [] := by intro e; rw [e] at hl; simp at hl
    have r1 := rep_undo r env
    have := ih (s := { s with cur := s.cur.dropLast }) p more.dropLast r1
      (by simp only [hc]; exact List.dropLast_append_of_ne_nil hne) (by simp [hl])
    exact this

/-- **C110.** Every object placed is a step of its own: after a stroke that placed `n` objects, `n` times undo
takes the map back to what it was, and it is marked as changed exactly if it was before. -/
theorem stroke_undone (R : T → A → Prop) {t : T} {a : A} (h0 : R t a)
    {as : List (Action T E)} {s : Snapshots A} (hs : Snapshots.Run R (Snapshots.new a) as s)
    (place : Loc → F → EditFn T E) (env env' : E) (placed : List (Loc × F)) (b : A)
    (hrev : Placeable R place (s.value s.cur) placed b) :
    let h := as.foldl History.act (History.new t)
    R h.current (s.value s.cur) ∧
    R (strokeEdits place h env placed).current b ∧
    R (undoTimes (strokeEdits place h env placed) env' placed.length).current (s.value s.cur) ∧
    (undoTimes (strokeEdits place h env placed) env' placed.length).isDirty = h.isDirty := by
  intro h
  obtain ⟨pth, r⟩ := rep_run (rep_new h0) hs
  obtain ⟨s', pth', r', ⟨more, hm, hc⟩, hval, hcl, hend⟩ := rep_stroke place env placed r hrev
  have r2 := rep_undos env' placed.length s.cur more r' hc hm
  have dirty : ∀ {h : History T E} {s : Snapshots A} {pth}, Rep R h s pth → (h.isDirty = true ↔ s.cur ≠ s.clean) := by
    intro h s pth r
    unfold History.isDirty
    rw [bne_iff_ne, r.cur, r.clean.2]
    constructor
    · intro hn hp
      exact hn (r.inj _ _ r.clean.1 r.idx hp.symm)
    · intro hn hp
      exact hn (by rw [hp])
  refine ⟨r.val, by have := r'.val; rwa [hend] at this, ?_, ?_⟩
  · have := r2.val
    simp only at this
    rwa [hval _ (Nat.le_refl _)] at this
  · rw [Bool.eq_iff_iff]
    have h1 := dirty r2
    have h2 := dirty r
    simp only [hcl] at h1
    exact h1.trans h2.symm

end Undo

/-! ## Examples and disagreements -/

section Examples

def lamp : Entry Nat := Entry.new 1
def box : Entry Nat := { Entry.new 2 with edit := some 5 }
def wall : Entry Nat := { Entry.new 3 with edit := some 3 }

/-- "Apply" and then "Remove" in the window of the box, while the wall is selected -/
example : ((⟨[lamp, box, wall], 2⟩ : Palette Nat).frame fun i => if i = 1 then { apply := true } else {}).selected = some 3 ∧
    ((⟨[lamp, box, wall], 2⟩ : Palette Nat).frame fun i => if i = 1 then { remove := true } else {}).selected = some 3 := by
  decide

/-- a stroke over four tiles, coming back to the first, going off the map and over a window -/
def stroke : List (Mouse Nat) :=
  [{ clicked := true, target := some (1, 1), z := 0, sel := some 7 },
    { target := some (2, 1), z := 0, sel := some 7 }, { target := some (1, 1), z := 0, sel := some 7 },
    { target := none, z := 0, sel := some 7 }, { captured := true, target := some (9, 9), z := 0, sel := some 7 },
    { target := some (3, 1), z := 0, sel := some 7 }]

example : (stroke.foldl Brush.frame ({} : Brush Nat)).placed =
    [((1, 1, 0), 7), ((2, 1, 0), 7), ((3, 1, 0), 7)] := by decide

/-- **Disagreement.** If the last entry is removed while it is selected, none is, and painting does nothing
without a word (place.rs:86-88, 134) -/
theorem none_selected_after_remove :
    ((⟨[lamp, wall], 1⟩ : Palette Nat).frame fun i => if i = 1 then { remove := true } else {}).selected = none := by
  decide

/-- **Disagreement.** "Apply" does not change the icon: it stays that of the old prefab (place.rs:23, 70-72) -/
theorem icon_stale :
    (((⟨[box], 0⟩ : Palette Nat).frame fun _ => { apply := true }).entries.map fun e => (e.fab, e.icon)) = [(5, 2)] := by
  decide

/-- **Disagreement.** A stroke that begins off the map, or over a window, continues the one before: where that
one placed something, nothing is placed, although the mouse was released in between (editor.rs:904-936) -/
theorem stroke_from_outside :
    ((stroke ++ ([{ down := false, target := none, z := 0, sel := some 8 },
        { clicked := true, target := none, z := 0, sel := some 8 },
        { target := some (2, 1), z := 0, sel := some 8 }] : List (Mouse Nat))).foldl Brush.frame ({} : Brush Nat)).placed =
      [((1, 1, 0), 7), ((2, 1, 0), 7), ((3, 1, 0), 7)] := by
  decide

/-- **Disagreement.** If the level is changed during a stroke, the tile under the mouse is not painted on the
new level until the mouse has left it (editor.rs:925-927) -/
theorem level_change_missed :
    ([{ clicked := true, target := some (1, 1), z := 0, sel := some 7 },
      { target := some (1, 1), z := 1, sel := some 7 }].foldl Brush.frame ({} : Brush Nat)).placed =
      [((1, 1, 0), 7)] := by
  decide

end Examples

end Verif.Editor.Place
