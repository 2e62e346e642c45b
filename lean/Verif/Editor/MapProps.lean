import Verif.Editor.MapInv
import Verif.Editor.HistoryProps

/-!
# Theorems about the editor's map (C46, C47)

Specification: a `World` says which instance is in which slot of which level and which slots will be
handed out next; `World.Place` and `World.Delete` say what the two edits of the editor do.
-/

set_option linter.unusedSectionVars false

namespace Verif.Editor

variable {P K V E : Type} [DecidableEq P] [LinearOrder K]

/-! ## One level -/

section
variable {pops : P → Option (RPop K V)} {lv : Level P V} {path : P → List Char}
  {search : List K → K → Nat}

/-- the instance `k` stands at (x, y) and is of the kind (turf or area) `parent` -/
def Occupies (path : P → List Char) (x y : Nat) (parent : List Char) (k : Inst P) : Prop :=
  k.x = x ∧ k.y = y ∧ ispath (path k.pop) parent = true

theorem add_new (hs : SearchOk search) (dflt : V) (h : lv.Inv pops) (x y : Nat) (fab : P) {r : RPop K V}
    (hr : pops fab = some r)
    (hno : ∀ parent, shouldReplace (path fab) = some parent → ∀ i k, lv.slots i = some k →
      ¬ Occupies path x y parent k) :
    ∃ lv', lv.add path pops search dflt x y fab = some (lv', lv.alloc 0, none) ∧ lv'.Inv pops ∧
      (∀ i, lv'.slots i = if i = lv.alloc 0 then some ⟨x, y, fab⟩ else lv.slots i) ∧
      (∀ n, lv'.alloc n = lv.alloc (n + 1)) ∧ (lv.Verts pops → lv'.Verts pops) := by
  obtain ⟨lv', e, h1, h2, h3, h4⟩ := insertNew_spec hs dflt h x y fab hr
  refine ⟨lv', ?_, h1, h2, h3, h4⟩
  have hre : lv.replaceOld path x y fab = some (lv, none) := by
    unfold Level.replaceOld
    cases hp : shouldReplace (path fab) with
    | none => rfl
    | some parent =>
      simp only
      rw [List.find?_eq_none.2]
      rintro ⟨i, k⟩ hm
      have := hno parent hp i k (mem_liveSlots.1 hm)
      unfold Occupies at this
      simpa [and_assoc] using this
  unfold Level.add
  rw [hre, Option.bind_some, e]
  rfl

theorem add_over (hs : SearchOk search) (dflt : V) (h : lv.Inv pops) (x y : Nat) (fab : P) {r : RPop K V}
    (hr : pops fab = some r) {parent : List Char} (hp : shouldReplace (path fab) = some parent)
    {i : Nat} {k : Inst P} (hi : lv.slots i = some k) (ho : Occupies path x y parent k)
    (huniq : ∀ j k', lv.slots j = some k' → Occupies path x y parent k' → j = i) :
    ∃ lv', lv.add path pops search dflt x y fab = some (lv', i, some k) ∧ lv'.Inv pops ∧
      (∀ j, lv'.slots j = if j = i then some ⟨x, y, fab⟩ else lv.slots j) ∧
      (∀ n, lv'.alloc n = lv.alloc n) ∧ (lv.Verts pops → lv'.Verts pops) := by
  obtain ⟨lv1, e1, i1, s1, a1, b1, v1⟩ := remove_spec h hi
  obtain ⟨lv', e, h1, h2, h3, h4⟩ := insertNew_spec hs dflt i1 x y fab hr
  rw [a1] at e h2
  refine ⟨lv', ?_, h1, ?_, ?_, fun hv => h4 (v1 hv)⟩
  · have hre : lv.replaceOld path x y fab = some (lv1, some k) := by
      unfold Level.replaceOld
      rw [hp]
      simp only
      cases hf : lv.liveSlots.find? fun p => decide (p.2.x = x ∧ p.2.y = y ∧ ispath (path p.2.pop) parent = true) with
      | none =>
        exfalso
        rw [List.find?_eq_none] at hf
        have := hf (i, k) (mem_liveSlots.2 hi)
        unfold Occupies at ho
        simp only [decide_eq_true_eq] at this
        exact this ho
      | some p =>
        obtain ⟨j, k'⟩ := p
        have hm := mem_liveSlots.1 (List.mem_of_find?_eq_some hf)
        have hq := List.find?_some hf
        simp only [decide_eq_true_eq] at hq
        have hj := huniq j k' hm hq
        subst hj
        simp only [e1, Option.map_some]
    unfold Level.add
    rw [hre, Option.bind_some, e]
    rfl
  · intro j
    rw [h2 j, s1 j]
    split <;> rfl
  · intro n
    rw [h3 n, b1 n]

/-- more `pops` do not disturb a level -/
theorem inv_pops {pops' : P → Option (RPop K V)} (h : lv.Inv pops)
    (hext : ∀ p r, pops p = some r → pops' p = some r) : lv.Inv pops' := by
  have hrp : ∀ i ∈ lv.sorted, lv.rpop pops' i = lv.rpop pops i := by
    intro i hi
    obtain ⟨r, hr⟩ := Option.isSome_iff_exists.1 (h.hasPop i hi)
    rw [hr]
    unfold Level.rpop at hr ⊢
    rw [Option.bind_eq_some_iff] at hr ⊢
    obtain ⟨k, hk, hr⟩ := hr
    exact ⟨k, hk, hext _ _ hr⟩
  refine ⟨⟨h.freeNodup, h.freeLt, h.valsLen, h.sortedNodup, h.sortedMem, ?_, h.ibLen⟩, ?_, h.drawsOk, ?_, h.ibOk⟩
  · intro i hi; rw [hrp i hi]; exact h.hasPop i hi
  · refine List.Pairwise.imp_of_mem ?_ h.order
    intro i j hi hj hij a b ha hb
    rw [hrp i hi] at ha
    rw [hrp j hj] at hb
    exact hij a b ha hb
  · rw [h.drawsEq]
    apply List.map_congr_left
    intro i hi
    rw [hrp i hi]

theorem verts_pops {pops' : P → Option (RPop K V)} (h : lv.Inv pops) (hv : lv.Verts pops)
    (hext : ∀ p r, pops p = some r → pops' p = some r) : lv.Verts pops' := by
  intro i k r hi hr
  have hm : i ∈ lv.sorted := by rw [h.sortedMem, hi]; rfl
  obtain ⟨r', hr'⟩ := Option.isSome_iff_exists.1 (h.hasPop i hm)
  rw [rpop_of_slots hi] at hr'
  have := hext _ _ hr'
  rw [hr] at this
  injection this with this
  subst this
  exact hv i k r hi hr'

end

/-! ## Turf and area are different kinds -/

theorem ispath_cases {path parent : List Char} (h : ispath path parent = true) :
    ∃ rest, path = parent ++ rest ∧ (rest = [] ∨ ∃ t, rest = '/' :: t) := by
  unfold ispath at h
  split at h
  · next hp =>
    obtain ⟨rest, rfl⟩ := List.isPrefixOf_iff_prefix.1 hp
    refine ⟨rest, rfl, ?_⟩
    rw [List.drop_left] at h
    cases rest with
    | nil => exact Or.inl rfl
    | cons c t => right; simp only [decide_eq_true_eq] at h; exact ⟨t, by rw [h]⟩
  · cases h

theorem turf_not_area {path : List Char} (h : ispath path turfPath = true) : ispath path areaPath = false := by
  obtain ⟨rest, rfl, _⟩ := ispath_cases h
  rfl

theorem shouldReplace_iff {path parent : List Char} :
    shouldReplace path = some parent ↔ (parent = turfPath ∨ parent = areaPath) ∧ ispath path parent = true := by
  unfold shouldReplace
  by_cases h1 : ispath path turfPath = true
  · rw [if_pos h1]
    constructor
    · intro h; injection h with h; subst h; exact ⟨Or.inl rfl, h1⟩
    · rintro ⟨rfl | rfl, h2⟩
      · rfl
      · rw [turf_not_area h1] at h2; cases h2
  · rw [if_neg h1]
    by_cases h2 : ispath path areaPath = true
    · rw [if_pos h2]
      constructor
      · intro h; injection h with h; subst h; exact ⟨Or.inr rfl, h2⟩
      · rintro ⟨rfl | rfl, h3⟩
        · exact absurd h3 h1
        · rfl
    · rw [if_neg h2]
      constructor
      · intro h; cases h
      · rintro ⟨rfl | rfl, h3⟩
        · exact absurd h3 h1
        · exact absurd h3 h2

/-! ## The whole map: specification -/

/-- what a map holds: instances by level and slot, the order in which slots will be reused, and the
prefabs the renderer knows about -/
structure World (P : Type) where
  depth : Nat
  sizeX : Nat
  sizeY : Nat
  slots : Nat → Nat → Option (Inst P)
  alloc : Nat → Nat → Nat
  known : P → Prop

/-- the map `t` (not panicked) holds `w`, and the renderer's data of every level agree with it; if `v`,
the vertices as well -/
def Holds (v : Prop) (t : Option (AtomMap P K V)) (w : World P) : Prop :=
  ∃ m, t = some m ∧ (m.levels.length = w.depth ∧ m.sizeX = w.sizeX ∧ m.sizeY = w.sizeY) ∧ (∀ p, w.known p → (m.pops p).isSome) ∧
    ∀ z lv, m.levels[z]? = some lv →
      lv.Inv m.pops ∧ (∀ i, lv.slots i = w.slots z i) ∧ (∀ n, lv.alloc n = w.alloc z n) ∧
      (v → lv.Verts m.pops)

/-- at most one turf and one area on every tile; instances have known prefabs and stand inside the map;
free slots are free -/
structure World.Ok (path : P → List Char) (w : World P) : Prop where
  one : ∀ z i j a b parent, (parent = turfPath ∨ parent = areaPath) →
    w.slots z i = some a → w.slots z j = some b → a.x = b.x → a.y = b.y →
    ispath (path a.pop) parent = true → ispath (path b.pop) parent = true → i = j
  known : ∀ z i a, w.slots z i = some a → w.known a.pop
  free : ∀ z n, w.slots z (w.alloc z n) = none
  inj : ∀ z n n', w.alloc z n = w.alloc z n' → n = n'
  inside : ∀ z i a, w.slots z i = some a → a.x < w.sizeX ∧ a.y < w.sizeY

/-- put an instance in a slot of a level -/
def World.put (w : World P) (z i : Nat) (k : Option (Inst P)) : Nat → Nat → Option (Inst P) :=
  fun z' i' => if z' = z ∧ i' = i then k else w.slots z' i'

/-- placing a prefab: over the turf/area that is there, or in a new slot -/
inductive World.Place (path : P → List Char) (w : World P) (x y z : Nat) (fab : P) : World P → Prop
  | new : z < w.depth → x < w.sizeX ∧ y < w.sizeY →
      (∀ parent, shouldReplace (path fab) = some parent → ∀ i k, w.slots z i = some k →
        ¬ Occupies path x y parent k) →
      Place path w x y z fab
        { w with
          slots := w.put z (w.alloc z 0) (some ⟨x, y, fab⟩)
          alloc := fun z' n => if z' = z then w.alloc z (n + 1) else w.alloc z' n
          known := fun p => w.known p ∨ p = fab }
  | over (i k parent) : z < w.depth → x < w.sizeX ∧ y < w.sizeY →
      shouldReplace (path fab) = some parent → w.slots z i = some k →
      Occupies path x y parent k →
      Place path w x y z fab
        { w with
          slots := w.put z i (some ⟨x, y, fab⟩)
          known := fun p => w.known p ∨ p = fab }

/-- deleting an instance: its slot becomes the next one to be used -/
inductive World.Delete (w : World P) (z i : Nat) : World P → Prop
  | mk (k) : z < w.depth → w.slots z i = some k →
      Delete w z i
        { w with
          slots := w.put z i none
          alloc := fun z' n => if z' = z then (match n with | 0 => i | n + 1 => w.alloc z n) else w.alloc z' n }

theorem Place.ok {path : P → List Char} {w w' : World P} {x y z : Nat} {fab : P} (h : w.Ok path)
    (hp : World.Place path w x y z fab w') : w'.Ok path := by
  cases hp with
  | new hz hxy hno =>
    have hf := h.free z 0
    constructor
    · intro z' i j a b parent hpar ha hb hx hy pa pb
      simp only [World.put] at ha hb
      by_cases e1 : z' = z ∧ i = w.alloc z 0
      · rw [if_pos e1] at ha
        injection ha with ha
        subst ha
        by_cases e2 : z' = z ∧ j = w.alloc z 0
        · omega
        · rw [if_neg e2] at hb
          obtain ⟨rfl, _⟩ := e1
          exact absurd ⟨hx.symm, hy.symm, pb⟩ (hno parent (shouldReplace_iff.2 ⟨hpar, pa⟩) j b hb)
      · rw [if_neg e1] at ha
        by_cases e2 : z' = z ∧ j = w.alloc z 0
        · rw [if_pos e2] at hb
          injection hb with hb
          subst hb
          obtain ⟨rfl, _⟩ := e2
          exact absurd ⟨hx, hy, pa⟩ (hno parent (shouldReplace_iff.2 ⟨hpar, pb⟩) i a ha)
        · rw [if_neg e2] at hb
          exact h.one z' i j a b parent hpar ha hb hx hy pa pb
    · intro z' i a ha
      simp only [World.put] at ha
      split at ha
      · injection ha with ha; subst ha; exact Or.inr rfl
      · exact Or.inl (h.known z' i a ha)
    · intro z' n
      simp only [World.put]
      by_cases e : z' = z
      · subst e
        rw [if_pos rfl, if_neg]
        · exact h.free z' (n + 1)
        · rintro ⟨_, e2⟩
          have := h.inj z' _ _ e2
          omega
      · rw [if_neg e, if_neg (fun c => e c.1)]
        exact h.free z' n
    · intro z' n n' e
      simp only at e
      split at e
      · have := h.inj z _ _ e; omega
      · exact h.inj z' _ _ e
    · intro z' i a ha
      simp only [World.put] at ha
      split at ha
      · injection ha with ha; subst ha; exact hxy
      · exact h.inside z' i a ha
  | over i k parent hz hxy hsr hs ho =>
    obtain ⟨hpar, hfab⟩ := shouldReplace_iff.1 hsr
    obtain ⟨ox, oy, ok⟩ := ho
    have kind : ∀ par, (par = turfPath ∨ par = areaPath) → ispath (path fab) par = true →
        ispath (path k.pop) par = true := by
      intro par h1 h2
      have : shouldReplace (path fab) = some par := shouldReplace_iff.2 ⟨h1, h2⟩
      rw [hsr] at this
      injection this with this
      rw [← this]; exact ok
    constructor
    · intro z' i1 j a b par hpar' ha hb hx hy pa pb
      simp only [World.put] at ha hb
      by_cases e1 : z' = z ∧ i1 = i
      · rw [if_pos e1] at ha
        injection ha with ha
        subst ha
        obtain ⟨rfl, rfl⟩ := e1
        by_cases e2 : z' = z' ∧ j = i1
        · omega
        · rw [if_neg e2] at hb
          exact h.one z' i1 j k b par hpar' hs hb (ox.trans hx) (oy.trans hy) (kind par hpar' pa) pb
      · rw [if_neg e1] at ha
        by_cases e2 : z' = z ∧ j = i
        · rw [if_pos e2] at hb
          injection hb with hb
          subst hb
          obtain ⟨rfl, rfl⟩ := e2
          exact h.one z' i1 j a k par hpar' ha hs (hx.trans ox.symm) (hy.trans oy.symm) pa (kind par hpar' pb)
        · rw [if_neg e2] at hb
          exact h.one z' i1 j a b par hpar' ha hb hx hy pa pb
    · intro z' i1 a ha
      simp only [World.put] at ha
      split at ha
      · injection ha with ha; subst ha; exact Or.inr rfl
      · exact Or.inl (h.known z' i1 a ha)
    · intro z' n
      simp only [World.put]
      rw [if_neg]
      · exact h.free z' n
      · rintro ⟨rfl, e⟩
        have := h.free z' n
        rw [e, hs] at this
        cases this
    · exact h.inj
    · intro z' i a ha
      simp only [World.put] at ha
      split at ha
      · injection ha with ha; subst ha; exact hxy
      · exact h.inside z' i a ha

theorem Delete.ok {path : P → List Char} {w w' : World P} {z i : Nat} (h : w.Ok path)
    (hp : World.Delete w z i w') : w'.Ok path := by
  cases hp with
  | mk k hz hs =>
    have old : ∀ z' i' a, w.put z i none z' i' = some a → w.slots z' i' = some a := by
      intro z' i' a ha
      unfold World.put at ha
      split at ha
      · cases ha
      · exact ha
    constructor
    · intro z' i1 j a b par hpar ha hb
      exact h.one z' i1 j a b par hpar (old _ _ _ ha) (old _ _ _ hb)
    · intro z' i1 a ha
      exact h.known z' i1 a (old _ _ _ ha)
    · intro z' n
      simp only [World.put]
      by_cases e : z' = z
      · subst e
        rw [if_pos rfl]
        cases n with
        | zero => simp
        | succ n =>
          simp only
          split
          · rfl
          · exact h.free z' n
      · rw [if_neg e, if_neg (fun c => e c.1)]
        exact h.free z' n
    · intro z' n n' e
      simp only at e
      split at e
      · next ez =>
        have ne : ∀ m, w.alloc z m ≠ i := by
          intro m em
          have := h.free z m
          rw [em, hs] at this
          cases this
        cases n with
        | zero =>
          cases n' with
          | zero => rfl
          | succ n' => exact absurd e.symm (ne n')
        | succ n =>
          cases n' with
          | zero => exact absurd e (ne n)
          | succ n' => have := h.inj z _ _ e; omega
      · exact h.inj z' _ _ e
    · intro z' i1 a ha
      exact h.inside z' i1 a (old _ _ _ ha)

/-! ## The editor's two edits -/

/-- the closure of the placement tool (spaceman-dmm/src/tools/place.rs:139-145); a map that has
panicked stays so -/
def placeEdit (path : P → List Char) (render : E → P → RPop K V) (search : List K → K → Nat) (dflt : V)
    (x y z : Nat) (fab : P) : EditFn (Option (AtomMap P K V)) E := fun env t =>
  match t.bind fun m => (m.addPop (render env) fab).add path search dflt x y z fab with
  | none => (none, fun _ _ => none)
  | some (m', added) => (some m', fun _ t' => t'.bind fun m => m.undoAdd path search dflt added)

/-- the closure of the "Delete" menu item (spaceman-dmm/src/editor.rs:1108-1113) -/
def deleteEdit (path : P → List Char) (render : E → P → RPop K V) (search : List K → K → Nat) (dflt : V)
    (z i : Nat) : EditFn (Option (AtomMap P K V)) E := fun _ t =>
  match t.bind fun m => m.remove z i with
  | none => (none, fun _ _ => none)
  | some (m', old) =>
    (some m', fun env' t' => t'.bind fun m => m.undoRemove path (render env') search dflt z old)

section
variable {path : P → List Char} {render : E → P → RPop K V} {search : List K → K → Nat} {v : Prop}

theorem holds_level {m : AtomMap P K V} {w : World P} (h : Holds v (some m) w) {z : Nat} (hz : z < w.depth) :
    ∃ lv, m.levels[z]? = some lv ∧ lv.Inv m.pops ∧ (∀ i, lv.slots i = w.slots z i) ∧
      (∀ n, lv.alloc n = w.alloc z n) ∧ (v → lv.Verts m.pops) := by
  obtain ⟨m', e, hl, _, hlv⟩ := h
  injection e with e
  subst e
  have : z < m.levels.length := by omega
  exact ⟨m.levels[z], by simp [this], hlv z _ (by simp [this])⟩

/-- replace one level -/
theorem holds_set {m : AtomMap P K V} {w w' : World P} (h : Holds v (some m) w) {z : Nat} {lv' : Level P V}
    (hinv : lv'.Inv m.pops) (hs : ∀ i, lv'.slots i = w'.slots z i) (ha : ∀ n, lv'.alloc n = w'.alloc z n)
    (hv : v → lv'.Verts m.pops)
    (hd : w'.depth = w.depth ∧ w'.sizeX = w.sizeX ∧ w'.sizeY = w.sizeY) (hk : ∀ p, w'.known p → (m.pops p).isSome)
    (ho : ∀ z', z' ≠ z → w'.slots z' = w.slots z' ∧ w'.alloc z' = w.alloc z') :
    Holds v (some { m with levels := m.levels.set z lv' }) w' := by
  obtain ⟨m', e, hl, _, hlv⟩ := h
  injection e with e
  subst e
  refine ⟨_, rfl, by simp only [List.length_set, hd]; exact hl, hk, ?_⟩
  intro z' lv hlv'
  simp only at hlv'
  by_cases ez : z' = z
  · subst ez
    rw [List.getElem?_set] at hlv'
    simp only [if_true] at hlv'
    split at hlv'
    · injection hlv' with hlv'; subst hlv'; exact ⟨hinv, hs, ha, hv⟩
    · cases hlv'
  · rw [List.getElem?_set_ne (fun e => ez e.symm)] at hlv'
    have := hlv z' lv hlv'
    rw [(ho z' ez).1, (ho z' ez).2]
    exact this

/-- `add_pop` makes the prefab known and changes nothing else -/
theorem addPop_holds {m : AtomMap P K V} {w : World P} (render : P → RPop K V) (h : Holds v (some m) w) (fab : P) :
    Holds v (some (m.addPop render fab)) w ∧ ((m.addPop render fab).pops fab).isSome ∧
      (∀ p, (m.pops p).isSome → ((m.addPop render fab).pops p).isSome) := by
  unfold AtomMap.addPop
  cases hp : m.pops fab with
  | some r => exact ⟨h, by simp [hp], fun p h => h⟩
  | none =>
    obtain ⟨m', e, hl, hk, hlv⟩ := h
    injection e with e
    subst e
    have ext : ∀ p r, m.pops p = some r → (if p = fab then some (render fab) else m.pops p) = some r := by
      intro p r hr
      rw [if_neg (by rintro rfl; rw [hp] at hr; cases hr)]
      exact hr
    have ext' : ∀ p, (m.pops p).isSome → (if p = fab then some (render fab) else m.pops p).isSome := by
      intro p hps
      obtain ⟨r, hr⟩ := Option.isSome_iff_exists.1 hps
      rw [ext p r hr]; rfl
    refine ⟨⟨_, rfl, hl, fun p hkp => ext' p (hk p hkp), ?_⟩, by simp, ext'⟩
    intro z lv h0
    obtain ⟨i1, s1, a1, v1⟩ := hlv z lv h0
    exact ⟨inv_pops i1 ext, s1, a1, fun hv => verts_pops i1 (v1 hv) ext⟩

/-- placing without anything to replace -/
theorem map_add_new (hs : SearchOk search) (dflt : V) {m : AtomMap P K V} {w : World P} (h : Holds v (some m) w)
    {x y z : Nat} {fab : P} (hz : z < w.depth) (hp : (m.pops fab).isSome)
    (hno : ∀ parent, shouldReplace (path fab) = some parent → ∀ i k, w.slots z i = some k →
      ¬ Occupies path x y parent k) (known : P → Prop) (hk : ∀ p, known p → (m.pops p).isSome) :
    ∃ m', m.add path search dflt x y z fab = some (m', ⟨z, w.alloc z 0, none⟩) ∧
      Holds v (some m')
        { w with
          slots := w.put z (w.alloc z 0) (some ⟨x, y, fab⟩)
          alloc := fun z' n => if z' = z then w.alloc z (n + 1) else w.alloc z' n
          known := known } := by
  obtain ⟨lv, hlv, hi, hsl, hal, hvt⟩ := holds_level h hz
  obtain ⟨r, hr⟩ := Option.isSome_iff_exists.1 hp
  obtain ⟨lv', e, h1, h2, h3, h5⟩ := add_new (path := path) hs dflt hi x y fab hr (by
    intro parent hpar i k hik
    rw [hsl] at hik
    exact hno parent hpar i k hik)
  rw [hal] at e h2
  refine ⟨{ m with levels := m.levels.set z lv' }, by unfold AtomMap.add; rw [hlv]; simp only [e, Option.map_some], ?_⟩
  apply holds_set h h1
  · intro i; rw [h2]; simp only [World.put, true_and]; rw [hsl]
  · intro n; rw [h3, hal]; simp
  · exact fun hv => h5 (hvt hv)
  · exact ⟨rfl, rfl, rfl⟩
  · exact hk
  · intro z' hz'
    refine ⟨?_, ?_⟩
    · funext i; simp only [World.put]; rw [if_neg (fun c => hz' c.1)]
    · funext n; simp only; rw [if_neg hz']

/-- placing over a turf or area -/
theorem map_add_over (hs : SearchOk search) (dflt : V) {m : AtomMap P K V} {w : World P} (h : Holds v (some m) w)
    {x y z : Nat} {fab : P} (hz : z < w.depth) (hp : (m.pops fab).isSome) {parent : List Char}
    (hpar : shouldReplace (path fab) = some parent) {i : Nat} {k : Inst P} (hi : w.slots z i = some k)
    (ho : Occupies path x y parent k)
    (hu : ∀ j k', w.slots z j = some k' → Occupies path x y parent k' → j = i)
    (known : P → Prop) (hk : ∀ p, known p → (m.pops p).isSome) :
    ∃ m', m.add path search dflt x y z fab = some (m', ⟨z, i, some k⟩) ∧
      Holds v (some m')
        { w with
          slots := w.put z i (some ⟨x, y, fab⟩)
          known := known } := by
  obtain ⟨lv, hlv, hinv, hsl, hal, hvt⟩ := holds_level h hz
  obtain ⟨r, hr⟩ := Option.isSome_iff_exists.1 hp
  obtain ⟨lv', e, h1, h2, h3, h5⟩ := add_over (path := path) hs dflt hinv x y fab hr hpar (by rw [hsl]; exact hi) ho (by
    intro j k' hj
    rw [hsl] at hj
    exact hu j k' hj)
  refine ⟨{ m with levels := m.levels.set z lv' }, by unfold AtomMap.add; rw [hlv]; simp only [e, Option.map_some], ?_⟩
  apply holds_set h h1
  · intro j; rw [h2]; simp only [World.put, true_and]; rw [hsl]
  · intro n; rw [h3, hal]
  · exact fun hv => h5 (hvt hv)
  · exact ⟨rfl, rfl, rfl⟩
  · exact hk
  · intro z' hz'
    refine ⟨?_, rfl⟩
    funext i; simp only [World.put]; rw [if_neg (fun c => hz' c.1)]

theorem map_remove {m : AtomMap P K V} {w : World P} (h : Holds v (some m) w)
    {z i : Nat} (hz : z < w.depth) {k : Inst P} (hi : w.slots z i = some k)
    (known : P → Prop) (hk : ∀ p, known p → (m.pops p).isSome) :
    ∃ m', m.remove z i = some (m', k) ∧
      Holds v (some m')
        { w with
          slots := w.put z i none
          alloc := fun z' n => if z' = z then (match n with | 0 => i | n + 1 => w.alloc z n) else w.alloc z' n
          known := known } := by
  obtain ⟨lv, hlv, hinv, hsl, hal, hvt⟩ := holds_level h hz
  obtain ⟨lv', e, h1, h2, h3, h4, h5⟩ := remove_spec hinv (by rw [hsl]; exact hi)
  refine ⟨{ m with levels := m.levels.set z lv' }, by unfold AtomMap.remove; rw [hlv]; simp only [e, Option.map_some], ?_⟩
  apply holds_set h h1
  · intro j; rw [h2]; simp only [World.put, true_and]; rw [hsl]
  · intro n
    cases n with
    | zero => rw [h3]; simp
    | succ n => rw [h4, hal]; simp
  · exact fun hv => h5 (hvt hv)
  · exact ⟨rfl, rfl, rfl⟩
  · exact hk
  · intro z' hz'
    refine ⟨?_, ?_⟩
    · funext i; simp only [World.put]; rw [if_neg (fun c => hz' c.1)]
    · funext n; simp only; rw [if_neg hz']

/-- `refresh_pops` keeps everything but the vertices -/
theorem refresh_holds {m : AtomMap P K V} {w : World P} (h : Holds v (some m) w) (render : P → RPop K V) :
    Holds False (m.refresh render) w := by
  obtain ⟨m', e, hl, hk, hlv⟩ := h
  injection e with e
  subst e
  have hpre : ∀ lv ∈ m.levels, lv.PreInv (fun p => (m.pops p).map fun _ => render p) := by
    intro lv hm
    obtain ⟨z, hz⟩ := List.mem_iff_getElem?.1 hm
    have h1 := (hlv z lv hz).1
    refine ⟨h1.freeNodup, h1.freeLt, h1.valsLen, h1.sortedNodup, h1.sortedMem, ?_, h1.ibLen⟩
    intro i hi
    have := h1.hasPop i hi
    unfold Level.rpop at this ⊢
    cases hki : lv.keys[i]? with
    | none => rw [hki] at this; cases this
    | some k =>
      rw [hki, Option.bind_some] at this
      simpa using this
  obtain ⟨ls, hls⟩ := exists_mapM (fun lv : Level P V => lv.sortAgain (fun p => (m.pops p).map fun _ => render p))
    m.levels (by
      intro lv hm
      obtain ⟨lv', e, _⟩ := sortAgain_spec (hpre lv hm)
      rw [e]; rfl)
  unfold AtomMap.refresh
  simp only [hls, Option.map_some]
  have hmap := (mapM_some _ _ _).1 hls
  have hlen : ls.length = m.levels.length := by
    have := congrArg List.length hmap
    simpa using this.symm
  refine ⟨_, rfl, ⟨by rw [← hl.1]; exact hlen, hl.2⟩, fun p hp => by simpa using hk p hp, ?_⟩
  intro z lv' hz
  simp only at hz ⊢
  have hzl : z < m.levels.length := by
    rw [← hlen]
    exact (List.getElem?_eq_some_iff.1 hz).1
  have hz0 : m.levels[z]? = some m.levels[z] := List.getElem?_eq_getElem hzl
  have hget := congrArg (fun l : List (Option (Level P V)) => l[z]?) hmap
  simp only [List.getElem?_map, hz, hz0, Option.map_some, Option.some.injEq] at hget
  obtain ⟨lv'', e, i, k, _, f⟩ := sortAgain_spec (hpre _ (List.mem_of_getElem? hz0))
  rw [hget] at e
  injection e with e
  subst e
  obtain ⟨_, s0, a0, _⟩ := hlv z _ hz0
  refine ⟨i, fun j => ?_, fun n => ?_, fun h => h.elim⟩
  · rw [← s0 j]; unfold Level.slots; rw [k, f]
  · rw [← a0 n]; unfold Level.alloc; rw [k, f]

theorem holds_congr {t : Option (AtomMap P K V)} {w w' : World P} (h : Holds v t w) (hd : w'.depth = w.depth ∧ w'.sizeX = w.sizeX ∧ w'.sizeY = w.sizeY)
    (hs : ∀ z i, w'.slots z i = w.slots z i) (ha : ∀ z n, w'.alloc z n = w.alloc z n)
    (hk : ∀ p, w'.known p → w.known p) : Holds v t w' := by
  obtain ⟨m, rfl, h1, h2, h3⟩ := h
  refine ⟨m, rfl, by rw [hd.1, hd.2.1, hd.2.2]; exact h1, fun p hp => h2 p (hk p hp), ?_⟩
  intro z lv hz
  obtain ⟨a, b, c, e⟩ := h3 z lv hz
  exact ⟨a, fun i => by rw [b, hs], fun n => by rw [c, ha], e⟩

theorem holds_some {t : Option (AtomMap P K V)} {w : World P} (h : Holds v t w) : ∃ m, t = some m := by
  obtain ⟨m, e, _⟩ := h
  exact ⟨m, e⟩

theorem holds_known {m : AtomMap P K V} {w : World P} (h : Holds v (some m) w) :
    ∀ p, w.known p → (m.pops p).isSome := by
  obtain ⟨m', e, _, h2, _⟩ := h
  injection e with e
  subst e
  exact h2

/-- **C47.** The placement edit does what `World.Place` says and its undo closure takes it back —
whatever the environment is at each of these times. -/
theorem place_reversible (hs : SearchOk search) (dflt : V) {w w' : World P} {x y z : Nat} {fab : P}
    (hok : w.Ok path) (hp : World.Place path w x y z fab w') :
    Reversible (Holds (K := K) (V := V) v) (placeEdit (E := E) path render search dflt x y z fab) w w' := by
  intro env t ht
  obtain ⟨m, rfl⟩ := holds_some ht
  obtain ⟨hm, hfab, hmono⟩ := addPop_holds (render env) ht fab
  have hkn : ∀ p, (w.known p ∨ p = fab) → ((m.addPop (render env) fab).pops p).isSome := by
    rintro p (hp | rfl)
    · exact hmono p (holds_known ht p hp)
    · exact hfab
  cases hp with
  | new hz hxy hno =>
    obtain ⟨m', e, hm'⟩ := map_add_new (path := path) hs dflt hm (x := x) (y := y) hz hfab hno _ hkn
    unfold placeEdit
    simp only [Option.bind_some, e]
    refine ⟨hm', ?_⟩
    intro env' t' ht'
    obtain ⟨m2, rfl⟩ := holds_some ht'
    simp only [Option.bind_some, AtomMap.undoAdd]
    obtain ⟨m3, e3, hm3⟩ := map_remove ht' (z := z) (i := w.alloc z 0) hz (k := ⟨x, y, fab⟩)
      (by simp [World.put]) w.known (fun p hp => holds_known ht' p (Or.inl hp))
    rw [e3, Option.map_some]
    refine holds_congr hm3 ⟨rfl, rfl, rfl⟩ ?_ ?_ (fun p hp => hp)
    · intro z' i
      simp only [World.put]
      split
      · next e => rw [e.1, e.2, hok.free]
      · rfl
    · intro z' n
      simp only
      split
      · next e => subst e; cases n <;> simp
      · rfl
  | over i k parent hz hxy hpar hi ho =>
    have hu : ∀ j k', w.slots z j = some k' → Occupies path x y parent k' → j = i := by
      intro j k' hj ho'
      obtain ⟨hpar', _⟩ := shouldReplace_iff.1 hpar
      exact hok.one z j i k' k parent hpar' hj hi (ho'.1.trans ho.1.symm) (ho'.2.1.trans ho.2.1.symm) ho'.2.2 ho.2.2
    obtain ⟨m', e, hm'⟩ := map_add_over (path := path) hs dflt hm (x := x) (y := y) hz hfab hpar hi ho hu _ hkn
    unfold placeEdit
    simp only [Option.bind_some, e]
    refine ⟨hm', ?_⟩
    intro env' t' ht'
    obtain ⟨m2, rfl⟩ := holds_some ht'
    simp only [Option.bind_some, AtomMap.undoAdd]
    obtain ⟨hpar', hfabp⟩ := shouldReplace_iff.1 hpar
    have hold : shouldReplace (path k.pop) = some parent := shouldReplace_iff.2 ⟨hpar', ho.2.2⟩
    have hok' := Place.ok hok (World.Place.over (path := path) i k parent hz hxy hpar hi ho)
    obtain ⟨m3, e3, hm3⟩ := map_add_over (path := path) hs dflt ht' (x := k.x) (y := k.y) (z := z) (fab := k.pop) hz
      (holds_known ht' _ (Or.inl (hok.known z i k hi))) hold (i := i) (k := ⟨x, y, fab⟩) (by simp [World.put])
      ⟨ho.1.symm, ho.2.1.symm, hfabp⟩ (by
        intro j k' hj ho'
        refine hok'.one z j i k' ⟨x, y, fab⟩ parent hpar' hj (by simp [World.put]) ?_ ?_ ho'.2.2 hfabp
        · exact ho'.1.trans ho.1
        · exact ho'.2.1.trans ho.2.1)
      w.known (fun p hp => holds_known ht' p (Or.inl hp))
    rw [e3, Option.map_some]
    refine holds_congr hm3 ⟨rfl, rfl, rfl⟩ ?_ (fun _ _ => rfl) (fun p hp => hp)
    intro z' j
    simp only [World.put]
    split
    · next e => rw [e.1, e.2, hi]
    · rfl

/-- **C47.** The deletion edit does what `World.Delete` says and its undo closure takes it back. -/
theorem delete_reversible (hs : SearchOk search) (dflt : V) {w w' : World P} {z i : Nat}
    (hok : w.Ok path) (hp : World.Delete w z i w') :
    Reversible (Holds (K := K) (V := V) v) (deleteEdit (E := E) path render search dflt z i) w w' := by
  intro env t ht
  obtain ⟨m, rfl⟩ := holds_some ht
  cases hp with
  | mk k hz hi =>
    obtain ⟨m', e, hm'⟩ := map_remove ht hz hi w.known (holds_known ht)
    unfold deleteEdit
    simp only [Option.bind_some, e]
    refine ⟨hm', ?_⟩
    intro env' t' ht'
    obtain ⟨m2, rfl⟩ := holds_some ht'
    simp only [Option.bind_some, AtomMap.undoRemove]
    obtain ⟨hm2, hfab, hmono⟩ := addPop_holds (render env') ht' k.pop
    obtain ⟨m3, e3, hm3⟩ := map_add_new (path := path) hs dflt hm2 (x := k.x) (y := k.y) (z := z) (fab := k.pop) hz hfab
      (by
        intro parent hpar j k' hj ho
        obtain ⟨hpar', hkp⟩ := shouldReplace_iff.1 hpar
        simp only [World.put] at hj
        split at hj
        · cases hj
        · next hne =>
          refine hne ⟨trivial, ?_⟩
          exact hok.one z j i k' k parent hpar' hj hi ho.1 ho.2.1 ho.2.2 hkp)
      w.known (fun p hp => hmono p (holds_known ht' p hp))
    rw [e3, Option.map_some]
    refine holds_congr hm3 ⟨rfl, rfl, rfl⟩ ?_ ?_ (fun p hp => hp)
    · intro z' j
      simp only [World.put, if_true]
      by_cases e : z' = z ∧ j = i
      · rw [if_pos e, e.1, e.2, hi]
      · rw [if_neg e, if_neg e]
    · intro z' n
      simp only
      split
      · next e => subst e; rfl
      · rfl

end

/-! ## Editing sessions -/

/-- the actions of a session: placing, deleting (of something that is there), undo, redo, save, and, if
the vertices do not matter (`¬ v`), reloading the environment -/
inductive Session (v : Prop) (path : P → List Char) (render : E → P → RPop K V) (search : List K → K → Nat) (dflt : V) :
    Snapshots (World P) → List (Action (Option (AtomMap P K V)) E) → Snapshots (World P) → Prop
  | nil (s) : Session v path render search dflt s [] s
  | place {s s' s'' as w x y z fab env} :
      World.Place path (s.value s.cur) x y z fab w →
      s' = { s with
        value := fun p => if p = s.cur ++ [s.kids s.cur] then w else s.value p
        kids := fun p => if p = s.cur then s.kids p + 1
          else if p = s.cur ++ [s.kids s.cur] then 0 else s.kids p
        cur := s.cur ++ [s.kids s.cur] } →
      Session v path render search dflt s' as s'' →
      Session v path render search dflt s (.edit env (placeEdit path render search dflt x y z fab) :: as) s''
  | delete {s s' s'' as w z i env} :
      World.Delete (s.value s.cur) z i w →
      s' = { s with
        value := fun p => if p = s.cur ++ [s.kids s.cur] then w else s.value p
        kids := fun p => if p = s.cur then s.kids p + 1
          else if p = s.cur ++ [s.kids s.cur] then 0 else s.kids p
        cur := s.cur ++ [s.kids s.cur] } →
      Session v path render search dflt s' as s'' →
      Session v path render search dflt s (.edit env (deleteEdit path render search dflt z i) :: as) s''
  | undo {s s'' as env} :
      Session v path render search dflt { s with cur := s.cur.dropLast } as s'' →
      Session v path render search dflt s (.undo env :: as) s''
  | redo {s s'' as env} :
      Session v path render search dflt { s with cur := if s.kids s.cur = 0 then s.cur else s.cur ++ [0] } as s'' →
      Session v path render search dflt s (.redo env :: as) s''
  | save {s s'' as} :
      Session v path render search dflt { s with clean := s.cur } as s'' →
      Session v path render search dflt s (.markClean :: as) s''
  | reload {s s'' as env} : ¬ v →
      Session v path render search dflt s as s'' →
      Session v path render search dflt s (.replace (fun t => t.bind fun m => m.refresh (render env)) :: as) s''

/-- a session is a run of the snapshot tree -/
theorem session_run_ok {v : Prop} {path : P → List Char} {render : E → P → RPop K V} {search : List K → K → Nat}
    (hs : SearchOk search) (dflt : V) {w : World P} (hw : w.Ok path)
    {as : List (Action (Option (AtomMap P K V)) E)} {s : Snapshots (World P)}
    (hr : Session v path render search dflt (Snapshots.new w) as s) :
    Snapshots.Run (Holds (K := K) (V := V) v) (Snapshots.new w) as s ∧ ∀ p, (s.value p).Ok path := by
  have key : ∀ s0 as s, Session v path render search dflt s0 as s → (∀ p, (s0.value p).Ok path) →
      Snapshots.Run (Holds (K := K) (V := V) v) s0 as s ∧ ∀ p, (s.value p).Ok path := by
    intro s0 as s hr
    induction hr with
    | nil s => exact fun h => ⟨.nil _, h⟩
    | @place s s' s'' as w x y z fab env hp he _ ih =>
      intro hok
      subst he
      obtain ⟨r, o⟩ := ih (by
        intro p
        simp only
        split
        · exact Place.ok (hok _) hp
        · exact hok p)
      exact ⟨.cons (.edit s env _ w (place_reversible hs dflt (hok _) hp)) r, o⟩
    | @delete s s' s'' as w z i env hp he _ ih =>
      intro hok
      subst he
      obtain ⟨r, o⟩ := ih (by
        intro p
        simp only
        split
        · exact Delete.ok (hok _) hp
        · exact hok p)
      exact ⟨.cons (.edit s env _ w (delete_reversible hs dflt (hok _) hp)) r, o⟩
    | undo _ ih =>
      intro hok
      obtain ⟨r, o⟩ := ih hok
      exact ⟨.cons (.undo _ _) r, o⟩
    | redo _ ih =>
      intro hok
      obtain ⟨r, o⟩ := ih hok
      exact ⟨.cons (.redo _ _) r, o⟩
    | save _ ih =>
      intro hok
      obtain ⟨r, o⟩ := ih hok
      exact ⟨.cons (.markClean _) r, o⟩
    | reload hv _ ih =>
      intro hok
      obtain ⟨r, o⟩ := ih hok
      refine ⟨.cons (.replace _ _ ?_) r, o⟩
      intro t ht
      obtain ⟨m, rfl⟩ := holds_some ht
      obtain ⟨m', e, a, b, c⟩ := refresh_holds ht (render _)
      refine ⟨m', e, a, b, ?_⟩
      intro z lv hz
      obtain ⟨c1, c2, c3, _⟩ := c z lv hz
      exact ⟨c1, c2, c3, fun h => absurd h hv⟩
  exact key _ _ _ hr (fun _ => hw)

/-- **C46, C47.** After any editing session on a map with at most one turf and one area per tile —
placing, deleting, undoing, redoing, saving and reloading the environment in any order — nothing has
panicked, the map holds exactly what the snapshot tree says, and on every level the renderer's data
agree with the instances (`Level.Inv`); the vertices too if `v`, which excludes reloading. -/
theorem session_correct {v : Prop} {path : P → List Char} {render : E → P → RPop K V} {search : List K → K → Nat}
    (hs : SearchOk search) (dflt : V) {m : AtomMap P K V} {w : World P} (h0 : Holds v (some m) w) (hw : w.Ok path)
    {as : List (Action (Option (AtomMap P K V)) E)} {s : Snapshots (World P)}
    (hr : Session v path render search dflt (Snapshots.new w) as s) :
    let h := as.foldl History.act (History.new (some m))
    Holds v h.current (s.value s.cur) ∧ (s.value s.cur).Ok path ∧
      (h.isDirty = true ↔ s.cur ≠ s.clean) := by
  obtain ⟨r, o⟩ := session_run_ok hs dflt hw hr
  have c := history_correct (Holds (K := K) (V := V) v) h0 r
  exact ⟨c.1, o _, c.2.2.2⟩

end Verif.Editor
