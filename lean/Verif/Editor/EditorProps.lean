import Verif.Editor.SaveProps

/-!
# The editor end to end: what is drawn, what is listed, load–edit–save (C46–C48)
-/

set_option linter.unusedSectionVars false

namespace Verif.Editor

variable {P K V E : Type} [DecidableEq P] [LinearOrder K]

/-! ## What the renderer gets and what the tile menu lists -/

/-- what is drawn, back to front: `MapRenderer::paint` (map_renderer.rs:205-330) draws `draw_calls` in
order, each with its texture, over the next `len` entries of the index buffer — 6 for every quad — which
point into the vertex buffer -/
def Level.drawn (lv : Level P V) : List (Nat × Option V) :=
  (expand lv.draws).zip (lv.indexBuffer.1.map fun i => lv.vals[i]?)

/-- **C46.** What is drawn: exactly the live instances, each once, with the texture and the vertices
of its prefab at its place, in the order of the sort keys. -/
theorem drawn_exact {pops : P → Option (RPop K V)} {lv : Level P V} (h : lv.Inv pops) (hv : lv.Verts pops) :
    ∃ l : List (Nat × Inst P × RPop K V), l.map (fun a => a.1) = lv.sorted ∧
      (l.map fun a => a.1).Nodup ∧
      (∀ i k, lv.slots i = some k ↔ ∃ r, (i, k, r) ∈ l) ∧
      (∀ i k r, (i, k, r) ∈ l → pops k.pop = some r) ∧
      l.Pairwise (fun a b => a.2.2.key ≤ b.2.2.key) ∧
      lv.drawn = l.map fun a => (a.2.2.texture, some (a.2.2.vert a.2.1.x a.2.1.y)) := by
  have hib : lv.indexBuffer.1 = lv.sorted := by
    unfold Level.indexBuffer
    cases hd : lv.ibDirty with
    | true => rfl
    | false => simpa using h.ibOk hd
  obtain ⟨l, hl⟩ := exists_mapM (fun i => (lv.slots i).bind fun k => (pops k.pop).map fun r => (i, k, r)) lv.sorted (by
    intro i hi
    obtain ⟨k, hk⟩ := Option.isSome_iff_exists.1 ((h.sortedMem i).1 hi)
    have := h.hasPop i hi
    rw [rpop_of_slots hk] at this
    rw [hk, Option.bind_some]
    simpa using this)
  have hl' := (mapM_some _ _ _).1 hl
  have hmem : ∀ a ∈ l, lv.slots a.1 = some a.2.1 ∧ pops a.2.1.pop = some a.2.2 := by
    intro a ha
    have : some a ∈ l.map some := List.mem_map.2 ⟨a, ha, rfl⟩
    rw [← hl'] at this
    obtain ⟨i, _, e⟩ := List.mem_map.1 this
    rw [Option.bind_eq_some_iff] at e
    obtain ⟨k, hk, e⟩ := e
    rw [Option.map_eq_some_iff] at e
    obtain ⟨r, hr, rfl⟩ := e
    exact ⟨hk, hr⟩
  have hfst : l.map (fun a => a.1) = lv.sorted := by
    have h1 : ∀ (s : List Nat) (l : List (Nat × Inst P × RPop K V)),
        s.map (fun i => (lv.slots i).bind fun k => (pops k.pop).map fun r => (i, k, r)) = l.map some →
        l.map (fun a => a.1) = s := by
      intro s
      induction s with
      | nil => intro l e; cases l with | nil => rfl | cons _ _ => cases e
      | cons i s ih =>
        intro l e
        cases l with
        | nil => cases e
        | cons a l =>
          rw [List.map_cons, List.map_cons, List.cons.injEq] at e
          rw [List.map_cons, ih l e.2]
          have e1 := e.1
          rw [Option.bind_eq_some_iff] at e1
          obtain ⟨k, _, e1⟩ := e1
          rw [Option.map_eq_some_iff] at e1
          obtain ⟨r, _, rfl⟩ := e1
          rfl
    exact h1 _ _ hl'
  refine ⟨l, hfst, by rw [hfst]; exact h.sortedNodup, ?_, fun i k r hm => (hmem _ hm).2, ?_, ?_⟩
  · intro i k
    constructor
    · intro hk
      have : i ∈ lv.sorted := by rw [h.sortedMem, hk]; rfl
      rw [← hfst] at this
      obtain ⟨a, ha, rfl⟩ := List.mem_map.1 this
      have := (hmem a ha).1
      rw [hk] at this
      injection this with this
      exact ⟨a.2.2, by rw [this]; exact ha⟩
    · rintro ⟨r, hr⟩
      exact (hmem _ hr).1
  · have ho := h.order
    rw [← hfst, List.pairwise_map] at ho
    refine List.Pairwise.imp_of_mem ?_ ho
    intro a b ha hb hab
    refine hab a.2.2 b.2.2 ?_ ?_
    · rw [rpop_of_slots (hmem a ha).1]; exact (hmem a ha).2
    · rw [rpop_of_slots (hmem b hb).1]; exact (hmem b hb).2
  · unfold Level.drawn
    rw [hib]
    have he : expand lv.draws = l.map fun a => a.2.2.texture := by
      have := h.drawsEq
      rw [← hfst, List.map_map] at this
      have h2 : (l.map ((fun i => (lv.rpop pops i).map RPop.texture) ∘ fun a => a.1)) =
          (l.map fun a => a.2.2.texture).map some := by
        rw [List.map_map]
        apply List.map_congr_left
        intro a ha
        simp only [Function.comp]
        rw [rpop_of_slots (hmem a ha).1, (hmem a ha).2]
        rfl
      rw [h2] at this
      exact (List.map_injective_iff.2 (Option.some_injective _)) this
    have hverts : lv.sorted.map (fun i => lv.vals[i]?) = l.map fun a => some (a.2.2.vert a.2.1.x a.2.1.y) := by
      rw [← hfst, List.map_map]
      apply List.map_congr_left
      intro a ha
      exact hv _ _ _ (hmem a ha).1 (hmem a ha).2
    rw [he, hverts, List.zip_map']

/-- **C46.** The tile menu lists exactly the live instances at a tile, each once, front to back. -/
theorem iterInstances_exact {pops : P → Option (RPop K V)} {lv : Level P V} (h : lv.Inv pops) (x y : Nat) :
    (∀ i p, (i, p) ∈ lv.iterInstances x y ↔ lv.slots i = some ⟨x, y, p⟩) ∧
      ((lv.iterInstances x y).map Prod.fst).Nodup ∧
      (lv.iterInstances x y).Pairwise fun a b => ∀ ra rb, pops a.2 = some ra → pops b.2 = some rb →
        rb.key ≤ ra.key := by
  have hmem : ∀ i p, (i, p) ∈ lv.iterInstances x y ↔ lv.slots i = some ⟨x, y, p⟩ := by
    intro i p
    unfold Level.iterInstances
    rw [List.mem_filterMap]
    constructor
    · rintro ⟨j, hj, e⟩
      rw [List.mem_reverse] at hj
      obtain ⟨k, hk⟩ := Option.isSome_iff_exists.1 ((h.sortedMem j).1 hj)
      rw [(slots_some.1 hk).2] at e
      simp only at e
      split at e
      · next hxy =>
        simp only [Option.some.injEq, Prod.mk.injEq] at e
        obtain ⟨rfl, rfl⟩ := e
        rw [hk]
        cases k
        simp_all
      · cases e
    · intro hk
      refine ⟨i, by rw [List.mem_reverse, h.sortedMem, hk]; rfl, ?_⟩
      rw [(slots_some.1 hk).2]
      simp
  have hsub : ∀ s : List Nat, ((s.filterMap fun i =>
      match lv.keys[i]? with
      | none => none
      | some k => if k.x = x ∧ k.y = y then some (i, k.pop) else none).map Prod.fst).Sublist s := by
    intro s
    induction s with
    | nil => simp
    | cons i s ih =>
      rw [List.filterMap_cons]
      split
      · exact ih.cons i
      · next b hb =>
        have : b.1 = i := by
          split at hb
          · cases hb
          · split at hb
            · injection hb with hb; rw [← hb]
            · cases hb
        rw [List.map_cons, this]
        exact ih.cons₂ i
  have hs : ((lv.iterInstances x y).map Prod.fst).Sublist lv.sorted.reverse := by
    unfold Level.iterInstances
    exact hsub _
  refine ⟨hmem, hs.nodup (List.nodup_reverse.2 h.sortedNodup), ?_⟩
  have ho : lv.sorted.reverse.Pairwise fun i j => ∀ a b, lv.rpop pops i = some a → lv.rpop pops j = some b →
      b.key ≤ a.key := by
    rw [List.pairwise_reverse]
    exact h.order.imp fun hab a b ha hb => hab b a hb ha
  have h2 := ho.sublist hs
  rw [List.pairwise_map] at h2
  refine List.Pairwise.imp_of_mem ?_ h2
  intro a b ha hb hab ra rb hra hrb
  refine hab ra rb ?_ ?_
  · rw [rpop_of_slots ((hmem a.1 a.2).1 ha)]; exact hra
  · rw [rpop_of_slots ((hmem b.1 b.2).1 hb)]; exact hrb

/-- `get_instance` never returns a dead instance, and never panics -/
theorem getInstance_sound {pops : P → Option (RPop K V)} {lv : Level P V} (h : lv.Inv pops) (i : Nat) :
    ∃ r, lv.getInstance i = some r ∧ ∀ k, r = some k → lv.slots i = some k := by
  unfold Level.getInstance
  split
  · exact ⟨none, rfl, by simp⟩
  · next hn =>
    rw [not_or, Level.len] at hn
    have hlt : i < lv.keys.length := by omega
    refine ⟨some lv.keys[i], by rw [List.getElem?_eq_getElem hlt]; rfl, ?_⟩
    rintro k ⟨⟩
    exact slots_some.2 ⟨by simpa using hn.2, List.getElem?_eq_getElem hlt⟩

/-! ## From file to session -/

/-- every tile of the file has at most one turf and at most one area -/
def DictMap.OneEach (path : P → List Char) (d : DictMap P) : Prop :=
  ∀ z y x t, z < d.dimZ → y < d.dimY → x < d.dimX → d.tile z y x = some t →
    ∀ parent, (parent = turfPath ∨ parent = areaPath) → (t.filter fun p => ispath (path p) parent).length ≤ 1

/-- the contents of a file as a `World` -/
def DictMap.world (d : DictMap P) : World P :=
  { depth := d.dimZ
    sizeX := d.dimX
    sizeY := d.dimY
    slots := fun z i => if z < d.dimZ then (fileInsts d z (topDown d))[i]? else none
    alloc := fun z n => (if z < d.dimZ then (fileInsts d z (topDown d)).length else 0) + n
    known := fun p => ∃ z k, z < d.dimZ ∧ k ∈ fileInsts d z (topDown d) ∧ k.pop = p }

theorem inside_file {d : DictMap P} {z : Nat} : ∀ k ∈ fileInsts d z (topDown d), k.x < d.dimX ∧ k.y < d.dimY := by
  intro k hk
  unfold fileInsts at hk
  rw [List.mem_flatMap] at hk
  obtain ⟨c, hc, hk⟩ := hk
  rw [List.mem_map] at hk
  obtain ⟨fab, _, rfl⟩ := hk
  have := mem_topDown.1 hc
  exact ⟨this.2, by simp only; omega⟩

theorem filter_le_one {α : Type} {p : α → Bool} {l : List α} (h : (l.filter p).length ≤ 1) {i j : Nat}
    {a b : α} (hi : l[i]? = some a) (hj : l[j]? = some b) (ha : p a = true) (hb : p b = true) : i = j := by
  induction l generalizing i j with
  | nil => simp at hi
  | cons c l ih =>
    have none_of : p c = true → ∀ (n : Nat) (d : α), l[n]? = some d → p d = true → False := by
      intro hc n d hn hd
      rw [List.filter_cons, if_pos hc, List.length_cons] at h
      have : d ∈ l.filter p := List.mem_filter.2 ⟨List.mem_of_getElem? hn, hd⟩
      have := List.length_pos_of_mem this
      omega
    cases i with
    | zero =>
      simp only [List.getElem?_cons_zero, Option.some.injEq] at hi
      subst hi
      cases j with
      | zero => rfl
      | succ j => rw [List.getElem?_cons_succ] at hj; exact (none_of ha j b hj hb).elim
    | succ i =>
      rw [List.getElem?_cons_succ] at hi
      cases j with
      | zero =>
        simp only [List.getElem?_cons_zero, Option.some.injEq] at hj
        subst hj
        exact (none_of hb i a hi ha).elim
      | succ j =>
        rw [List.getElem?_cons_succ] at hj
        rw [ih ?_ hi hj]
        rw [List.filter_cons] at h
        split at h
        · rw [List.length_cons] at h; omega
        · exact h

/-- the file's world satisfies the hypotheses of the session theorems -/
theorem world_ok {path : P → List Char} {d : DictMap P} (hd : d.Ok) (h1 : d.OneEach path) : d.world.Ok path where
  one := by
    intro z i j a b parent hpar ha hb hx hy pa pb
    simp only [DictMap.world] at ha hb
    split at ha
    · next hz =>
      rw [if_pos hz] at hb
      have hab := inside_file a (List.mem_of_getElem? ha)
      obtain ⟨t, ht⟩ := Option.isSome_iff_exists.1 (hd z (d.dimY - 1 - a.y) a.x hz (by omega) hab.1)
      have hcount := h1 z (d.dimY - 1 - a.y) a.x t hz (by omega) hab.1 ht parent hpar
      have hfil := fileInsts_at d z (d.dimY - 1 - a.y) a.x (topDown d) (nodup_topDown d)
        (fun c hc => (mem_topDown.1 hc).1) (mem_topDown.2 ⟨by omega, hab.1⟩)
      rw [ht, Option.getD_some] at hfil
      rw [← hfil, List.filter_map, List.length_map, List.filter_filter] at hcount
      refine filter_le_one hcount ha hb ?_ ?_
      · simp [pa]
      · have := inside_file b (List.mem_of_getElem? hb)
        simp [pb, hx, hy]
    · cases ha
  known := by
    intro z i a ha
    simp only [DictMap.world] at ha ⊢
    split at ha
    · next hz => exact ⟨z, a, hz, List.mem_of_getElem? ha, rfl⟩
    · cases ha
  free := by
    intro z n
    simp only [DictMap.world]
    split
    · exact List.getElem?_eq_none (by omega)
    · rfl
  inj := by
    intro z n n' e
    simp only [DictMap.world] at e
    omega
  inside := by
    intro z i a ha
    simp only [DictMap.world] at ha
    split at ha
    · exact inside_file a (List.mem_of_getElem? ha)
    · cases ha

/-- **C46, C48.** A loaded map holds the file's contents and everything drawn is right. -/
theorem load_holds (render : P → RPop K V) (dflt : V) {d : DictMap P} (hd : d.Ok) {m : AtomMap P K V}
    (hm : AtomMap.new render dflt d = some m) : Holds True (some m) d.world := by
  obtain ⟨m', e, sx, sy, hl, h⟩ := load_exact render dflt hd
  rw [hm] at e
  injection e with e
  subst e
  refine ⟨m, rfl, ⟨hl, sx, sy⟩, ?_, ?_⟩
  · rintro p ⟨z, k, hz, hk, rfl⟩
    obtain ⟨lv, hlv⟩ : ∃ lv, m.levels[z]? = some lv := ⟨m.levels[z]'(by omega), List.getElem?_eq_getElem _⟩
    have L := h z lv hlv
    obtain ⟨i, hi⟩ := List.mem_iff_getElem?.1 hk
    have hsl : lv.slots i = some k := slots_some.2 ⟨by rw [L.free]; simp, by rw [L.keys]; exact hi⟩
    have := L.inv.hasPop i (by rw [L.inv.sortedMem, hsl]; rfl)
    rw [rpop_of_slots hsl] at this
    exact this
  · intro z lv hlv
    have L := h z lv hlv
    have hz : z < d.dimZ := by
      have := (List.getElem?_eq_some_iff.1 hlv).1
      omega
    refine ⟨L.inv, ?_, ?_, fun _ => L.verts⟩
    · intro i
      simp only [DictMap.world, if_pos hz]
      unfold Level.slots
      rw [L.free, L.keys]
      simp
    · intro n
      simp only [DictMap.world, if_pos hz]
      unfold Level.alloc
      rw [L.free, L.keys]
      simp

/-- the prefabs a world has on a tile, in slot order -/
def World.TileIs (w : World P) (z x y : Nat) (t : List P) : Prop :=
  ∃ is : List Nat, is.Pairwise (· < ·) ∧ is.length = t.length ∧
    (∀ (n i : Nat) (p : P), is[n]? = some i → t[n]? = some p → w.slots z i = some ⟨x, y, p⟩) ∧
    ∀ i p, w.slots z i = some ⟨x, y, p⟩ → i ∈ is

theorem tileAt_spec {v : Prop} {path : P → List Char} {m : AtomMap P K V} {w : World P} (h : Holds v (some m) w)
    (hw : w.Ok path) {z y x : Nat} (hyy : y < w.sizeY) (hz : z < w.depth) :
    w.TileIs z x (w.sizeY - 1 - y) (m.tileAt z y x) := by
  obtain ⟨lv, hlv, hinv, hsl, _, _⟩ := holds_level h hz
  obtain ⟨m', e, ⟨_, _, hsy⟩, _⟩ := h
  injection e with e
  subst e
  have hy := hw.inside z
  rw [← hsy] at hyy ⊢
  unfold AtomMap.tileAt
  rw [hlv]
  simp only
  have hinc : lv.liveSlots.Pairwise fun a b => a.1 < b.1 := by
    unfold Level.liveSlots
    apply List.Pairwise.filter
    rw [List.pairwise_map]
    have : (lv.keys.zipIdx.map Prod.snd).Pairwise (· < ·) := by
      rw [List.zipIdx_map_snd]
      exact List.pairwise_lt_range'
    rw [List.pairwise_map] at this
    exact this
  refine ⟨(lv.liveSlots.filter fun p => decide (p.2.x = x ∧ m.sizeY - 1 - p.2.y = y)).map Prod.fst, ?_, ?_, ?_, ?_⟩
  · rw [List.pairwise_map]
    exact hinc.filter _
  · simp
  · intro n i p h1 h2
    rw [List.getElem?_map, Option.map_eq_some_iff] at h1 h2
    obtain ⟨a, ha, rfl⟩ := h1
    obtain ⟨b, hb, rfl⟩ := h2
    rw [ha] at hb
    injection hb with hb
    subst hb
    have hm := List.mem_of_getElem? ha
    rw [List.mem_filter] at hm
    obtain ⟨hm, hp⟩ := hm
    simp only [decide_eq_true_eq] at hp
    have hs := mem_liveSlots.1 hm
    rw [hsl] at hs
    have := (hy _ _ hs).2
    rw [← hsy] at this
    rw [hs]
    obtain ⟨i, ⟨kx, ky, kp⟩⟩ := a
    simp only at hp this ⊢
    congr 2
    · exact hp.1
    · omega
  · intro i p hs
    refine List.mem_map.2 ⟨(i, ⟨x, m.sizeY - 1 - y, p⟩), ?_, rfl⟩
    rw [List.mem_filter]
    refine ⟨mem_liveSlots.2 (by rw [hsl]; exact hs), ?_⟩
    simp only [decide_eq_true_eq]
    exact ⟨trivial, by omega⟩

theorem pairwise_lt_ext : ∀ {l l' : List Nat}, l.Pairwise (· < ·) → l'.Pairwise (· < ·) →
    (∀ i, i ∈ l ↔ i ∈ l') → l = l' := by
  intro l
  induction l with
  | nil =>
    intro l' _ _ h
    cases l' with
    | nil => rfl
    | cons a l' => have := (h a).2 (by simp); cases this
  | cons a l ih =>
    intro l' h1 h2 h
    cases l' with
    | nil => have := (h a).1 (by simp); cases this
    | cons b l' =>
      rw [List.pairwise_cons] at h1 h2
      have hab : a = b := by
        rcases List.mem_cons.1 ((h a).1 (by simp)) with e | e
        · exact e
        · rcases List.mem_cons.1 ((h b).2 (by simp)) with e' | e'
          · exact e'.symm
          · have := h1.1 b e'
            have := h2.1 a e
            omega
      subst hab
      rw [ih h1.2 h2.2]
      intro i
      constructor
      · intro hi
        rcases List.mem_cons.1 ((h i).1 (by simp [hi])) with e | e
        · have := h1.1 i hi; omega
        · exact e
      · intro hi
        rcases List.mem_cons.1 ((h i).2 (by simp [hi])) with e | e
        · have := h2.1 i hi; omega
        · exact e

/-- the contents of a tile are determined -/
theorem TileIs.unique {w : World P} {z x y : Nat} {t t' : List P} (h : w.TileIs z x y t) (h' : w.TileIs z x y t') :
    t = t' := by
  obtain ⟨is, h1, h2, h3, h4⟩ := h
  obtain ⟨is', h1', h2', h3', h4'⟩ := h'
  have back : ∀ (is : List Nat) (t : List P), is.length = t.length →
      (∀ (n i : Nat) (p : P), is[n]? = some i → t[n]? = some p → w.slots z i = some ⟨x, y, p⟩) →
      ∀ i ∈ is, ∃ p, w.slots z i = some ⟨x, y, p⟩ := by
    intro is t hl h i hi
    obtain ⟨n, hn⟩ := List.mem_iff_getElem?.1 hi
    have hlt : n < t.length := by rw [← hl]; exact (List.getElem?_eq_some_iff.1 hn).1
    exact ⟨t[n], h n i _ hn (List.getElem?_eq_getElem hlt)⟩
  have he : is = is' := by
    apply pairwise_lt_ext h1 h1'
    intro i
    constructor
    · intro hi
      obtain ⟨p, hp⟩ := back is t h2 h3 i hi
      exact h4' i p hp
    · intro hi
      obtain ⟨p, hp⟩ := back is' t' h2' h3' i hi
      exact h4 i p hp
  subst he
  apply List.ext_getElem (by omega)
  intro n hn hn'
  have hi : is[n]? = some (is[n]'(by omega)) := List.getElem?_eq_getElem _
  have a := h3 n _ _ hi (List.getElem?_eq_getElem hn)
  have b := h3' n _ _ hi (List.getElem?_eq_getElem hn')
  rw [a] at b
  injection b with b
  injection b

theorem session_dims {v : Prop} {path : P → List Char} {render : E → P → RPop K V} {search : List K → K → Nat}
    {dflt : V} {s0 s : Snapshots (World P)} {as : List (Action (Option (AtomMap P K V)) E)}
    (hr : Session v path render search dflt s0 as s) {a b c : Nat}
    (h : ∀ p, (s0.value p).depth = a ∧ (s0.value p).sizeX = b ∧ (s0.value p).sizeY = c) :
    ∀ p, (s.value p).depth = a ∧ (s.value p).sizeX = b ∧ (s.value p).sizeY = c := by
  induction hr with
  | nil => exact h
  | @place s s' s'' as w x y z fab env hp he _ ih =>
    subst he
    apply ih
    intro p
    simp only
    split
    · cases hp <;> exact h _
    · exact h p
  | @delete s s' s'' as w z i env hp he _ ih =>
    subst he
    apply ih
    intro p
    simp only
    split
    · cases hp; exact h _
    · exact h p
  | undo _ ih => exact ih h
  | redo _ ih => exact ih h
  | save _ ih => exact ih h
  | reload _ _ ih => exact ih h

/-- **C48.** Load, edit, save.  For every file with at most one turf and one area per tile, after every
session: the editor has a map, it can be saved unless the keys run out, and whatever is saved (for
every base map and all iteration orders) has the file's size and, on every tile that is not empty,
exactly the prefabs the session left there, in slot order. -/
theorem load_edit_save {path : P → List Char} {render : E → P → RPop K V} {search : List K → K → Nat}
    (hs : SearchOk search) (dflt : V) {d : DictMap P} (hd : d.Ok) (h1 : d.OneEach path) (env : E)
    {m : AtomMap P K V} (hm : AtomMap.new (render env) dflt d = some m)
    {as : List (Action (Option (AtomMap P K V)) E)} {s : Snapshots (World P)}
    (hr : Session False path render search dflt (Snapshots.new d.world) as s) :
    ∃ m', (as.foldl History.act (History.new (some m))).current = some m' ∧ m'.inRange = true ∧
      ∀ base coords d', (base.map Prod.fst).Nodup → Covers m' coords → m'.save base coords = some d' →
        d'.dimX = d.dimX ∧ d'.dimY = d.dimY ∧ d'.dimZ = d.dimZ ∧
        ∀ z y x t, z < d.dimZ → y < d.dimY → (s.value s.cur).TileIs z x (d.dimY - 1 - y) t → t ≠ [] →
          d'.tile z y x = some t := by
  obtain ⟨m0, e0, z0, k0, lv0⟩ := load_holds (render env) dflt hd hm
  have h0 : Holds False (some m) d.world := ⟨m0, e0, z0, k0, fun z lv hz =>
    ⟨(lv0 z lv hz).1, (lv0 z lv hz).2.1, (lv0 z lv hz).2.2.1, fun h => h.elim⟩⟩
  obtain ⟨hc, hok, _⟩ := session_correct hs dflt h0 (world_ok hd h1) hr
  have hdim := session_dims hr (a := d.dimZ) (b := d.dimX) (c := d.dimY) (fun _ => ⟨rfl, rfl, rfl⟩) s.cur
  obtain ⟨m', e⟩ := holds_some hc
  rw [e] at hc
  refine ⟨m', e, ?_, ?_⟩
  · obtain ⟨m1, e1, hl, _, hlv⟩ := hc
    injection e1 with e1
    subst e1
    unfold AtomMap.inRange
    rw [List.all_eq_true]
    intro lv hm1
    obtain ⟨z, hz⟩ := List.mem_iff_getElem?.1 hm1
    rw [List.all_eq_true]
    rintro ⟨i, k⟩ hk
    have := mem_liveSlots.1 hk
    rw [(hlv z lv hz).2.1] at this
    have := hok.inside z i k this
    simp only [Bool.and_eq_true, decide_eq_true_eq]
    rw [hl.2.1, hl.2.2]
    exact this
  · intro base coords d' hb hcov hsave
    obtain ⟨a, b, c, t0⟩ := save_exact hb hcov hsave
    have hl : m'.levels.length = (s.value s.cur).depth ∧ m'.sizeX = (s.value s.cur).sizeX ∧
        m'.sizeY = (s.value s.cur).sizeY := by
      obtain ⟨m1, e1, hl, _⟩ := hc
      injection e1 with e1
      subst e1
      exact hl
    refine ⟨by rw [a, hl.2.1, hdim.2.1], by rw [b, hl.2.2, hdim.2.2], by rw [c, hl.1, hdim.1], ?_⟩
    intro z y x t hz hy ht hne
    have hts := tileAt_spec hc hok (x := x) (y := y) (by rw [hdim.2.2]; exact hy) (by rw [hdim.1]; exact hz)
    rw [hdim.2.2] at hts
    have := TileIs.unique hts ht
    rw [← this] at hne ⊢
    exact t0 z y x hne

/-! ## The hypotheses can be met, and disagreements -/

/-- a search meeting the contract of `binary_search_by_key` -/
def linearSearch (ks : List Nat) (k : Nat) : Nat := (ks.takeWhile (· < k)).length

theorem linearSearch_ok : SearchOk linearSearch := by
  intro ks k hks
  induction ks with
  | nil => simp [linearSearch]
  | cons c ks ih =>
    rw [List.pairwise_cons] at hks
    obtain ⟨h1, h2, h3⟩ := ih hks.2
    unfold linearSearch at h1 h2 h3 ⊢
    rw [List.takeWhile_cons]
    by_cases hc : c < k
    · rw [if_pos (by simpa using hc), List.length_cons]
      refine ⟨by simpa using h1, ?_, ?_⟩
      · rw [List.take_succ_cons]
        intro x hx
        rcases List.mem_cons.1 hx with rfl | hx
        · omega
        · exact h2 x hx
      · rw [List.drop_succ_cons]; exact h3
    · rw [if_neg (by simpa using hc)]
      refine ⟨by simp, by simp, ?_⟩
      intro x hx
      simp only [List.length_nil, List.drop_zero] at hx
      rcases List.mem_cons.1 hx with rfl | hx
      · omega
      · have := hks.1 x hx; omega

namespace Demo

/-- prefabs for the examples: type paths -/
abbrev Fab := List Char

def floor : Fab := ['/', 't', 'u', 'r', 'f', '/', 'f']
def wall : Fab := ['/', 't', 'u', 'r', 'f', '/', 'w']
def room : Fab := ['/', 'a', 'r', 'e', 'a']
def lamp : Fab := ['/', 'o', 'b', 'j']

/-- a renderer: the sort key and texture of a prefab depend on its path, in environment `e` -/
def render (e : Nat) (p : Fab) : RPop Nat (Nat × Nat × Nat) :=
  { key := p.length
    texture := if p = lamp then 1 else 0
    vert := fun x y => (x, y, e) }

/-- a 2×1 file: floor and area on both tiles, a lamp on the right one -/
def file : DictMap Fab :=
  { dimX := 2
    dimY := 1
    dimZ := 1
    dict := [(0, [floor, room]), (1, [lamp, floor, room])]
    grid := fun _ _ x => x }

theorem file_ok : file.Ok := by
  intro z y x hz hy hx
  simp only [file] at hx
  have : x = 0 ∨ x = 1 := by omega
  rcases this with rfl | rfl <;> rfl

theorem file_one : file.OneEach id := by
  intro z y x t hz hy hx ht parent hp
  simp only [file] at hx
  have : x = 0 ∨ x = 1 := by omega
  rcases this with rfl | rfl <;> rcases hp with rfl | rfl <;>
    (injection ht with ht; subst ht; decide +kernel)

/-- the hypotheses of `load_edit_save` are met: load, place a wall on the left tile (over the floor),
delete the lamp, undo -/
example : ∃ m s, AtomMap.new (render 0) (0, 0, 0) file = some m ∧
    Session False id render linearSearch (0, 0, 0) (Snapshots.new file.world)
      [.edit 0 (placeEdit id render linearSearch (0, 0, 0) 0 0 0 wall),
       .edit 0 (deleteEdit id render linearSearch (0, 0, 0) 0 2),
       .undo 0, .replace (fun t => t.bind fun m => m.refresh (render 1))] s := by
  obtain ⟨m, hm, _⟩ := load_exact (render 0) (0, 0, 0) file_ok
  refine ⟨m, _, hm, .place (.over 0 ⟨0, 0, floor⟩ turfPath (by decide) (by decide) (by decide) (by rfl)
    ⟨rfl, rfl, by decide⟩) rfl (.delete (.mk ⟨1, 0, lamp⟩ (by decide) (by rfl)) rfl (.undo (.reload (fun h => h) (.nil _))))⟩

/-- **Disagreement.** Saving a map on which everything on a tile was deleted does not leave that tile
empty: it gets the contents of whatever tile has key 0 — here deleting the only floor and area of the
left tile and saving puts the right tile's lamp, floor and area there. -/
theorem emptied_tile_is_filled :
    let edited := (AtomMap.new (render 0) (0, 0, 0) file).bind fun m => (m.remove 0 0).bind fun r =>
        (r.1.remove 0 1).map Prod.fst
    edited.map (fun m => m.tileAt 0 0 0) = some [] ∧
      edited.map (fun m => m.tileAt 0 0 1) = some [lamp, floor, room] ∧
      ((edited.bind fun m => m.save [] [(0, 0, 1)]).bind fun d => d.tile 0 0 0) = some [lamp, floor, room] := by
  decide +kernel

/-- a file with two turfs on a tile -/
def twoTurfs : DictMap Fab :=
  { dimX := 1
    dimY := 1
    dimZ := 1
    dict := [(0, [floor, wall, room])]
    grid := fun _ _ _ => 0 }

/-- **Disagreement.** With two turfs on a tile, deleting the second one and undoing loses the first:
`undo_remove_instance` re-adds with replacement. -/
theorem undo_delete_loses_turf :
    let m := AtomMap.new (render 0) (0, 0, 0) twoTurfs
    m.map (fun m => m.tileAt 0 0 0) = some [floor, wall, room] ∧
      ((m.bind fun m => m.remove 0 1).bind fun r =>
        (r.1.undoRemove id (render 0) linearSearch (0, 0, 0) 0 r.2).map fun m => m.tileAt 0 0 0) =
        some [wall, room] := by
  decide +kernel

/-- **Disagreement.** Reloading the environment recomputes the sort order but not the vertices: the
instances are still drawn as the old environment said (`render 0`), not the new one (`render 1`). -/
theorem reload_leaves_old_vertices :
    let m := AtomMap.new (render 0) (0, 0, 0) file
    ((m.bind fun m => m.refresh (render 1)).bind fun m => m.levels[0]?.map fun lv => lv.vals) =
      some [(0, 0, 0), (0, 0, 0), (1, 0, 0), (1, 0, 0), (1, 0, 0)] ∧
    ((AtomMap.new (render 1) (0, 0, 0) file).bind fun m => m.levels[0]?.map fun lv => lv.vals) =
      some [(0, 0, 1), (0, 0, 1), (1, 0, 1), (1, 0, 1), (1, 0, 1)] := by
  decide +kernel

/-- **Disagreement.** `get_instance` does not find a live instance in the last slot once another slot
is free: it compares the slot number with the number of live instances. -/
theorem getInstance_misses :
    ((AtomMap.new (render 0) (0, 0, 0) file).bind fun m => (m.remove 0 0).bind fun r =>
      r.1.levels[0]?.map fun lv => (lv.slots 4, lv.getInstance 4)) =
      some (some ⟨1, 0, room⟩, some none) := by
  decide +kernel

end Demo

end Verif.Editor
