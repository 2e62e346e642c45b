import Verif.Dmm.DictLemmas
import Verif.Dmm.BlockLemmas

/-!
# C12, C13: saving and reading maps
-/

namespace Verif.Dmm

variable {C : Type} (showV : C → List Char) (evalV : List Char → Option C)

/-! ## C12 -/

theorem save_parts (m : Map C) (txt : List Char) (h : saveMap showV m = some txt) :
    ∃ d g, catOpt (m.dict.map (entryText showV m.keyLength)) = some d ∧
      levelsText m.keyLength m.dimX 0 m.grid = some g ∧ txt = header ++ d ++ g := by
  unfold saveMap at h
  cases hd : catOpt (m.dict.map (entryText showV m.keyLength)) with
  | none => rw [hd] at h; simp at h
  | some d =>
    rw [hd] at h
    cases hg : levelsText m.keyLength m.dimX 0 m.grid with
    | none => rw [hg] at h; simp at h
    | some g =>
      rw [hg] at h
      simp only [Option.bind_some, Option.map_some, Option.some.injEq] at h
      exact ⟨d, g, rfl, rfl, h.symm⟩

theorem catOpt_mem_ne_none {l : List (Option (List Char))} {t : List Char}
    (h : catOpt l = some t) : ∀ o ∈ l, o ≠ none := by
  induction l generalizing t with
  | nil => intro o ho; simp at ho
  | cons a l ih =>
    cases a with
    | none => simp [catOpt] at h
    | some a =>
      simp only [catOpt] at h
      cases hr : catOpt l with
      | none => rw [hr] at h; simp at h
      | some r =>
        intro o ho
        simp only [List.mem_cons] at ho
        rcases ho with rfl | ho
        · simp
        · exact ih hr o ho

theorem skipBom_slash (t : List Char) : skipBom ('/' :: t) = '/' :: t := by
  unfold skipBom
  split
  · rename_i h
    simp only [List.cons.injEq] at h
    obtain ⟨rfl, rfl⟩ := h
    simp
  · rfl

/-- reading header and dictionary -/
theorem dict_phase (n : Nat) (dict : List (Nat × List (Prefab C))) (d rest : List Char)
    (hne : dict ≠ []) (hs : (dict.map Prod.fst).Pairwise (· < ·)) (h16 : ∀ e ∈ dict, e.1 < 65536)
    (hene : ∀ e ∈ dict, e.2 ≠ []) (hf : ∀ e ∈ dict, ∀ f ∈ e.2, PrefabOk showV evalV f)
    (hd : catOpt (dict.map (entryText showV n)) = some d) :
    dictLoop evalV {} (header ++ d ++ ('\n' :: '(' :: rest)) = .ok (idleSt n dict true, rest) := by
  have h0 : ({} : DState C) = idleSt 0 [] false := rfl
  rw [h0, List.append_assoc, runs_header [] 0 false]
  have := runs_entries (evalV := evalV) (showV := showV) n dict [] 0 false d (Or.inl rfl)
    (by simpa using hs) h16 hene hf hd
  rw [this, if_neg hne, List.nil_append]
  have e1 : step evalV (idleSt n dict true) '\n' = .cont (idleSt n dict true) := by
    simp [step, idleSt]
  have e2 : step evalV (idleSt n dict true) '(' = .brk (idleSt n dict true) := by
    simp [step, idleSt, stepMain, stepTop]
  simp [dictLoop, e1, e2]

/-- as `dict_phase`, for entries in any order and with repeated keys -/
theorem dict_phase_any (n : Nat) (es : List (Nat × List (Prefab C))) (d rest : List Char)
    (hne : es ≠ []) (h16 : ∀ e ∈ es, e.1 < 65536)
    (hene : ∀ e ∈ es, e.2 ≠ []) (hf : ∀ e ∈ es, ∀ f ∈ e.2, PrefabOk showV evalV f)
    (hd : catOpt (es.map (entryText showV n)) = some d) :
    dictLoop evalV {} (header ++ d ++ ('\n' :: '(' :: rest)) =
      .ok (idleSt n (es.foldl (fun m e => dictInsert e.1 e.2 m) []) true, rest) := by
  have h0 : ({} : DState C) = idleSt 0 [] false := rfl
  rw [h0, List.append_assoc, runs_header [] 0 false]
  have key : ∀ (es : List (Nat × List (Prefab C))) (done : List (Nat × List (Prefab C))) (mk : Nat)
      (af : Bool) (t : List Char), (mk = 0 ∨ mk = n) → (∀ e ∈ es, e.1 < 65536) →
      (∀ e ∈ es, e.2 ≠ []) → (∀ e ∈ es, ∀ f ∈ e.2, PrefabOk showV evalV f) →
      catOpt (es.map (entryText showV n)) = some t →
      Runs evalV (idleSt mk done af) t (if es = [] then idleSt mk done af else
        idleSt n (es.foldl (fun m e => dictInsert e.1 e.2 m) done) true) := by
    intro es
    induction es with
    | nil =>
      intro done mk af t _ _ _ _ ht
      simp [catOpt] at ht
      subst ht
      intro rest
      rfl
    | cons e es ih =>
      intro done mk af t hmk h16 hene hf ht
      rw [List.map_cons] at ht
      cases hx : entryText showV n e with
      | none => rw [hx] at ht; simp [catOpt] at ht
      | some te =>
        rw [hx] at ht
        simp only [catOpt] at ht
        obtain ⟨tr, htr, rfl⟩ := Option.map_eq_some_iff.1 ht
        have h1 := runs_entry (evalV := evalV) (showV := showV) (dict := done) n e te mk af hmk
          (h16 e (by simp)) (hene e (by simp)) (hf e (by simp)) hx
        have h2 := ih (dictInsert e.1 e.2 done) n true tr (.inr rfl) (fun e h => h16 e (by simp [h]))
          (fun e h => hene e (by simp [h])) (fun e h => hf e (by simp [h])) htr
        intro rest
        rw [if_neg (by simp), List.append_assoc, h1, h2]
        split
        · rename_i h; subst h; rfl
        · rfl
  have := key es [] 0 false d (Or.inl rfl) h16 hene hf hd
  rw [this, if_neg hne]
  have e1 : ∀ dict : List (Nat × List (Prefab C)),
      step evalV (idleSt n dict true) '\n' = .cont (idleSt n dict true) := fun dict => by
    simp [step, idleSt]
  have e2 : ∀ dict : List (Nat × List (Prefab C)),
      step evalV (idleSt n dict true) '(' = .brk (idleSt n dict true) := fun dict => by
    simp [step, idleSt, stepMain, stepTop]
  simp [dictLoop, e1, e2]

theorem lookup_cons_if {α : Type} (q k : Nat) (v : α) (d : List (Nat × α)) :
    ((k, v) :: d).lookup q = if q = k then some v else d.lookup q := by
  rw [List.lookup_cons]
  by_cases h : q = k
  · rw [if_pos h, show (q == k) = true by simpa using h]
  · rw [if_neg h, show (q == k) = false by simpa using h]

theorem dictInsert_lookup {α : Type} (k : Nat) (v : α) (d : List (Nat × α)) (q : Nat) :
    (dictInsert k v d).lookup q = if q = k then some v else d.lookup q := by
  induction d with
  | nil => rw [dictInsert, lookup_cons_if]
  | cons p d ih =>
    obtain ⟨k', v'⟩ := p
    simp only [dictInsert]
    split
    · rw [lookup_cons_if]
    · split
      · rename_i h
        subst h
        rw [lookup_cons_if, lookup_cons_if]
        split <;> rfl
      · rename_i h
        rw [lookup_cons_if, lookup_cons_if, ih]
        by_cases h1 : q = k'
        · rw [if_pos h1, if_pos h1, if_neg (by omega)]
        · rw [if_neg h1, if_neg h1]

theorem dictInsert_sorted' {α : Type} (k : Nat) (v : α) (d : List (Nat × α))
    (hs : (d.map Prod.fst).Pairwise (· < ·)) : ((dictInsert k v d).map Prod.fst).Pairwise (· < ·) ∧
      ∀ p ∈ dictInsert k v d, p.1 = k ∨ p ∈ d := by
  induction d with
  | nil => simp [dictInsert]
  | cons p d ih =>
    obtain ⟨k', v'⟩ := p
    simp only [List.map_cons, List.pairwise_cons] at hs
    simp only [dictInsert]
    split
    · rename_i h
      refine ⟨?_, by simp +contextual⟩
      simp only [List.map_cons, List.pairwise_cons, List.mem_cons]
      refine ⟨?_, hs.1, hs.2⟩
      rintro a (rfl | ha)
      · exact h
      · exact lt_trans h (hs.1 a ha)
    · split
      · rename_i h
        subst h
        refine ⟨by simpa using hs, by simp +contextual⟩
      · rename_i h1 h2
        obtain ⟨i1, i2⟩ := ih hs.2
        refine ⟨?_, ?_⟩
        · simp only [List.map_cons, List.pairwise_cons, List.mem_map]
          refine ⟨?_, i1⟩
          rintro a ⟨p, hp, rfl⟩
          rcases i2 p hp with h | h
          · omega
          · exact hs.1 _ (List.mem_map_of_mem h)
        · intro p hp
          rcases List.mem_cons.1 hp with rfl | hp
          · simp
          · rcases i2 p hp with h | h
            · exact .inl h
            · exact .inr (List.mem_cons_of_mem _ h)

/-- reading entries in sequence: the last entry of a key counts -/
theorem dict_fold_lookup {α : Type} (es : List (Nat × α)) : ∀ d : List (Nat × α),
    (d.map Prod.fst).Pairwise (· < ·) →
    ((es.foldl (fun m e => dictInsert e.1 e.2 m) d).map Prod.fst).Pairwise (· < ·) ∧
    ∀ q, (es.foldl (fun m e => dictInsert e.1 e.2 m) d).lookup q = (es.reverse ++ d).lookup q := by
  induction es with
  | nil => intro d hs; exact ⟨hs, fun q => rfl⟩
  | cons e es ih =>
    intro d hs
    obtain ⟨i1, i2⟩ := ih _ (dictInsert_sorted' e.1 e.2 d hs).1
    refine ⟨i1, fun q => ?_⟩
    rw [List.foldl_cons, i2, List.reverse_cons, List.append_assoc, List.singleton_append,
      List.lookup_append, List.lookup_append, dictInsert_lookup, ← lookup_cons_if]

/-- **C12.** Saving any well-formed map in TGM form and reading the text back gives the same map:
same dictionary (keys, prefabs in order, paths, variables in order, values), same grid, same
dimensions and same key length. -/
theorem map_save_read_roundtrip (m : Map C) (txt : List Char) (hm : MapOk showV evalV m)
    (h : saveMap showV m = some txt) : parseMap evalV txt = .ok m := by
  obtain ⟨d, gt, hd, hg, rfl⟩ := save_parts showV m txt h
  obtain ⟨n, dict, dz, dy, dx, grid⟩ := m
  obtain ⟨hne, hs, h16, hene, hf, hdims, h64, hZ, hY, hX, hcells⟩ := hm
  simp only at *
  have hkl : n < 256 := by
    cases dict with
    | nil => exact absurd rfl hne
    | cons e dict =>
      have := catOpt_mem_ne_none hd (entryText showV n e) (by simp)
      unfold entryText at this
      cases hk : formatKey n e.1 with
      | none => rw [hk] at this; simp at this
      | some t => exact (formatKey_small n _ t hk).2
  have hgne : grid ≠ [] := by intro h; subst h; simp at hZ; omega
  obtain ⟨g', h1, h2⟩ := gruns_levels (kl := n) dy dx (by omega) (by omega) (by omega) (by omega) hkl
    grid 0 [] 0 0 0 0 0 0 0 gt hgne hY hX hcells (by omega) (by intros; rfl) hg
  rw [Nat.zero_add] at h1 h2
  -- the text of the grid starts with a newline and a parenthesis
  have hstart : ∃ rest, gt = '\n' :: '(' :: rest := by
    cases grid with
    | nil => exact absurd rfl hgne
    | cons l ls =>
      simp only [levelsText] at hg
      cases hl : levelText n dx 0 l with
      | none => rw [hl] at hg; simp at hg
      | some lt =>
        rw [hl] at hg
        simp only [Option.bind_some] at hg
        cases hr : levelsText n dx (0 + 1) ls with
        | none => rw [hr] at hg; simp at hg
        | some rt =>
          rw [hr] at hg
          simp only [Option.map_some, Option.some.injEq] at hg
          unfold levelText at hl
          obtain ⟨dx', rfl⟩ : ∃ k, dx = k + 1 := ⟨dx - 1, by omega⟩
          rw [List.range_eq_range', List.range'_succ, List.map_cons] at hl
          cases hc : columnText n 0 0 (column l 0) with
          | none => rw [hc] at hl; simp [catOpt] at hl
          | some ct =>
            rw [hc] at hl
            simp only [catOpt, Option.map_map] at hl
            obtain ⟨r, hr, hl⟩ := Option.map_eq_some_iff.1 hl
            unfold columnText at hc
            obtain ⟨t, ht, hc⟩ := Option.map_eq_some_iff.1 hc
            refine ⟨?_, ?_⟩
            rotate_left
            · rw [← hg, ← hl, ← hc]
              simp
              rfl
  obtain ⟨rest, rfl⟩ := hstart
  have hphase := dict_phase showV evalV n dict d rest hne hs h16 hene hf hd
  have hhead : ∃ t, header ++ d ++ ('\n' :: '(' :: rest) = '/' :: t := ⟨_, rfl⟩
  have hbom : skipBom (header ++ d ++ ('\n' :: '(' :: rest)) = header ++ d ++ ('\n' :: '(' :: rest) := by
    obtain ⟨t, ht⟩ := hhead
    rw [ht, skipBom_slash]
  unfold parseMap
  rw [hbom, hphase]
  simp only [idleSt]
  have hgl : gridLoop n {} rest = .ok (outSt g' dx dy grid.length (max 0 dx) (max 0 1)
      (max 0 grid.length) dx) := by
    have h3 := h1 []
    simp only [List.append_nil] at h3
    have e : gridLoop n (outSt [] 0 0 0 0 0 0 0) ('\n' :: '(' :: rest) = gridLoop n {} rest := by
      rfl
    rw [e] at h3
    rw [h3]; rfl
  rw [hgl]
  simp only [outSt, Nat.zero_max]
  have hmax : max 1 dy = dy := by omega
  have hbuild : buildGrid g' grid.length dy dx = some grid := by
    unfold buildGrid
    apply mapM_range _ _ _ rfl
    intro z hz
    rw [List.getElem?_eq_getElem hz]
    have hl := List.getElem_mem (l := grid) hz
    apply mapM_range _ _ _ (hY _ hl)
    intro y hy
    have hyl : y < grid[z].length := by rw [hY _ hl]; exact hy
    rw [List.getElem?_eq_getElem hyl]
    have hr := List.getElem_mem (l := grid[z]) hyl
    apply mapM_range _ _ _ (hX _ hl _ hr)
    intro x hx
    rw [h2, if_pos (by simp only; omega)]
    simp only [Nat.add_sub_cancel, Nat.sub_zero]
    rw [List.getElem?_eq_getElem hz]
    simp only [Option.bind_some]
    rw [List.getElem?_eq_getElem hyl]
    simp only [Option.bind_some]
  rw [hmax, hbuild]
  simp only [hZ]

/-- **C12.** Saving never panics when every key (of the dictionary and of the grid) fits the key
length. -/
theorem map_save_no_panic (m : Map C) (h1 : 1 ≤ m.keyLength) (h3 : m.keyLength ≤ 3)
    (hd : ∀ e ∈ m.dict, e.1 < 65536 ∧ e.1 < 52 ^ m.keyLength)
    (hX : ∀ l ∈ m.grid, ∀ r ∈ l, r.length = m.dimX)
    (hg : ∀ l ∈ m.grid, ∀ r ∈ l, ∀ k ∈ r, k < 65536 ∧ k < 52 ^ m.keyLength) :
    saveMap showV m ≠ none := by
  have hcat : ∀ l : List (Option (List Char)), (∀ o ∈ l, o ≠ none) → ∃ t, catOpt l = some t := by
    intro l
    induction l with
    | nil => intro _; exact ⟨[], rfl⟩
    | cons a l ih =>
      intro h
      obtain ⟨t, ht⟩ := ih fun o ho => h o (by simp [ho])
      cases a with
      | none => exact absurd rfl (h none (by simp))
      | some a => exact ⟨a ++ t, by simp [catOpt, ht]⟩
  have hkey : ∀ k, k < 65536 → k < 52 ^ m.keyLength → ∃ t, formatKey m.keyLength k = some t := by
    intro k h16 h52
    cases hk : formatKey m.keyLength k with
    | some t => exact ⟨t, rfl⟩
    | none =>
      have := (key_format_panics_iff _ _ h1 h3 h16).1 hk
      omega
  have hdict : ∃ d, catOpt (m.dict.map (entryText showV m.keyLength)) = some d := by
    apply hcat
    intro o ho
    obtain ⟨e, he, rfl⟩ := List.mem_map.1 ho
    obtain ⟨t, ht⟩ := hkey e.1 (hd e he).1 (hd e he).2
    simp [entryText, ht]
  have hlev : ∀ (ls : List (List (List Nat))) (z : Nat), (∀ l ∈ ls, l ∈ m.grid) →
      ∃ g, levelsText m.keyLength m.dimX z ls = some g := by
    intro ls
    induction ls with
    | nil => intro z _; exact ⟨[], rfl⟩
    | cons l ls ih =>
      intro z hl
      obtain ⟨r, hr⟩ := ih (z + 1) fun l h => hl l (by simp [h])
      have hlm := hl l (by simp)
      have : ∃ t, levelText m.keyLength m.dimX z l = some t := by
        unfold levelText
        obtain ⟨t, ht⟩ := hcat ((List.range m.dimX).map
            fun x => columnText m.keyLength z x (column l x)) (by
          intro o ho
          obtain ⟨x, hx, rfl⟩ := List.mem_map.1 ho
          have hx : x < m.dimX := by simpa using hx
          obtain ⟨t, ht⟩ := hcat ((column l x).map
              fun k => (formatKey m.keyLength k).map (· ++ ['\n'])) (by
            intro o ho
            obtain ⟨k, hk, rfl⟩ := List.mem_map.1 ho
            obtain ⟨r, hr, rfl⟩ := List.mem_map.1 hk
            have hrl := hX l hlm r hr
            have hkm : r.getD x 0 ∈ r := by
              rw [List.getD_eq_getElem?_getD, List.getElem?_eq_getElem (by omega), Option.getD_some]
              exact List.getElem_mem _
            obtain ⟨t, ht⟩ := hkey _ (hg l hlm r hr _ hkm).1 (hg l hlm r hr _ hkm).2
            rw [ht]; simp)
          simp [columnText, cellsText, ht])
        rw [ht]; exact ⟨_, rfl⟩
      obtain ⟨t, ht⟩ := this
      exact ⟨t ++ r, by simp [levelsText, ht, hr]⟩
  obtain ⟨d, hd'⟩ := hdict
  obtain ⟨g, hg'⟩ := hlev m.grid 0 (fun l h => h)
  simp [saveMap, hd', hg']

/-! ### a concrete map meeting the hypotheses -/

/-- the map used in the examples: two keys, a varedited prefab, a 2×2 level.
Values are kept as their text. -/
def exMap : Map (List Char) :=
  ⟨1, [(0, [⟨"/turf/a".toList, []⟩]),
       (3, [⟨"/obj/b".toList, [("name".toList, "\"x;y\\\"z}\"".toList), ("dir".toList, "4".toList)]⟩,
            ⟨"/turf/a".toList, []⟩])],
   1, 2, 2, [[[0, 3], [3, 0]]]⟩

theorem noDouble_of_bool (t : List Char)
    (h : (List.range t.length).all fun i => !(t[i]? == some '/' && t[i+1]? == some '/')) :
    NoDoubleSlash t := by
  rintro ⟨a, b, rfl⟩
  simp only [List.all_eq_true, List.mem_range] at h
  have := h a.length (by simp)
  simp at this

theorem exMap_ok : MapOk id some exMap where
  dict_ne := by decide
  dict_sorted := by decide
  keys16 := by decide
  entries_ne := by decide
  prefabs := by
    have p1 : PrefabOk (C := List Char) id some ⟨"/turf/a".toList, []⟩ :=
      ⟨⟨by decide, by decide, noDouble_of_bool _ (by decide)⟩, by simp, by simp, by simp⟩
    have n1 : NameOk "name".toList :=
      ⟨by decide, by decide, noDouble_of_bool _ (by decide), by decide, by
        intro c h; have : c = 'e' := by simpa using h.symm
        subst this; decide⟩
    have n2 : NameOk "dir".toList :=
      ⟨by decide, by decide, noDouble_of_bool _ (by decide), by decide, by
        intro c h; have : c = 'r' := by simpa using h.symm
        subst this; decide⟩
    have q : QuoteBody "x;y\\\"z}".toList :=
      .plain 'x' _ (by decide) (.plain ';' _ (by decide) (.plain 'y' _ (by decide)
        (.esc 0 '"' _ (by decide) (.plain 'z' _ (by decide) (.plain '}' _ (by decide) .nil)))))
    have v1 : ValueOk "\"x;y\\\"z}\"".toList :=
      .quoted [] _ [] ⟨by simp, noDouble_of_bool _ (by decide)⟩ q
        (.plain [] ⟨by simp, noDouble_of_bool _ (by decide)⟩)
    have v2 : ValueOk "4".toList := .plain _ ⟨by decide, noDouble_of_bool _ (by decide)⟩
    have p2 : PrefabOk (C := List Char) id some
        ⟨"/obj/b".toList, [("name".toList, "\"x;y\\\"z}\"".toList), ("dir".toList, "4".toList)]⟩ := by
      refine ⟨⟨by decide, by decide, noDouble_of_bool _ (by decide)⟩, ?_, by decide, ?_⟩
      · intro p hp
        simp only [List.mem_cons, List.not_mem_nil, or_false] at hp
        rcases hp with rfl | rfl
        · exact n1
        · exact n2
      · intro p hp
        simp only [List.mem_cons, List.not_mem_nil, or_false] at hp
        rcases hp with rfl | rfl
        · exact ⟨v1, rfl⟩
        · exact ⟨v2, rfl⟩
    intro e he f hf
    simp only [exMap, List.mem_cons, List.not_mem_nil, or_false] at he
    rcases he with rfl | rfl
    · simp only [List.mem_cons, List.not_mem_nil, or_false] at hf
      subst hf; exact p1
    · simp only [List.mem_cons, List.not_mem_nil, or_false] at hf
      rcases hf with rfl | rfl
      · exact p2
      · exact p1
  dims := by decide
  dims64 := by decide
  shapeZ := by decide
  shapeY := by decide
  shapeX := by decide
  cells16 := by decide

example : ∃ txt, saveMap id exMap = some txt ∧ parseMap some txt = .ok exMap := by
  obtain ⟨txt, h⟩ := Option.ne_none_iff_exists'.1
    (map_save_no_panic id exMap (by decide) (by decide) (by decide) (by decide) (by decide))
  exact ⟨txt, h, map_save_read_roundtrip id some exMap txt exMap_ok h⟩

/-! ## C13 -/

/-- **C13.** The grid section decides the map exactly.  For a file with a readable dictionary
followed by any list of blocks (any coordinates, any row lengths), the reader does not panic; it
returns an error iff some cell is given twice or some cell of the box is not given; and when it
returns a map, that map has for every key the last dictionary entry of the file for it, the
dimensions of the box, and at every position the key the file gives for it.  The box spans up to the largest x and z given and, in y, up
to the last row of the *last* block (or the largest starting row, if larger). -/
theorem read_grid_blocks (n : Nat) (es : List (Nat × List (Prefab C))) (bs : List Block)
    (d bt : List Char)
    (hne : es ≠ []) (h16 : ∀ e ∈ es, e.1 < 65536)
    (hene : ∀ e ∈ es, e.2 ≠ []) (hf : ∀ e ∈ es, ∀ f ∈ e.2, PrefabOk showV evalV f)
    (hd : catOpt (es.map (entryText showV n)) = some d)
    (hbne : bs ≠ []) (hb : ∀ b ∈ bs, BlockOk b) (hbt : catOpt (bs.map (blockText n)) = some bt)
    (X Y Z : Nat)
    (hX : X = bs.foldl (fun m b => max m (blockMaxX b)) 0)
    (hY : Y = max (bs.foldl (fun m b => max m b.y) 0)
      (bs.foldl (fun _ b => b.y + b.rows.length - 1) 0))
    (hZ : Z = bs.foldl (fun m b => max m b.z) 0) :
    let r := parseMap evalV (header ++ d ++ ('\n' :: bt))
    let cells := blocksCells bs
    r ≠ .panic ∧
    (r = .err ↔ ¬ (cells.map Prod.fst).Nodup ∨
      ∃ x y z, 1 ≤ x ∧ x ≤ X ∧ 1 ≤ y ∧ y ≤ Y ∧ 1 ≤ z ∧ z ≤ Z ∧ (x, y, z) ∉ cells.map Prod.fst) ∧
    (∀ m, r = .ok m → m.keyLength = n ∧ (m.dict.map Prod.fst).Pairwise (· < ·) ∧
      (∀ k, m.dict.lookup k = es.reverse.lookup k) ∧ m.dimX = X ∧ m.dimY = Y ∧ m.dimZ = Z ∧
      ∀ x y z, x < X → y < Y → z < Z →
        ∃ k, ((x + 1, y + 1, z + 1), k) ∈ cells ∧
          ((m.grid[z]?).bind (·[y]?)).bind (·[x]?) = some k) := by
  intro r cells
  have hstart : ∃ rest, bt = '(' :: rest := by
    cases bs with
    | nil => exact absurd rfl hbne
    | cons b bs =>
      rw [List.map_cons] at hbt
      cases hl : blockText n b with
      | none => rw [hl] at hbt; simp [catOpt] at hbt
      | some lt =>
        rw [hl] at hbt
        simp only [catOpt] at hbt
        obtain ⟨r, hr, hbt⟩ := Option.map_eq_some_iff.1 hbt
        unfold blockText at hl
        obtain ⟨l, hl', hl⟩ := Option.bind_eq_some_iff.1 hl
        obtain ⟨t, ht, hl⟩ := Option.map_eq_some_iff.1 hl
        refine ⟨?_, ?_⟩
        rotate_left
        · rw [← hbt, ← hl]
          simp
          rfl
  obtain ⟨rest, rfl⟩ := hstart
  have hphase := dict_phase_any showV evalV n es d rest hne h16 hene hf hd
  have hdict := dict_fold_lookup es [] List.Pairwise.nil
  rw [List.append_nil] at hdict
  generalize es.foldl (fun m e => dictInsert e.1 e.2 m) [] = dict at hphase hdict
  have hbom : skipBom (header ++ d ++ ('\n' :: '(' :: rest)) =
      header ++ d ++ ('\n' :: '(' :: rest) := by
    have hhead : ∃ t, header ++ d ++ ('\n' :: '(' :: rest) = '/' :: t := ⟨_, rfl⟩
    obtain ⟨t, ht⟩ := hhead
    rw [ht, skipBom_slash]
  obtain ⟨x', z', bx', hgr⟩ := greads_blocks (kl := n) bs [] 0 0 0 0 0 0 0 _ hb hbt
  have hgl : gridLoop n {} rest = match (addCells (blocksCells bs) []).map fun g' =>
        outSt g' x' (bs.foldl (fun _ b => b.y + b.rows.length - 1) 0) z'
          (bs.foldl (fun m b => max m (blockMaxX b)) 0)
          (bs.foldl (fun m b => max m b.y) 0)
          (bs.foldl (fun m b => max m b.z) 0) bx' with
      | some s => .ok s
      | none => .err := by
    have h3 := hgr []
    simp only [List.append_nil] at h3
    have e : gridLoop n (outSt [] 0 0 0 0 0 0 0) ('(' :: rest) = gridLoop n {} rest := rfl
    rw [e] at h3
    rw [h3]
    cases (addCells (blocksCells bs) []) <;> rfl
  rw [addCells_eq] at hgl
  simp only [List.map_nil, List.not_mem_nil, not_false_eq_true, implies_true, and_true,
    List.append_nil] at hgl
  have hr : r = parseMap evalV (header ++ d ++ ('\n' :: '(' :: rest)) := rfl
  unfold parseMap at hr
  rw [hbom, hphase] at hr
  simp only [idleSt] at hr
  rw [hgl] at hr
  by_cases hnd : (cells.map Prod.fst).Nodup
  · rw [if_pos hnd] at hr
    simp only [Option.map_some, outSt, ← hX, ← hY, ← hZ] at hr
    have hget : ∀ p v, gridGet cells.reverse p = some v ↔ (p, v) ∈ cells := by
      intro p v
      rw [gridGet_mem _ (by rw [List.map_reverse, List.nodup_reverse]; exact hnd)]
      simp
    have hnone : ∀ p, gridGet cells.reverse p = none ↔ p ∉ cells.map Prod.fst := by
      intro p
      rw [gridGet_none_iff, List.map_reverse, List.mem_reverse]
    by_cases hall : ∀ x y z, x < X → y < Y → z < Z →
        (x + 1, y + 1, z + 1) ∈ cells.map Prod.fst
    · -- every cell present
      let val := fun x y z => (gridGet cells.reverse (x + 1, y + 1, z + 1)).getD 0
      have hval : ∀ x y z, x < X → y < Y → z < Z →
          gridGet cells.reverse (x + 1, y + 1, z + 1) = some (val x y z) := by
        intro x y z hx hy hz
        have := hall x y z hx hy hz
        cases hc : gridGet cells.reverse (x + 1, y + 1, z + 1) with
        | none => exact absurd this ((hnone _).1 hc)
        | some v => simp [val, hc]
      let G := (List.range Z).map fun z => (List.range Y).map fun y => (List.range X).map fun x =>
        val x y z
      have hbuild : buildGrid cells.reverse Z Y X = some G := by
        unfold buildGrid
        apply mapM_range _ _ _ (by simp [G])
        intro z hz
        rw [show G[z]? = some ((List.range Y).map fun y => (List.range X).map fun x => val x y z) by
          simp [G, hz]]
        apply mapM_range _ _ _ (by simp)
        intro y hy
        rw [show ((List.range Y).map fun y => (List.range X).map fun x => val x y z)[y]? =
          some ((List.range X).map fun x => val x y z) by simp [hy]]
        apply mapM_range _ _ _ (by simp)
        intro x hx
        rw [hval x y z hx hy hz]
        simp [hx]
      have hr' : r = .ok ⟨n, dict, Z, Y, X, G⟩ := by
        rw [hr]
        have hb' : buildGrid (blocksCells bs).reverse Z Y X = some G := hbuild
        rw [hb']
      refine ⟨by rw [hr']; simp, ?_, ?_⟩
      · rw [hr']
        simp only [reduceCtorEq, false_iff, not_or, not_not]
        refine ⟨hnd, ?_⟩
        rintro ⟨x, y, z, h1, h2, h3, h4, h5, h6, h7⟩
        have := hall (x - 1) (y - 1) (z - 1) (by omega) (by omega) (by omega)
        rw [show x - 1 + 1 = x by omega, show y - 1 + 1 = y by omega,
          show z - 1 + 1 = z by omega] at this
        exact h7 this
      · intro m hm
        rw [hr'] at hm
        simp only [Res.ok.injEq] at hm
        subst hm
        refine ⟨rfl, hdict.1, hdict.2, rfl, rfl, rfl, ?_⟩
        intro x y z hx hy hz
        refine ⟨val x y z, (hget _ _).1 (hval x y z hx hy hz), ?_⟩
        simp [G, hx, hy, hz]
    · -- some cell missing
      have hbuild : buildGrid cells.reverse Z Y X = none := by
        rw [← Option.not_isSome_iff_eq_none]
        intro hsome
        obtain ⟨G, hG⟩ := Option.isSome_iff_exists.1 hsome
        apply hall
        intro x y z hx hy hz
        by_contra hc
        have h0 := (hnone _).2 hc
        unfold buildGrid at hG
        have key : ∀ {α : Type} (f : Nat → Option α) (k i : Nat) (l : List α),
            (List.range k).mapM f = some l → i < k → f i ≠ none := by
          intro α f k i l hl hi hfi
          have : ∀ (L : List Nat) (l : List α), L.mapM f = some l → i ∈ L → False := by
            intro L
            induction L with
            | nil => intro l _ h; simp at h
            | cons a L ih =>
              intro l hl hm
              rw [List.mapM_cons] at hl
              cases ha : f a with
              | none => rw [ha] at hl; simp at hl
              | some v =>
                rw [ha] at hl
                cases hL : L.mapM f with
                | none => rw [hL] at hl; simp at hl
                | some l' =>
                  simp only [List.mem_cons] at hm
                  rcases hm with rfl | hm
                  · rw [ha] at hfi; cases hfi
                  · exact ih l' hL hm
          exact this _ _ hl (by simpa using hi)
        have h1 := key _ _ z _ hG hz
        obtain ⟨L1, h1⟩ := Option.ne_none_iff_exists'.1 h1
        have h2 := key _ _ y _ h1 hy
        obtain ⟨L2, h2⟩ := Option.ne_none_iff_exists'.1 h2
        exact key _ _ x _ h2 hx h0
      have hr' : r = .err := by
        rw [hr]
        have hb' : buildGrid (blocksCells bs).reverse Z Y X = none := hbuild
        rw [hb']
      refine ⟨by rw [hr']; simp, ?_, by rw [hr']; intro m hm; cases hm⟩
      rw [hr']
      simp only [true_iff]
      right
      by_contra hcon
      apply hall
      intro x y z hx hy hz
      by_contra hc
      exact hcon ⟨x + 1, y + 1, z + 1, by omega, by omega, by omega, by omega, by omega, by omega, hc⟩
  · rw [if_neg hnd] at hr
    simp only [Option.map_none] at hr
    refine ⟨by rw [hr]; simp, ?_, by rw [hr]; intro m hm; cases hm⟩
    rw [hr]
    simp [hnd]

end Verif.Dmm
