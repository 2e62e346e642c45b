import Verif.Dmm.TextProps

/-!
# C13, continued: any map the reader returns is well formed; and where the reader falls short
-/

namespace Verif.Dmm

variable {C : Type} (evalV : List Char → Option C)

/-- the variables of a prefab have distinct names -/
def FabWF (f : Prefab C) : Prop := (f.vars.map Prod.fst).Nodup

/-- well-formedness of the dictionary -/
structure DictWF (d : List (Nat × List (Prefab C))) : Prop where
  sorted : (d.map Prod.fst).Pairwise (· < ·)
  keys : ∀ e ∈ d, e.1 < 65536
  ne : ∀ e ∈ d, e.2 ≠ []
  fabs : ∀ e ∈ d, ∀ f ∈ e.2, FabWF f

/-- loop invariant of the dictionary loop -/
structure DInv (s : DState C) : Prop where
  dict : DictWF s.dict
  key : s.key < 65536
  fab : FabWF s.fab
  data : ∀ f ∈ s.data, FabWF f

theorem varsInsert_keys (k : List Char) (v : C) (vs : List (List Char × C)) :
    ∀ x, x ∈ (varsInsert k v vs).map Prod.fst ↔ x = k ∨ x ∈ vs.map Prod.fst := by
  induction vs with
  | nil => intro x; simp [varsInsert]
  | cons p vs ih =>
    obtain ⟨k', v'⟩ := p
    intro x
    simp only [varsInsert]
    split
    · rename_i h; subst h; simp
    · simp only [List.map_cons, List.mem_cons, ih x]; tauto

theorem varsInsert_nodup (k : List Char) (v : C) (vs : List (List Char × C))
    (h : (vs.map Prod.fst).Nodup) : ((varsInsert k v vs).map Prod.fst).Nodup := by
  induction vs with
  | nil => simp [varsInsert]
  | cons p vs ih =>
    obtain ⟨k', v'⟩ := p
    simp only [List.map_cons, List.nodup_cons] at h
    simp only [varsInsert]
    split
    · rename_i he; subst he; simpa using h
    · rename_i he
      simp only [List.map_cons, List.nodup_cons, varsInsert_keys, not_or]
      exact ⟨⟨fun h => he h.symm, h.1⟩, ih h.2⟩

theorem dictInsert_mem {α : Type} (k : Nat) (v : α) (d : List (Nat × α)) (e : Nat × α)
    (h : e ∈ dictInsert k v d) : e = (k, v) ∨ e ∈ d := by
  induction d with
  | nil => simpa [dictInsert] using h
  | cons p d ih =>
    obtain ⟨k', v'⟩ := p
    simp only [dictInsert] at h
    split at h
    · simpa using h
    · split at h
      · simp only [List.mem_cons] at h ⊢; tauto
      · simp only [List.mem_cons] at h ⊢
        rcases h with h | h
        · tauto
        · rcases ih h with h | h <;> tauto

theorem dictInsert_sorted {α : Type} (k : Nat) (v : α) (d : List (Nat × α))
    (h : (d.map Prod.fst).Pairwise (· < ·)) :
    ((dictInsert k v d).map Prod.fst).Pairwise (· < ·) := by
  induction d with
  | nil => simp [dictInsert]
  | cons p d ih =>
    obtain ⟨k', v'⟩ := p
    simp only [List.map_cons, List.pairwise_cons] at h
    simp only [dictInsert]
    split
    · rename_i hk
      simp only [List.map_cons, List.pairwise_cons, List.mem_cons]
      refine ⟨?_, h.1, h.2⟩
      rintro x (rfl | hx)
      · exact hk
      · have := h.1 x hx; omega
    · split
      · rename_i hk; subst hk
        simpa [List.pairwise_cons] using h
      · simp only [List.map_cons, List.pairwise_cons]
        refine ⟨?_, ih h.2⟩
        intro x hx
        obtain ⟨e, he, rfl⟩ := List.mem_map.1 hx
        rcases dictInsert_mem k v d e he with rfl | he
        · simp only; omega
        · exact h.1 _ (List.mem_map_of_mem he)

theorem dictInsert_wf (k : Nat) (v : List (Prefab C)) (d : List (Nat × List (Prefab C)))
    (h : DictWF d) (hk : k < 65536) (hv : v ≠ []) (hf : ∀ f ∈ v, FabWF f) :
    DictWF (dictInsert k v d) where
  sorted := dictInsert_sorted k v d h.sorted
  keys e he := by
    rcases dictInsert_mem k v d e he with rfl | he
    · exact hk
    · exact h.keys e he
  ne e he := by
    rcases dictInsert_mem k v d e he with rfl | he
    · exact hv
    · exact h.ne e he
  fabs e he := by
    rcases dictInsert_mem k v d e he with rfl | he
    · exact hf
    · exact h.fabs e he

theorem fabWF_empty (p : List Char) : FabWF (⟨p, []⟩ : Prefab C) := by simp [FabWF]

theorem pushFab_inv (s : DState C) (h : DInv s) :
    DInv (pushFab s) ∧ (pushFab s).data ≠ [] := by
  obtain ⟨h1, h2, h3, h4⟩ := h
  unfold pushFab
  constructor
  · split
    · refine ⟨h1, h2, fabWF_empty _, ?_⟩
      intro f hf
      simp only [List.mem_append, List.mem_singleton] at hf
      rcases hf with hf | rfl
      · exact h4 f hf
      · exact h3
    · refine ⟨h1, h2, fabWF_empty _, ?_⟩
      intro f hf
      simp only [List.mem_append, List.mem_singleton] at hf
      rcases hf with hf | rfl
      · exact h4 f hf
      · exact h3
  · simp

theorem advanceKey_lt (a : Nat) (c : Char) (b : Nat) (h : advanceKey a c = some b) : b < 65536 := by
  unfold advanceKey at h
  cases hr : base52Reverse c with
  | none => rw [hr] at h; cases h
  | some d =>
    rw [hr] at h
    simp only [Option.bind_some, advanceDigit] at h
    split at h
    · simp at h; omega
    · cases h

theorem insertVar_inv (s : DState C) (k : DState C → Step (DState C)) (s' : DState C)
    (h : DInv s)
    (hk : ∀ t, DInv t → ∀ t', (k t = .cont t' ∨ k t = .brk t') → DInv t')
    (he : insertVar evalV s k = .cont s' ∨ insertVar evalV s k = .brk s') : DInv s' := by
  unfold insertVar at he
  cases hv : evalV s.datum with
  | none =>
    rw [hv] at he
    simp only at he
    cases hfk : formatKey s.keyLen s.key <;> rw [hfk] at he <;> simp at he
  | some v =>
    rw [hv] at he
    refine hk _ ?_ s' he
    exact ⟨h.dict, h.key, varsInsert_nodup _ _ _ h.fab, h.data⟩

theorem stepMain_inv (s s' : DState C) (c : Char) (h : DInv s)
    (he : stepMain evalV s c = .cont s' ∨ stepMain evalV s c = .brk s') : DInv s' := by
  have h' := h
  obtain ⟨h1, h2, h3, h4⟩ := h
  unfold stepMain at he
  split at he
  · split at he
    · split at he
      · unfold stepQuote at he
        split at he
        · simp at he; subst he; exact ⟨h1, h2, h3, h4⟩
        · split at he
          · simp at he; subst he; exact ⟨h1, h2, h3, h4⟩
          · split at he <;> (simp at he; subst he; exact ⟨h1, h2, h3, h4⟩)
      · unfold stepVar at he
        split at he
        · simp at he; subst he; exact ⟨h1, h2, h3, h4⟩
        · unfold stepVarCore at he
          split at he
          · simp at he; subst he; exact ⟨h1, h2, h3, h4⟩
          · split at he
            · simp at he; subst he; exact ⟨h1, h2, h3, h4⟩
            · split at he
              · refine insertVar_inv evalV { s with skipWs := false } _ s' ⟨h1, h2, h3, h4⟩ ?_ he
                intro t ht t' ht'
                simp at ht'; subst ht'; exact ⟨ht.dict, ht.key, ht.fab, ht.data⟩
              · split at he
                · split at he
                  · refine insertVar_inv evalV { s with skipWs := false } _ s' ⟨h1, h2, h3, h4⟩ ?_ he
                    intro t ht t' ht'
                    simp at ht'; subst ht'; exact ⟨ht.dict, ht.key, ht.fab, ht.data⟩
                  · simp at he; subst he; exact ⟨h1, h2, h3, h4⟩
                · simp at he; subst he; exact ⟨h1, h2, h3, h4⟩
    · unfold stepData at he
      split at he
      · simp at he; subst he; exact ⟨h1, h2, h3, h4⟩
      · split at he
        · simp at he; subst he; exact (pushFab_inv s h').1
        · split at he
          · simp at he; subst he
            obtain ⟨hp, hne⟩ := pushFab_inv s h'
            exact ⟨dictInsert_wf _ _ _ hp.dict hp.key hne hp.data, by simp, hp.fab, by simp⟩
          · simp at he; subst he; exact ⟨h1, h2, h3, h4⟩
  · split at he
    · unfold stepKey at he
      split at he
      · split at he
        · simp at he; subst he; exact ⟨h1, h2, h3, h4⟩
        · simp at he
      · split at he
        · simp at he
        · rename_i k hk
          split at he
          · simp at he; subst he; exact ⟨h1, advanceKey_lt _ _ _ hk, h3, h4⟩
          · simp at he
    · unfold stepTop at he
      split at he
      · simp at he; subst he; exact ⟨h1, h2, h3, h4⟩
      · split at he
        · split at he
          · simp at he; subst he; exact ⟨h1, by simp, h3, h4⟩
          · simp at he; subst he; exact ⟨h1, h2, h3, h4⟩
        · simp at he; subst he; exact ⟨h1, h2, h3, h4⟩

theorem step_inv (s s' : DState C) (c : Char) (h : DInv s)
    (he : step evalV s c = .cont s' ∨ step evalV s c = .brk s') : DInv s' := by
  obtain ⟨h1, h2, h3, h4⟩ := h
  unfold step at he
  split at he
  · simp at he; subst he; exact ⟨h1, h2, h3, h4⟩
  · split at he
    · simp at he; subst he; exact ⟨h1, h2, h3, h4⟩
    · split at he
      · simp at he; subst he; exact ⟨h1, h2, h3, h4⟩
      · split at he
        · split at he
          · simp at he; subst he; exact ⟨h1, h2, h3, h4⟩
          · exact stepMain_inv evalV _ s' c (by exact ⟨h1, h2, h3, h4⟩) he
        · exact stepMain_inv evalV _ s' c (by exact ⟨h1, h2, h3, h4⟩) he

theorem dictLoop_inv (t : List Char) : ∀ (s s' : DState C) (rest : List Char), DInv s →
    dictLoop evalV s t = .ok (s', rest) → DInv s' := by
  induction t with
  | nil => intro s s' rest h he; simp [dictLoop] at he; obtain ⟨rfl, -⟩ := he; exact h
  | cons c t ih =>
    intro s s' rest h he
    simp only [dictLoop] at he
    cases hs : step evalV s c with
    | cont s1 =>
      rw [hs] at he
      exact ih s1 s' rest (step_inv evalV s s1 c h (Or.inl hs)) he
    | brk s1 =>
      rw [hs] at he
      simp at he
      obtain ⟨rfl, -⟩ := he
      exact step_inv evalV s s1 c h (Or.inr hs)
    | err => rw [hs] at he; simp at he
    | panic => rw [hs] at he; simp at he

theorem gstep_cells (kl : Nat) (s s' : GState) (c : Char) (h : ∀ p ∈ s.grid, p.2 < 65536)
    (he : gstep kl s c = .ok s') : ∀ p ∈ s'.grid, p.2 < 65536 := by
  unfold gstep at he
  split at he
  · unfold gstepCoord at he
    split at he
    · split at he <;> simp at he
      · subst he; exact h
      · subst he; exact h
    · split at he
      · split at he <;> simp at he
        subst he; exact h
      · split at he
        · split at he <;> simp at he
          subst he; exact h
        · simp at he
  · split at he
    · unfold gstepStr at he
      split at he
      · split at he <;> simp at he
        subst he; exact h
      · split at he
        · simp at he; subst he; exact h
        · split at he
          · split at he
            · simp at he; subst he; exact h
            · split at he <;> simp at he
              subst he; exact h
          · split at he
            · simp at he
            · rename_i k hk
              split at he
              · split at he
                · split at he
                  · simp at he
                  · split at he <;> simp at he
                    subst he
                    intro p hp
                    simp only [List.mem_cons] at hp
                    rcases hp with rfl | hp
                    · exact advanceKey_lt _ _ _ hk
                    · exact h p hp
                · simp at he; subst he; exact h
              · simp at he
    · split at he
      · simp at he; subst he; exact h
      · split at he <;> (simp at he; subst he; exact h)

theorem gridLoop_cells (kl : Nat) (t : List Char) : ∀ (s s' : GState),
    (∀ p ∈ s.grid, p.2 < 65536) → gridLoop kl s t = .ok s' → ∀ p ∈ s'.grid, p.2 < 65536 := by
  induction t with
  | nil => intro s s' h he; simp [gridLoop] at he; subst he; exact h
  | cons c t ih =>
    intro s s' h he
    simp only [gridLoop] at he
    cases hs : gstep kl s c with
    | ok s1 => rw [hs] at he; exact ih s1 s' (gstep_cells kl s s1 c h hs) he
    | err => rw [hs] at he; simp at he
    | panic => rw [hs] at he; simp at he

theorem mapM_some_prop {α β : Type} (f : α → Option β) (P : β → Prop) (L : List α) : ∀ (l : List β),
    L.mapM f = some l → (∀ a ∈ L, ∀ b, f a = some b → P b) → l.length = L.length ∧ ∀ b ∈ l, P b := by
  induction L with
  | nil => intro l h _; simp at h; subst h; simp
  | cons a L ih =>
    intro l h hP
    rw [List.mapM_cons] at h
    cases ha : f a with
    | none => rw [ha] at h; simp at h
    | some b =>
      rw [ha] at h
      cases hL : L.mapM f with
      | none => rw [hL] at h; simp at h
      | some l' =>
        rw [hL] at h
        simp at h
        subst h
        obtain ⟨h1, h2⟩ := ih l' hL fun a ha => hP a (by simp [ha])
        refine ⟨by simp [h1], ?_⟩
        intro x hx
        simp only [List.mem_cons] at hx
        rcases hx with rfl | hx
        · exact hP a (by simp) _ ha
        · exact h2 x hx

/-- **C13.** Whatever the text of the file, if reading returns a map then: the dictionary is sorted
without duplicate keys and every entry has at least one prefab with distinct variable names; the
grid is a full `dim_z × dim_y × dim_x` array; and every key is a 16-bit value. -/
theorem read_map_wellformed (txt : List Char) (m : Map C) (h : parseMap evalV txt = .ok m) :
    ((m.dict.map Prod.fst).Pairwise (· < ·) ∧
      ∀ e ∈ m.dict, e.1 < 65536 ∧ e.2 ≠ [] ∧ ∀ f ∈ e.2, (f.vars.map Prod.fst).Nodup) ∧
    (m.grid.length = m.dimZ ∧
      ∀ l ∈ m.grid, l.length = m.dimY ∧ ∀ r ∈ l, r.length = m.dimX ∧ ∀ k ∈ r, k < 65536) := by
  unfold parseMap at h
  cases hd : dictLoop evalV {} (skipBom txt) with
  | err => rw [hd] at h; simp at h
  | panic => rw [hd] at h; simp at h
  | ok p =>
    obtain ⟨s, rest⟩ := p
    rw [hd] at h
    simp only at h
    have hinv := dictLoop_inv evalV _ _ _ _
      ⟨⟨by simp, by simp, by simp, by simp⟩, by simp, fabWF_empty _, by simp⟩ hd
    cases hg : gridLoop s.mapKeyLen {} rest with
    | err => rw [hg] at h; simp at h
    | panic => rw [hg] at h; simp at h
    | ok g =>
      rw [hg] at h
      simp only at h
      have hcells := gridLoop_cells _ _ _ _ (by simp) hg
      cases hb : buildGrid g.grid g.maxZ (max g.maxY g.y) g.maxX with
      | none => rw [hb] at h; simp at h
      | some cells =>
        rw [hb] at h
        simp only [Res.ok.injEq] at h
        subst h
        refine ⟨⟨hinv.dict.sorted, fun e he =>
          ⟨hinv.dict.keys e he, hinv.dict.ne e he, hinv.dict.fabs e he⟩⟩, ?_⟩
        simp only
        unfold buildGrid at hb
        have h1 := mapM_some_prop _ (fun l : List (List Nat) => l.length = max g.maxY g.y ∧
          ∀ r ∈ l, r.length = g.maxX ∧ ∀ k ∈ r, k < 65536) _ _ hb (by
            intro z _ l hl
            have h2 := mapM_some_prop _ (fun r : List Nat => r.length = g.maxX ∧
              ∀ k ∈ r, k < 65536) _ _ hl (by
                intro y _ r hr
                have h3 := mapM_some_prop _ (fun k : Nat => k < 65536) _ _ hr (by
                  intro x _ k hk
                  have : ∀ (g : List ((Nat × Nat × Nat) × Nat)) p k, gridGet g p = some k →
                      ∃ q ∈ g, q.2 = k := by
                    intro g
                    induction g with
                    | nil => intro p k h; simp [gridGet] at h
                    | cons q g ih =>
                      intro p k h
                      obtain ⟨q, w⟩ := q
                      rw [gridGet_cons] at h
                      split at h
                      · simp at h; exact ⟨(q, w), by simp, h⟩
                      · obtain ⟨q', hq', hk'⟩ := ih p k h
                        exact ⟨q', by simp [hq'], hk'⟩
                  obtain ⟨q, hq, rfl⟩ := this _ _ _ hk
                  exact hcells q hq)
                simpa using h3)
            simpa using h2)
        simpa using h1

/-! ### examples and disagreements

The values below are kept as their texts (`evalV := some`), except where noted. -/

/-- the result of reading, as the list of (key, paths) and the cells; `none` unless `Ok` -/
def summary (r : Res (Map (List Char))) : Option (List (Nat × List (List Char)) × List (List (List Nat))) :=
  match r with
  | .ok m => some (m.dict.map fun e => (e.1, e.2.map (·.path)), m.grid)
  | _ => none

/-- a classic (non-TGM) map with two rows of two tiles -/
example : summary (parseMap some
    "\"a\" = (/turf,/area)\n\"b\" = (/turf{dir = 4},/area)\n\n(1,1,1) = {\"\nab\nbb\n\"}\n".toList) =
    some ([(0, ["/turf".toList, "/area".toList]), (1, ["/turf".toList, "/area".toList])],
      [[[0, 1], [1, 1]]]) := by decide

/-- the same cell twice: error -/
example : parseMap some "\"a\" = (/turf)\n(1,1,1) = {\"\na\n\"}\n(1,1,1) = {\"\na\n\"}\n".toList =
    .err := by decide

example : (∀ b ∈ [Block.mk 1 1 1 [] [[0, 1], [1, 1]]], BlockOk b) ∧
    catOpt ([Block.mk 1 1 1 [] [[0, 1], [1, 1]]].map (blockText 1)) =
      some "(1,1,1) = {\"\nab\nbb\n\"}\n".toList := by
  refine ⟨?_, by decide⟩
  intro b hb
  simp only [List.mem_singleton] at hb
  subst hb
  exact ⟨by decide, by decide, by decide, by decide, by decide, by decide, by decide, by decide⟩

/-- **Disagreement (C13).** Malformed files can make the reader panic instead of returning an error:
dictionary keys of different lengths (read.rs:167), and a coordinate with two components
(read.rs:232). -/
theorem reader_panics_on_malformed :
    parseMap some "\"a\" = (/turf)\n\"ab\" = (/turf)\n".toList = .panic ∧
    parseMap some "\"a\" = (/turf)\n(1,1) = {\"\na\n\"}".toList = .panic := by decide

/-- **Disagreement (C13).** Grid keys are not checked against the dictionary. -/
theorem reader_accepts_unknown_key :
    summary (parseMap some "\"a\" = (/turf)\n(1,1,1) = {\"\nb\n\"}".toList) =
      some ([(0, ["/turf".toList])], [[[1]]]) := by decide

/-- **Disagreement (C13).** When the last block is shorter than an earlier one, the extra rows of
the earlier block are silently dropped (`max_y` is only updated after the last block,
read.rs:283). -/
theorem reader_drops_rows :
    summary (parseMap some
      "\"a\" = (/turf)\n(1,1,1) = {\"\na\na\n\"}\n(2,1,1) = {\"\na\n\"}".toList) =
      some ([(0, ["/turf".toList])], [[[0, 0]]]) := by decide

/-- `str::contains` for a text -/
def containsText (pat : List Char) : List Char → Bool
  | [] => pat.isPrefixOf []
  | c :: r => pat.isPrefixOf (c :: r) || containsText pat r

/-- `Quote` (lexer.rs:357-373) on a string whose escapes have not been parsed -/
def quoteDisplay (s : List Char) : List Char :=
  if containsText ['"', '}'] s then "@@".toList ++ s ++ ['@']
  else if s.contains '"' || s.contains '\n' then "{\"".toList ++ s ++ "\"}".toList
  else ['"'] ++ s ++ ['"']

/-- **Disagreement (C12).** A string value containing an escaped quote is written in the `{"…"}`
form, whose closing brace the reader takes for the end of the variable block: after a save, the
path of the *next* prefab comes back with a `}` in front of it. -/
theorem roundtrip_corrupts_quoted_string :
    let m : Map (List Char) := ⟨1, [(0, [⟨"/obj".toList, [("name".toList, "a\\\"b".toList)]⟩,
      ⟨"/turf".toList, []⟩])], 1, 1, 1, [[[0]]]⟩
    ∃ txt, saveMap quoteDisplay m = some txt ∧
      summary (parseMap some txt) =
        some ([(0, ["/obj".toList, "}/turf".toList])], [[[0]]]) := by
  refine ⟨_, rfl, ?_⟩
  decide

/-- **Disagreement (C12).** A string value ending in an escaped backslash is also not read back: the
reader takes the closing quote for an escaped one and swallows the rest of the file. -/
theorem roundtrip_loses_map_on_trailing_backslash :
    let m : Map (List Char) := ⟨1, [(0, [⟨"/obj".toList, [("name".toList, "a\\\\".toList)]⟩,
      ⟨"/turf".toList, []⟩])], 1, 1, 1, [[[0]]]⟩
    ∃ txt, saveMap quoteDisplay m = some txt ∧ summary (parseMap some txt) = some ([], []) := by
  refine ⟨_, rfl, ?_⟩
  decide

/-- **Disagreement (C12).** A map with an empty dictionary (`Map::with_empty_dictionary`) does not
survive a save: the grid is taken for dictionary data. -/
theorem roundtrip_empty_dictionary :
    let m : Map (List Char) := ⟨1, [], 1, 1, 1, [[[0]]]⟩
    ∃ txt, saveMap id m = some txt ∧ parseMap some txt ≠ .ok m := by
  refine ⟨_, rfl, ?_⟩
  decide

end Verif.Dmm
