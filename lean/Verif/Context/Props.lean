import Verif.Context.Lemmas

/-! # Properties C05–C08: locations, annotations, file ids, diagnostics configuration -/

namespace Verif.Context

open Verif.IntervalTree

/-! ## C06 -/

/-- **C06.** Location comparison is comparison of `(file, line, column)` in that order, and agrees
with the packed 64-bit number, which determines the location. -/
theorem location_order (a b : Location) :
    (a < b ↔ a.file < b.file ∨ a.file = b.file ∧
      (a.line < b.line ∨ a.line = b.line ∧ a.column < b.column)) ∧
    (a < b ↔ a.pack < b.pack) ∧ (a = b ↔ a.pack = b.pack) ∧ a.pack < 2 ^ 64 :=
  ⟨loc_lt_iff a b, pack_lt_iff a b, ⟨fun h => h ▸ rfl, pack_inj⟩, by
    rw [pack_eq]
    have := a.file.isLt; have := a.line.isLt; have := a.column.isLt
    omega⟩

/-- **C06.** `pred` panics exactly on the lowest location; `Location::default()` is its own `pred`;
everywhere else `pred` is the greatest location strictly below. -/
theorem location_pred (l : Location) :
    (l.pred = none ↔ l = .lowest) ∧ (l = .default → l.pred = some l) ∧
    (l ≠ .lowest → l ≠ .default →
      ∃ p, l.pred = some p ∧ p < l ∧ ∀ x, x < l → x ≤ p) := by
  refine ⟨⟨?_, ?_⟩, ?_, ?_⟩
  · intro h
    by_contra hne
    by_cases hd : l = .default
    · subst hd; revert h; decide
    · obtain ⟨p, hp, -⟩ := pred_pack l hne hd
      rw [hp] at h; cases h
  · rintro rfl; decide
  · rintro rfl; decide
  · intro h0 h1
    obtain ⟨p, hp, e⟩ := pred_pack l h0 h1
    refine ⟨p, hp, (pack_lt_iff _ _).mpr (by omega), fun x hx => ?_⟩
    rw [pack_lt_iff] at hx
    rw [pack_le_iff]; omega

example : (Location.mk 3 1 0).pred = some (Location.mk 3 0 0xffff) ∧
    (Location.mk 3 0 0).pred = some (Location.mk 2 0xffffffff 0xffff) ∧
    Location.mk 3 0 0 ≠ .lowest ∧ Location.mk 3 0 0 ≠ .default :=
  ⟨by decide, by decide, by decide, by decide⟩

/-- `add_columns` moves right by exactly `n` packed positions within the line, and is undefined
(overflow) exactly when the 16-bit column would wrap. -/
theorem location_add_columns (l : Location) (n : Nat) :
    (l.addColumns n = none ↔ 65535 < l.column.val + n) ∧
    ∀ l', l.addColumns n = some l' →
      l'.pack = l.pack + n ∧ l'.file = l.file ∧ l'.line = l.line := by
  unfold Location.addColumns
  constructor
  · split <;> simp <;> omega
  · intro l' h
    split at h
    · cases h
      rw [pack_eq, pack_eq]
      exact ⟨by simp only [mk_file, mk_line, mk_column]; omega, rfl, rfl⟩
    · cases h

example : (Location.mk 1 2 3).addColumns 4 = some (Location.mk 1 2 7) ∧
    (Location.mk 1 2 3).addColumns 65533 = none := ⟨by decide, by decide⟩

/-! ## C05 -/

variable {A : Type}

/-- an annotation tree built by inserts and a merge -/
def demoBuild : Build Nat :=
  .merge (.insert (.insert .empty (.mk 1 1 1) (.mk 1 1 5) 10) (.mk 1 1 3) (.mk 1 2 1) 20)
    (.insert .empty (.mk 1 1 5) (.mk 1 1 9) 30)

/-- **C05.** For every way of building an annotation tree with `insert(start..end, a)` and `merge`
(no end being the lowest location), nothing panics, `len` counts the annotations, and for every `loc` other than the
two degenerate ones `get_location(loc)` yields — each once — exactly the annotations whose range
satisfies `start ≤ loc ≤ end`. -/
theorem annotations_at_location (b : Build A) (loc : Location)
    (hends : ∀ e ∈ b.entries, e.2.1 ≠ .lowest ∧ e.2.1 ≠ .default)
    (hloc : loc ≠ .lowest ∧ loc ≠ .default) :
    ∃ (t : AnnotationTree A) (it : RangeIter Location A) (xs : List (Range Location × A)),
      b.run = some t ∧ t.len = b.entries.length ∧ t.getLocation loc = some it ∧
      (∀ n, it.nth n = xs[n]?) ∧
      (xs.map Prod.snd).Perm
        ((b.entries.filter fun e => decide (e.1 ≤ loc ∧ loc ≤ e.2.1)).map fun e => e.2.2) := by
  obtain ⟨t, e, hi, hlen, st, hst, hl⟩ := build_spec b (fun e he => (hends e he).1)
  obtain ⟨p, hp, hpp⟩ := pred_pack loc hloc.1 hloc.2
  obtain ⟨xs, hxs, hL⟩ := range_inv t.tree hi (mkRange p loc)
  refine ⟨t, range t.tree (mkRange p loc), xs, e, hlen, by simp [AnnotationTree.getLocation, hp],
    hxs, ?_⟩
  rw [← query_perm st b.entries hst (mkRange p loc)]
  · apply List.Perm.map
    apply perm_of_values
    intro k
    rw [hL.2 k, List.filter_filter]
    beta_reduce
    by_cases hc : (mkRange p loc).lo ≤ k.hi ∧ k.lo ≤ (mkRange p loc).hi
    · rw [if_pos hc, hl]
      congr 1
      apply List.filter_congr
      intro x _
      by_cases hk : x.1 = k
      · subst hk; simp only [hc, decide_true, Bool.and_self, and_self]
      · simp [hk]
    · rw [if_neg hc]
      symm
      rw [List.map_eq_nil_iff, List.filter_eq_nil_iff]
      intro x _
      by_cases hk : x.1 = k
      · subst hk
        simp only [decide_true, Bool.true_and, decide_eq_true_eq]; exact hc
      · simp [hk]
  · intro e he p' hp'
    obtain ⟨p2, hp2, hpp2⟩ := pred_pack e.2.1 (hends e he).1 (hends e he).2
    rw [hp'] at hp2
    cases hp2
    rw [decide_eq_true_eq]
    change e.1 ≤ loc ∧ loc ≤ e.2.1 ↔ p ≤ p' ∧ e.1 ≤ loc
    rw [pack_le_iff loc, pack_le_iff p]
    constructor
    · rintro ⟨h1, h2⟩; exact ⟨by omega, h1⟩
    · rintro ⟨h1, h2⟩; exact ⟨h2, by omega⟩

/-- **C05.** `get_range(start..end)` yields exactly the annotations whose half-open range
`[s, e)` meets `[start, end)` in the sense `start < e` and `s < end`. -/
theorem annotations_in_range (b : Build A) (start stop : Location)
    (hends : ∀ e ∈ b.entries, e.2.1 ≠ .lowest ∧ e.2.1 ≠ .default)
    (hstop : stop ≠ .lowest ∧ stop ≠ .default) :
    ∃ (t : AnnotationTree A) (it : RangeIter Location A) (xs : List (Range Location × A)),
      b.run = some t ∧ t.getRange start stop = some it ∧
      (∀ n, it.nth n = xs[n]?) ∧
      (xs.map Prod.snd).Perm
        ((b.entries.filter fun e => decide (start < e.2.1 ∧ e.1 < stop)).map fun e => e.2.2) := by
  obtain ⟨t, e, hi, hlen, st, hst, hl⟩ := build_spec b (fun e he => (hends e he).1)
  obtain ⟨p, hp, hpp⟩ := pred_pack stop hstop.1 hstop.2
  obtain ⟨xs, hxs, hL⟩ := range_inv t.tree hi (mkRange start p)
  refine ⟨t, range t.tree (mkRange start p), xs, e, by simp [AnnotationTree.getRange, hp],
    hxs, ?_⟩
  rw [← query_perm st b.entries hst (mkRange start p)]
  · apply List.Perm.map
    apply perm_of_values
    intro k
    rw [hL.2 k, List.filter_filter]
    beta_reduce
    by_cases hc : (mkRange start p).lo ≤ k.hi ∧ k.lo ≤ (mkRange start p).hi
    · rw [if_pos hc, hl]
      congr 1
      apply List.filter_congr
      intro x _
      by_cases hk : x.1 = k
      · subst hk; simp only [hc, decide_true, Bool.and_self, and_self]
      · simp [hk]
    · rw [if_neg hc]
      symm
      rw [List.map_eq_nil_iff, List.filter_eq_nil_iff]
      intro x _
      by_cases hk : x.1 = k
      · subst hk
        simp only [decide_true, Bool.true_and, decide_eq_true_eq]; exact hc
      · simp [hk]
  · intro e he p' hp'
    obtain ⟨p2, hp2, hpp2⟩ := pred_pack e.2.1 (hends e he).1 (hends e he).2
    rw [hp'] at hp2
    cases hp2
    rw [decide_eq_true_eq]
    change start < e.2.1 ∧ e.1 < stop ↔ start ≤ p' ∧ e.1 ≤ p
    rw [pack_le_iff start, pack_le_iff e.1, pack_lt_iff start, pack_lt_iff e.1]
    omega

example : (∀ e ∈ demoBuild.entries, e.2.1 ≠ .lowest ∧ e.2.1 ≠ .default) ∧
    (Location.mk 1 1 5 ≠ .lowest ∧ Location.mk 1 1 5 ≠ .default) ∧
    ((demoBuild.entries.filter fun e =>
      decide (e.1 ≤ Location.mk 1 1 5 ∧ Location.mk 1 1 5 ≤ e.2.1)).map fun e => e.2.2)
        = [10, 20, 30] := by decide

/-! ## C07 -/

variable {P : Type} [DecidableEq P]

/-- **C07.** In every history of registrations that does not hit the file limit panic: the id returned for
the `i`-th path is never the builtins id, maps back to that path in the final state (`get_path`,
`get_id`), equal paths got equal ids and different paths different ids. -/
theorem file_ids_stable (ps : List P) (ids : List Nat) (l : FileList P)
    (h : FileList.empty.registerAll ps = some (ids, l)) :
    ids.length = ps.length ∧
    (∀ i j (hi : i < ps.length) (hj : j < ps.length), ids[i]? = ids[j]? ↔ ps[i] = ps[j]) ∧
    (∀ i (hi : i < ps.length), ∃ id, ids[i]? = some id ∧ id ≠ 0 ∧ id ≤ 0xffff ∧
      l.getPath id = some (.path ps[i]) ∧ l.getId ps[i] = some id ∧
      l.register ps[i] = some (id, l)) := by
  obtain ⟨hI, -, hlen, hall, -⟩ := registerAll_spec ps _ flInv_empty h
  refine ⟨hlen, ?_, ?_⟩
  · intro i j hi hj
    obtain ⟨a, a1, a2, a3, a4⟩ := hall i hi
    obtain ⟨b, b1, b2, b3, b4⟩ := hall j hj
    rw [a1, b1]
    constructor
    · intro e; cases e; rw [a4] at b4; exact Option.some.inj b4
    · intro e
      have h1 := (getId_some l hI ps[i] a).mpr ⟨a2, a4⟩
      have h2 := (getId_some l hI ps[j] b).mpr ⟨b2, b4⟩
      rw [e, h2] at h1; exact h1.symm
  · intro i hi
    obtain ⟨a, a1, a2, a3, a4⟩ := hall i hi
    have hg := (getId_some l hI ps[i] a).mpr ⟨a2, a4⟩
    refine ⟨a, a1, by omega, a3, ?_, hg, by simp [FileList.register, hg]⟩
    have : a - 1 < l.files.length := by
      by_contra hc; rw [List.getElem?_eq_none (by omega)] at a4; cases a4
    unfold FileList.getPath
    rw [if_neg (by omega)]
    simp only
    rw [if_neg (by omega), a4]; rfl

/-- **C07.** A history registering at most `0xfffe` distinct paths never panics and never returns
`FILEID_BAD` (= `0xffff`). -/
theorem file_ids_within_limit (ps : List P) (hd : ps.dedup.length ≤ 0xfffe) :
    ∃ ids l, FileList.empty.registerAll ps = some (ids, l) ∧ ∀ id ∈ ids, id ≤ 0xfffe := by
  -- generalise over a start state whose files come from an earlier prefix
  have key : ∀ (qs : List P) (l : FileList P), FLInv l →
      (∀ (fs : List P), fs.Nodup → (∀ p ∈ fs, p ∈ l.files ∨ p ∈ qs) → fs.length ≤ 0xfffe) →
      ∃ ids l', l.registerAll qs = some (ids, l') ∧ l'.files.length ≤ 0xfffe := by
    intro qs
    induction qs with
    | nil =>
      intro l hI hb
      exact ⟨[], l, rfl, hb l.files hI.nodup (fun p hp => Or.inl hp)⟩
    | cons q qs ih =>
      intro l hI hb
      have hr : ∃ id l1, l.register q = some (id, l1) := by
        unfold FileList.register
        cases hg : l.getId q with
        | some i => exact ⟨i, l, rfl⟩
        | none =>
          have := hb l.files hI.nodup (fun p hp => Or.inl hp)
          simp only
          rw [if_neg (by omega)]
          exact ⟨_, _, rfl⟩
      obtain ⟨id, l1, hr⟩ := hr
      obtain ⟨hI1, g1, -, -, -, -⟩ := register_spec l hI q hr
      have hsub : ∀ p ∈ l1.files, p ∈ l.files ∨ p = q := by
        unfold FileList.register at hr
        cases hg : l.getId q with
        | some i => rw [hg] at hr; simp only [Option.some.injEq, Prod.mk.injEq] at hr
                    rw [← hr.2]; exact fun p hp => Or.inl hp
        | none =>
          rw [hg] at hr
          simp only at hr
          split at hr
          · cases hr
          · cases hr; intro p hp; simpa using hp
      obtain ⟨ids, l', e, hl'⟩ := ih l1 hI1 (fun fs hn hm => hb fs hn (fun p hp => by
        rcases hm p hp with h | h
        · rcases hsub p h with h | h
          · exact Or.inl h
          · exact Or.inr (by simp [h])
        · exact Or.inr (by simp [h])))
      exact ⟨id :: ids, l', by simp [FileList.registerAll, hr, e], hl'⟩
  obtain ⟨ids, l, e, hl⟩ := key ps .empty flInv_empty (by
    intro fs hn hm
    have : fs ⊆ ps.dedup := by
      intro p hp
      rcases hm p hp with h | h
      · simp [FileList.empty] at h
      · exact List.mem_dedup.mpr h
    exact le_trans (List.Subperm.length_le (hn.subperm this)) hd)
  exact ⟨ids, l, e, (registerAll_spec ps _ flInv_empty e).2.2.2.2 hl⟩

example : (["a.dm", "b.dm", "a.dm", "c.dm"] : List String).dedup.length ≤ 0xfffe ∧
    ((FileList.empty.registerAll ["a.dm", "b.dm", "a.dm", "c.dm"]).map Prod.fst) =
      some [1, 2, 1, 3] := by decide

/-- Disagreement: the file limit is off by one — the `0xffff`-th distinct file is given the reserved
`FILEID_BAD` (which is also the file id of `Location::default()`). -/
theorem file_limit_hands_out_bad_id :
    ∃ (ps : List Nat) (ids : List Nat) (l : FileList Nat),
      FileList.empty.registerAll ps = some (ids, l) ∧ ids.getLast? = some fileIdBad.val := by
  have key : ∀ n m (l : FileList Nat), FLInv l → l.files = List.range m → m + n ≤ 0xffff →
      ∃ l', l.registerAll (List.range' m n) = some (List.range' (m + 1) n, l') := by
    intro n
    induction n with
    | zero => intro m l _ _ _; exact ⟨l, rfl⟩
    | succ n ih =>
      intro m l hI hl hb
      have hg : l.getId m = none := (getId_none l hI m).mpr (by rw [hl]; simp)
      have hr : l.register m = some (m + 1, ⟨l.files ++ [m], l.reverse ++ [(m, m + 1)]⟩) := by
        unfold FileList.register
        rw [hg]
        have : l.files.length = m := by rw [hl]; simp
        simp only [this]
        rw [if_neg (by omega)]
      obtain ⟨l', e⟩ := ih (m + 1) _ (register_spec l hI m hr).1
        (by simp [hl, List.range_succ]) (by omega)
      refine ⟨l', ?_⟩
      rw [List.range'_succ, FileList.registerAll, hr]
      simp only
      rw [e]
      simp [List.range'_succ]
  obtain ⟨l', e⟩ := key 0xffff 0 .empty flInv_empty rfl (by omega)
  refine ⟨_, _, l', e, ?_⟩
  rw [List.getLast?_range']
  decide

/-- Disagreement: the bounds guard in `get_path` is off by one, so looking up the first unassigned id
panics instead of answering "(unknown)". -/
theorem get_path_panics_on_next_id :
    (FileList.empty : FileList Nat).getPath 1 = none ∧
    (FileList.empty : FileList Nat).getPath 2 = some .unknown := by decide

/-! ## C08 -/

variable {B : Type}

/-- the override configured for a diagnostic, as a severity rank, if there is one -/
def overrideRank : WarningLevel → Option Nat
  | .error => some 1 | .warning => some 2 | .info => some 3 | .hint => some 4
  | .disabled => none | .unset => none

/-- what the documentation promises for one diagnostic: nothing if its type is disabled, otherwise
the diagnostic with the overridden severity provided this severity is within the error level. -/
def Reported (c : Config) (e e' : DMError B) : Prop :=
  let ov : Option WarningLevel := e.errortype.bind c.diagnostics
  ov ≠ some .disabled ∧ e'.errortype = e.errortype ∧ e'.body = e.body ∧
  e'.severity.rank = ((ov.bind overrideRank).getD e.severity.rank) ∧
  c.errorLevel ≠ .disabled ∧
  ∀ m, overrideRank c.errorLevel = some m → e'.severity.rank ≤ m

theorem setConfiguredSeverity_spec (c : Config) (e : DMError B) :
    (e.errortype.bind c.diagnostics = some .disabled ∧ c.setConfiguredSeverity e = none) ∨
    (e.errortype.bind c.diagnostics ≠ some .disabled ∧ ∃ s0 : Severity,
      c.setConfiguredSeverity e = some { e with severity := s0 } ∧
      s0.rank = (((e.errortype.bind c.diagnostics).bind overrideRank).getD e.severity.rank)) := by
  obtain ⟨sev, ty, body⟩ := e
  unfold Config.setConfiguredSeverity Config.warningLevel
  cases ty with
  | none => right; exact ⟨by simp, sev, rfl, rfl⟩
  | some t =>
    simp only [Option.bind_some]
    cases hd : c.diagnostics t with
    | none => right; exact ⟨by simp, sev, rfl, rfl⟩
    | some w =>
      cases w with
      | disabled => left; exact ⟨rfl, rfl⟩
      | error => right; exact ⟨by simp, .error, rfl, rfl⟩
      | warning => right; exact ⟨by simp, .warning, rfl, rfl⟩
      | info => right; exact ⟨by simp, .info, rfl, rfl⟩
      | hint => right; exact ⟨by simp, .hint, rfl, rfl⟩
      | unset => right; exact ⟨by simp, sev, rfl, rfl⟩

/-- **C08.** Registering a diagnostic appends exactly what `Reported` allows (at most one
diagnostic), and nothing if nothing is allowed. -/
theorem register_error_exact (c : Config) (errs : List (DMError B)) (e : DMError B) :
    (∃ e', Reported c e e' ∧ registerError c errs e = errs ++ [e']) ∨
    ((∀ e', ¬ Reported c e e') ∧ registerError c errs e = errs) := by
  have hrank : ∀ s s' : Severity, s.rank = s'.rank → s = s' := by
    intro s s'; cases s <;> cases s' <;> simp [Severity.rank]
  unfold registerError
  rcases setConfiguredSeverity_spec c e with ⟨h1, h2⟩ | ⟨h1, s0, h2, h3⟩
  · right
    rw [h2]
    exact ⟨fun e' h => h.1 h1, rfl⟩
  · rw [h2]
    simp only
    by_cases ha : c.errorLevel.appliesTo s0 = true
    · left
      refine ⟨{ e with severity := s0 }, ⟨h1, rfl, rfl, h3, ?_, ?_⟩, by simp [ha]⟩
      · intro h; rw [h] at ha; simp [WarningLevel.appliesTo] at ha
      · intro m hm
        cases hl : c.errorLevel <;> rw [hl] at ha hm <;>
          simp_all [WarningLevel.appliesTo, overrideRank] <;> simpa [Severity.rank, ← hm] using ha
    · right
      refine ⟨?_, by simp [ha]⟩
      rintro e' ⟨-, -, -, h4, h5, h6⟩
      have : e'.severity = s0 := hrank _ _ (by rw [h3, h4])
      rw [this] at h6
      apply ha
      cases hl : c.errorLevel <;> rw [hl] at h5 h6 <;>
        simp_all [WarningLevel.appliesTo, overrideRank] <;> simpa [Severity.rank] using h6

/-- **C08.** Over a whole run, a less strict error level reports a superset, in the same order. -/
theorem error_level_monotone (d : String → Option WarningLevel) (w w' : WarningLevel)
    (hw : ∀ s, w.appliesTo s = true → w'.appliesTo s = true) (es : List (DMError B)) :
    (es.foldl (registerError ⟨w, d⟩) []).Sublist (es.foldl (registerError ⟨w', d⟩) []) := by
  have key : ∀ (xs ys : List (DMError B)), xs.Sublist ys →
      (es.foldl (registerError ⟨w, d⟩) xs).Sublist (es.foldl (registerError ⟨w', d⟩) ys) := by
    induction es with
    | nil => intro xs ys h; exact h
    | cons e es ih =>
      intro xs ys h
      simp only [List.foldl_cons]
      apply ih
      unfold registerError
      have e1 : (Config.mk w d).setConfiguredSeverity e =
          (Config.mk w' d).setConfiguredSeverity e := rfl
      rw [← e1]
      cases hc : (Config.mk w d).setConfiguredSeverity e with
      | none => exact h
      | some e' =>
        by_cases ha : w.appliesTo e'.severity = true
        · simp [ha, hw _ ha, h]
        · simp only [ha]
          by_cases ha' : w'.appliesTo e'.severity = true
          · simp only [ha']
            simpa using h.trans (List.sublist_append_left ys [e'])
          · simpa [ha'] using h
  exact key [] [] (List.Sublist.refl _)

example : (∀ s, WarningLevel.warning.appliesTo s = true → WarningLevel.hint.appliesTo s = true) ∧
    ([⟨.info, some "a", 1⟩, ⟨.error, none, 2⟩, ⟨.hint, some "b", 3⟩] : List (DMError Nat)).foldl
      (registerError ⟨.warning, fun t => if t = "a" then some .warning else if t = "b" then some .disabled else none⟩) []
      = [⟨.warning, some "a", 1⟩, ⟨.error, none, 2⟩] :=
  ⟨by intro s; cases s <;> decide, by decide⟩

end Verif.Context
