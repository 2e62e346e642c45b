import Verif.Context.Model
import Verif.IntervalTree.Lemmas2

/-! Proof internals. -/

namespace Verif.Context

open Verif.IntervalTree

theorem pack_eq (l : Location) :
    l.pack = l.file.val * 2 ^ 48 + l.line.val * 2 ^ 16 + l.column.val := by
  unfold Location.pack
  rw [Nat.shiftLeft_eq, Nat.shiftLeft_eq]
  have h1 : l.line.val * 2 ^ 16 < 2 ^ 48 := by have := l.line.isLt; omega
  have h2 : l.column.val < 2 ^ 16 := by have := l.column.isLt; omega
  have e1 : l.file.val * 2 ^ 48 ||| l.line.val * 2 ^ 16 =
      l.file.val * 2 ^ 48 + l.line.val * 2 ^ 16 := by
    rw [Nat.mul_comm l.file.val]
    exact (Nat.two_pow_add_eq_or_of_lt h1 _).symm
  rw [e1]
  have e2 : l.file.val * 2 ^ 48 + l.line.val * 2 ^ 16 =
      2 ^ 16 * (l.file.val * 2 ^ 32 + l.line.val) := by omega
  rw [e2]
  exact (Nat.two_pow_add_eq_or_of_lt h2 _).symm

theorem loc_lt_iff (a b : Location) : a < b ↔
    a.file < b.file ∨ a.file = b.file ∧ (a.line < b.line ∨ a.line = b.line ∧ a.column < b.column) := by
  rw [Prod.Lex.lt_iff]
  rw [Prod.Lex.lt_iff]
  rfl

theorem pack_lt_iff (a b : Location) : a < b ↔ a.pack < b.pack := by
  rw [loc_lt_iff, pack_eq, pack_eq]
  have := a.line.isLt
  have := a.column.isLt
  have := b.line.isLt
  have := b.column.isLt
  simp only [Fin.lt_def, Fin.ext_iff]
  omega

theorem pack_le_iff (a b : Location) : a ≤ b ↔ a.pack ≤ b.pack := by
  rw [← not_lt, pack_lt_iff, not_lt]

theorem pack_inj {a b : Location} (h : a.pack = b.pack) : a = b :=
  le_antisymm ((pack_le_iff a b).mpr h.le) ((pack_le_iff b a).mpr h.ge)

@[simp] theorem mk_file (f l c) : (Location.mk f l c).file = f := rfl
@[simp] theorem mk_line (f l c) : (Location.mk f l c).line = l := rfl
@[simp] theorem mk_column (f l c) : (Location.mk f l c).column = c := rfl

theorem loc_ext (l : Location) : l = Location.mk l.file l.line l.column := rfl

theorem pred_pack (l : Location) (h0 : l ≠ .lowest) (h1 : l ≠ .default) :
    ∃ p, l.pred = some p ∧ p.pack + 1 = l.pack := by
  unfold Location.pred
  have hf := l.file.isLt
  have hl := l.line.isLt
  have hc := l.column.isLt
  split
  · rename_i h
    refine ⟨_, rfl, ?_⟩
    rw [pack_eq, pack_eq]
    simp only [mk_file, mk_line, mk_column]
    have : l.column.val ≠ 0 := fun e => h (Fin.ext e)
    omega
  · rename_i h
    have c0 : l.column.val = 0 := by
      have := not_not.mp h; rw [this]; rfl
    split
    · rename_i h
      refine ⟨_, rfl, ?_⟩
      rw [pack_eq, pack_eq]
      simp only [mk_file, mk_line, mk_column, c0]
      have : l.line.val ≠ 0 := fun e => h (Fin.ext e)
      have e : (0xffff : Fin 65536).val = 65535 := rfl
      rw [e]; omega
    · rename_i hl'
      have l0 : l.line.val = 0 := by
        have := not_not.mp hl'; rw [this]; rfl
      split
      · rename_i hb
        exact absurd (by rw [loc_ext l, not_not.mp h, not_not.mp hl', hb]; rfl) h1
      · split
        · rename_i hf0
          refine ⟨_, rfl, ?_⟩
          rw [pack_eq, pack_eq]
          simp only [mk_file, mk_line, mk_column, c0, l0]
          have : l.file.val ≠ 0 := fun e => hf0 (Fin.ext e)
          have e : (0xffff : Fin 65536).val = 65535 := rfl
          have e' : (0xffffffff : Fin 4294967296).val = 4294967295 := rfl
          rw [e, e']; omega
        · rename_i hf0
          exact absurd (by rw [loc_ext l, not_not.mp h, not_not.mp hl', not_not.mp hf0]; rfl) h0

/-! file list -/

variable {P : Type} [DecidableEq P]

structure FLInv (l : FileList P) : Prop where
  nodup : l.files.Nodup
  rev : l.reverse = l.files.zipIdx.map fun e => (e.1, e.2 + 1)
  bound : l.files.length ≤ 0xffff

theorem getId_some (l : FileList P) (h : FLInv l) (p : P) (i : Nat) :
    l.getId p = some i ↔ 0 < i ∧ l.files[i - 1]? = some p := by
  unfold FileList.getId
  rw [h.rev]
  constructor
  · intro hh
    rw [Option.map_eq_some_iff] at hh
    obtain ⟨a, ha, rfl⟩ := hh
    have h1 := List.find?_some ha
    have h2 := List.mem_of_find?_eq_some ha
    simp only [decide_eq_true_eq] at h1
    simp only [List.mem_map] at h2
    obtain ⟨⟨q, j⟩, hb, rfl⟩ := h2
    have h3 := List.mem_zipIdx_iff_getElem?.mp hb
    simp only at h1 h3 ⊢
    subst h1
    exact ⟨by omega, by simpa using h3⟩
  · rintro ⟨hi, hp⟩
    obtain ⟨j, rfl⟩ : ∃ j, i = j + 1 := ⟨i - 1, by omega⟩
    simp only [Nat.add_sub_cancel] at hp
    have hmem : (p, j + 1) ∈ l.files.zipIdx.map (fun e => (e.1, e.2 + 1)) := by
      rw [List.mem_map]
      exact ⟨(p, j), List.mem_zipIdx_iff_getElem?.mpr (by simpa using hp), rfl⟩
    cases hf : (l.files.zipIdx.map (fun e => (e.1, e.2 + 1))).find? (fun e => e.1 = p) with
    | none =>
      rw [List.find?_eq_none] at hf
      exact absurd (hf _ hmem) (by simp)
    | some q =>
      have h1 := List.find?_some hf
      have h2 := List.mem_of_find?_eq_some hf
      simp only [decide_eq_true_eq] at h1
      simp only [List.mem_map] at h2
      obtain ⟨⟨q', j'⟩, hb, rfl⟩ := h2
      have h3 := List.mem_zipIdx_iff_getElem?.mp hb
      simp only at h1 h3
      subst h1
      have hj : j < l.files.length := by
        by_contra hc; rw [List.getElem?_eq_none (by omega)] at hp; cases hp
      have hj' : j' < l.files.length := by
        by_contra hc; rw [List.getElem?_eq_none (by omega)] at h3; cases h3
      rw [List.getElem?_eq_getElem hj] at hp
      rw [List.getElem?_eq_getElem hj'] at h3
      have := (List.Nodup.getElem_inj_iff h.nodup).mp
        ((Option.some.inj h3).trans (Option.some.inj hp).symm)
      simp [this]

theorem getId_none (l : FileList P) (h : FLInv l) (p : P) : l.getId p = none ↔ p ∉ l.files := by
  constructor
  · intro hn hm
    obtain ⟨i, hi, e⟩ := List.getElem_of_mem hm
    have : l.getId p = some (i + 1) := by
      rw [getId_some l h]
      exact ⟨by omega, by simp [List.getElem?_eq_getElem hi, e]⟩
    rw [hn] at this; cases this
  · intro hn
    cases hg : l.getId p with
    | none => rfl
    | some i =>
      rw [getId_some l h] at hg
      exact absurd (List.mem_of_getElem? hg.2) hn

theorem register_spec (l : FileList P) (h : FLInv l) (p : P) {id l'}
    (e : l.register p = some (id, l')) :
    FLInv l' ∧ l'.files[id - 1]? = some p ∧ 0 < id ∧ id ≤ 0xffff ∧ (∃ ext, l'.files = l.files ++ ext) ∧
      (l'.files.length ≤ 0xfffe → id ≤ 0xfffe) := by
  unfold FileList.register at e
  cases hg : l.getId p with
  | some i =>
    rw [hg] at e
    simp only [Option.some.injEq, Prod.mk.injEq] at e
    obtain ⟨rfl, rfl⟩ := e
    have hs := (getId_some l h p i).mp hg
    have hlt : i - 1 < l.files.length := by
      by_contra hc; rw [List.getElem?_eq_none (by omega)] at hs; cases hs.2
    refine ⟨h, hs.2, hs.1, ?_, ⟨[], by simp⟩, ?_⟩
    · have := h.bound; omega
    · intro; omega
  | none =>
    rw [hg] at e
    simp only at e
    split at e
    · cases e
    · rename_i hlen
      simp only [Option.some.injEq, Prod.mk.injEq] at e
      obtain ⟨rfl, rfl⟩ := e
      have hnot := (getId_none l h p).mp hg
      refine ⟨⟨?_, ?_, ?_⟩, by simp, by omega, by omega, ⟨[p], rfl⟩, ?_⟩
      · simp only
        rw [List.nodup_append]
        exact ⟨h.nodup, by simp, by simpa using fun a ha (e : a = p) => hnot (e ▸ ha)⟩
      · simp only [h.rev, List.zipIdx_append, List.map_append]
        simp
      · simp only [List.length_append, List.length_singleton]; omega
      · simp only [List.length_append, List.length_singleton]; omega

theorem flInv_empty : FLInv (FileList.empty : FileList P) :=
  ⟨by simp [FileList.empty], by simp [FileList.empty], by simp [FileList.empty]⟩

theorem registerAll_spec (ps : List P) (l : FileList P) (h : FLInv l) {ids l'}
    (e : l.registerAll ps = some (ids, l')) :
    FLInv l' ∧ (∃ ext, l'.files = l.files ++ ext) ∧ ids.length = ps.length ∧
    (∀ i (hi : i < ps.length), ∃ id, ids[i]? = some id ∧ 0 < id ∧ id ≤ 0xffff ∧
      l'.files[id - 1]? = some ps[i]) ∧
    (l'.files.length ≤ 0xfffe → ∀ id ∈ ids, id ≤ 0xfffe) := by
  induction ps generalizing l ids l' with
  | nil =>
    simp only [FileList.registerAll, Option.some.injEq, Prod.mk.injEq] at e
    obtain ⟨rfl, rfl⟩ := e
    exact ⟨h, ⟨[], by simp⟩, rfl, by simp, by simp⟩
  | cons p ps ih =>
    simp only [FileList.registerAll] at e
    cases hr : l.register p with
    | none => rw [hr] at e; cases e
    | some q =>
      obtain ⟨id, l1⟩ := q
      rw [hr] at e
      simp only [Option.map_eq_some_iff] at e
      obtain ⟨⟨ids', l2⟩, e1, e2⟩ := e
      simp only [Prod.mk.injEq] at e2
      obtain ⟨rfl, rfl⟩ := e2
      obtain ⟨h1, g1, p1, b1, ⟨x1, hx1⟩, c1⟩ := register_spec l h p hr
      obtain ⟨h2, ⟨x2, hx2⟩, hlen, hall, c2⟩ := ih l1 h1 e1
      refine ⟨h2, ⟨x1 ++ x2, by rw [hx2, hx1, List.append_assoc]⟩, by simp [hlen], ?_, ?_⟩
      · intro i hi
        cases i with
        | zero =>
          refine ⟨id, rfl, p1, b1, ?_⟩
          rw [hx2]
          have : id - 1 < l1.files.length := by
            by_contra hc; rw [List.getElem?_eq_none (by omega)] at g1; cases g1
          rw [List.getElem?_append_left this]; simpa using g1
        | succ i =>
          simp only [List.length_cons] at hi
          obtain ⟨id', a, b, c, d⟩ := hall i (by omega)
          exact ⟨id', by simpa using a, b, c, by simpa using d⟩
      · intro hl id' hid'
        simp only [List.mem_cons] at hid'
        rcases hid' with rfl | hid'
        · apply c1
          have : l2.files.length = l1.files.length + x2.length := by rw [hx2]; simp
          omega
        · exact c2 hl id' hid'

/-! annotation tree -/

open Tree

variable {A : Type}

theorem merge_inv {K V : Type} [LinearOrder K] (t t' : Tree K V) (hi : Inv t) (hi' : Inv t') :
    ∃ u, t.merge t' = some u ∧ Inv u ∧
      ∀ k, lget k u.toList = lget k t.toList ++ lget k t'.toList := by
  obtain ⟨u, eu, hu, lu⟩ := runFrom_spec
    ((flat t'.toList).map fun p => Op.insert p.1 p.2) t hi
  refine ⟨u, ?_, hu, ?_⟩
  · rw [Tree.merge, IntoIter.collect_eq, IntoIter.new_remaining, contents_flat, insertAll_runFrom]
    exact eu
  · intro k
    rw [lu k, foldl_inserts, flat_values _ hi'.2]

/-- a multimap listing is determined up to permutation -/
theorem perm_of_values {K V : Type} [DecidableEq K] (xs ys : List (K × V))
    (h : ∀ k, (xs.filter fun p => decide (p.1 = k)).map Prod.snd =
      (ys.filter fun p => decide (p.1 = k)).map Prod.snd) : xs.Perm ys := by
  classical
  have key : ∀ (zs : List (K × V)) (k : K) (v : V), zs.count (k, v) =
      ((zs.filter fun p => decide (p.1 = k)).map Prod.snd).count v := by
    intro zs k v
    induction zs with
    | nil => simp
    | cons z zs ih =>
      obtain ⟨k', v'⟩ := z
      by_cases hk : k' = k
      · subst hk
        simp [List.count_cons, ih]
      · have hne : ¬ ((k', v') = (k, v)) := fun e => hk (congrArg Prod.fst e)
        simp [List.count_cons, ih, hk]
  rw [List.perm_iff_count]
  rintro ⟨k, v⟩
  rw [key, key, h]

/-- stored form of an entry -/
def stored (e : Location × Location × A) : Option (Range Location × A) :=
  e.2.1.pred.map fun p => (mkRange e.1 p, e.2.2)

theorem build_spec (b : Build A) (hok : ∀ e ∈ b.entries, e.2.1 ≠ .lowest) :
    ∃ t, b.run = some t ∧ Inv t.tree ∧ t.len = b.entries.length ∧
      ∃ st, b.entries.mapM stored = some st ∧
        ∀ k, lget k t.tree.toList = (st.filter fun p => decide (p.1 = k)).map Prod.snd := by
  induction b with
  | empty =>
    exact ⟨.empty, rfl, ⟨trivial, List.Pairwise.nil⟩, rfl, [], rfl, fun k => rfl⟩
  | insert b s e a ih =>
    simp only [Build.entries, List.mem_append, List.mem_singleton] at hok
    obtain ⟨t, e1, hi, hlen, st, hst, hl⟩ := ih (fun x hx => hok x (Or.inl hx))
    have hlow := hok (s, e, a) (Or.inr rfl)
    have hp : ∃ p, e.pred = some p := by
      by_cases hd : e = .default
      · subst hd; exact ⟨.default, by decide⟩
      · obtain ⟨p, hp, -⟩ := pred_pack e hlow hd
        exact ⟨p, hp⟩
    obtain ⟨p, hp⟩ := hp
    obtain ⟨t', et, hit, hlt⟩ := apply_spec t.tree hi (.insert (mkRange s p) a)
    refine ⟨⟨t', t.len + 1⟩, ?_, hit, ?_, st ++ [(mkRange s p, a)], ?_, ?_⟩
    · have et' : t.tree.insert (mkRange s p) a = some t' := et
      simp [Build.run, e1, AnnotationTree.insert, hp, et']
    · simp [Build.entries, hlen]
    · rw [Build.entries, List.mapM_append, hst]
      simp [stored, hp]
    · intro k
      simp only at hlt ⊢
      rw [hlt, lget_lins _ _ _ _ hi.2, hl, hl]
      by_cases hk : k = mkRange s p
      · subst hk; simp
      · simp [hk, Ne.symm hk]
  | merge b c ihb ihc =>
    simp only [Build.entries, List.mem_append] at hok
    obtain ⟨t, e1, hi, hlen, st, hst, hl⟩ := ihb (fun x hx => hok x (Or.inl hx))
    obtain ⟨t2, e2, hi2, hlen2, st2, hst2, hl2⟩ := ihc (fun x hx => hok x (Or.inr hx))
    obtain ⟨u, eu, hu, lu⟩ := merge_inv t.tree t2.tree hi hi2
    refine ⟨⟨u, t.len + t2.len⟩, ?_, hu, ?_, st ++ st2, ?_, ?_⟩
    · simp [Build.run, e1, e2, AnnotationTree.merge, eu]
    · simp [Build.entries, hlen, hlen2]
    · rw [Build.entries, List.mapM_append, hst, hst2]; simp
    · intro k
      simp only
      rw [lu, hl, hl2]; simp

theorem range_inv {K V : Type} [LinearOrder K] (t : Tree K V) (hi : Inv t) (q : Range K) :
    ∃ xs, (∀ n, (range t q).nth n = xs[n]?) ∧
      Lists (fun k => if q.lo ≤ k.hi ∧ k.lo ≤ q.hi then lget k t.toList else []) xs := by
  refine ⟨_, fun n => RangeIter.nth_den _ n, ?_⟩
  have h1 : (range t q).lo = .included q.lo := rfl
  have h2 : (range t q).hi = .included q.hi := rfl
  have h3 : (range t q).stack = (RangeIter.new t (.included q.lo) (.included q.hi)).stack := rfl
  rw [h1, h2, h3, RangeIter.new_den, RangeIter.visit_spec _ _ _ hi.1 hi.2, contents_flat]
  have hL := lists_flat t.toList hi.2
  refine ⟨hL.1.filter _, ?_⟩
  intro k
  rw [List.filter_filter]
  have hint : ∀ p : Range K × V,
      (decide (p.1 = k) && intersect (.included q.lo) (.included q.hi) p.1) =
      (decide (p.1 = k) && decide (q.lo ≤ k.hi ∧ k.lo ≤ q.hi)) := by
    intro p
    by_cases h : p.1 = k
    · subst h; simp [intersect]
    · simp [h]
  simp only [hint]
  have hv := hL.2 k
  by_cases hc : q.lo ≤ k.hi ∧ k.lo ≤ q.hi
  · simp only [hc, if_true, decide_true, Bool.and_true, and_self]
    exact hv
  · rw [if_neg hc]
    simp [hc]

/-- the values found by a query, as a permutation of the inserted entries satisfying `f` -/
theorem query_perm (st : List (Range Location × A)) (es : List (Location × Location × A))
    (hst : es.mapM stored = some st) (q : Range Location) (f : Location × Location × A → Bool)
    (hf : ∀ e ∈ es, ∀ p, e.2.1.pred = some p → (f e = true ↔ q.lo ≤ p ∧ e.1 ≤ q.hi)) :
    (st.filter fun p => decide (q.lo ≤ p.1.hi ∧ p.1.lo ≤ q.hi)).map Prod.snd =
      (es.filter f).map fun e => e.2.2 := by
  induction es generalizing st with
  | nil => simp only [List.mapM_nil] at hst; cases hst; rfl
  | cons e es ih =>
    rw [List.mapM_cons] at hst
    cases hs : stored e with
    | none => rw [hs] at hst; cases hst
    | some x =>
      rw [hs] at hst
      cases hm : es.mapM stored with
      | none => rw [hm] at hst; cases hst
      | some st' =>
        rw [hm] at hst
        cases hst
        have ih := ih st' hm (fun e' he' => hf e' (List.mem_cons_of_mem _ he'))
        unfold stored at hs
        rw [Option.map_eq_some_iff] at hs
        obtain ⟨p, hp, rfl⟩ := hs
        have := hf e (List.mem_cons_self) p hp
        by_cases hfe : f e = true
        · have h2 := this.mp hfe
          have h3 : decide (q.lo ≤ ((mkRange e.1 p, e.2.2) : Range Location × A).1.hi ∧
              ((mkRange e.1 p, e.2.2) : Range Location × A).1.lo ≤ q.hi) = true := decide_eq_true h2
          rw [List.filter_cons, if_pos h3,
            List.filter_cons_of_pos hfe, List.map_cons, List.map_cons, ih]
        · have h2 : ¬ (q.lo ≤ p ∧ e.1 ≤ q.hi) := fun h => hfe (this.mpr h)
          have h3 : ¬ decide (q.lo ≤ ((mkRange e.1 p, e.2.2) : Range Location × A).1.hi ∧
              ((mkRange e.1 p, e.2.2) : Range Location × A).1.lo ≤ q.hi) = true :=
            fun h => h2 (of_decide_eq_true h)
          rw [List.filter_cons, if_neg h3,
            List.filter_cons_of_neg hfe]
          exact ih

end Verif.Context
