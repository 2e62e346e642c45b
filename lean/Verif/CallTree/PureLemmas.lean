import Verif.CallTree.Model

namespace Verif.CallTree

open Relation

variable {P T N L : Type} [DecidableEq P]

/-- What is known about an entry of the queue of the purity check. -/
def EntryOk (g : Program P T N L) (i : PureInfo P T L) (root : P) (x : P × List (P × L)) : Prop :=
  Trail g root (x.2.map Prod.fst) x.1 ∧
    ∃ e ∈ g.calls root, ∃ rest, x.2 = (e.proc, e.loc) :: rest ∧ ∀ y ∈ rest, y.2 = i.setAt root

theorem EntryOk.push {g : Program P T N L} {i : PureInfo P T L} {root p : P} {st : List (P × L)}
    (h : EntryOk g i root (p, st)) {e : Edge P T L} (he : e ∈ g.calls p) :
    EntryOk g i root (e.proc, st ++ [(e.proc, i.setAt root)]) := by
  obtain ⟨h1, e0, he0, rest, h2, h3⟩ := h
  refine ⟨?_, e0, he0, rest ++ [(e.proc, i.setAt root)], ?_, ?_⟩
  · rw [List.map_append]
    exact Trail.step h1 ⟨e, he, rfl⟩
  · simp only at h2
    simp [h2]
  · intro y hy
    rcases List.mem_append.1 hy with hy | hy
    · exact h3 y hy
    · simp only [List.mem_singleton] at hy
      rw [hy]

theorem mem_impurities {g : Program P T N L} {i : PureInfo P T L} {root p : P} {st : List (P × L)}
    {x : Impurity P L} : x ∈ impurities g i root p st ↔
      (i.impure p = true ∧ x = .via root p st) ∨
      (i.impure p = false ∧ ∃ c ∈ i.overrides p, x = .override root p c st ∧
        ¬ (i.sub (g.ty root) (g.ty p) = true ∧ i.sub (g.ty c) (g.ty root) = false)) := by
  unfold impurities
  split
  · rename_i h
    simp [h]
  · rename_i h
    simp only [Bool.not_eq_true] at h
    simp only [h, List.mem_map, List.mem_filter, Bool.not_eq_true', Bool.and_eq_false_iff,
      Bool.not_eq_false', false_and, false_or, true_and, Bool.false_eq_true]
    constructor
    · rintro ⟨c, ⟨hc, h1⟩, rfl⟩
      refine ⟨c, hc, rfl, ?_⟩
      rintro ⟨h2, h3⟩
      rw [h2, h3] at h1
      simp at h1
    · rintro ⟨c, hc, rfl, h1⟩
      refine ⟨c, ⟨hc, ?_⟩, rfl⟩
      cases h2 : i.sub (g.ty root) (g.ty p)
      · exact .inl rfl
      · right
        cases h3 : i.sub (g.ty c) (g.ty root)
        · exact absurd ⟨h2, h3⟩ h1
        · rfl

structure PureOk (g : Program P T N L) (i : PureInfo P T L) (root : P) (V : Finset P)
    (q : List (P × List (P × L))) (W : Finset P) (out : List (Impurity P L)) : Prop where
  grow : V ⊆ W
  done : ∀ x ∈ q, x.1 ∈ W
  closed : ∀ p ∈ W, p ∉ V → (∀ e ∈ g.calls p, e.proc ∈ W) ∧
    ∃ st, ∀ x ∈ impurities g i root p st, x ∈ out
  sound : ∀ x ∈ out, ∃ p st, p ∉ V ∧ EntryOk g i root (p, st) ∧ x ∈ impurities g i root p st

theorem walkPure_ok [Fintype P] (g : Program P T N L) (i : PureInfo P T L) (root : P) (V : Finset P)
    (q : List (P × List (P × L))) (hq : ∀ x ∈ q, EntryOk g i root x) :
    ∃ W, PureOk g i root V q W (walkPure g i root V q) := by
  induction V, q using walkPure.induct (g := g) (i := i) (root := root) with
  | case1 V =>
    rw [walkPure]
    exact ⟨V, fun _ h => h, by simp, fun p hp hv => absurd hp hv, by simp⟩
  | case2 V p st rest hv ih =>
    rw [walkPure, if_pos hv]
    obtain ⟨W, h⟩ := ih (fun x hx => hq x (List.mem_cons_of_mem _ hx))
    refine ⟨W, h.grow, ?_, h.closed, h.sound⟩
    intro x hx
    rcases List.mem_cons.1 hx with rfl | hx
    · exact h.grow hv
    · exact h.done x hx
  | case3 V p st rest hv ih =>
    rw [walkPure, if_neg hv]
    have hp := hq _ List.mem_cons_self
    obtain ⟨W, h⟩ := ih (by
      intro x hx
      rcases List.mem_append.1 hx with hx | hx
      · exact hq x (List.mem_cons_of_mem _ hx)
      · obtain ⟨e, he, rfl⟩ := List.mem_map.1 hx
        exact hp.push he)
    refine ⟨W, fun x hx => h.grow (Finset.mem_insert_of_mem hx), ?_, ?_, ?_⟩
    · intro x hx
      rcases List.mem_cons.1 hx with rfl | hx
      · exact h.grow (Finset.mem_insert_self _ _)
      · exact h.done x (List.mem_append_left _ hx)
    · intro y hy hyv
      by_cases hyp : y = p
      · subst hyp
        refine ⟨fun e he => ?_, st, fun x hx => List.mem_append_left _ hx⟩
        exact h.done (e.proc, _) (List.mem_append_right _ (List.mem_map.2 ⟨e, he, rfl⟩))
      · obtain ⟨h1, st', h2⟩ := h.closed y hy (by simp [hyp, hyv])
        exact ⟨h1, st', fun x hx => List.mem_append_right _ (h2 x hx)⟩
    · intro x hx
      rcases List.mem_append.1 hx with hx | hx
      · exact ⟨p, st, hv, hp, hx⟩
      · obtain ⟨p', st', h1, h2, h3⟩ := h.sound x hx
        exact ⟨p', st', fun hm => h1 (Finset.mem_insert_of_mem hm), h2, h3⟩

omit [DecidableEq P] in
theorem impurities_key_nodup {g : Program P T N L} {i : PureInfo P T L} {root p : P}
    {st : List (P × L)} (hd : (i.overrides p).Nodup) :
    ((impurities g i root p st).map Impurity.key).Nodup := by
  unfold impurities
  split
  · simp
  · rw [List.map_map]
    have hf := hd.filter (p := fun c =>
      !(i.sub (g.ty root) (g.ty p) && !i.sub (g.ty c) (g.ty root)))
    refine List.Nodup.map ?_ hf
    intro a b hab
    simpa [Impurity.key] using hab

theorem walkPure_once [Fintype P] (g : Program P T N L) (i : PureInfo P T L) (root : P)
    (hd : ∀ p, (i.overrides p).Nodup) (V : Finset P) (q : List (P × List (P × L))) :
    ((walkPure g i root V q).map Impurity.key).Nodup ∧
      ∀ x ∈ walkPure g i root V q, x.key.1 ∉ V := by
  have hk : ∀ p st, ∀ x ∈ impurities g i root p st, x.key.1 = p := by
    intro p st x hx
    rcases mem_impurities.1 hx with ⟨-, rfl⟩ | ⟨-, c, -, rfl, -⟩ <;> rfl
  induction V, q using walkPure.induct (g := g) (i := i) (root := root) with
  | case1 V => rw [walkPure]; simp
  | case2 V p st rest hv ih => rw [walkPure, if_pos hv]; exact ih
  | case3 V p st rest hv ih =>
    rw [walkPure, if_neg hv, List.map_append, List.nodup_append]
    refine ⟨⟨impurities_key_nodup (hd p), ih.1, ?_⟩, ?_⟩
    · rintro a ha b hb rfl
      obtain ⟨x, hx, rfl⟩ := List.mem_map.1 ha
      obtain ⟨y, hy, hxy⟩ := List.mem_map.1 hb
      apply ih.2 y hy
      rw [hxy, hk p st x hx]
      exact Finset.mem_insert_self _ _
    · intro x hx
      rcases List.mem_append.1 hx with hx | hx
      · rw [hk p st x hx]; exact hv
      · exact fun hm => ih.2 x hx (Finset.mem_insert_of_mem hm)

theorem Trail.transGen {g : Program P T N L} {root p : P} {ps : List P} (h : Trail g root ps p) :
    TransGen g.CallsAny root p := by
  induction h with
  | start h => exact .single h
  | step _ h ih => exact ih.tail h

/-- The queue a root starts with. -/
theorem EntryOk.start {g : Program P T N L} {i : PureInfo P T L} {root : P} :
    ∀ x ∈ (g.calls root).map fun e => (e.proc, [(e.proc, e.loc)]), EntryOk g i root x := by
  intro x hx
  obtain ⟨e, he, rfl⟩ := List.mem_map.1 hx
  exact ⟨Trail.start ⟨e, he, rfl⟩, e, he, [], rfl, by simp⟩

theorem walkPure_iff [Fintype P] (g : Program P T N L) (i : PureInfo P T L) (root : P) :
    (∀ x ∈ walkPure g i root ∅ ((g.calls root).map fun e => (e.proc, [(e.proc, e.loc)])),
      ∃ p st, EntryOk g i root (p, st) ∧ x ∈ impurities g i root p st) ∧
    (∀ p, TransGen g.CallsAny root p → ∃ st, ∀ x ∈ impurities g i root p st,
      x ∈ walkPure g i root ∅ ((g.calls root).map fun e => (e.proc, [(e.proc, e.loc)]))) := by
  obtain ⟨W, h⟩ := walkPure_ok g i root ∅ _ EntryOk.start
  refine ⟨fun x hx => ?_, fun p hp => ?_⟩
  · obtain ⟨p, st, -, h1, h2⟩ := h.sound x hx
    exact ⟨p, st, h1, h2⟩
  · have hw : p ∈ W := by
      induction hp with
      | single h' =>
        obtain ⟨e, he, rfl⟩ := h'
        exact h.done (e.proc, _) (List.mem_map.2 ⟨e, he, rfl⟩)
      | tail _ h' ih =>
        obtain ⟨e, he, rfl⟩ := h'
        exact (h.closed _ ih (by simp)).1 e he
    exact (h.closed p hw (by simp)).2

/-! ## Overrides -/

omit [DecidableEq P] in
theorem mem_above {h : Parents P} {p q : P} : q ∈ h.above p ↔ Ancestor h.parent p q := by
  constructor
  · intro hq
    induction hd : h.depth p using Nat.strong_induction_on generalizing p with
    | _ n ih =>
      subst hd
      rw [Parents.above] at hq
      split at hq
      · simp at hq
      · rename_i x hx
        rcases List.mem_cons.1 hq with rfl | hq
        · exact .one hx
        · exact .up hx (ih _ (h.lower hx) hq rfl)
  · intro ha
    induction ha with
    | @one p q hp =>
      rw [Parents.above]
      split
      · rename_i hx; rw [hp] at hx; cases hx
      · rename_i hx; rw [hp] at hx; cases hx; exact List.mem_cons_self
    | @up p q r hp _ ih =>
      rw [Parents.above]
      split
      · rename_i hx; rw [hp] at hx; cases hx
      · rename_i hx; rw [hp] at hx; cases hx; exact List.mem_cons_of_mem _ ih

omit [DecidableEq P] in
theorem Ancestor.depth_lt {h : Parents P} {p q : P} (ha : Ancestor h.parent p q) :
    h.depth q < h.depth p := by
  induction ha with
  | one hp => exact h.lower hp
  | up hp _ ih => exact lt_trans ih (h.lower hp)

omit [DecidableEq P] in
theorem above_nodup (h : Parents P) (p : P) : (h.above p).Nodup := by
  induction hd : h.depth p using Nat.strong_induction_on generalizing p with
  | _ n ih =>
    subst hd
    rw [Parents.above]
    split
    · simp
    · rename_i x hx
      rw [List.nodup_cons]
      refine ⟨fun hm => ?_, ih _ (h.lower hx) _ rfl⟩
      exact lt_irrefl _ (mem_above.1 hm).depth_lt

theorem foldl_add (l : List P) (hl : l.Nodup) (p : P) (o : P → List P) (x : P) :
    l.foldl (fun o c x => if x = c then o x ++ [p] else o x) o x =
      if x ∈ l then o x ++ [p] else o x := by
  induction l generalizing o with
  | nil => simp
  | cons a l ih =>
    rw [List.nodup_cons] at hl
    rw [List.foldl_cons, ih hl.2]
    by_cases hxa : x = a
    · subst hxa; simp [hl.1]
    · simp [hxa]

theorem propagate_eq (h : Parents P) (isNew impure : P → Bool) (o : P → List P) (p x : P) :
    propagate h isNew impure o p x =
      if isNew p = false ∧ impure p = true ∧ x ∈ h.above p then o x ++ [p] else o x := by
  unfold propagate
  cases isNew p <;> cases impure p <;> simp [foldl_add _ (above_nodup h p)]

theorem propagateAll_eq (h : Parents P) (isNew impure : P → Bool) (procs : List P) (x : P) :
    propagateAll h isNew impure procs x = procs.filter fun p =>
      decide (isNew p = false ∧ impure p = true ∧ x ∈ h.above p) := by
  unfold propagateAll
  suffices ∀ o : P → List P, procs.foldl (propagate h isNew impure) o x =
      o x ++ procs.filter fun p => decide (isNew p = false ∧ impure p = true ∧ x ∈ h.above p) by
    simpa using this fun _ => []
  intro o
  induction procs generalizing o with
  | nil => simp
  | cons p ps ih =>
    rw [List.foldl_cons, ih, propagate_eq]
    by_cases hp : isNew p = false ∧ impure p = true ∧ x ∈ h.above p
    · rw [if_pos hp, List.filter_cons_of_pos (by simpa using hp)]; simp
    · rw [if_neg hp, List.filter_cons_of_neg (by simpa using hp)]

/-! ## Directives -/

omit [DecidableEq P] in
theorem selfOrParent_resolves {d : Directive P L} {h : Parents P} {p : P} {v : Bool × L} :
    Resolves d.set h.parent p v ↔ ∃ a, d.selfOrParent h p = some (a, v) := by
  constructor
  · intro hr
    induction hr with
    | @here p v hp =>
      refine ⟨p, ?_⟩
      rw [Directive.selfOrParent, hp]
    | @up p q v hp hq _ ih =>
      obtain ⟨a, ha⟩ := ih
      refine ⟨a, ?_⟩
      rw [Directive.selfOrParent]
      split
      · rename_i hx; rw [hp] at hx; cases hx
      · split
        · rename_i hx; rw [hq] at hx; cases hx
        · rename_i hx; rw [hq] at hx; cases hx; exact ha
  · rintro ⟨a, ha⟩
    induction hd : h.depth p using Nat.strong_induction_on generalizing p with
    | _ n ih =>
      subst hd
      rw [Directive.selfOrParent] at ha
      split at ha
      · rename_i b l hx
        cases ha
        exact .here hx
      · rename_i hx
        split at ha
        · cases ha
        · rename_i q hq
          exact .up hx hq (ih _ (h.lower hq) ha rfl)

omit [DecidableEq P] in
theorem Resolves.unique {V : Type} {set : P → Option V} {parent : P → Option P} {p : P} {v w : V}
    (h1 : Resolves set parent p v) (h2 : Resolves set parent p w) : v = w := by
  induction h1 with
  | here a =>
    cases h2 with
    | here b => rw [a] at b; cases b; rfl
    | up b _ _ => rw [a] at b; cases b
  | up a b _ ih =>
    cases h2 with
    | here c => rw [a] at c; cases c
    | up c d e => rw [b] at d; cases d; exact ih e

/-- Setting on `p` what it resolves to anyway changes no resolution. -/
theorem Resolves.set_same {V : Type} {set : P → Option V} {parent : P → Option P} {p : P} {v : V}
    (hp : Resolves set parent p v) {x : P} {w : V} :
    Resolves (fun y => if y = p then some v else set y) parent x w ↔ Resolves set parent x w := by
  constructor
  · intro h
    induction h with
    | @here x w hx =>
      by_cases hxp : x = p
      · subst hxp
        simp only [if_true, Option.some.injEq] at hx
        exact hx ▸ hp
      · rw [if_neg hxp] at hx; exact .here hx
    | @up x q w hx hq _ ih =>
      by_cases hxp : x = p
      · rw [if_pos hxp] at hx; cases hx
      · rw [if_neg hxp] at hx; exact .up hx hq ih
  · intro h
    induction h with
    | @here x w hx =>
      by_cases hxp : x = p
      · subst hxp
        have := Resolves.unique hp (.here hx)
        exact .here (by simp [this])
      · exact .here (by rw [if_neg hxp]; exact hx)
    | @up x q w hx hq hr ih =>
      by_cases hxp : x = p
      · subst hxp
        have := Resolves.unique hp (.up hx hq hr)
        exact .here (by simp [this])
      · exact .up (by rw [if_neg hxp]; exact hx) hq ih

/-- The directives that are inherited: they cannot be switched off and may stand on
global procs. -/
structure Inheritable (d : Directive P L) : Prop where
  never : d.canBeDisabled = false
  glob : d.canBeGlobal = true
  on : ∀ p v, d.set p = some v → v.1 = true

omit [DecidableEq P] in
theorem Resolves.on {d : Directive P L} (hd : Inheritable d) {h : Parents P} {p : P} {v : Bool × L}
    (hr : Resolves d.set h.parent p v) : v.1 = true := by
  induction hr with
  | here a => exact hd.on _ _ a
  | up _ _ _ ih => exact ih

/-- One copy. -/
theorem copy_eq {d : Directive P L} (hd : Inheritable d) (h : Parents P) (global : P → Bool) (p : P) :
    (∃ v, Resolves d.set h.parent p v ∧ d.copyFromParent h global p =
      { d with set := fun y => if y = p then some v else d.set y }) ∨
    ((∀ v, ¬ Resolves d.set h.parent p v) ∧ d.copyFromParent h global p = d) := by
  unfold Directive.copyFromParent
  cases hs : d.set p with
  | some v =>
    left
    refine ⟨v, .here hs, ?_⟩
    rw [if_pos (by simp)]
    have : d.set = fun y => if y = p then some v else d.set y := by
      funext y; by_cases hy : y = p
      · subst hy; simp [hs]
      · simp [hy]
    rw [← this]
  | none =>
    rw [if_neg (by simp)]
    cases hq : h.parent p with
    | none =>
      right
      refine ⟨fun v hv => ?_, rfl⟩
      cases hv with
      | here a => rw [hs] at a; cases a
      | up _ b _ => rw [hq] at b; cases b
    | some q =>
      cases hr : d.selfOrParent h q with
      | none =>
        right
        refine ⟨fun v hv => ?_, by simp only [hr]⟩
        cases hv with
        | here a => rw [hs] at a; cases a
        | up _ b c =>
          rw [hq] at b; cases b
          obtain ⟨a, ha⟩ := selfOrParent_resolves.1 c
          rw [hr] at ha; cases ha
      | some w =>
        obtain ⟨a, b, l⟩ := w
        have hres : Resolves d.set h.parent q (b, l) := selfOrParent_resolves.2 ⟨a, hr⟩
        have hb : b = true := hres.on hd
        subst hb
        left
        refine ⟨(true, l), .up hs hq hres, ?_⟩
        simp [Directive.insert, hd.glob, hs, hr]

theorem Inheritable.copy {d : Directive P L} (hd : Inheritable d) (h : Parents P) (global : P → Bool)
    (p : P) : Inheritable (d.copyFromParent h global p) := by
  rcases copy_eq hd h global p with ⟨v, hv, he⟩ | ⟨-, he⟩
  · rw [he]
    refine ⟨hd.never, hd.glob, fun x w hx => ?_⟩
    by_cases hxp : x = p
    · simp only [hxp, if_true, Option.some.injEq] at hx
      exact hx ▸ hv.on hd
    · simp only [hxp, if_false] at hx
      exact hd.on x w hx
  · rw [he]; exact hd

theorem inherit_eq (h : Parents P) (global : P → Bool) (procs : List P) (d : Directive P L)
    (hd : Inheritable d) (p : P) (v : Bool × L) :
    ((d.inherit h global procs).set p = some v ↔
      d.set p = some v ∨ (p ∈ procs ∧ Resolves d.set h.parent p v)) := by
  induction procs generalizing d with
  | nil => simp [Directive.inherit]
  | cons a l ih =>
    have hstep : d.inherit h global (a :: l) = (d.copyFromParent h global a).inherit h global l := rfl
    rw [hstep, ih _ (hd.copy h global a)]
    rcases copy_eq hd h global a with ⟨w, hw, he⟩ | ⟨hn, he⟩
    · rw [he]
      simp only
      rw [hw.set_same]
      by_cases hpa : p = a
      · subst hpa
        simp only [if_true, Option.some.injEq, List.mem_cons, true_or, true_and]
        constructor
        · rintro (rfl | ⟨-, h⟩)
          · exact .inr hw
          · exact .inr h
        · rintro (h | h)
          · exact .inl (Resolves.unique hw (.here h))
          · exact .inl (Resolves.unique hw h)
      · simp only [hpa, if_false, List.mem_cons, false_or]
    · rw [he]
      by_cases hpa : p = a
      · subst hpa
        simp only [List.mem_cons, true_or, true_and, hn v, and_false, or_false]
      · simp [hpa]

end Verif.CallTree
