import Verif.Editor.PrefabModel
import Mathlib.Data.List.TakeWhile

/-!
# Theorems about the closest type and the window for variables (C109)
-/

namespace Verif.Editor.Prefab

open Verif.Objtree Verif.Explorer

variable {V : Type}

/-! ## The closest type -/

/-- `q` is `p` or one of the paths above it -/
def Above (q p : Name) : Prop := q = p ∨ ∃ r, p = q ++ '/' :: r

theorem cut_spec {p q : Name} (h : cut p = some q) : ∃ r, p = q ++ '/' :: r ∧ '/' ∉ r := by
  unfold cut at h
  split at h
  · next hm =>
    injection h with h
    have h1 : p.reverse = p.reverse.takeWhile (· ≠ '/') ++ p.reverse.dropWhile (· ≠ '/') :=
      List.takeWhile_append_dropWhile.symm
    cases hd : p.reverse.dropWhile (· ≠ '/') with
    | nil =>
      rw [List.dropWhile_eq_nil_iff] at hd
      have := hd '/' (List.mem_reverse.2 hm)
      simp at this
    | cons c cs =>
      have hc : c = '/' := by
        have := List.head?_dropWhile_not (p := (· ≠ '/')) (l := p.reverse)
        rw [hd] at this
        simpa using this
      rw [hd] at h h1
      subst hc
      refine ⟨(p.reverse.takeWhile (· ≠ '/')).reverse, ?_, ?_⟩
      · have := congrArg List.reverse h1
        rw [List.reverse_reverse] at this
        have hq : q = cs.reverse := by rw [← h]; rfl
        rw [hq]
        refine this.trans ?_
        rw [List.reverse_append, List.reverse_cons, List.append_assoc, List.singleton_append]
      · intro hm'
        have := List.mem_takeWhile_imp (List.mem_reverse.1 hm')
        simp at this
  · cases h

theorem cut_none {p : Name} (h : cut p = none) : '/' ∉ p := by
  unfold cut at h
  split at h
  · cases h
  · next hm => exact hm

/-- the paths above `p` are `p` and those above what is left when the last part is cut off -/
theorem above_cut {p q : Name} (h : cut p = some q) (x : Name) : Above x p ↔ x = p ∨ Above x q := by
  obtain ⟨r, hp, hr⟩ := cut_spec h
  constructor
  · rintro (rfl | ⟨s, hs⟩)
    · exact .inl rfl
    · right
      rw [hp] at hs
      rcases List.append_eq_append_iff.1 hs with ⟨a, h1, h2⟩ | ⟨c, h1, h2⟩
      · cases a with
        | nil => simp at h1; exact .inl h1
        | cons d a =>
          simp only [List.cons_append, List.cons.injEq] at h2
          exact absurd (by rw [h2.2]; simp) hr
      · cases c with
        | nil => simp at h1; exact .inl h1.symm
        | cons d c =>
          simp only [List.cons_append, List.cons.injEq] at h2
          exact .inr ⟨c, by rw [h1, h2.1]⟩
  · rintro (rfl | rfl | ⟨s, hs⟩)
    · exact .inl rfl
    · exact .inr ⟨r, hp⟩
    · exact .inr ⟨s ++ '/' :: r, by rw [hp, hs]; simp⟩

/-- **C109.** The type whose variables are offered is the one of the path itself, or else of the longest path
above it that is a type; none only if there is none.  The path is shown in red exactly if it is not a
type. -/
theorem closest_type (find : Name → Option Nat) (p : Name) :
    ((findClosestType find p).1 = true ↔ find p = none) ∧
    match (findClosestType find p).2 with
    | some t => ∃ q, Above q p ∧ find q = some t ∧ ∀ q', Above q' p → q.length < q'.length → find q' = none
    | none => ∀ q, Above q p → find q = none := by
  refine ⟨by simp [findClosestType], ?_⟩
  simp only [findClosestType]
  induction p using closest.induct find with
  | case1 p t h =>
    rw [closest, h]
    refine ⟨p, .inl rfl, h, ?_⟩
    rintro q' (rfl | ⟨r, rfl⟩) hl
    · omega
    · simp at hl; omega
  | case2 h =>
    rw [closest]
    simp only [h, if_true]
    rintro q (rfl | ⟨r, hr⟩)
    · exact h
    · simp at hr
  | case3 p h hne q hq ih =>
    rw [closest]
    simp only [h, if_neg hne]
    split
    · next t ht =>
      split at ht
      · next q2 hq2 =>
        rw [hq] at hq2
        injection hq2 with hq2
        subst hq2
        rw [ht] at ih
        obtain ⟨x, h1, h2, h3⟩ := ih
        refine ⟨x, (above_cut hq x).2 (.inr h1), h2, ?_⟩
        intro q' hq' hl
        rcases (above_cut hq q').1 hq' with rfl | h'
        · exact h
        · exact h3 q' h' hl
      · cases ht
    · next ht =>
      split at ht
      · next q2 hq2 =>
        rw [hq] at hq2
        injection hq2 with hq2
        subst hq2
        rw [ht] at ih
        intro x hx
        rcases (above_cut hq x).1 hx with rfl | h'
        · exact h
        · exact ih x h'
      · next hq2 => rw [hq] at hq2; cases hq2
  | case4 p h hne hq =>
    rw [closest]
    simp only [h, if_neg hne]
    split
    · next t ht =>
      split at ht
      · next q2 hq2 => rw [hq] at hq2; cases hq2
      · cases ht
    · rintro q (rfl | ⟨r, rfl⟩)
      · exact h
      · exact absurd (by simp) (cut_none hq)

/-! ## The window -/

/-- the value a variable has: as set, or as inherited -/
def Fab.effective (w : Types V) (ty : Nat) (fab : Fab V) (name : Name) : Option V :=
  match fab.vars.lookup name with
  | some c => some c
  | none => w.value ty name

/-- `name` can be set under the type `t`: it is declared there, is none of the variables that may not be set,
and has no modifiers, unless these were asked for -/
def Editable (w : Types V) (extra : Bool) (t : Nat) (name : Name) : Prop :=
  name ∉ unmodifiable ∧ ∃ v f, (name, v) ∈ w.vars t ∧ v.decl = some f ∧ (f.none = true ∨ extra = true)

theorem mem_rows (w : Types V) (filter : Name) (extra : Bool) (t : Nat) (n : Name) :
    n ∈ w.rows filter extra t ↔ Editable w extra t n ∧ hasFilter filter n = true := by
  unfold Types.rows Editable
  constructor
  · intro h
    obtain ⟨v, hv, rfl⟩ := List.mem_map.1 h
    rw [List.mem_filter, (List.mergeSort_perm _ _).mem_iff, List.mem_filter] at hv
    obtain ⟨⟨h1, h2⟩, h3⟩ := hv
    rw [Bool.and_eq_true] at h3
    refine ⟨⟨by simpa using h2, v.2, ?_⟩, h3.1⟩
    cases hd : v.2.decl with
    | none => rw [hd] at h3; simp at h3
    | some f =>
      rw [hd] at h3
      exact ⟨f, h1, rfl, by simpa using h3.2⟩
  · rintro ⟨⟨h1, v, f, h2, h3, h4⟩, h5⟩
    refine List.mem_map.2 ⟨(n, v), ?_, rfl⟩
    rw [List.mem_filter, (List.mergeSort_perm _ _).mem_iff, List.mem_filter]
    refine ⟨⟨h2, by simpa using h1⟩, ?_⟩
    rw [h5, h3]
    simpa using h4

theorem lookup_append {α β : Type} [BEq α] [LawfulBEq α] (l l' : List (α × β)) (a : α) :
    (l ++ l').lookup a = (l.lookup a).or (l'.lookup a) := by
  induction l with
  | nil => simp
  | cons x l ih =>
    obtain ⟨k, v⟩ := x
    rw [List.cons_append, List.lookup_cons, List.lookup_cons]
    cases a == k with
    | true => rfl
    | false => exact ih

theorem lookup_filter {α β : Type} [BEq α] [LawfulBEq α] (p : α → Bool) (l : List (α × β)) (a : α) :
    (l.filter fun v => p v.1).lookup a = if p a then l.lookup a else none := by
  induction l with
  | nil => simp
  | cons x l ih =>
    obtain ⟨k, v⟩ := x
    rw [List.filter_cons]
    by_cases hk : a = k
    · subst hk
      cases hp : p a with
      | true => simp
      | false => simp [hp] at ih ⊢; exact ih
    · have hk' : (a == k) = false := by simpa using hk
      split
      · rw [List.lookup_cons, List.lookup_cons, hk']; exact ih
      · rw [List.lookup_cons, hk']; exact ih

/-- the state after some rows: what was added is editable, unset before and has the inherited value -/
theorem clicks_spec (w : Types V) (ty : Nat) (click : Nat → Name → Bool) (rs : List (Nat × Name)) (vars : List (Name × V)) :
    ∃ added, rs.foldl (fun vs r => if click r.1 r.2 then clickRow w ty vs r.2 else vs) vars = vars ++ added ∧
      (added.map Prod.fst).Nodup ∧
      (∀ n c, (n, c) ∈ added → vars.lookup n = none ∧ w.value ty n = some c ∧ ∃ t, (t, n) ∈ rs ∧ click t n = true) ∧
      (∀ t n, (t, n) ∈ rs → click t n = true → (w.value ty n).isSome →
        (vars ++ added).lookup n ≠ none) := by
  induction rs generalizing vars with
  | nil => exact ⟨[], by simp, by simp, by simp, by simp⟩
  | cons r rs ih =>
    obtain ⟨t0, n0⟩ := r
    have keep : clickRow w ty vars n0 = vars ∧ (click t0 n0 = true → (w.value ty n0).isSome → vars.lookup n0 ≠ none) ∨
        (∃ c, w.value ty n0 = some c ∧ vars.lookup n0 = none ∧ clickRow w ty vars n0 = vars ++ [(n0, c)]) := by
      unfold clickRow
      cases h1 : vars.lookup n0 with
      | some x => exact .inl ⟨rfl, fun _ _ => nofun⟩
      | none =>
        cases h2 : w.value ty n0 with
        | none => exact .inl ⟨rfl, fun _ h => by cases h⟩
        | some c => exact .inr ⟨c, rfl, rfl, rfl⟩
    have idle : ((if click t0 n0 then clickRow w ty vars n0 else vars) = vars) →
        (click t0 n0 = true → (w.value ty n0).isSome → vars.lookup n0 ≠ none) →
        ∃ added, ((t0, n0) :: rs).foldl (fun vs r => if click r.1 r.2 then clickRow w ty vs r.2 else vs) vars = vars ++ added ∧
      (added.map Prod.fst).Nodup ∧
      (∀ n c, (n, c) ∈ added → vars.lookup n = none ∧ w.value ty n = some c ∧
        ∃ t, (t, n) ∈ (t0, n0) :: rs ∧ click t n = true) ∧
      (∀ t n, (t, n) ∈ (t0, n0) :: rs → click t n = true → (w.value ty n).isSome → (vars ++ added).lookup n ≠ none) := by
      intro e1 e2
      obtain ⟨added, h1, h2, h3, h4⟩ := ih vars
      refine ⟨added, by rw [List.foldl_cons]; simp only [e1]; exact h1, h2, ?_, ?_⟩
      · intro n c h
        obtain ⟨a, b, t, ht, hc⟩ := h3 n c h
        exact ⟨a, b, t, List.mem_cons_of_mem _ ht, hc⟩
      · intro t n h hc hv
        rcases List.mem_cons.1 h with e | h
        · injection e with e3 e4
          subst e3 e4
          rw [lookup_append]
          have := e2 hc hv
          cases hl : vars.lookup n with
          | none => exact absurd hl this
          | some x => simp
        · exact h4 t n h hc hv
    cases hck : click t0 n0 with
    | false => exact idle (by rw [hck]; rfl) (by rw [hck]; exact fun h => by cases h)
    | true =>
      rcases keep with ⟨e, h⟩ | ⟨c, e1, e2, e3⟩
      · exact idle (by rw [hck]; exact e) h
      · obtain ⟨added, h1, h2, h3, h4⟩ := ih (vars ++ [(n0, c)])
        refine ⟨(n0, c) :: added, ?_, ?_, ?_, ?_⟩
        · rw [List.foldl_cons]
          simp only [hck, if_true, e3]
          rw [h1, List.append_assoc, List.singleton_append]
        · rw [List.map_cons, List.nodup_cons]
          refine ⟨?_, h2⟩
          intro hm
          obtain ⟨x, hx, hx'⟩ := List.mem_map.1 hm
          have := (h3 x.1 x.2 hx).1
          rw [lookup_append, hx', e2] at this
          simp at this
        · intro n c' h
          rcases List.mem_cons.1 h with e | h
          · injection e with e4 e5
            subst e4 e5
            exact ⟨e2, e1, t0, List.mem_cons_self, hck⟩
          · obtain ⟨a, b, t, ht, hc⟩ := h3 n c' h
            rw [lookup_append] at a
            refine ⟨?_, b, t, List.mem_cons_of_mem _ ht, hc⟩
            cases hl : vars.lookup n with
            | none => rfl
            | some x => rw [hl] at a; simp at a
        · intro t n h hc hv
          rcases List.mem_cons.1 h with e | h
          · injection e with e4 e5
            subst e4 e5
            rw [lookup_append, e2]
            simp
          · have := h4 t n h hc hv
            rwa [List.append_assoc, List.singleton_append] at this

/-- **C109.** What a frame of the window does to an object of type `ty`, whatever is clicked in it:

* the variables whose "X" was pressed are no longer set, all others stay set as they are and in their order;
* the others that are now set were clicked, are editable and were not set, and each is set once;
* whatever is clicked and editable, is shown and has a value is now set;
* no variable changes its value, other than those reset, which get the inherited value. -/
theorem frame_exact (w : Types V) (filter : Name) (extra : Bool) (reset : Name → Bool) (click : Nat → Name → Bool)
    (fab : Fab V) (ty : Nat) (hty : (findClosestType w.find fab.path).2 = some ty) :
    let fab' := frame (some w) filter extra reset click fab
    let pressed n := hasFilter filter n = true ∧ reset n = true
    fab'.path = fab.path ∧
    (∃ added, fab'.vars = (fab.vars.filter fun v => decide ¬pressed v.1) ++ added ∧ (added.map Prod.fst).Nodup ∧
      ∀ n c, (n, c) ∈ added → (fab.vars.lookup n = none ∨ pressed n) ∧
        ∃ t ∈ w.shown ty, Editable w extra t n ∧ click t n = true) ∧
    (∀ t ∈ w.shown ty, ∀ n, Editable w extra t n → hasFilter filter n = true → click t n = true →
      (w.value ty n).isSome → fab'.vars.lookup n ≠ none) ∧
    (∀ n, fab'.effective w ty n = if pressed n then w.value ty n else fab.effective w ty n) := by
  intro fab' pressed
  have hc : closest w.find fab.path = some ty := hty
  obtain ⟨added, h1, h2, h3, h4⟩ := clicks_spec w ty click
    ((w.shown ty).flatMap fun t => (w.rows filter extra t).map fun n => (t, n)) (resets filter reset fab.vars)
  have hv : fab'.vars = resets filter reset fab.vars ++ added := by
    simp only [fab', frame, hc]
    exact h1
  have hr : resets filter reset fab.vars = fab.vars.filter fun v => decide ¬pressed v.1 := by
    unfold resets
    apply List.filter_congr
    intro v _
    simp [pressed]
  have hl : ∀ n, (resets filter reset fab.vars).lookup n = if pressed n then none else fab.vars.lookup n := by
    intro n
    rw [hr, lookup_filter (fun n => decide ¬pressed n)]
    by_cases hp : pressed n
    · simp [hp]
    · simp [hp]
  have hmem : ∀ t n, (t, n) ∈ ((w.shown ty).flatMap fun t => (w.rows filter extra t).map fun n => (t, n)) ↔
      t ∈ w.shown ty ∧ Editable w extra t n ∧ hasFilter filter n = true := by
    intro t n
    simp only [List.mem_flatMap, List.mem_map, Prod.mk.injEq]
    constructor
    · rintro ⟨t', ht', n', hn', rfl, rfl⟩
      exact ⟨ht', (mem_rows w filter extra t' n').1 hn'⟩
    · rintro ⟨ht, hn⟩
      exact ⟨t, ht, n, (mem_rows w filter extra t n).2 hn, rfl, rfl⟩
  refine ⟨?_, ⟨added, by rw [hv, hr], h2, ?_⟩, ?_, ?_⟩
  · simp only [fab', frame, hc]
  · intro n c h
    obtain ⟨a, _, t, ht, hck⟩ := h3 n c h
    obtain ⟨b1, b2, _⟩ := (hmem t n).1 ht
    refine ⟨?_, t, b1, b2, hck⟩
    rw [hl] at a
    split at a
    · next hp => exact .inr hp
    · exact .inl a
  · intro t ht n he hf hck hval
    rw [hv]
    exact h4 t n ((hmem t n).2 ⟨ht, he, hf⟩) hck hval
  · intro n
    have key : fab'.effective w ty n =
        match (resets filter reset fab.vars).lookup n with | some c => some c | none => w.value ty n := by
      unfold Fab.effective
      rw [hv, lookup_append]
      cases hl' : (resets filter reset fab.vars).lookup n with
      | some x => simp
      | none =>
        cases ha : added.lookup n with
        | none => simp
        | some c =>
          have hm : (n, c) ∈ added := by
            clear * - ha
            induction added with
            | nil => simp at ha
            | cons x l ih =>
              obtain ⟨k, v⟩ := x
              rw [List.lookup_cons] at ha
              by_cases hk : n = k
              · subst hk
                simp at ha
                subst ha
                exact List.mem_cons_self
              · have : (n == k) = false := by simpa using hk
                rw [this] at ha
                exact List.mem_cons_of_mem _ (ih ha)
          simp [(h3 n c hm).2.1]
    rw [key, hl]
    by_cases hp : pressed n
    · rw [if_pos hp, if_pos hp]
    · rw [if_neg hp, if_neg hp]
      rfl

/-- **C109.** Without an environment, or if no type is found, only the reset buttons are there. -/
theorem frame_no_type (w : Option (Types V)) (filter : Name) (extra : Bool) (reset : Name → Bool)
    (click : Nat → Name → Bool) (fab : Fab V)
    (h : ∀ w', w = some w' → (findClosestType w'.find fab.path).2 = none) :
    frame w filter extra reset click fab = { fab with vars := resets filter reset fab.vars } := by
  unfold frame
  cases w with
  | none => rfl
  | some w =>
    have : closest w.find fab.path = none := h w rfl
    simp only [this]

/-- **C109.** The rows under a type are in the order of their names. -/
theorem rows_sorted (w : Types V) (filter : Name) (extra : Bool) (t : Nat) :
    (w.rows filter extra t).Pairwise fun a b => strLt b a = false := by
  unfold Types.rows
  rw [List.pairwise_map]
  refine List.Pairwise.filter _ ?_
  have := List.pairwise_mergeSort (le := byName (Prod.fst : Name × Var V → Name)) (byName_trans _)
    (byName_total _) ((w.vars t).filter fun v => !unmodifiable.contains v.1)
  refine this.imp ?_
  intro a b h
  unfold byName at h
  simpa using h

/-- **C109.** The inherited value is that of the nearest type that mentions the variable: the type itself if
it does, or else the first of its ancestors. -/
theorem value_nearest (w : Types V) (ty t : Nat) (name : Name) (v : Var V) (near far : List Nat)
    (hline : w.line ty = near ++ t :: far) (hnear : ∀ t' ∈ near, (w.vars t').lookup name = none)
    (hv : (w.vars t).lookup name = some v) : w.value ty name = v.constant := by
  unfold Types.value
  rw [hline, List.findSome?_append, List.findSome?_eq_none_iff.2 hnear, List.findSome?_cons, hv]
  rfl

/-- **C109.** Shown are the variables of the type and of its ancestors, nearest first and without the root,
unless the type itself is the root. -/
theorem shown_spec (w : Types V) (ty : Nat) (rest : List Nat) (h0 : 0 ∉ rest) :
    (w.line ty = ty :: (rest ++ [0]) → w.shown ty = ty :: rest) ∧ (w.line ty = [ty] → w.shown ty = [ty]) := by
  refine ⟨fun h => ?_, fun h => ?_⟩
  · unfold Types.shown
    rw [h]
    simp only [List.cons.injEq, true_and]
    rw [List.takeWhile_append_of_pos]
    · simp
    · intro a ha
      simp only [ne_eq, decide_not, Bool.not_eq_eq_eq_not, Bool.not_true, decide_eq_false_iff_not]
      exact fun e => h0 (e ▸ ha)
  · unfold Types.shown
    rw [h]
    rfl

/-! ## Examples and a disagreement -/

section Examples

/-- the root with a global variable, `/obj`, `/obj/lamp` and `/obj/lamp/red`, which overrides a variable -/
def types : Types Nat where
  find p :=
    if p = [] then some 0 else if p = "/obj".toList then some 1 else if p = "/obj/lamp".toList then some 2
    else if p = "/obj/lamp/red".toList then some 3 else none
  line | 3 => [3, 2, 1, 0] | 2 => [2, 1, 0] | 1 => [1, 0] | _ => [0]
  vars
    | 3 => [("name".toList, ⟨none, some 2⟩)]
    | 2 => [("power".toList, ⟨some {}, some 7⟩)]
    | 1 => [("name".toList, ⟨some {}, some 1⟩), ("x".toList, ⟨some {}, some 3⟩)]
    | _ => [("world_count".toList, ⟨some {}, some 9⟩)]

def lamp : Fab Nat := ⟨"/obj/lamp/red".toList, [("power".toList, 8)]⟩

example : (findClosestType types.find lamp.path).2 = some 3 := by decide +kernel

example : types.line 3 = 3 :: ([2, 1] ++ [0]) ∧ types.shown 3 = [3, 2, 1] ∧ types.shown 0 = [0] := by decide +kernel

/-- clicking everything sets what may be set, to the values there were -/
example : (frame (some types) [] false (fun _ => false) (fun _ _ => true) lamp).vars =
    [("power".toList, 8), ("name".toList, 2)] := by decide +kernel

/-- "X" on `power` -/
example : (frame (some types) [] false (fun n => n = "power".toList) (fun _ _ => false) lamp).vars = [] := by
  decide +kernel

example : (findClosestType types.find "/obj/lamp/blue/big".toList) = (true, some 2) := by decide +kernel

/-- **Disagreement.** For a path that is not below any type, the closest type is the root, and the window
offers the global variables (edit_prefab.rs:107-113) -/
theorem globals_offered :
    findClosestType types.find "/nothing".toList = (true, some 0) ∧
    (frame (some types) [] false (fun _ => false) (fun _ _ => true) ⟨"/nothing".toList, []⟩).vars =
      [("world_count".toList, 9)] := by
  decide +kernel

end Examples

end Verif.Editor.Prefab
