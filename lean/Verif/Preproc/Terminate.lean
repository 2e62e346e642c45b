import Verif.Preproc.Closed
import Mathlib.Data.DFinsupp.WellFounded

/-!
# C22: depth bound and termination of preprocessing
-/

namespace Verif.Preproc

open Verif.Context (Location)
open Verif.Lexer (Tok Punct DocTarget CommentKind)

/-! ## Specification -/

/-- every macro expansion on the stack (top first) has at most `MAX_RECURSION_DEPTH` entries below it -/
def ExpansionsShallow : List Include → Prop
  | [] => True
  | .file _ _ :: st => ExpansionsShallow st
  | .expansion _ _ :: st => st.length ≤ MAX_RECURSION_DEPTH ∧ ExpansionsShallow st

/-- number of files on the stack -/
def fileCount : List Include → Nat
  | [] => 0
  | .file _ _ :: st => fileCount st + 1
  | .expansion _ _ :: st => fileCount st

/-! ## The order on stacks -/

/-- number of tokens left in the `i`-th entry from the bottom -/
def fr (st : List Include) (i : Nat) : Nat := (st.reverse[i]?.map Include.size).getD 0

theorem fr_cons_lt (x : Include) (st : List Include) {i : Nat} (h : i < st.length) :
    fr (x :: st) i = fr st i := by
  unfold fr
  rw [List.reverse_cons, List.getElem?_append_left (by simpa using h)]

theorem fr_cons_eq (x : Include) (st : List Include) : fr (x :: st) st.length = x.size := by
  unfold fr
  rw [List.reverse_cons, List.getElem?_append_right (by simp)]
  simp

theorem fr_ge (st : List Include) {i : Nat} (h : st.length ≤ i) : fr st i = 0 := by
  unfold fr
  rw [List.getElem?_eq_none (by simpa using h)]
  rfl

/-- `st'` has fewer tokens than `st` in some entry it still has, and as many below -/
def DecL (st st' : List Include) : Prop :=
  ∃ i, i < st'.length ∧ fr st' i < fr st i ∧ ∀ j, j < i → fr st' j = fr st j

/-- `st'` is smaller, or has the same entries and perhaps more on top -/
def Ext (st st' : List Include) : Prop :=
  DecL st st' ∨ (st.length ≤ st'.length ∧ ∀ i, i < st.length → fr st' i = fr st i)

theorem DecL.ext {a b c : List Include} (h : DecL a b) (h2 : Ext b c) : DecL a c := by
  obtain ⟨i, hi, hlt, heq⟩ := h
  rcases h2 with ⟨k, hk, hlt2, heq2⟩ | ⟨hl, heq2⟩
  · rcases Nat.lt_trichotomy i k with h | h | h
    · exact ⟨i, by omega, by rw [heq2 _ h]; exact hlt, fun j hj => by rw [heq2 _ (by omega), heq _ hj]⟩
    · subst h
      exact ⟨i, hk, by omega, fun j hj => by rw [heq2 _ hj, heq _ hj]⟩
    · exact ⟨k, hk, by rw [← heq _ h]; exact hlt2, fun j hj => by rw [heq2 _ hj, heq _ (by omega)]⟩
  · exact ⟨i, by omega, by rw [heq2 _ hi]; exact hlt, fun j hj => by rw [heq2 _ (by omega), heq _ hj]⟩

theorem Ext.refl (a : List Include) : Ext a a := .inr ⟨Nat.le_refl _, fun _ _ => rfl⟩

theorem Ext.trans {a b c : List Include} (h : Ext a b) (h2 : Ext b c) : Ext a c := by
  rcases h with h | ⟨hl, heq⟩
  · exact .inl (h.ext h2)
  · rcases h2 with ⟨k, hk, hlt2, heq2⟩ | ⟨hl2, heq2⟩
    · by_cases hka : k < a.length
      · exact .inl ⟨k, hk, by rw [← heq _ hka]; exact hlt2,
          fun j hj => by rw [heq2 _ hj, heq _ (by omega)]⟩
      · exact .inr ⟨by omega, fun i hi => by rw [heq2 _ (by omega), heq _ hi]⟩
    · exact .inr ⟨by omega, fun i hi => by rw [heq2 _ (by omega), heq _ hi]⟩

theorem Ext.push (x : Include) (a : List Include) : Ext a (x :: a) :=
  .inr ⟨by simp, fun i hi => fr_cons_lt x a hi⟩

theorem fr_cons_zero (x : Include) (st : List Include) (h : x.size = 0) (i : Nat) :
    fr (x :: st) i = fr st i := by
  rcases Nat.lt_trichotomy i st.length with h2 | h2 | h2
  · exact fr_cons_lt x st h2
  · subst h2; rw [fr_cons_eq, h, fr_ge _ (Nat.le_refl _)]
  · rw [fr_ge _ (by simp; omega), fr_ge _ (by omega)]

theorem stackNext_dec {st : List Include} {t st'} (h : stackNext st = some (t, st')) : DecL st st' := by
  induction st with
  | nil => simp [stackNext] at h
  | cons x st ih =>
    have skip : x.size = 0 → stackNext st = some (t, st') → DecL (x :: st) st' := by
      intro hx h
      obtain ⟨i, hi, hlt, heq⟩ := ih h
      exact ⟨i, hi, by rw [fr_cons_zero _ _ hx]; exact hlt,
        fun j hj => by rw [fr_cons_zero _ _ hx]; exact heq j hj⟩
    have take : ∀ y : Include, y.size < x.size → st' = y :: st → DecL (x :: st) st' := by
      rintro y hy rfl
      exact ⟨st.length, by simp, by rw [fr_cons_eq, fr_cons_eq]; exact hy,
        fun j hj => by rw [fr_cons_lt _ _ hj, fr_cons_lt _ _ hj]⟩
    cases x with
    | file p ts =>
      cases ts with
      | nil => exact skip rfl h
      | cons u ts =>
        simp only [stackNext, Option.some.injEq, Prod.mk.injEq] at h
        exact take _ (by simp [Include.size]) h.2.symm
    | expansion l ts =>
      cases ts with
      | nil => exact skip rfl h
      | cons u ts =>
        simp only [stackNext, Option.some.injEq, Prod.mk.injEq] at h
        exact take _ (by simp [Include.size]) h.2.symm

namespace PP

variable {env : Env}

/-- progress of the whole state -/
def Weak (a : PP) (s : PP) : Prop :=
  s.stack = [] ∨ a.incLocs.length < s.incLocs.length ∨
    (s.incLocs.length = a.incLocs.length ∧ Ext a.stack s.stack)

theorem innerNext_nil {s : PP} (h : s.stack = []) : s.innerNext = none := by
  unfold innerNext; rw [h]; rfl

theorem weak_closed (a : PP) : Closed env (Weak a) where
  frame := by
    intro s s' h hc
    have h1 : s'.stack = s.stack := congrArg (·.1) hc
    have h2 : s'.incLocs = s.incLocs := congrArg (·.2.1) hc
    unfold Weak at *
    rwa [h1, h2]
  next := by
    intro s l t s' h hn
    obtain ⟨st, h1, rfl⟩ := innerNext_eq hn
    rcases h with h | h | ⟨h, h'⟩
    · rw [innerNext_nil h] at hn; simp at hn
    · exact .inr (.inl h)
    · exact .inr (.inr ⟨h, h'.trans (.inl (stackNext_dec h1))⟩)
  drained := fun _ _ => .inl rfl
  define := fun _ _ h => h
  undef := fun _ h => h
  pop := by
    intro s i s' h hp
    unfold popIfdef at hp
    split at hp
    · simp at hp
    · simp only [Option.some.injEq, Prod.mk.injEq] at hp
      rw [← hp.2]; exact h
  pushIfdef := fun _ h => h
  multi := fun _ h => h
  inclNew := by
    intro s p toks h hs _ _
    rcases h with h | h | ⟨h, h'⟩
    · exact absurd h hs
    · exact .inr (.inl (by simp; omega))
    · exact .inr (.inl (by simp; omega))
  inclMulti := by
    intro s p toks h hs _ _
    rcases h with h | h | ⟨h, h'⟩
    · exact absurd h hs
    · exact .inr (.inl h)
    · exact .inr (.inr ⟨h, h'.trans (.push _ _)⟩)
  expand := by
    intro s l toks h hs _
    rcases h with h | h | ⟨h, h'⟩
    · exact absurd h hs
    · exact .inr (.inl h)
    · exact .inr (.inr ⟨h, h'.trans (.push _ _)⟩)

/-- depth invariant -/
structure Bounded (s : PP) : Prop where
  shallow : ExpansionsShallow s.stack
  nodup : s.incLocs.Nodup
  files : s.multi = [] → fileCount s.stack ≤ s.incLocs.length + 1

theorem stackNext_shallow {st : List Include} {t st'} (h : stackNext st = some (t, st'))
    (hs : ExpansionsShallow st) : ExpansionsShallow st' ∧ fileCount st' ≤ fileCount st := by
  induction st with
  | nil => simp [stackNext] at h
  | cons x st ih =>
    cases x with
    | file p ts =>
      cases ts with
      | nil =>
        have := ih h hs
        exact ⟨this.1, by simp only [fileCount]; omega⟩
      | cons u ts =>
        simp only [stackNext, Option.some.injEq, Prod.mk.injEq] at h
        rw [← h.2]; exact ⟨hs, Nat.le_refl _⟩
    | expansion l ts =>
      cases ts with
      | nil => exact ih h hs.2
      | cons u ts =>
        simp only [stackNext, Option.some.injEq, Prod.mk.injEq] at h
        rw [← h.2]; exact ⟨hs, Nat.le_refl _⟩

theorem bounded_closed : Closed env Bounded where
  frame := by
    intro s s' h hc
    have h1 : s'.stack = s.stack := congrArg (·.1) hc
    have h2 : s'.incLocs = s.incLocs := congrArg (·.2.1) hc
    have h3 : s'.multi = s.multi := congrArg (·.2.2.1) hc
    exact ⟨h1 ▸ h.shallow, h2 ▸ h.nodup, by rw [h1, h2, h3]; exact h.files⟩
  next := by
    intro s l t s' h hn
    obtain ⟨st, h1, rfl⟩ := innerNext_eq hn
    have := stackNext_shallow h1 h.shallow
    exact ⟨this.1, h.nodup, fun hm => le_trans this.2 (h.files hm)⟩
  drained := fun h _ => ⟨trivial, h.nodup, fun _ => Nat.zero_le _⟩
  define := fun _ _ h => ⟨h.1, h.2, h.3⟩
  undef := fun _ h => ⟨h.1, h.2, h.3⟩
  pop := by
    intro s i s' h hp
    unfold popIfdef at hp
    split at hp
    · simp at hp
    · simp only [Option.some.injEq, Prod.mk.injEq] at hp
      rw [← hp.2]; exact ⟨h.1, h.2, h.3⟩
  pushIfdef := fun _ h => ⟨h.1, h.2, h.3⟩
  multi := fun _ h => ⟨h.1, h.2, fun hm => by simp at hm⟩
  inclNew := fun p toks h _ hn _ => ⟨h.1, List.nodup_cons.2 ⟨hn, h.2⟩, fun hm => by
    have := h.3 hm
    simp only [fileCount, List.length_cons]; omega⟩
  inclMulti := fun p toks h _ hm _ => ⟨h.1, h.2, fun he => by
    simp only at he; rw [he] at hm; simp at hm⟩
  expand := fun l toks h _ hl => ⟨⟨hl, h.1⟩, h.2, h.3⟩

/-! ## Termination -/

theorem shallow_length {st : List Include} (h : ExpansionsShallow st) :
    st.length ≤ fileCount st + (MAX_RECURSION_DEPTH + 1) := by
  induction st with
  | nil => simp
  | cons x st ih =>
    cases x with
    | file p ts =>
      have := ih h
      simp only [fileCount, List.length_cons]; omega
    | expansion l ts =>
      have := h.1
      simp only [List.length_cons]; omega

/-- the greatest number of stack entries without `#pragma multiple` -/
def maxDepth : Nat := 65536 + 1 + (MAX_RECURSION_DEPTH + 1)

theorem nodup_length (l : List (Fin 65536)) (h : l.Nodup) : l.length ≤ 65536 := by
  have := h.length_le_card
  simpa using this

theorem Bounded.length {s : PP} (h : Bounded s) (hm : s.multi = []) : s.stack.length ≤ maxDepth := by
  have h1 := shallow_length h.shallow
  have h2 := h.files hm
  have h3 := nodup_length _ h.nodup
  unfold maxDepth; omega

/-- the termination measure: files not yet included, then the tokens of the stack entries from the
bottom up -/
def meas (s : PP) : Fin (maxDepth + 1) → Nat :=
  fun i => if i.val = 0 then 65536 - s.incLocs.length else fr s.stack (i.val - 1)

/-- the lexicographic order on measures -/
def Smaller (s' s : PP) : Prop :=
  Pi.Lex (· < ·) (fun {_} => (· < ·)) s'.meas s.meas

theorem smaller_wf : WellFounded Smaller :=
  InvImage.wf meas (Pi.Lex.wellFounded _ fun _ => Nat.lt_wfRel.wf)

/-- reading a token and then making weak progress makes the measure smaller, as long as
`#pragma multiple` is not used -/
theorem smaller_of {s s1 s2 : PP} {l t} (hn : s.innerNext = some (l, t, s1))
    (hw : Weak s1 s2) (hb2 : Bounded s2) (hm2 : s2.multi = []) (hne : s2.stack ≠ []) :
    Smaller s2 s := by
  obtain ⟨st, h1, rfl⟩ := innerNext_eq hn
  have hn2 := nodup_length _ hb2.nodup
  rcases hw with h | h | ⟨h, h'⟩
  · exact absurd h hne
  · refine ⟨⟨0, by omega⟩, fun j hj => absurd hj (by simp [Fin.lt_def]), ?_⟩
    simp only [meas, if_true]
    simp only at h
    omega
  · simp only at h h'
    obtain ⟨i, hi, hlt, heq⟩ := (stackNext_dec h1).ext h'
    have hl := hb2.length hm2
    refine ⟨⟨i + 1, by omega⟩, ?_, ?_⟩
    · intro j hj
      simp only [Fin.lt_def] at hj
      unfold meas
      split
      · rw [h]
      · exact heq _ (by omega)
    · simp only [meas]
      exact hlt

end PP

end Verif.Preproc
