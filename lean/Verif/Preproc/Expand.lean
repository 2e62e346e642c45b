import Verif.Preproc.Fuel
import Verif.Preproc.Depth
import Verif.Preproc.DefineMap

/-!
# Object-like macros expand by recursive substitution

The specification is the function `expandToks`: it does not mention the include stack.
-/

namespace Verif.Preproc

open Verif.Context (Location)
open Verif.Lexer (Tok Punct DocTarget CommentKind)

/-! ## Specification -/

/-- tokens emitted so far, and doc comments waiting to be emitted before the next visible token -/
structure Emit where
  out : List LTok
  docs : List LTok := []
deriving DecidableEq

/-- emit the waiting doc comments -/
def Emit.flush (e : Emit) : Emit := ⟨e.out ++ e.docs, []⟩

/-- emit a token, and before it the waiting doc comments unless the token is white space -/
def Emit.put (e : Emit) (t : LTok) : Emit :=
  if isWhitespace t.tok then ⟨e.out ++ [t], e.docs⟩ else ⟨e.out ++ e.docs ++ [t], []⟩

/-- the last two tokens emitted are `defined (` -/
def afterDefinedIn (out : List LTok) : Bool :=
  match out.reverse with
  | p :: d :: _ =>
    p.tok = lparen && (match d.tok with
      | .ident n _ => n = "defined".toList
      | _ => false)
  | _ => false

/-- the substitution to use for a token, if it is the name of an object-like macro.  In a condition
(`cond`), a name following `defined (` is left alone. -/
def macroOf (defs : DefineMap) (cond : Bool) (out : List LTok) : Tok → Option (List Tok)
  | .ident n _ =>
    if n = "__FILE__".toList ∨ n = "__LINE__".toList then none
    else if cond && afterDefinedIn out then none
    else
      match defs.get n with
      | some (_, .constant subst) => some subst
      | _ => none
  | _ => none

/-- a token that is not expanded: itself, except for the two predefined names -/
def leaf (file : List Char) (t : LTok) : LTok :=
  match t.tok with
  | .ident n _ =>
    if n = "__FILE__".toList then ⟨t.loc, .str file⟩
    else if n = "__LINE__".toList then ⟨t.loc, .int t.loc.line.val⟩
    else t
  | _ => t

/-- expansion of one token, with at most `depth` nested expansions: a macro name is replaced by the
expansion of its substitution, all of whose tokens get the location of the use -/
def expandTok (defs : DefineMap) (file : List Char) (cond : Bool) : Nat → Emit → LTok → Emit
  | 0, e, t => e.put (leaf file t)
  | depth + 1, e, t =>
    match macroOf defs cond (e.out ++ e.docs) t.tok with
    | some subst => (subst.map fun u => (⟨t.loc, u⟩ : LTok)).foldl (expandTok defs file cond depth) e.flush
    | none => e.put (leaf file t)

/-- expansion of a list of tokens -/
def expandToks (defs : DefineMap) (file : List Char) (cond : Bool) (depth : Nat) (e : Emit)
    (ts : List LTok) : Emit := ts.foldl (expandTok defs file cond depth) e

/-- A set of ordinary tokens: no `#`, no doc comment, no string interpolation, no name of a
function-like macro, and closed under substitution of object-like macros. -/
structure Ordinary (defs : DefineMap) (G : Tok → Prop) : Prop where
  hash : ¬ G hash
  doc : ∀ k t x, ¬ G (.doc k t x)
  ibegin : ∀ x, ¬ G (.interpBegin x)
  iend : ∀ x, ¬ G (.interpEnd x)
  fn : ∀ n ws, G (.ident n ws) → ∀ l ps su v, defs.get n ≠ some (l, .function ps su v)
  sub : ∀ n ws, G (.ident n ws) → ∀ l su, defs.get n = some (l, .constant su) → ∀ t ∈ su, G t

/-! ## Steps -/

namespace PP

/-- One input token is read and processed.  The tokens produced are appended to `output`; with
`cond = false` the queue is empty while the token is processed (it has been delivered before).
With `cond = true` this is one iteration of the loop that reads a condition. -/
def Micro (env : Env) (cond : Bool) (s s' : PP) : Prop :=
  ∃ l t s1 n s2, s.innerNext = some (l, t, s1) ∧ (cond = true → t ≠ newline) ∧
    ({ s1 with lastLoc := l, output := if cond then s.output else [] } : PP).realNext env n t cond =
      .ok s2 ∧
    s' = { s2 with output := if cond then s2.output else s.output ++ s2.output }

/-- any number of steps -/
inductive Micros (env : Env) (cond : Bool) : PP → PP → Prop
  | refl (s : PP) : Micros env cond s s
  | cons {a b c : PP} : Micro env cond a b → Micros env cond b c → Micros env cond a c

theorem Micros.trans {env : Env} {cond : Bool} {a b c : PP} (h : Micros env cond a b)
    (h' : Micros env cond b c) : Micros env cond a c := by
  induction h with
  | refl => exact h'
  | cons hs _ ih => exact .cons hs (ih h')

theorem Micros.one {env : Env} {cond : Bool} {a b : PP} (h : Micro env cond a b) :
    Micros env cond a b := .cons h (.refl _)

/-! ### steps and the iterator -/

/-- every delivered list starts with the queue -/
theorem run_prefix (env : Env) (n : Nat) (s : PP) (r : List LTok × PP) (h : s.run env n = .ok r) :
    ∃ x, r.1 = s.output ++ x := by
  cases n with
  | zero => simp [run] at h
  | succ n =>
    unfold run at h
    cases hn : ({ s with output := [] } : PP).innerNext with
    | none =>
      rw [hn] at h
      simp only [Except.ok.injEq] at h
      exact ⟨[], by rw [← h]; simp⟩
    | some x =>
      obtain ⟨l, t, s1⟩ := x
      rw [hn] at h
      simp only at h
      cases hr : ({ s1 with lastLoc := l } : PP).realNext env n t false with
      | error e => rw [hr] at h; simp at h
      | ok s2 =>
        rw [hr] at h
        simp only at h
        cases hr2 : s2.run env n with
        | error e => rw [hr2] at h; simp at h
        | ok r2 =>
          rw [hr2] at h
          simp only [Except.ok.injEq] at h
          exact ⟨r2.1, by rw [← h]⟩

theorem Micro.run {env : Env} {s s' : PP} (h : Micro env false s s') {n : Nat} {r}
    (hr : s'.run env n = .ok r) : ∃ m, s.run env m = .ok r := by
  obtain ⟨l, t, s1, k, s2, h1, -, h3, rfl⟩ := h
  simp only [Bool.false_eq_true, if_false] at h3 hr
  obtain ⟨x, hx⟩ := run_prefix env n _ r hr
  simp only at hx
  -- strip the part delivered before
  have hstrip : ∀ (A B : List LTok) (s : PP) (r : List LTok × PP) (y : List LTok),
      ({ s with output := A ++ B } : PP).run env n = .ok r → r.1 = A ++ B ++ y →
      ({ s with output := B } : PP).run env n = .ok (B ++ y, r.2) := by
    intro A B s r y h hy
    cases n with
    | zero => simp [PP.run] at h
    | succ n =>
      unfold PP.run at h ⊢
      simp only at h ⊢
      cases hn : ({ s with output := [] } : PP).innerNext with
      | none =>
        rw [hn] at h
        simp only [Except.ok.injEq] at h ⊢
        subst h
        have hy : y = [] := by simpa using hy
        rw [hy, List.append_nil]
      | some z =>
        obtain ⟨l, t, s1⟩ := z
        rw [hn] at h
        simp only at h ⊢
        cases hr : ({ s1 with lastLoc := l } : PP).realNext env n t false with
        | error e => rw [hr] at h; simp at h
        | ok s2 =>
          rw [hr] at h
          simp only at h ⊢
          cases hr2 : s2.run env n with
          | error e => rw [hr2] at h; simp at h
          | ok r2 =>
            rw [hr2] at h
            simp only [Except.ok.injEq] at h ⊢
            subst h
            simp only [List.append_cancel_left_eq] at hy
            simp [hy]
  have hs2 := hstrip s.output s2.output s2 r x hr hx
  have hs2 : s2.run env n = .ok (s2.output ++ x, r.2) := hs2
  refine ⟨max k n + 1, ?_⟩
  unfold PP.run
  have hin : ({ s with output := [] } : PP).innerNext = some (l, t, { s1 with output := [] }) := by
    unfold innerNext at h1 ⊢
    obtain ⟨q, hq, he⟩ := Option.map_eq_some_iff.1 h1
    rw [hq]
    simp only [Option.map_some, Option.some.injEq, Prod.mk.injEq] at he ⊢
    obtain ⟨e1, e2, e3⟩ := he
    exact ⟨e1, e2, by rw [← e3]⟩
  rw [hin]
  simp only
  rw [realNext_mono (le_max_left k n) h3]
  simp only
  rw [run_mono (le_max_right k n) hs2]
  simp only [Except.ok.injEq]
  rw [← List.append_assoc, ← hx]

/-- what is delivered from the state reached is what is delivered from the first one -/
theorem Micros.run {env : Env} {s s' : PP} (h : Micros env false s s') {n : Nat} {r}
    (hr : s'.run env n = .ok r) : ∃ m, s.run env m = .ok r := by
  induction h generalizing n with
  | refl => exact ⟨n, hr⟩
  | cons hs _ ih =>
    obtain ⟨m, hm⟩ := ih hr
    exact hs.run hm

theorem Micro.pump {env : Env} {s s' : PP} (h : Micro env true s s') {n : Nat} {r}
    (hr : s'.pump env n = .ok r) : ∃ m, s.pump env m = .ok r := by
  obtain ⟨l, t, s1, k, s2, h1, hnl, h3, rfl⟩ := h
  simp only [if_true] at h3 hr
  have hout : s1.output = s.output := by
    unfold innerNext at h1
    obtain ⟨q, -, he⟩ := Option.map_eq_some_iff.1 h1
    simp only [Prod.mk.injEq] at he
    rw [← he.2.2]
  refine ⟨max k n + 1, ?_⟩
  unfold PP.pump
  rw [h1]
  simp only [if_neg (hnl rfl)]
  have h4 := realNext_mono (le_max_left k n) h3
  unfold realNext at h4
  rw [show ({ s1 with lastLoc := l } : PP) = { s1 with lastLoc := l, output := s.output } by
    rw [← hout], h4]
  exact pump_mono (le_max_right k n) hr

theorem Micros.pump {env : Env} {s s' : PP} (h : Micros env true s s') {n : Nat} {r}
    (hr : s'.pump env n = .ok r) : ∃ m, s.pump env m = .ok r := by
  induction h generalizing n with
  | refl => exact ⟨n, hr⟩
  | cons hs _ ih =>
    obtain ⟨m, hm⟩ := ih hr
    exact hs.pump hm

/-! ### one ordinary token -/

theorem afterDefined_eq (s : PP) : s.afterDefined = afterDefinedIn s.output := rfl

/-- the text of `__FILE__` -/
def fileText (env : Env) (s : PP) : List Char :=
  match topFile s.stack with
  | some p => env.pathText p
  | none => []

theorem isWhitespace_ident (n : Name) (ws : Bool) : isWhitespace (.ident n ws) = false := by
  simp [isWhitespace, newline]

/-- the state after emitting a token that is not expanded -/
theorem realNext_leaf {env : Env} {G : Tok → Prop} {s : PP} {t : Tok} {cond : Bool}
    (hG : Ordinary s.defines G) (ht : G t) (hd : cond = true ∨ s.isDisabled = false)
    (hm : cond = false → s.docsIn = [] ∧ s.output = [])
    (hx : macroOf s.defines cond (s.output ++ s.docsIn) t = none ∨ 32 < s.stack.length) (n : Nat) :
    ∃ errs', s.realNext env n t cond =
      .ok { s with
        output := (Emit.put ⟨s.output, s.docsIn⟩ (leaf (s.fileText env) ⟨s.lastLoc, t⟩)).out
        docsIn := (Emit.put ⟨s.output, s.docsIn⟩ (leaf (s.fileText env) ⟨s.lastLoc, t⟩)).docs
        errs := errs' } := by
  have hdis : (!cond && s.isDisabled) = false := by
    rcases hd with h | h <;> simp [h]
  have hh : t ≠ hash := fun h => hG.hash (h ▸ ht)
  unfold realNext realNextWith
  simp only [hdis, if_neg hh]
  cases t with
  | ident name ws =>
    simp only [Bool.false_eq_true, if_false, onIdent]
    by_cases h1 : name = "__FILE__".toList
    · subst h1
      refine ⟨s.errs, ?_⟩
      simp only [if_true, leaf, Emit.put, isWhitespace, fileText, flushDocs, push]
      cases topFile s.stack <;> simp [newline]
    · by_cases h2 : name = "__LINE__".toList
      · subst h2
        refine ⟨s.errs, ?_⟩
        simp only [if_neg h1, if_true, leaf, Emit.put, isWhitespace, flushDocs, push]
        simp [newline]
      · simp only [if_neg h1, if_neg h2, leaf, Emit.put, isWhitespace_ident, Bool.false_eq_true,
          if_false]
        simp only [macroOf, h1, h2, or_self, if_false] at hx
        have hfl : s.flushDocs.afterDefined = afterDefinedIn (s.output ++ s.docsIn) := rfl
        by_cases ha : afterDefinedIn (s.output ++ s.docsIn) = true
        · rw [if_pos (hfl.trans ha)]
          refine ⟨s.errs, ?_⟩
          simp [flushDocs, push]
        · rw [if_neg (hfl ▸ ha)]
          have hself : ∀ e, (({ s.flushDocs with errs := e } : PP).emitSelf (.ident name ws)) =
              { s with output := s.output ++ s.docsIn ++ [⟨s.lastLoc, .ident name ws⟩], docsIn := [],
                       errs := e } := by
            intro e
            simp [emitSelf, isWhitespace_ident, flushDocs, push]
          have hdefs : s.flushDocs.defines = s.defines := rfl
          have hstk : s.flushDocs.stack = s.stack := rfl
          rw [hdefs]
          have ha' : (cond && afterDefinedIn (s.output ++ s.docsIn)) = false := by
            simp only [Bool.not_eq_true] at ha
            simp [ha]
          rw [ha'] at hx
          cases hg : s.defines.get name with
          | none => exact ⟨s.errs, congrArg Except.ok (hself s.errs)⟩
          | some d =>
            obtain ⟨l, d⟩ := d
            cases d with
            | function ps su v => exact absurd hg (hG.fn name ws ht l ps su v)
            | constant su =>
              rw [hg] at hx
              simp only [Bool.false_eq_true, if_false, reduceCtorEq, false_or] at hx
              refine ⟨Err.recursionLimit :: s.errs, ?_⟩
              simp only [hstk, MAX_RECURSION_DEPTH, gt_iff_lt, if_pos hx]
              rw [← hself (Err.recursionLimit :: s.errs)]
              rfl
  | doc k tg x => exact absurd ht (hG.doc k tg x)
  | interpBegin x => exact absurd ht (hG.ibegin x)
  | interpEnd x => exact absurd ht (hG.iend x)
  | punct p =>
    refine ⟨s.errs, ?_⟩
    simp only [Bool.false_eq_true, if_false, countInterp, emitSelf, leaf, Emit.put]
    by_cases hw : isWhitespace (.punct p) = true
    · simp [hw, push, flushDocs]
    · simp [hw, push, flushDocs]
  | str x => exact ⟨s.errs, by simp [countInterp, emitSelf, leaf, Emit.put, isWhitespace, newline, push, flushDocs]⟩
  | interpPart x => exact ⟨s.errs, by simp [countInterp, emitSelf, leaf, Emit.put, isWhitespace, newline, push, flushDocs]⟩
  | resource x => exact ⟨s.errs, by simp [countInterp, emitSelf, leaf, Emit.put, isWhitespace, newline, push, flushDocs]⟩
  | int x => exact ⟨s.errs, by simp [countInterp, emitSelf, leaf, Emit.put, isWhitespace, newline, push, flushDocs]⟩
  | float x => exact ⟨s.errs, by simp [countInterp, emitSelf, leaf, Emit.put, isWhitespace, newline, push, flushDocs]⟩

/-- the state after a macro name -/
theorem realNext_macro {env : Env} {s : PP} {t : Tok} {cond : Bool} {su : List Tok}
    (hd : cond = true ∨ s.isDisabled = false)
    (hm : cond = false → s.docsIn = [] ∧ s.output = [])
    (hx : macroOf s.defines cond (s.output ++ s.docsIn) t = some su) (hl : s.stack.length ≤ 32)
    (n : Nat) :
    s.realNext env n t cond = .ok { s with
      output := s.output ++ s.docsIn
      docsIn := []
      stack := .expansion s.lastLoc su :: s.stack } := by
  have hdis : (!cond && s.isDisabled) = false := by
    rcases hd with h | h <;> simp [h]
  cases t with
  | ident name ws =>
    simp only [macroOf] at hx
    by_cases h12 : name = "__FILE__".toList ∨ name = "__LINE__".toList
    · rw [if_pos h12] at hx
      cases hx
    · rw [if_neg h12] at hx
      by_cases hcd : (cond && afterDefinedIn (s.output ++ s.docsIn)) = true
      · rw [if_pos hcd] at hx
        cases hx
      · rw [if_neg hcd] at hx
        have h1 : name ≠ "__FILE__".toList := fun h => h12 (Or.inl h)
        have h2 : name ≠ "__LINE__".toList := fun h => h12 (Or.inr h)
        have ha : afterDefinedIn (s.output ++ s.docsIn) = false := by
          cases cond with
          | true => simpa using hcd
          | false =>
            obtain ⟨e1, e2⟩ := hm rfl
            rw [e1, e2]
            rfl
        unfold realNext realNextWith
        have hh : (Tok.ident name ws) ≠ hash := by simp [hash]
        simp only [hdis, if_neg hh, Bool.false_eq_true, if_false, onIdent, if_neg h1, if_neg h2]
        have hfl : s.flushDocs.afterDefined = afterDefinedIn (s.output ++ s.docsIn) := rfl
        have hdefs : s.flushDocs.defines = s.defines := rfl
        have hstk : s.flushDocs.stack = s.stack := rfl
        rw [if_neg (by rw [hfl, ha]; simp), hdefs]
        cases hg : s.defines.get name with
        | none => rw [hg] at hx; cases hx
        | some d =>
          obtain ⟨l, d⟩ := d
          rw [hg] at hx
          cases d with
          | function ps su v => cases hx
          | constant su' =>
            simp only [Option.some.injEq] at hx
            subst hx
            simp only [hstk, MAX_RECURSION_DEPTH, gt_iff_lt, if_neg (Nat.not_lt.2 hl)]
            rfl
  | _ => simp [macroOf] at hx

/-! ### expansion -/

/-- `s` with a new queue, waiting docs, errors and (exhausted entries on the) stack -/
def Moved (s : PP) (st : List Include) (e : Emit) (s' : PP) : Prop :=
  stackNext s'.stack = stackNext st ∧
  ∃ errs', s' = { s with output := e.out, docsIn := e.docs, stack := s'.stack, lastLoc := s'.lastLoc,
                         errs := errs' }

theorem Moved.defines {s s' : PP} {st e} (h : Moved s st e s') : s'.defines = s.defines := by
  obtain ⟨-, _, h⟩ := h; rw [h]
theorem Moved.isDisabled {s s' : PP} {st e} (h : Moved s st e s') : s'.isDisabled = s.isDisabled := by
  obtain ⟨-, _, h⟩ := h; rw [h]; rfl
theorem Moved.output {s s' : PP} {st e} (h : Moved s st e s') : s'.output = e.out := by
  obtain ⟨-, _, h⟩ := h; rw [h]
theorem Moved.docsIn {s s' : PP} {st e} (h : Moved s st e s') : s'.docsIn = e.docs := by
  obtain ⟨-, _, h⟩ := h; rw [h]
theorem Moved.stack {s s' : PP} {st e} (h : Moved s st e s') : stackNext s'.stack = stackNext st := h.1
theorem Moved.trans {a b c : PP} {st st' e e'} (h : Moved a st e b) (h' : Moved b st' e' c) :
    Moved a st' e' c := by
  obtain ⟨-, _, h⟩ := h
  obtain ⟨h2, er, h'⟩ := h'
  refine ⟨h2, er, ?_⟩
  rw [h'] 
  rw [h]

/-- the docs waiting in non-condition mode stay empty -/
theorem Emit.put_docs (e : Emit) (t : LTok) (h : e.docs = []) : (e.put t).docs = [] := by
  unfold Emit.put; split <;> simp [h]

theorem expandTok_docs (defs : DefineMap) (file : List Char) (cond : Bool) (a : Nat) :
    ∀ (e : Emit) (t : LTok), e.docs = [] → (expandTok defs file cond a e t).docs = [] := by
  induction a with
  | zero => intro e t h; exact Emit.put_docs _ _ h
  | succ a ih =>
    intro e t h
    unfold expandTok
    split
    · rename_i su _
      have : ∀ (l : List LTok) (e : Emit), e.docs = [] →
          (l.foldl (expandTok defs file cond a) e).docs = [] := by
        intro l
        induction l with
        | nil => intro e h; exact h
        | cons x l ihl => intro e h; exact ihl _ (ih _ _ h)
      exact this _ _ rfl
    · exact Emit.put_docs _ _ h

/-- the queue does not influence expansion outside conditions -/
theorem Emit.put_pre (A : List LTok) (e : Emit) (t : LTok) :
    Emit.put ⟨A ++ e.out, e.docs⟩ t = ⟨A ++ (e.put t).out, (e.put t).docs⟩ := by
  unfold Emit.put; split <;> simp

/-- one ordinary token that is not expanded, as a step -/
theorem leaf_step {env : Env} {G : Tok → Prop} {s : PP} {cond : Bool} {l : Location} {t : Tok}
    {st st' : List Include}
    (hG : Ordinary s.defines G) (hnl : cond = true → ¬ G newline) (ht : G t)
    (hd : cond = true ∨ s.isDisabled = false) (hdoc : cond = false → s.docsIn = [])
    (hs : stackNext s.stack = some (⟨l, t⟩, st')) (htf : topFile st' = topFile st)
    (hx : macroOf s.defines cond (s.output ++ s.docsIn) t = none ∨ 32 < st'.length) :
    ∃ s', Micro env cond s s' ∧ s'.lastLoc = l ∧ s'.stack = st' ∧
      Moved s st' (Emit.put ⟨s.output, s.docsIn⟩ (leaf ((topFile st).elim [] env.pathText) ⟨l, t⟩))
        s' := by
  have hin : s.innerNext = some (l, t, { s with stack := st' }) := by
    simp [innerNext, hs]
  have hm0 : cond = false → macroOf s.defines cond ([] : List LTok) t =
      macroOf s.defines cond (s.output ++ s.docsIn) t := by
    rintro rfl
    unfold macroOf
    rfl
  obtain ⟨errs', hr⟩ := realNext_leaf (env := env) (G := G) (cond := cond) (t := t)
    (s := { s with stack := st', lastLoc := l, output := if cond then s.output else [] })
    hG ht hd (by intro h; simp [h, hdoc h])
    (by
      rcases hx with hx | hx
      · left
        cases cond with
        | true => exact hx
        | false => simpa [hdoc rfl] using (hm0 rfl).trans hx
      · exact Or.inr hx) 0
  have hft : PP.fileText env { s with stack := st', lastLoc := l, output := if cond then s.output else [] } =
      (topFile st).elim [] env.pathText := by
    simp only [fileText, htf]
    cases topFile st <;> rfl
  rw [hft] at hr
  refine ⟨_, ⟨l, t, _, 0, _, hin, ?_, hr, rfl⟩, rfl, rfl, rfl, errs', ?_⟩
  · intro h e; exact hnl h (e ▸ ht)
  · cases cond with
    | true => rfl
    | false =>
      have := Emit.put_pre s.output ⟨[], s.docsIn⟩ (leaf ((topFile st).elim [] env.pathText) ⟨l, t⟩)
      simp only [List.append_nil] at this
      rw [this]
      rfl

/-- a macro name, as a step -/
theorem macro_step {env : Env} {G : Tok → Prop} {s : PP} {cond : Bool} {l : Location} {t : Tok}
    {st' : List Include} {su : List Tok}
    (hnl : cond = true → ¬ G newline) (ht : G t)
    (hd : cond = true ∨ s.isDisabled = false) (hdoc : cond = false → s.docsIn = [])
    (hs : stackNext s.stack = some (⟨l, t⟩, st'))
    (hx : macroOf s.defines cond (s.output ++ s.docsIn) t = some su) (hl : st'.length ≤ 32) :
    ∃ s', Micro env cond s s' ∧ s'.lastLoc = l ∧ s'.stack = .expansion l su :: st' ∧
      Moved s (.expansion l su :: st') ⟨s.output ++ s.docsIn, []⟩ s' := by
  have hin : s.innerNext = some (l, t, { s with stack := st' }) := by
    simp [innerNext, hs]
  have hm0 : cond = false → macroOf s.defines cond ([] : List LTok) t =
      macroOf s.defines cond (s.output ++ s.docsIn) t := by
    rintro rfl
    unfold macroOf
    rfl
  have hr := realNext_macro (env := env) (cond := cond) (t := t) (su := su)
    (s := { s with stack := st', lastLoc := l, output := if cond then s.output else [] })
    hd (by intro h; simp [h, hdoc h])
    (by
      cases cond with
      | true => exact hx
      | false => simpa [hdoc rfl] using (hm0 rfl).trans hx) hl 0
  refine ⟨_, ⟨l, t, _, 0, _, hin, ?_, hr, rfl⟩, rfl, rfl, rfl, s.errs, ?_⟩
  · intro h e; exact hnl h (e ▸ ht)
  · cases cond with
    | true => rfl
    | false => simp [hdoc rfl]

/-- processing the tokens of an expansion -/
theorem expansion_steps {env : Env} {G : Tok → Prop} {cond : Bool} {defs : DefineMap}
    (hG : Ordinary defs G) (hnl : cond = true → ¬ G newline) (a : Nat) :
    ∀ (ts : List Tok) (s : PP) (st : List Include) (l : Location),
    (∀ t ∈ ts, G t) → s.defines = defs → (cond = true ∨ s.isDisabled = false) →
    (cond = false → s.docsIn = []) → s.lastLoc = l →
    stackNext s.stack = stackNext (.expansion l ts :: st) → a = 32 - st.length →
    ∃ s', Micros env cond s s' ∧ s'.lastLoc = l ∧
      Moved s st (expandToks defs ((topFile st).elim [] env.pathText) cond a ⟨s.output, s.docsIn⟩
        (ts.map fun u => (⟨l, u⟩ : LTok))) s' := by
  induction a with
  | zero =>
    intro ts
    induction ts with
    | nil =>
      intro s st l _ _ _ _ hl hs _
      exact ⟨s, .refl s, hl, hs, s.errs, by simp [expandToks]⟩
    | cons t ts ih =>
      intro s st l hts hdf hd hdoc hl hs ha
      obtain ⟨s0, hstep, hl0, hst0, hmv⟩ := leaf_step (env := env) (G := G) (cond := cond) (st := st)
        (hdf ▸ hG) hnl (hts t (by simp)) hd hdoc hs rfl (.inr (by simp; omega))
      obtain ⟨s', h1, h2, h3⟩ := ih s0 st l (fun u hu => hts u (by simp [hu])) (hmv.defines.trans hdf)
        (hd.imp_right hmv.isDisabled.trans)
        (fun h => hmv.docsIn.trans (Emit.put_docs _ _ (hdoc h))) hl0 (by rw [hst0]) ha
      rw [hmv.output, hmv.docsIn] at h3
      exact ⟨s', .cons hstep h1, h2, hmv.trans h3⟩
  | succ a iha =>
    intro ts
    induction ts with
    | nil =>
      intro s st l _ _ _ _ hl hs _
      exact ⟨s, .refl s, hl, hs, s.errs, by simp [expandToks]⟩
    | cons t ts ih =>
      intro s st l hts hdf hd hdoc hl hs ha
      cases hmac : macroOf defs cond (s.output ++ s.docsIn) t with
      | none =>
        obtain ⟨s0, hstep, hl0, hst0, hmv⟩ := leaf_step (env := env) (G := G) (cond := cond) (st := st)
          (hdf ▸ hG) hnl (hts t (by simp)) hd hdoc hs rfl (.inl (hdf ▸ hmac))
        obtain ⟨s', h1, h2, h3⟩ := ih s0 st l (fun u hu => hts u (by simp [hu])) (hmv.defines.trans hdf)
          (hd.imp_right hmv.isDisabled.trans)
          (fun h => hmv.docsIn.trans (Emit.put_docs _ _ (hdoc h))) hl0 (by rw [hst0]) ha
        rw [hmv.output, hmv.docsIn] at h3
        refine ⟨s', .cons hstep h1, h2, ?_⟩
        have h4 := hmv.trans h3
        simp only [expandToks, List.map_cons, List.foldl_cons, expandTok, hmac] at h4 ⊢
        exact h4
      | some su =>
        obtain ⟨s0, hstep, hl0, hst0, hmv⟩ := macro_step (env := env) (G := G) hnl (hts t (by simp)) hd
          hdoc hs (hdf ▸ hmac) (by simp; omega)
        have hsub : ∀ u ∈ su, G u := by
          cases t with
          | ident n ws =>
            simp only [macroOf] at hmac
            by_cases h12 : n = "__FILE__".toList ∨ n = "__LINE__".toList
            · rw [if_pos h12] at hmac; cases hmac
            · rw [if_neg h12] at hmac
              split at hmac
              · cases hmac
              · split at hmac
                · rename_i hg
                  cases hmac
                  exact hG.sub n ws (hts _ (by simp)) _ _ hg
                · cases hmac
          | _ => simp [macroOf] at hmac
        obtain ⟨s1, g1, g2, g3⟩ := iha su s0 (.expansion l ts :: st) l hsub
          (hmv.defines.trans hdf) (hd.imp_right hmv.isDisabled.trans) (fun _ => hmv.docsIn) hl0
          (by rw [hst0]) (by simp; omega)
        rw [hmv.output, hmv.docsIn] at g3
        have hmv1 := hmv.trans g3
        obtain ⟨s', h1, h2, h3⟩ := ih s1 st l (fun u hu => hts u (by simp [hu]))
          (hmv1.defines.trans hdf) (hd.imp_right hmv1.isDisabled.trans)
          (by
            intro h
            rw [hmv1.docsIn]
            have : ∀ (l : List LTok) (e : Emit), e.docs = [] →
                (l.foldl (expandTok defs ((topFile st).elim [] env.pathText) cond a) e).docs = [] := by
              intro l
              induction l with
              | nil => intro e h; exact h
              | cons x l ihl => intro e h; exact ihl _ (expandTok_docs _ _ _ _ _ _ h)
            exact this _ _ rfl) g2 g3.1 ha
        refine ⟨s', .cons hstep (g1.trans h1), h2, ?_⟩
        have h4 := hmv1.trans h3
        rw [hmv1.output, hmv1.docsIn] at h4
        simp only [expandToks, List.map_cons, List.foldl_cons, expandTok, hmac] at h4 ⊢
        exact h4

/-- expansions never leave docs waiting if none were waiting -/
theorem expandToks_docs (defs : DefineMap) (file : List Char) (cond : Bool) (a : Nat)
    (ts : List LTok) : ∀ (e : Emit), e.docs = [] → (expandToks defs file cond a e ts).docs = [] := by
  induction ts with
  | nil => intro e h; exact h
  | cons x l ihl => intro e h; exact ihl _ (expandTok_docs _ _ _ _ _ _ h)

/-- processing tokens of a file -/
theorem file_steps {env : Env} {G : Tok → Prop} {cond : Bool} {defs : DefineMap}
    (hG : Ordinary defs G) (hnl : cond = true → ¬ G newline) (p : Path) (rest : List LTok)
    (st : List Include) :
    ∀ (ts : List LTok) (s : PP),
    (∀ t ∈ ts, G t.tok) → s.defines = defs → (cond = true ∨ s.isDisabled = false) →
    (cond = false → s.docsIn = []) →
    stackNext s.stack = stackNext (.file p (ts ++ rest) :: st) →
    ∃ s', Micros env cond s s' ∧
      Moved s (.file p rest :: st) (expandToks defs (env.pathText p) cond (32 - st.length)
        ⟨s.output, s.docsIn⟩ ts) s' := by
  intro ts
  induction ts with
  | nil =>
    intro s _ _ _ _ hs
    exact ⟨s, .refl s, hs, s.errs, by simp [expandToks]⟩
  | cons t ts ih =>
    intro s hts hdf hd hdoc hs
    obtain ⟨l, t⟩ := t
    have htf : topFile (.file p (ts ++ rest) :: st) = topFile (.file p [] :: st) := rfl
    have key : (∃ e, expandTok defs (env.pathText p) cond (32 - st.length) ⟨s.output, s.docsIn⟩ ⟨l, t⟩ = e ∧
        ∃ s0, Micros env cond s s0 ∧ Moved s (.file p (ts ++ rest) :: st) e s0) := by
      by_cases hlen : 32 ≤ st.length
      · have h0 : 32 - st.length = 0 := by omega
        rw [h0]
        obtain ⟨s0, hstep, hl0, hst0, hmv⟩ := leaf_step (env := env) (G := G) (cond := cond)
          (st := .file p [] :: st)
          (hdf ▸ hG) hnl (hts ⟨l, t⟩ (by simp)) hd hdoc hs htf (.inr (by simp; omega))
        exact ⟨_, rfl, s0, .one hstep, hmv⟩
      · obtain ⟨a, ha⟩ : ∃ a, 32 - st.length = a + 1 := ⟨31 - st.length, by omega⟩
        rw [ha]
        cases hmac : macroOf defs cond (s.output ++ s.docsIn) t with
        | none =>
          obtain ⟨s0, hstep, hl0, hst0, hmv⟩ := leaf_step (env := env) (G := G) (cond := cond)
            (st := .file p [] :: st)
            (hdf ▸ hG) hnl (hts ⟨l, t⟩ (by simp)) hd hdoc hs htf (.inl (hdf ▸ hmac))
          refine ⟨_, ?_, s0, .one hstep, hmv⟩
          simp only [expandTok, hmac]
          rfl
        | some su =>
          obtain ⟨s0, hstep, hl0, hst0, hmv⟩ := macro_step (env := env) (G := G) hnl
            (hts ⟨l, t⟩ (by simp)) hd hdoc hs (hdf ▸ hmac) (by simp; omega)
          have hsub : ∀ u ∈ su, G u := by
            cases t with
            | ident n ws =>
              simp only [macroOf] at hmac
              by_cases h12 : n = "__FILE__".toList ∨ n = "__LINE__".toList
              · rw [if_pos h12] at hmac; cases hmac
              · rw [if_neg h12] at hmac
                split at hmac
                · cases hmac
                · split at hmac
                  · rename_i hg
                    cases hmac
                    exact hG.sub n ws (hts ⟨l, .ident n ws⟩ (by simp)) _ _ hg
                  · cases hmac
            | _ => simp [macroOf] at hmac
          obtain ⟨s1, g1, g2, g3⟩ := expansion_steps hG hnl a su s0 (.file p (ts ++ rest) :: st) l hsub
            (hmv.defines.trans hdf) (hd.imp_right hmv.isDisabled.trans) (fun _ => hmv.docsIn) hl0
            (by rw [hst0]; rfl) (by simp; omega)
          rw [hmv.output, hmv.docsIn] at g3
          refine ⟨_, ?_, s1, .cons hstep g1, hmv.trans g3⟩
          simp only [expandTok, hmac]
          rfl
    obtain ⟨e, he, s0, hstep, hmv⟩ := key
    obtain ⟨s', h1, h3⟩ := ih s0 (fun u hu => hts u (by simp [hu])) (hmv.defines.trans hdf)
      (hd.imp_right hmv.isDisabled.trans)
      (by intro h; rw [hmv.docsIn, ← he]; exact expandTok_docs _ _ _ _ _ _ (hdoc h)) hmv.stack
    rw [hmv.output, hmv.docsIn] at h3
    refine ⟨s', hstep.trans h1, ?_⟩
    have h4 := hmv.trans h3
    simp only [expandToks, List.foldl_cons] at h4 ⊢
    rw [he]
    exact h4

/-! ### what is delivered -/

/-- the queue is delivered first -/
theorem run_output {env : Env} {n : Nat} {s : PP} {A r : List LTok} {s' : PP} (hs : s.output = [])
    (h : s.run env n = .ok (r, s')) : ({ s with output := A } : PP).run env n = .ok (A ++ r, s') := by
  cases n with
  | zero => simp [PP.run] at h
  | succ n =>
    unfold PP.run at h ⊢
    rw [hs] at h
    simp only at h ⊢
    cases hn : ({ s with output := [] } : PP).innerNext with
    | none =>
      rw [hn] at h
      simp only [Except.ok.injEq, Prod.mk.injEq] at h ⊢
      obtain ⟨h1, h2⟩ := h
      exact ⟨by simp [← h1], h2⟩
    | some z =>
      obtain ⟨l, t, s1⟩ := z
      rw [hn] at h
      simp only at h ⊢
      cases hr : ({ s1 with lastLoc := l } : PP).realNext env n t false with
      | error e => rw [hr] at h; simp at h
      | ok s2 =>
        rw [hr] at h
        simp only at h ⊢
        cases hr2 : s2.run env n with
        | error e => rw [hr2] at h; simp at h
        | ok r2 =>
          rw [hr2] at h
          simp only [Except.ok.injEq, Prod.mk.injEq] at h ⊢
          obtain ⟨h1, h2⟩ := h
          exact ⟨by simp [← h1], h2⟩

/-- exhausted entries on top of the stack make no difference -/
theorem run_stack {env : Env} {n : Nat} {s : PP} {st : List Include} {r}
    (h : stackNext s.stack = stackNext st) (hr : ({ s with stack := st } : PP).run env n = .ok r) :
    s.run env n = .ok r := by
  cases n with
  | zero => simp [PP.run] at hr
  | succ n =>
    unfold PP.run at hr ⊢
    have hin : ({ s with output := [] } : PP).innerNext =
        ({ ({ s with stack := st } : PP) with output := [] } : PP).innerNext := by
      simp [innerNext, h]
    rw [hin]
    exact hr

/-- **C44.** Outside disabled regions, a stretch `toks` of ordinary text of a file (object-like macros,
no directives, no doc comments, no string interpolation) is delivered with every macro replaced,
recursively, by its definition, up to the nesting limit of 32; afterwards the file continues with
`rest` and nothing but the read position (and possibly a diagnostic) has changed. -/
theorem ordinary_text_expands (env : Env) (G : Tok → Prop) (s : PP) (p : Path) (toks rest : List LTok)
    (st : List Include) (hs : s.stack = .file p (toks ++ rest) :: st) (hG : Ordinary s.defines G)
    (ht : ∀ t ∈ toks, G t.tok) (hd : s.isDisabled = false) (hdoc : s.docsIn = [])
    (hout : s.output = []) :
    ∃ l errs', ∀ n r s'',
      ({ s with
          stack := .file p rest :: st
          lastLoc := l
          errs := errs' } : PP).run env n = .ok (r, s'') →
      ∃ m, s.run env m =
        .ok ((expandToks s.defines (env.pathText p) false (32 - st.length) ⟨[], []⟩ toks).out ++ r, s'') := by
  obtain ⟨s', h1, h2⟩ := file_steps (env := env) (cond := false) hG (by simp) p rest st toks s ht rfl
    (.inr hd) (fun _ => hdoc) (by rw [hs])
  rw [hout, hdoc] at h2
  obtain ⟨h3, errs', h4⟩ := h2
  refine ⟨s'.lastLoc, errs', fun n r s'' hr => ?_⟩
  apply h1.run (n := n)
  apply run_stack h3
  have hd2 := expandToks_docs s.defines (env.pathText p) false (32 - st.length) toks ⟨[], []⟩ rfl
  rw [h4, hd2]
  have := run_output (A := (expandToks s.defines (env.pathText p) false (32 - st.length) ⟨[], []⟩ toks).out)
    (by exact hout) hr
  rw [← this, hdoc]

/-- **C44, for a whole environment.** A file of ordinary text is delivered expanded. -/
theorem ordinary_file_expands (env : Env) (G : Tok → Prop) (builtins : DefineMap) (toks : List LTok)
    (hG : Ordinary builtins G) (ht : ∀ t ∈ toks, G t.tok) :
    ∃ m s'', (init env builtins toks).run env m =
      .ok ((expandToks builtins (env.pathText env.envFile) false 32 ⟨[], []⟩ toks).out, s'') := by
  obtain ⟨l, errs', h⟩ := ordinary_text_expands env G (init env builtins toks) env.envFile toks [] []
    (by simp [init]) hG ht rfl rfl rfl
  obtain ⟨m, hm⟩ := h 1 [] _ rfl
  rw [List.append_nil] at hm
  exact ⟨m, _, hm⟩

end PP

/-! ## A concrete case -/

/-- `#define A 1 B`, `#define B 2`, seen by the text `A x A` -/
def demoDefs : DefineMap :=
  ⟨[(['A'], [(at_ 1, .constant [.int 1, .ident ['B'] false])]), (['B'], [(at_ 1, .constant [.int 2])])]⟩

/-- the tokens that occur -/
def demoG (t : Tok) : Prop :=
  t ∈ [Tok.int 1, .int 2, .ident ['A'] false, .ident ['B'] false, .ident ['x'] false, newline]

theorem demo_ordinary : Ordinary demoDefs demoG where
  hash := by unfold demoG; decide +kernel
  doc := by simp [demoG, newline]
  ibegin := by simp [demoG, newline]
  iend := by simp [demoG, newline]
  fn := by
    intro n ws h l ps su v
    simp [demoG, newline] at h
    rcases h with ⟨rfl, rfl⟩ | ⟨rfl, rfl⟩ | ⟨rfl, rfl⟩ <;>
      simp [DefineMap.get, DefineMap.find, demoDefs, DefineMap.lookup_cons']
  sub := by
    intro n ws h l su hg
    simp [demoG, newline] at h
    rcases h with ⟨rfl, rfl⟩ | ⟨rfl, rfl⟩ | ⟨rfl, rfl⟩ <;>
      simp [DefineMap.get, DefineMap.find, demoDefs, DefineMap.lookup_cons'] at hg <;>
      obtain ⟨-, rfl⟩ := hg <;> simp [demoG]

example : (expandToks demoDefs [] false 32 ⟨[], []⟩ [idt 3 "A", idt 3 "x", nlt 3]).out =
    [intt 3 1, intt 3 2, idt 3 "x", nlt 3] := by decide +kernel

example : ∃ m s'', (PP.init demoEnv demoDefs [idt 3 "A", idt 3 "x", nlt 3]).run demoEnv m =
    .ok ([intt 3 1, intt 3 2, idt 3 "x", nlt 3], s'') := by
  have := PP.ordinary_file_expands demoEnv demoG demoDefs [idt 3 "A", idt 3 "x", nlt 3] demo_ordinary
    (by simp [demoG, idt, nlt])
  rwa [show (expandToks demoDefs (demoEnv.pathText demoEnv.envFile) false 32 ⟨[], []⟩
    [idt 3 "A", idt 3 "x", nlt 3]).out = [intt 3 1, intt 3 2, idt 3 "x", nlt 3] by decide +kernel] at this

end Verif.Preproc
