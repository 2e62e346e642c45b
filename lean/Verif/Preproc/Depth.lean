import Verif.Preproc.Fuel

/-!
# C22: nesting depth, and what `#pragma multiple` does to it
-/

namespace Verif.Preproc

open Verif.Context (Location)
open Verif.Lexer (Tok Punct DocTarget CommentKind)

/-- **C22, depth.** Wherever the preprocessing of an environment is interrupted (that is, for every
amount of fuel that does not suffice), each macro expansion under way has at most 32 files and
expansions below it; and unless a `#pragma multiple` was executed no file is included twice, so that
the nesting depth is at most 65570. -/
theorem preprocessing_depth (env : Env) (builtins : DefineMap) (toks : List LTok) (n : Nat) (s : PP)
    (h : (PP.init env builtins toks).run env n = .error s) :
    ExpansionsShallow s.stack ∧ s.incLocs.Nodup ∧
    (s.multi = [] → fileCount s.stack ≤ s.incLocs.length + 1 ∧ s.stack.length ≤ 65570) := by
  have := (PP.bounded_closed (env := env)).run n (PP.init env builtins toks)
    ⟨trivial, List.nodup_nil, fun _ => by simp [PP.init, fileCount]⟩
  rw [h] at this
  exact ⟨this.shallow, this.nodup, fun hm => ⟨this.files hm, this.length hm⟩⟩

/-! ## A concrete environment: `#define A A A`, used once -/

/-- test location in file 1 -/
def at_ (line : Fin 4294967296) : Location := Location.mk 1 line 1

/-- an environment without further files; conditions are true iff they start with a non-zero integer -/
def demoEnv : Env where
  envFile := 0
  resolve := fun _ _ => .notFound
  openFile := fun _ => none
  fileId := fun _ => 1
  pathText := fun _ => "env.dme".toList
  eval := fun out _ => match out with
    | [⟨_, .int v⟩] => some (v != 0)
    | _ => none
  display := fun _ => []

/-- identifier token -/
def idt (line : Fin 4294967296) (name : String) : LTok := ⟨at_ line, .ident name.toList false⟩
/-- newline token -/
def nlt (line : Fin 4294967296) : LTok := ⟨at_ line, newline⟩
/-- `#` token -/
def hsh (line : Fin 4294967296) : LTok := ⟨at_ line, hash⟩
/-- integer token -/
def intt (line : Fin 4294967296) (v : Nat) : LTok := ⟨at_ line, .int v⟩

/-- a recursive macro: `#define A A`, then `A` -/
def recursiveMacro : List LTok :=
  [hsh 1, idt 1 "define", ⟨at_ 1, .ident ['A'] true⟩, idt 1 "A", nlt 1, idt 2 "A", nlt 2]

/-- the run ends, with the macro name itself in the output and one diagnostic -/
example : ((PP.init demoEnv {} recursiveMacro).run demoEnv 200).toOption.map
    (fun r => (r.1.map LTok.tok, r.2.errs)) =
    some ([newline, .ident ['A'] false, newline], [Err.recursionLimit]) := by decide +kernel

/-- at its deepest point there are 33 entries on the stack -/
example : (match (PP.init demoEnv {} recursiveMacro).run demoEnv 34 with
    | .error s => s.stack.length
    | .ok _ => 0) = 33 := by decide +kernel

/-! ## `#pragma multiple` -/

/-- a file that includes itself: `#pragma multiple`, `#include "f.dm"` -/
def selfInclude : List LTok :=
  [hsh 1, idt 1 "pragma", idt 1 "multiple", nlt 1, hsh 2, idt 2 "include",
   ⟨at_ 2, .str "f.dm".toList⟩, nlt 2]

/-- the environment of `selfInclude` -/
def selfEnv : Env := { demoEnv with
  resolve := fun _ _ => .dm 0
  openFile := fun _ => some selfInclude }

theorem dirOf_pragma : PP.dirOf ['p', 'r', 'a', 'g', 'm', 'a'] = .pragma := by decide +kernel
theorem dirOf_include : PP.dirOf ['i', 'n', 'c', 'l', 'u', 'd', 'e'] = .include := by decide +kernel

/-- about to read the file once more, on top of `k` exhausted copies -/
structure Looping (k : Nat) (s : PP) : Prop where
  stack : ∃ st, s.stack = .file 0 selfInclude :: st ∧ st.length = k
  inc : s.incLocs = [] ∨ s.incLocs = [1]
  ifdefs : s.ifdefs = []

/-- `#pragma multiple` -/
theorem round1 (n : Nat) (s : PP) (st : List Include) (hs : s.stack = .file 0 selfInclude :: st)
    (hi : s.ifdefs = []) :
    ∃ s' : PP, s'.stack = .file 0 (selfInclude.drop 3) :: st ∧ s'.ifdefs = [] ∧
      s'.incLocs = s.incLocs ∧ (1 : Fin 65536) ∈ s'.multi ∧
      ∀ e, s'.run selfEnv n = .error e → s.run selfEnv (n + 1) = .error e := by
  refine ⟨{ ({ s with
      output := ([] : List LTok)
      lastLoc := at_ 1
      stack := .file 0 (selfInclude.drop 3) :: st
      multi := (1 : Fin 65536) :: s.multi } : PP).push newline with ifdefs := [] },
    rfl, rfl, rfl, List.mem_cons_self, ?_⟩
  obtain ⟨stack, inc, mu, ll, out, ifs, ih, hi', de, ma, sk, sc, int, docs, errs, pan⟩ := s
  simp only at hs hi
  subst hs hi
  intro e he
  rw [PP.run.eq_def]
  simp [PP.push, at_, newline, selfInclude, idt, hsh, nlt] at he
  simp [selfInclude, PP.innerNext, stackNext, PP.realNext, PP.realNextWith, hsh, PP.directive, PP.withNext,
    idt, dirOf_pragma, PP.onDirective, PP.isDisabled, PP.readPragma, PP.push, at_, Location.file]
  all_goals
    split
    · rename_i h
      exact h.symm.trans he
    · rename_i h
      cases h.symm.trans he


/-- the newline -/
theorem round2 (n : Nat) (s : PP) (st : List Include)
    (hs : s.stack = .file 0 (selfInclude.drop 3) :: st) (hi : s.ifdefs = []) :
    ∃ s' : PP, s'.stack = .file 0 (selfInclude.drop 4) :: st ∧ s'.ifdefs = [] ∧
      s'.incLocs = s.incLocs ∧ s'.multi = s.multi ∧
      ∀ e, s'.run selfEnv n = .error e → s.run selfEnv (n + 1) = .error e := by
  refine ⟨{ ({ s with output := ([] : List LTok), lastLoc := at_ 1, stack := .file 0 (selfInclude.drop 4) :: st
    } : PP).push newline with ifdefs := [] }, rfl, rfl, rfl, rfl, ?_⟩
  obtain ⟨stack, inc, mu, ll, out, ifs, ih, hi', de, ma, sk, sc, int, docs, errs, pan⟩ := s
  simp only at hs hi
  subst hs hi
  intro e he
  rw [PP.run.eq_def]
  simp [PP.push, at_, newline, selfInclude, idt, hsh, nlt] at he
  simp [selfInclude, PP.innerNext, stackNext, PP.realNext, PP.realNextWith, nlt, newline, hash,
    PP.isDisabled, PP.push, at_, PP.countInterp, PP.emitSelf, isWhitespace]
  all_goals
    split
    · rename_i h
      exact h.symm.trans he
    · rename_i h
      cases h.symm.trans he


/-- `#include "f.dm"` -/
theorem round3 (n : Nat) (s : PP) (st : List Include)
    (hs : s.stack = .file 0 (selfInclude.drop 4) :: st) (hi : s.ifdefs = [])
    (hinc : s.incLocs = [] ∨ s.incLocs = [1]) (hm : (1 : Fin 65536) ∈ s.multi) :
    ∃ s' : PP, s'.stack = .file 0 selfInclude :: .file 0 [] :: st ∧ s'.ifdefs = [] ∧
      s'.incLocs = [1] ∧
      ∀ e, s'.run selfEnv n = .error e → s.run selfEnv (n + 1) = .error e := by
  refine ⟨{ ({ s with output := [], lastLoc := at_ 2, stack := .file 0 selfInclude :: .file 0 [] :: st
    } : PP).push newline with ifdefs := [], incLocs := [1] }, rfl, rfl, rfl, ?_⟩
  obtain ⟨stack, inc, mu, ll, out, ifs, ih, hi', de, ma, sk, sc, int, docs, errs, pan⟩ := s
  simp only at hs hi hinc hm
  subst hs hi
  have hr : ∀ p t, selfEnv.resolve p t = .dm 0 := fun _ _ => rfl
  have ho : ∀ p, selfEnv.openFile p = some selfInclude := fun _ => rfl
  have hf : ∀ p, selfEnv.fileId p = 1 := fun _ => rfl
  intro e he
  rw [PP.run.eq_def]
  simp [PP.push, at_, newline, selfInclude, idt, hsh, nlt] at he
  rcases hinc with rfl | rfl <;>
  simp [selfInclude, PP.innerNext, stackNext, PP.realNext, PP.realNextWith, hsh, PP.directive, PP.withNext,
    idt, nlt, dirOf_include, PP.onDirective, PP.isDisabled, PP.readInclude, PP.push, at_, PP.doInclude,
    hr, PP.includeFile, ho, hf, hm]
  all_goals
    split
    · rename_i h
      exact h.symm.trans he
    · rename_i h
      cases h.symm.trans he


theorem Looping.step {k : Nat} {s : PP} (h : Looping k s) (n : Nat) :
    ∃ s' : PP, Looping (k + 1) s' ∧
      ∀ e, s'.run selfEnv n = .error e → s.run selfEnv (n + 3) = .error e := by
  obtain ⟨⟨st, hst, hl⟩, hinc, hif⟩ := h
  obtain ⟨s1, h1, h1i, h1c, h1m, h1r⟩ := round1 (n + 2) s st hst hif
  obtain ⟨s2, h2, h2i, h2c, h2m, h2r⟩ := round2 (n + 1) s1 st h1 h1i
  obtain ⟨s3, h3, h3i, h3c, h3r⟩ := round3 n s2 st h2 h2i (by rw [h2c, h1c]; exact hinc)
    (by rw [h2m]; exact h1m)
  exact ⟨s3, ⟨⟨_, h3, by simp [hl]⟩, .inr h3c, h3i⟩, fun e he => h1r e (h2r e (h3r e he))⟩

/-- after `3 j` rounds there are `j` more entries on the stack -/
theorem Looping.deep (j : Nat) : ∀ {k : Nat} {s : PP}, Looping k s →
    ∃ e : PP, s.run selfEnv (3 * j) = .error e ∧ e.stack.length = k + j + 1 := by
  induction j with
  | zero =>
    intro k s h
    obtain ⟨st, hst, hl⟩ := h.stack
    exact ⟨s, rfl, by rw [hst, List.length_cons, hl]⟩
  | succ j ih =>
    intro k s h
    obtain ⟨s', h', hr⟩ := h.step (3 * j)
    obtain ⟨e, he, hl⟩ := ih h'
    exact ⟨e, by rw [show 3 * (j + 1) = 3 * j + 3 by omega]; exact hr e he, by omega⟩

/-- **Disagreement with the documented depth limit.** A file that executes `#pragma multiple` and then
includes itself is read again and again: preprocessing never ends, and the include stack grows beyond
every bound.  (The limit of 32 applies to macro expansions only.) -/
theorem self_include_never_ends :
    (∀ n r, (PP.init selfEnv {} selfInclude).run selfEnv n ≠ .ok r) ∧
    ∀ d, ∃ n s, (PP.init selfEnv {} selfInclude).run selfEnv n = .error s ∧ d ≤ s.stack.length := by
  have h0 : Looping 0 (PP.init selfEnv {} selfInclude) := ⟨⟨[], rfl, rfl⟩, .inl rfl, rfl⟩
  refine ⟨fun n r hr => ?_, fun d => ?_⟩
  · obtain ⟨e, he, _⟩ := h0.deep n
    rw [PP.run_mono (m := 3 * n) (by omega) hr] at he
    cases he
  · obtain ⟨e, he, hl⟩ := h0.deep d
    exact ⟨_, e, he, by omega⟩

end Verif.Preproc
