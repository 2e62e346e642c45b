import Verif.Preproc.Expand

/-!
# C21: conditional compilation
-/

namespace Verif.Preproc

open Verif.Context (Location)
open Verif.Lexer (Tok Punct DocTarget CommentKind)

/-! ## Specification -/

/-- the name of a directive -/
def dirTok (l : Location) (ws : Bool) (name : String) : LTok := ⟨l, .ident name.toList ws⟩

/-- the value of the condition of an `#if`/`#elif` line, at a place where the macros are `defs`, in
file `p`, with room for `depth` nested expansions: the tokens are expanded and given to the expression
evaluator; an error counts as false -/
def condValue (env : Env) (defs : DefineMap) (p : Path) (depth : Nat) (c : List LTok) : Bool :=
  (env.eval (expandToks defs (env.pathText p) true depth ⟨[], []⟩ c).out defs).getD false

/-- the value of `#ifdef name` -/
def definedIn (env : Env) (defs : DefineMap) (p : Path) (name : Name) : Bool :=
  if name = "__MAIN__".toList then p = env.envFile else (defs.get name).isSome

/-- A line that opens a conditional, and whether the branch that follows is active. -/
inductive Head (G : Tok → Prop) (env : Env) (defs : DefineMap) (p : Path) (depth : Nat) :
    List LTok → Bool → Prop
  | if_ (l1 l2 l3 : Location) (ws : Bool) (c : List LTok) (hc : ∀ t ∈ c, G t.tok) :
    Head G env defs p depth (⟨l1, hash⟩ :: dirTok l2 ws "if" :: (c ++ [⟨l3, newline⟩]))
      (condValue env defs p depth c)
  | ifdef (l1 l2 l3 l4 : Location) (ws ws' : Bool) (name : Name) :
    Head G env defs p depth [⟨l1, hash⟩, dirTok l2 ws "ifdef", ⟨l3, .ident name ws'⟩, ⟨l4, newline⟩]
      (definedIn env defs p name)
  | ifndef (l1 l2 l3 l4 : Location) (ws ws' : Bool) (name : Name) :
    Head G env defs p depth [⟨l1, hash⟩, dirTok l2 ws "ifndef", ⟨l3, .ident name ws'⟩, ⟨l4, newline⟩]
      (!definedIn env defs p name)

/-- An `#elif` line and the value of its condition. -/
inductive Elif (G : Tok → Prop) (env : Env) (defs : DefineMap) (p : Path) (depth : Nat) :
    List LTok → Bool → Prop
  | mk (l1 l2 l3 : Location) (ws : Bool) (c : List LTok) (hc : ∀ t ∈ c, G t.tok) :
    Elif G env defs p depth (⟨l1, hash⟩ :: dirTok l2 ws "elif" :: (c ++ [⟨l3, newline⟩]))
      (condValue env defs p depth c)

/-- an `#else` directive -/
def IsElse (ts : List LTok) : Prop := ∃ l1 l2 ws, ts = [⟨l1, hash⟩, dirTok l2 ws "else"]
/-- an `#endif` directive -/
def IsEndif (ts : List LTok) : Prop := ∃ l1 l2 ws, ts = [⟨l1, hash⟩, dirTok l2 ws "endif"]

/-- the directives that are not part of a conditional and not `#define` -/
def plainDir (n : Name) : Prop :=
  n ∉ ["endif".toList, "else".toList, "ifdef".toList, "ifndef".toList, "if".toList, "elif".toList,
    "define".toList]

/-- Text in which conditionals are balanced (`Region G false`), or the rest of a conditional that has
been opened, up to its `#endif` (`Region G true`).  The conditions consist of tokens in `G`. -/
inductive Region (G : Tok → Prop) : Bool → List LTok → Prop
  /-- nothing -/
  | nil : Region G false []
  /-- a token that is not `#` -/
  | tok {b : Bool} {r : List LTok} (t : LTok) (ht : t.tok ≠ hash) : Region G b r → Region G b (t :: r)
  /-- a `#` followed by something that is not a directive name -/
  | junk {b : Bool} {r : List LTok} (l : Location) (t : LTok) (ht : ∀ n ws, t.tok ≠ .ident n ws) :
    Region G b r → Region G b (⟨l, hash⟩ :: t :: r)
  /-- `#define`, to the end of the line -/
  | define {b : Bool} {r : List LTok} (l1 l2 l3 : Location) (ws : Bool) (line : List LTok)
    (hl : ∀ t ∈ line, t.tok ≠ newline) :
    Region G b r → Region G b (⟨l1, hash⟩ :: dirTok l2 ws "define" :: (line ++ ⟨l3, newline⟩ :: r))
  /-- another directive -/
  | dir {b : Bool} {r : List LTok} (l1 l2 : Location) (ws : Bool) (n : Name) (hn : plainDir n) :
    Region G b r → Region G b (⟨l1, hash⟩ :: ⟨l2, .ident n ws⟩ :: r)
  /-- a conditional -/
  | block {b : Bool} {c r h : List LTok} (env : Env) (defs : DefineMap) (p : Path) (d : Nat) (v : Bool)
    (hh : Head G env defs p d h v) : Region G true c → Region G b r → Region G b (h ++ c ++ r)
  /-- `#else` -/
  | else_ {e r : List LTok} (he : IsElse e) : Region G true r → Region G true (e ++ r)
  /-- `#elif` -/
  | elif {h r : List LTok} (env : Env) (defs : DefineMap) (p : Path) (d : Nat) (v : Bool)
    (hh : Elif G env defs p d h v) : Region G true r → Region G true (h ++ r)
  /-- `#endif` -/
  | endif {e : List LTok} (he : IsEndif e) : Region G true e

namespace PP

/-- everything a directive other than a conditional could change -/
def world (s : PP) :=
  (s.defines, s.history, s.incLocs, s.multi, s.maps, s.skins, s.scripts, s.interp, s.docsIn, s.panic)

/-- from `s` to `s'` nothing was executed and only newlines were emitted -/
def Skipped (s s' : PP) : Prop :=
  s'.world = s.world ∧ ∃ nls : List LTok, (∀ t ∈ nls, t.tok = newline) ∧ s'.output = s.output ++ nls

/-- the next tokens to be read are `ts`, in file `p` -/
def At (s : PP) (p : Path) (ts : List LTok) (st : List Include) : Prop :=
  stackNext s.stack = stackNext (.file p ts :: st)

theorem Skipped.refl (s : PP) : Skipped s s := ⟨rfl, [], by simp, by simp⟩
theorem Skipped.trans {a b c : PP} (h : Skipped a b) (h' : Skipped b c) : Skipped a c := by
  obtain ⟨h1, n1, h2, h3⟩ := h
  obtain ⟨h1', n1', h2', h3'⟩ := h'
  refine ⟨h1'.trans h1, n1 ++ n1', ?_, by rw [h3', h3, List.append_assoc]⟩
  intro t ht
  rcases List.mem_append.1 ht with ht | ht
  · exact h2 t ht
  · exact h2' t ht

theorem Skipped.defines {a b : PP} (h : Skipped a b) : b.defines = a.defines := congrArg (·.1) h.1
theorem Skipped.docsIn {a b : PP} (h : Skipped a b) : b.docsIn = a.docsIn :=
  congrArg (·.2.2.2.2.2.2.2.2.1) h.1

/-! ### single steps -/

/-- a token in a disabled region -/
theorem step_plain {env : Env} {s : PP} {p : Path} {t : LTok} {ts : List LTok} {st : List Include}
    (ha : At s p (t :: ts) st) (hd : s.isDisabled = true) (ht : t.tok ≠ hash) :
    ∃ s', Micro env false s s' ∧ At s' p ts st ∧ Skipped s s' ∧ s'.ifdefs = s.ifdefs := by
  obtain ⟨l, t⟩ := t
  have hin : s.innerNext = some (l, t, { s with stack := .file p ts :: st }) := by
    unfold At at ha
    simp [innerNext, ha, stackNext]
  refine ⟨_, ⟨l, t, _, 0, { s with
    stack := .file p ts :: st
    lastLoc := l
    output := [] }, hin, by simp, ?_, rfl⟩, rfl, ⟨rfl, [], by simp, by simp⟩, rfl⟩
  unfold realNext realNextWith
  have : ({ s with stack := .file p ts :: st, lastLoc := l, output := [] } : PP).isDisabled = true := hd
  simp only [Bool.not_false, Bool.true_and, if_neg ht]
  rw [if_pos (by exact this)]
  simp

/-- a directive -/
theorem step_directive {env : Env} {s : PP} {p : Path} {l1 : Location} {t : LTok} {ts : List LTok}
    {st : List Include} (ha : At s p (⟨l1, hash⟩ :: t :: ts) st) {n : Nat} {s2 : PP}
    (h : (match t.tok with
      | .ident ident _ => ({ s with
          stack := .file p ts :: st
          lastLoc := l1
          output := [] } : PP).onDirective env (evaluateOf env (pump env n)) s.isDisabled (dirOf ident)
      | _ => .ok (({ s with
          stack := .file p ts :: st
          lastLoc := l1
          output := [] } : PP).err .unexpectedToken)) = .ok s2) :
    Micro env false s { s2 with output := s.output ++ s2.output } := by
  have hin : s.innerNext = some (l1, hash, { s with stack := .file p (t :: ts) :: st }) := by
    unfold At at ha
    simp [innerNext, ha, stackNext]
  refine ⟨l1, hash, _, n, s2, hin, by simp, ?_, rfl⟩
  unfold realNext realNextWith directive withNext
  have hin2 : ({ s with
    stack := .file p (t :: ts) :: st
    lastLoc := l1
    output := [] } : PP).innerNext = some (t.loc, t.tok, { s with
    stack := .file p ts :: st
    lastLoc := l1
    output := [] }) := rfl
  simp only [Bool.not_false, Bool.true_and, if_true, Bool.false_eq_true, if_false]
  rw [hin2]
  exact h

/-- the name of a directive -/
theorem dirOf_plain {n : Name} (h : plainDir n) :
    dirOf n ∈ [Dir.include, .undef, .warn, .error, .pragma, .unknown] := by
  simp only [plainDir, List.mem_cons, List.not_mem_nil, or_false, not_or] at h
  obtain ⟨h1, h2, h3, h4, h5, h6, h7⟩ := h
  unfold dirOf dirNames
  simp only [DefineMap.lookup_cons', h1, h2, h3, h4, h5, h6, h7, if_false]
  split <;> [skip; split] <;> [skip; skip; split] <;> [skip; skip; skip; split] <;>
    [skip; skip; skip; skip; split] <;> simp

/-- reading and evaluating a condition -/
theorem evaluate_line {env : Env} {G : Tok → Prop} {s : PP} {p : Path} {c ts : List LTok} {l3 : Location}
    {st : List Include} (hG : Ordinary s.defines G) (hnl : ¬ G newline) (hc : ∀ t ∈ c, G t.tok)
    (hs : s.stack = .file p (c ++ ⟨l3, newline⟩ :: ts) :: st) (hdoc : s.docsIn = [])
    (hout : s.output = []) :
    ∃ n errs', evaluateOf env (pump env n) s =
      .ok (if s.isDisabled then false else condValue env s.defines p (32 - st.length) c,
        { s with
          stack := .file p ts :: st
          lastLoc := l3
          errs := errs' }) := by
  obtain ⟨s', h1, h2⟩ := file_steps (env := env) (cond := true) hG (fun _ => hnl) p
    (⟨l3, newline⟩ :: ts) st c s hc rfl (.inl rfl) (by simp) (by rw [hs])
  rw [hout, hdoc] at h2
  have hd2 := expandToks_docs s.defines (env.pathText p) true (32 - st.length) c ⟨[], []⟩ rfl
  have hlast : s'.pump env 1 = .ok { s' with
      stack := .file p ts :: st
      lastLoc := l3 } := by
    unfold pump
    have hin : s'.innerNext = some (l3, newline, { s' with stack := .file p ts :: st }) := by
      simp [innerNext, h2.stack, stackNext]
    rw [hin]
    simp
  obtain ⟨n, hn⟩ := h1.pump hlast
  obtain ⟨-, errs', h4⟩ := h2
  have hdis : s'.isDisabled = s.isDisabled := by rw [h4]; rfl
  have hdef : s'.defines = s.defines := by rw [h4]
  have hout' : s'.output = (expandToks s.defines (env.pathText p) true (32 - st.length) ⟨[], []⟩ c).out := by
    rw [h4]
  unfold evaluateOf
  by_cases hd : s.isDisabled = true
  · refine ⟨n, errs', ?_⟩
    rw [hn]
    simp only
    rw [if_pos (by exact hdis.trans hd), if_pos hd, h4, hd2]
    simp [hdoc, hout]
  · have hd' : ¬ s'.isDisabled = true := by rw [hdis]; exact hd
    cases he : env.eval (expandToks s.defines (env.pathText p) true (32 - st.length) ⟨[], []⟩ c).out
        s.defines with
    | some b =>
      refine ⟨n, errs', ?_⟩
      rw [hn]
      simp only
      rw [if_neg (by exact hd'), if_neg hd, hout', hdef, he]
      simp only [condValue, he, Option.getD_some]
      rw [h4, hd2]
      simp [hdoc, hout]
    | none =>
      refine ⟨n, Err.evalError :: errs', ?_⟩
      rw [hn]
      simp only
      rw [if_neg (by exact hd'), if_neg hd, hout', hdef, he]
      simp only [condValue, he, Option.getD_none, err]
      rw [h4, hd2]
      simp [hdoc, hout]

theorem containsKey_eq (m : DefineMap) (k : Name) : m.containsKey k = (m.get k).isSome := by
  unfold DefineMap.containsKey DefineMap.get
  cases m.find k with
  | none => rfl
  | some v => cases v <;> rfl

theorem isDefined_eq {env : Env} {s : PP} {p : Path} {ts : List LTok} {st : List Include}
    (hs : s.stack = .file p ts :: st) (name : Name) :
    s.isDefined env name = definedIn env s.defines p name := by
  unfold isDefined definedIn inEnvironment
  rw [hs, containsKey_eq]
  by_cases hm : name = "__MAIN__".toList
  · rw [if_pos hm, if_pos hm]
    have : topFile (Include.file p ts :: st) = some p := rfl
    rw [this]
    by_cases h : p = env.envFile
    · rw [decide_eq_true h, decide_eq_true (congrArg some h)]
    · rw [decide_eq_false h, decide_eq_false (fun e => h (Option.some.inj e))]
  · rw [if_neg hm, if_neg hm]

/-- a line that opens a conditional -/
theorem step_head {env : Env} {G : Tok → Prop} {s : PP} {p : Path} {h ts : List LTok} {v : Bool}
    {st : List Include} {env' : Env} {defs' : DefineMap} {p' : Path} {d' : Nat}
    (hh : Head G env' defs' p' d' h v)
    (hG : Ordinary s.defines G) (hnl : ¬ G newline)
    (ha : At s p (h ++ ts) st) (hdoc : s.docsIn = []) :
    ∃ s' i, Micro env false s s' ∧ At s' p ts st ∧ Skipped s s' ∧ s'.ifdefs = i :: s.ifdefs ∧
      (s.isDisabled = false → env' = env → defs' = s.defines → p' = p → d' = 32 - st.length →
        i.active = v ∧ i.chainActive = v) := by
  cases hh with
  | if_ l1 l2 l3 ws c hc =>
    have ha' : At s p (⟨l1, hash⟩ :: dirTok l2 ws "if" :: (c ++ ⟨l3, newline⟩ :: ts)) st := by
      simpa using ha
    obtain ⟨n, errs', hev⟩ := evaluate_line (env := env) (G := G) (c := c) (ts := ts) (l3 := l3) (p := p)
      (st := st) (s := { s with
        stack := .file p (c ++ ⟨l3, newline⟩ :: ts) :: st
        lastLoc := l1
        output := [] }) hG hnl hc rfl hdoc rfl
    have hm := step_directive (n := n) ha' (s2 := _) (by
      simp only [dirTok]
      rw [show dirOf "if".toList = .if_ by decide +kernel]
      simp only [onDirective]
      rw [hev])
    refine ⟨_, _, hm, rfl, ⟨rfl, [⟨l3, newline⟩], by simp, rfl⟩, rfl, ?_⟩
    intro hdis e1 e2 e3 e4
    subst e1 e2 e3 e4
    have : ({ s with
        stack := .file p' (c ++ ⟨l3, newline⟩ :: ts) :: st
        lastLoc := l1
        output := [] } : PP).isDisabled = false := hdis
    rw [this]
    exact ⟨rfl, rfl⟩
  | ifdef l1 l2 l3 l4 ws ws' name =>
    have ha' : At s p (⟨l1, hash⟩ :: dirTok l2 ws "ifdef" :: ⟨l3, .ident name ws'⟩ :: ⟨l4, newline⟩ :: ts) st := ha
    have hm := step_directive (env := env) (n := 0) ha' (s2 := _) (by
      simp only [dirTok]
      rw [show dirOf "ifdef".toList = .ifdef by decide +kernel]
      simp only [onDirective, doIfdef, withNext, innerNext, stackNext, Option.map_some, if_true]
      rfl)
    refine ⟨_, _, hm, rfl, ⟨rfl, [⟨l1, newline⟩], by simp, rfl⟩, rfl, ?_⟩
    intro hdis e1 e2 e3 e4
    subst e1 e2 e3 e4
    rw [isDefined_eq rfl]
    simp [Ifdef.new]
  | ifndef l1 l2 l3 l4 ws ws' name =>
    have ha' : At s p (⟨l1, hash⟩ :: dirTok l2 ws "ifndef" :: ⟨l3, .ident name ws'⟩ :: ⟨l4, newline⟩ :: ts) st := ha
    have hm := step_directive (env := env) (n := 0) ha' (s2 := _) (by
      simp only [dirTok]
      rw [show dirOf "ifndef".toList = .ifndef by decide +kernel]
      simp only [onDirective, doIfdef, withNext, innerNext, stackNext, Option.map_some, if_true]
      rfl)
    refine ⟨_, _, hm, rfl, ⟨rfl, [⟨l1, newline⟩], by simp, rfl⟩, rfl, ?_⟩
    intro hdis e1 e2 e3 e4
    subst e1 e2 e3 e4
    rw [isDefined_eq rfl]
    simp [Ifdef.new]

/-- an `#elif` line -/
theorem step_elif {env : Env} {G : Tok → Prop} {s : PP} {p : Path} {h ts : List LTok} {v : Bool}
    {st : List Include} {env' : Env} {defs' : DefineMap} {p' : Path} {d' : Nat} {i : Ifdef}
    {base : List Ifdef} (hh : Elif G env' defs' p' d' h v)
    (hG : Ordinary s.defines G) (hnl : ¬ G newline)
    (ha : At s p (h ++ ts) st) (hdoc : s.docsIn = []) (hi : s.ifdefs = i :: base) :
    ∃ s' l v', Micro env false s s' ∧ At s' p ts st ∧ Skipped s s' ∧
      s'.ifdefs = i.elseIf l v' :: base ∧
      (base.any (fun i => !i.active) = false → env' = env → defs' = s.defines → p' = p →
        d' = 32 - st.length → v' = v) := by
  cases hh with
  | mk l1 l2 l3 ws c hc =>
    have ha' : At s p (⟨l1, hash⟩ :: dirTok l2 ws "elif" :: (c ++ ⟨l3, newline⟩ :: ts)) st := by
      simpa using ha
    obtain ⟨n, errs', hev⟩ := evaluate_line (env := env) (G := G) (c := c) (ts := ts) (l3 := l3) (p := p)
      (st := st) (s := { s with
        stack := .file p (c ++ ⟨l3, newline⟩ :: ts) :: st
        lastLoc := l1
        ifdefs := base
        ifdefHist := ((i.loc, l1), i.active) :: s.ifdefHist
        output := [] }) hG hnl hc rfl hdoc rfl
    have hm := step_directive (n := n) ha' (s2 := _) (by
      simp only [dirTok]
      rw [show dirOf "elif".toList = .elif by decide +kernel]
      simp only [onDirective, popIfdef, hi]
      rw [hev])
    refine ⟨_, _, _, hm, rfl, ⟨rfl, [⟨l3, newline⟩], by simp, rfl⟩, rfl, ?_⟩
    intro hdis e1 e2 e3 e4
    subst e1 e2 e3 e4
    have : ({ s with
        stack := .file p' (c ++ ⟨l3, newline⟩ :: ts) :: st
        lastLoc := l1
        ifdefs := base
        ifdefHist := ((i.loc, l1), i.active) :: s.ifdefHist
        output := [] } : PP).isDisabled = false := hdis
    rw [this]
    rfl

/-- an `#else` directive -/
theorem step_else {env : Env} {s : PP} {p : Path} {e ts : List LTok}
    {st : List Include} {i : Ifdef} {base : List Ifdef} (he : IsElse e)
    (ha : At s p (e ++ ts) st) (hi : s.ifdefs = i :: base) :
    ∃ s' l, Micro env false s s' ∧ At s' p ts st ∧ Skipped s s' ∧ s'.ifdefs = i.else_ l :: base := by
  obtain ⟨l1, l2, ws, rfl⟩ := he
  have ha' : At s p (⟨l1, hash⟩ :: dirTok l2 ws "else" :: ts) st := ha
  have hm := step_directive (env := env) (n := 0) ha' (s2 := _) (by
    simp only [dirTok]
    rw [show dirOf "else".toList = .else_ by decide +kernel]
    simp only [onDirective, popIfdef, hi]
    rfl)
  exact ⟨_, _, hm, rfl, ⟨rfl, [⟨l1, newline⟩], by simp, rfl⟩, rfl⟩

/-- an `#endif` directive -/
theorem step_endif {env : Env} {s : PP} {p : Path} {e ts : List LTok}
    {st : List Include} {i : Ifdef} {base : List Ifdef} (he : IsEndif e)
    (ha : At s p (e ++ ts) st) (hi : s.ifdefs = i :: base) :
    ∃ s', Micro env false s s' ∧ At s' p ts st ∧ Skipped s s' ∧ s'.ifdefs = base := by
  obtain ⟨l1, l2, ws, rfl⟩ := he
  have ha' : At s p (⟨l1, hash⟩ :: dirTok l2 ws "endif" :: ts) st := ha
  have hm := step_directive (env := env) (n := 0) ha' (s2 := _) (by
    simp only [dirTok]
    rw [show dirOf "endif".toList = .endif by decide +kernel]
    simp only [onDirective, popIfdef, hi]
    rfl)
  exact ⟨_, hm, rfl, ⟨rfl, [⟨l1, newline⟩], by simp, rfl⟩, rfl⟩

/-- skipping a line of a file -/
theorem skipLine_line {p : Path} {l3 : Location} {ts : List LTok} {st : List Include} (line : List LTok)
    (hl : ∀ t ∈ line, t.tok ≠ newline) : ∀ (n : Nat) (s : PP) k, line.length < n →
    s.stack = .file p (line ++ ⟨l3, newline⟩ :: ts) :: st →
    s.skipLine n k = k { s with stack := .file p ts :: st } := by
  induction line with
  | nil =>
    intro n s k hn hs
    obtain ⟨n, rfl⟩ : ∃ m, n = m + 1 := ⟨n - 1, by simp at hn; omega⟩
    simp [skipLine, withNext, innerNext, hs, stackNext]
  | cons t line ih =>
    intro n s k hn hs
    obtain ⟨n, rfl⟩ : ∃ m, n = m + 1 := ⟨n - 1, by simp at hn; omega⟩
    simp only [skipLine, withNext, innerNext, hs, stackNext, List.cons_append, Option.map_some]
    rw [if_neg (hl t (by simp))]
    rw [ih (fun u hu => hl u (by simp [hu])) n _ _ (by simp at hn; omega) rfl]

/-- a directive in a disabled region that is not part of a conditional -/
theorem step_dir {env : Env} {s : PP} {p : Path} {l1 l2 : Location} {n : Name} {ws : Bool} {ts : List LTok}
    {st : List Include} (ha : At s p (⟨l1, hash⟩ :: ⟨l2, .ident n ws⟩ :: ts) st) (hn : plainDir n)
    (hd : s.isDisabled = true) :
    ∃ s', Micro env false s s' ∧ At s' p ts st ∧ Skipped s s' ∧ s'.ifdefs = s.ifdefs := by
  have key : ∃ s2 : PP, ({ s with
          stack := .file p ts :: st
          lastLoc := l1
          output := [] } : PP).onDirective env (evaluateOf env (pump env 0)) s.isDisabled (dirOf n) = .ok s2 ∧
      s2.stack = .file p ts :: st ∧ s2.ifdefs = s.ifdefs ∧ s2.world = s.world ∧
      ∀ t ∈ s2.output, t.tok = newline := by
    rw [hd]
    have := dirOf_plain hn
    simp only [List.mem_cons, List.not_mem_nil, or_false] at this
    rcases this with h | h | h | h | h | h <;> rw [h] <;> simp only [onDirective, if_true] <;>
      refine ⟨_, rfl, rfl, rfl, rfl, ?_⟩ <;> simp [push, err]
  obtain ⟨s2, h1, h2, h3, h4, h5⟩ := key
  have hm := step_directive (env := env) (n := 0) ha (s2 := s2) h1
  exact ⟨_, hm, by unfold At; rw [show ({ s2 with output := s.output ++ s2.output } : PP).stack = _ from h2],
    ⟨h4, s2.output, h5, rfl⟩, h3⟩

/-- a `#define` in a disabled region -/
theorem step_define {env : Env} {s : PP} {p : Path} {l1 l2 l3 : Location} {ws : Bool} {line ts : List LTok}
    {st : List Include}
    (ha : At s p (⟨l1, hash⟩ :: dirTok l2 ws "define" :: (line ++ ⟨l3, newline⟩ :: ts)) st)
    (hl : ∀ t ∈ line, t.tok ≠ newline) (hd : s.isDisabled = true) :
    ∃ s', Micro env false s s' ∧ At s' p ts st ∧ Skipped s s' ∧ s'.ifdefs = s.ifdefs := by
  have hm := step_directive (env := env) (n := 0) ha (s2 := _) (by
    simp only [dirTok]
    rw [show dirOf "define".toList = .define by decide +kernel, hd]
    simp only [onDirective, if_true]
    rw [skipLine_line (p := p) (l3 := l3) (ts := ts) (st := st) line hl _ _ _
      (by simp [size, Include.size]; omega) rfl])
  exact ⟨_, hm, rfl, ⟨rfl, [⟨l1, newline⟩], by simp, rfl⟩, rfl⟩

/-- a `#` that is not followed by a name -/
theorem step_junk {env : Env} {s : PP} {p : Path} {l : Location} {t : LTok} {ts : List LTok}
    {st : List Include} (ha : At s p (⟨l, hash⟩ :: t :: ts) st) (ht : ∀ n ws, t.tok ≠ .ident n ws) :
    ∃ s', Micro env false s s' ∧ At s' p ts st ∧ Skipped s s' ∧ s'.ifdefs = s.ifdefs := by
  have hm := step_directive (env := env) (n := 0) ha (s2 := ({ s with
          stack := .file p ts :: st
          lastLoc := l
          output := [] } : PP).err .unexpectedToken) (by
    split
    · rename_i h; exact absurd h (ht _ _)
    · rfl)
  exact ⟨_, hm, rfl, ⟨rfl, [], by simp, by simp [err]⟩, rfl⟩

/-! ### skipping -/

/-- some enclosing branch is inactive -/
def dis (is : List Ifdef) : Bool := is.any fun i => !i.active

/-- what the stack of open conditionals must look like for a region to be skipped, and what it is
afterwards -/
def Entry (b : Bool) (F T : List Ifdef) : Prop :=
  if b then ∃ i, F = i :: T ∧ (dis T = true ∨ (i.active = false ∧ i.chainActive = true))
  else F = T ∧ dis F = true

theorem Entry.disabled {b : Bool} {s : PP} {T : List Ifdef} (h : Entry b s.ifdefs T) : s.isDisabled = true := by
  unfold Entry at h
  unfold isDisabled
  cases b with
  | false => exact h.2
  | true =>
    obtain ⟨i, h1, h2⟩ := h
    rw [h1]
    rcases h2 with h2 | ⟨h2, -⟩
    · unfold dis at h2; simp [h2]
    · simp [h2]

/-- a region is skipped -/
theorem skip {env : Env} {G : Tok → Prop} {p : Path} {st : List Include} (hnl : ¬ G newline) {b : Bool}
    {ts : List LTok} (h : Region G b ts) :
    ∀ (s : PP) (rest : List LTok) (T : List Ifdef), At s p (ts ++ rest) st → Ordinary s.defines G →
      s.docsIn = [] → Entry b s.ifdefs T →
      ∃ s', Micros env false s s' ∧ At s' p rest st ∧ Skipped s s' ∧ s'.ifdefs = T := by
  induction h with
  | nil =>
    intro s rest T ha _ _ he
    exact ⟨s, .refl s, ha, .refl s, he.1⟩
  | tok t ht _ ih =>
    intro s rest T ha hG hdoc he
    obtain ⟨s1, h1, h2, h3, h4⟩ := step_plain (env := env) (by simpa using ha) he.disabled ht
    obtain ⟨s', g1, g2, g3, g4⟩ := ih s1 rest T h2 (h3.defines ▸ hG) (h3.docsIn.trans hdoc) (h4 ▸ he)
    exact ⟨s', .cons h1 g1, g2, h3.trans g3, g4⟩
  | junk l t ht _ ih =>
    intro s rest T ha hG hdoc he
    obtain ⟨s1, h1, h2, h3, h4⟩ := step_junk (env := env) (by simpa using ha) ht
    obtain ⟨s', g1, g2, g3, g4⟩ := ih s1 rest T h2 (h3.defines ▸ hG) (h3.docsIn.trans hdoc) (h4 ▸ he)
    exact ⟨s', .cons h1 g1, g2, h3.trans g3, g4⟩
  | define l1 l2 l3 ws line hl _ ih =>
    intro s rest T ha hG hdoc he
    obtain ⟨s1, h1, h2, h3, h4⟩ := step_define (env := env) (by simpa using ha) hl he.disabled
    obtain ⟨s', g1, g2, g3, g4⟩ := ih s1 rest T h2 (h3.defines ▸ hG) (h3.docsIn.trans hdoc) (h4 ▸ he)
    exact ⟨s', .cons h1 g1, g2, h3.trans g3, g4⟩
  | dir l1 l2 ws n hn _ ih =>
    intro s rest T ha hG hdoc he
    obtain ⟨s1, h1, h2, h3, h4⟩ := step_dir (env := env) (by simpa using ha) hn he.disabled
    obtain ⟨s', g1, g2, g3, g4⟩ := ih s1 rest T h2 (h3.defines ▸ hG) (h3.docsIn.trans hdoc) (h4 ▸ he)
    exact ⟨s', .cons h1 g1, g2, h3.trans g3, g4⟩
  | block env' defs' p' d' v hh _ _ ihc ihr =>
    intro s rest T ha hG hdoc he
    obtain ⟨s1, i, h1, h2, h3, h4, -⟩ := step_head (env := env) hh hG hnl
      (by simpa only [List.append_assoc] using ha) hdoc
    obtain ⟨s2, g1, g2, g3, g4⟩ := ihc s1 _ s.ifdefs h2 (h3.defines ▸ hG) (h3.docsIn.trans hdoc)
      (by rw [h4]; exact ⟨i, rfl, .inl he.disabled⟩)
    have h5 := h3.trans g3
    obtain ⟨s', k1, k2, k3, k4⟩ := ihr s2 rest T g2 (h5.defines ▸ hG) (h5.docsIn.trans hdoc) (g4 ▸ he)
    exact ⟨s', .cons h1 (g1.trans k1), k2, h5.trans k3, k4⟩
  | else_ hel _ ih =>
    intro s rest T ha hG hdoc he
    obtain ⟨i, hi, hor⟩ := he
    obtain ⟨s1, l, h1, h2, h3, h4⟩ := step_else (env := env) hel
      (by simpa only [List.append_assoc] using ha) hi
    obtain ⟨s', g1, g2, g3, g4⟩ := ih s1 rest T h2 (h3.defines ▸ hG) (h3.docsIn.trans hdoc)
      (by
        rw [h4]
        refine ⟨_, rfl, hor.imp_right fun h => ?_⟩
        simp [Ifdef.else_, h.2])
    exact ⟨s', .cons h1 g1, g2, h3.trans g3, g4⟩
  | elif env' defs' p' d' v hh _ ih =>
    intro s rest T ha hG hdoc he
    obtain ⟨i, hi, hor⟩ := he
    obtain ⟨s1, l, v', h1, h2, h3, h4, -⟩ := step_elif (env := env) hh hG hnl
      (by simpa only [List.append_assoc] using ha) hdoc hi
    obtain ⟨s', g1, g2, g3, g4⟩ := ih s1 rest T h2 (h3.defines ▸ hG) (h3.docsIn.trans hdoc)
      (by
        rw [h4]
        refine ⟨_, rfl, hor.imp_right fun h => ?_⟩
        simp [Ifdef.elseIf, h.2])
    exact ⟨s', .cons h1 g1, g2, h3.trans g3, g4⟩
  | endif hen =>
    intro s rest T ha hG hdoc he
    obtain ⟨i, hi, hor⟩ := he
    obtain ⟨s1, h1, h2, h3, h4⟩ := step_endif (env := env) hen ha hi
    exact ⟨s1, .one h1, h2, h3, h4⟩

end PP

end Verif.Preproc
