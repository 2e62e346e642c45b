import Verif.Preproc.ProgramLemmas

/-!
# C59, C60: function-like macros; the meaning of a source file
-/

namespace Verif.Preproc

open Verif.Context (Location)
open Verif.Lexer (Tok Punct DocTarget CommentKind)

namespace PP

/-- **C59, text.** Outside disabled regions a stretch `toks` of text of a file — names of object-like and
function-like macros, with and without arguments, and other tokens — is delivered as `out`, its expansion
by the rules of `Expands`; afterwards the file continues with `rest` and nothing but the read position
(and possibly a diagnostic) has changed. -/
theorem macro_text_expands (env : Env) (s : PP) (p : Path) (toks rest out : List LTok)
    (st : List Include) (hs : s.stack = .file p (toks ++ rest) :: st)
    (hx : Expands env s.defines (env.pathText p) (32 - st.length) toks out)
    (hd : s.isDisabled = false) (hdoc : s.docsIn = []) (hout : s.output = []) :
    ∃ l errs', ∀ n r s'',
      ({ s with
          stack := .file p rest :: st
          lastLoc := l
          errs := errs' } : PP).run env n = .ok (r, s'') →
      ∃ m, s.run env m = .ok (out ++ r, s'') := by
  obtain ⟨s1, h1, h2, e, h3⟩ := expands_steps hx s (.file p (toks ++ rest)) (.file p rest) st
    .file rfl rfl hd hdoc rfl (by rw [hs])
  refine ⟨s1.lastLoc, e, fun n r s'' hr => ?_⟩
  apply h1.run (n := n)
  apply run_stack h2
  rw [h3, hout]
  have := run_output (A := out) (by exact hout) hr
  rw [hdoc] at this
  exact this

/-- **C59, definitions.** A `#define` line in an active region adds exactly the definition it denotes —
a name directly followed by `(` has the listed parameters, otherwise everything after the name is the
replacement — and delivers one line end.  (`DEBUG` is only honoured in the environment file.) -/
theorem define_line (env : Env) (s : PP) (p : Path) (l1 l2 l3 : Location) (ws : Bool) (t : LTok)
    (line rest : List LTok) (st : List Include) (n : Name) (d : Define)
    (hs : s.stack =
      .file p (⟨l1, hash⟩ :: dirTok l2 ws "define" :: t :: (line ++ ⟨l3, newline⟩ :: rest)) :: st)
    (hl : DefineLine ((t :: line).map LTok.tok) n d) (hd : s.isDisabled = false) (hdoc : s.docsIn = [])
    (hout : s.output = []) :
    ∃ s', Micros env false s s' ∧ stackNext s'.stack = stackNext (.file p rest :: st) ∧
      s'.output = [⟨l1, newline⟩] ∧ s'.ifdefs = s.ifdefs ∧ s'.incLocs = s.incLocs ∧
      s'.defines = (if n = "DEBUG".toList ∧ p ≠ env.envFile then s.defines
        else (s.defines.insert n (t.loc, d)).2) := by
  obtain ⟨e, he⟩ := doDefine_line (env := env) (s := { s with
        stack := .file p (t :: (line ++ ⟨l3, newline⟩ :: rest)) :: st
        lastLoc := l1
        output := [] }) rfl hl
  obtain ⟨f1, f2, f3, f4, f5, f6⟩ := finishDefine_facts env ({ s with
        stack := .file p rest :: st
        lastLoc := l1
        output := []
        docsIn := []
        errs := e } : PP) p rest st n t.loc d rfl rfl
  have hm := step_directive (env := env) (n := 0) (s := s) (p := p) (st := st) (l1 := l1)
    (t := dirTok l2 ws "define") (ts := t :: (line ++ ⟨l3, newline⟩ :: rest)) (by unfold At; rw [hs])
    (s2 := _) (by
      simp only [dirTok]
      rw [show dirOf "define".toList = .define by decide +kernel, hd]
      simp only [onDirective, Bool.false_eq_true, if_false]
      exact he)
  refine ⟨_, .one hm, congrArg stackNext f1, ?_, f3, ?_, ?_⟩
  · rw [hout]
    unfold finishDefine
    split_ifs <;> (try split) <;> (try split_ifs) <;> rfl
  · have := congrArg World.seen f2
    simp only [worldOf] at this
    refine this.trans ?_
    split_ifs <;> rfl
  · have := congrArg World.defs f2
    simp only [worldOf] at this
    refine this.trans ?_
    split_ifs <;> rfl

/-- **C59, number of arguments.** A call whose arguments cannot be matched with the parameters is
reported; the call is dropped, nothing is delivered for it and nothing else changes. -/
theorem wrong_arguments_reported (env : Env) (s : PP) (p : Path) (l lp lr ld : Location) (n : Name)
    (ws v : Bool) (ps : List Name) (su : List Tok) (as : List LTok) (args : List (List Tok))
    (rest : List LTok) (st : List Include)
    (hs : s.stack = .file p (⟨l, .ident n ws⟩ :: ⟨lp, lparen⟩ :: (as ++ ⟨lr, rparen⟩ :: rest)) :: st)
    (h1 : n ≠ "__FILE__".toList) (h2 : n ≠ "__LINE__".toList)
    (hg : s.defines.get n = some (ld, .function ps su v)) (hroom : st.length < 32)
    (hne : args ≠ []) (ha : ∀ a ∈ args, Arg a) (has : as.map LTok.tok = List.intercalate [comma] args)
    (hb : ∀ bnd, ¬ Bind ps v args bnd) (hd : s.isDisabled = false) (hdoc : s.docsIn = [])
    (hout : s.output = []) :
    Micro env false s { s with
      stack := .file p rest :: st
      lastLoc := l
      errs := .wrongArgCount :: s.errs } := by
  have hlen : (fixVariadic ps v args).length ≠ ps.length := by
    intro he
    unfold fixVariadic at he
    cases v with
    | false =>
      simp only [Bool.false_eq_true, if_false] at he
      exact hb args (.fixed he)
    | true =>
      simp only [if_true] at he
      rcases List.eq_nil_or_concat ps with rfl | ⟨ps', q, rfl⟩
      · have : 0 < args.length := List.length_pos_iff.2 hne
        rw [if_pos (by simpa using this)] at he
        simp at he
      · simp only [List.concat_eq_append, List.length_append, List.length_singleton] at he hb
        by_cases h3 : ps'.length < args.length
        · have h5 := Bind.rest (ps := ps') (p := q) (args := args.take ps'.length)
            (more := args.drop ps'.length) (by simp; omega) (by simp; omega)
          rw [List.take_append_drop] at h5
          exact hb _ h5
        · by_cases h4 : args.length = ps'.length
          · exact hb _ (.missing h4)
          · rw [if_neg (by omega), if_neg (by omega)] at he
            omega
  have hr := reads_file p st rest (⟨lp, lparen⟩ :: (as ++ [⟨lr, rparen⟩]))
  have hr : Reads (.file p (⟨lp, lparen⟩ :: (as ++ ⟨lr, rparen⟩ :: rest)) :: st)
      (lparen :: (List.intercalate [comma] args ++ [rparen])) (.file p rest :: st) := by
    simpa [has] using hr
  have hin : s.innerNext = some (l, .ident n ws, { s with
      stack := .file p (⟨lp, lparen⟩ :: (as ++ ⟨lr, rparen⟩ :: rest)) :: st }) := by
    simp [innerNext, hs, stackNext]
  have hrn := realNext_name (env := env) (ws := ws) (m := 0) (d := .function ps su v) (ld := ld)
    (s := { s with
      stack := .file p (⟨lp, lparen⟩ :: (as ++ ⟨lr, rparen⟩ :: rest)) :: st
      lastLoc := l
      output := [] }) h1 h2 hd hdoc rfl hg (by simp; omega)
  refine ⟨l, .ident n ws, _, 0, { s with
      stack := .file p rest :: st
      lastLoc := l
      output := []
      errs := .wrongArgCount :: s.errs }, hin, by simp, Eq.trans (by exact hrn) ?_, ?_⟩
  · rw [onUse]
    unfold callMacro
    cases hr with
    | @cons _ st1 _ l' t ts g1 g2 =>
      rw [withNext_eq (by exact g1), if_pos rfl]
      have hsz := g2.size
      obtain ⟨m, hm⟩ : ∃ m, ssize st1 + 1 = (List.intercalate [comma] args).length + 1 + m := by
        refine ⟨ssize (.file p rest :: st) + 1, ?_⟩
        rw [hsz, List.length_append, List.length_singleton]; omega
      rw [size_eq]
      rw [hm, readArgs_args args hne ha m _ _ [] _ g2]
      simp only [List.nil_append]
      rw [if_pos hlen]
      rfl
  · simp [hout]

/-- **C60.** A whole environment: if the text of the environment file means `out` and leaves the macros
and files `w`, then preprocessing it delivers `out`, up to line ends, and ends with the macros and files
`w`, without panicking. -/
theorem environment_preprocessed (env : Env) (builtins : DefineMap) (toks out : List LTok) (w : World)
    (h : Program env env.envFile 32 ⟨builtins, [], [], [], [], []⟩ toks out w) :
    ∃ m o s', (init env builtins toks).run env m = .ok (o, s') ∧ inline o = inline out ∧
      s'.defines = w.defs ∧ s'.incLocs = w.seen ∧ s'.multi = w.again ∧ s'.maps = w.maps ∧
      s'.skins = w.skins ∧ s'.scripts = w.scripts ∧ s'.panic = false := by
  obtain ⟨s1, hre⟩ := program_steps h (init env builtins toks) [] [] (by simp [At, init]) rfl rfl rfl rfl
  obtain ⟨o, ho1, ho2⟩ := hre.out
  have hn : ({ s1 with output := [] } : PP).innerNext = none := by
    have := hre.pos
    unfold At at this
    simp only [stackNext] at this
    simp [innerNext, this]
  have hrun : s1.run env 1 = .ok (s1.output, ({ s1 with output := [] } : PP).drained.closeIfdefs) := by
    simp [PP.run, hn]
  obtain ⟨m, hm⟩ := hre.steps.run hrun
  have hw := hre.world
  refine ⟨m, _, _, hm, ?_, ?_⟩
  · rw [ho1, ← ho2]; rfl
  · subst hw
    exact ⟨rfl, rfl, rfl, rfl, rfl, rfl, hre.panic⟩

/-- **C60, the meaning is unique.** -/
theorem meaning_unique (env : Env) (builtins : DefineMap) (toks out out' : List LTok) (w w' : World)
    (h : Program env env.envFile 32 ⟨builtins, [], [], [], [], []⟩ toks out w)
    (h' : Program env env.envFile 32 ⟨builtins, [], [], [], [], []⟩ toks out' w') :
    inline out = inline out' ∧ w = w' := by
  obtain ⟨m, o, s, h1, h2, h3, h4, h5, h6, h7, h8, -⟩ := environment_preprocessed env builtins toks out w h
  obtain ⟨m', o', s', g1, g2, g3, g4, g5, g6, g7, g8, -⟩ :=
    environment_preprocessed env builtins toks out' w' h'
  have e1 := run_mono (le_max_left m m') h1
  have e2 := run_mono (le_max_right m m') g1
  rw [e1] at e2
  simp only [Except.ok.injEq, Prod.mk.injEq] at e2
  obtain ⟨rfl, rfl⟩ := e2
  refine ⟨h2.symm.trans g2, ?_⟩
  obtain ⟨a, b, c, d, e, f⟩ := w
  obtain ⟨a', b', c', d', e', f'⟩ := w'
  simp only at h3 h4 h5 h6 h7 h8 g3 g4 g5 g6 g7 g8
  subst h3 h4 h5 h6 h7 h8
  simp_all

end PP

/-! ## Concrete cases -/

/-- an environment with one further file, `x.dm`, containing `#define Z 7` and `z` -/
def demoEnv3 : Env where
  envFile := 0
  resolve := fun _ s => if s = "x.dm".toList then .dm 1 else .notFound
  openFile := fun p => if p = 1 then
      some [hsh 1, idt 1 "define", ⟨at_ 1, .ident ['Z'] true⟩, intt 1 7, nlt 1, idt 2 "z", nlt 2]
    else none
  fileId := fun p => if p = 1 then 2 else 1
  pathText := fun _ => "env.dme".toList
  eval := fun out _ => match out with
    | [⟨_, .int v⟩] => some (v != 0)
    | _ => none
  display := fun t => match t with
    | .ident n _ => n
    | .int v => (Nat.repr v).toList
    | _ => ['?']

/-- a name -/
def nm (s : String) : Tok := .ident s.toList false

/-- `#define F(x, y) x v_##x #y` -/
def demoF : List LTok :=
  [hsh 1, idt 1 "define", idt 1 "F", ⟨at_ 1, lparen⟩, idt 1 "x", ⟨at_ 1, comma⟩, idt 1 "y",
   ⟨at_ 1, rparen⟩, idt 1 "x", idt 1 "v_", ⟨at_ 1, tokenPaste⟩, idt 1 "x", ⟨at_ 1, hash⟩, idt 1 "y", nlt 1]

/-- `#include "x.dm"`, `F(a, c d)` -/
def demoUse : List LTok :=
  [hsh 2, idt 2 "include", ⟨at_ 2, .str "x.dm".toList⟩, nlt 2,
   idt 3 "F", ⟨at_ 3, lparen⟩, idt 3 "a", ⟨at_ 3, comma⟩, idt 3 "c", idt 3 "d", ⟨at_ 3, rparen⟩, nlt 3]

/-- the definition of `F` -/
def demoFDef : Define :=
  .function [['x'], ['y']] [nm "x", nm "v_", tokenPaste, nm "x", hash, nm "y"] false

theorem demoF_line : DefineLine [nm "F", lparen, nm "x", comma, nm "y", rparen, nm "x", nm "v_", tokenPaste,
    nm "x", hash, nm "y"] ['F'] demoFDef := by
  have h := DefineLine.function (n := ['F']) (hd := [nm "x", comma, nm "y"])
    (ts := [nm "x", nm "v_", tokenPaste, nm "x", hash, nm "y"])
    (Params.more (p := ['x']) (ws := false) (Params.one (p := ['y']) (ws := false))) (by decide +kernel)
  exact h

/-- the body of `F(a, c d)` -/
theorem demoF_body : Body demoEnv3.display (bound [['x'], ['y']] [[nm "a"], [nm "c", nm "d"]])
    [nm "x", nm "v_", tokenPaste, nm "x", hash, nm "y"] [nm "a", nm "v_a", .str "c d".toList] := by
  have b1 : bound [['x'], ['y']] [[nm "a"], [nm "c", nm "d"]] ['x'] = some [nm "a"] := by decide +kernel
  have b2 : bound [['x'], ['y']] [[nm "a"], [nm "c", nm "d"]] ['y'] = some [nm "c", nm "d"] := by
    decide +kernel
  have b3 : bound [['x'], ['y']] [[nm "a"], [nm "c", nm "d"]] ['v', '_'] = none := by decide +kernel
  have t := Body.text (display := demoEnv3.display) (ws := false) b2 (by decide +kernel) .nil
  have g := Glue.nameArg (b := bound [['x'], ['y']] [[nm "a"], [nm "c", nm "d"]]) (l := [])
    (x := ['v', '_']) (y := ['a']) (p := ['x']) (wx := false) (wy := false) (wp := false) (r := []) b1
  have w1 : Word (bound [['x'], ['y']] [[nm "a"], [nm "c", nm "d"]]) [nm "v_"] [nm "v_"] := by
    have := Word.one (b := bound [['x'], ['y']] [[nm "a"], [nm "c", nm "d"]]) (t := nm "v_") (by decide +kernel)
      (by decide +kernel)
    rwa [show rep (bound [['x'], ['y']] [[nm "a"], [nm "c", nm "d"]]) (nm "v_") = [nm "v_"] by
      decide +kernel] at this
  have w2 := Word.glue w1 (by simp) (t := nm "x") (by decide +kernel) (by decide +kernel) g
  have w3 : Word (bound [['x'], ['y']] [[nm "a"], [nm "c", nm "d"]]) [nm "x"] [nm "a"] := by
    have := Word.one (b := bound [['x'], ['y']] [[nm "a"], [nm "c", nm "d"]]) (t := nm "x") (by decide +kernel)
      (by decide +kernel)
    rwa [show rep (bound [['x'], ['y']] [[nm "a"], [nm "c", nm "d"]]) (nm "x") = [nm "a"] by
      decide +kernel] at this
  exact .word w3 (.word w2 t)

/-- text that stands for itself -/
theorem expands_plain {env : Env} {defs : DefineMap} {d : Nat} (ts : List LTok)
    (h : ∀ t ∈ ts, Plain defs t.tok) (file : List Char) :
    Expands env defs file d ts (ts.map (leaf file)) := by
  induction ts with
  | nil => exact .nil
  | cons t ts ih => exact .plain (h t (by simp)) (ih fun u hu => h u (by simp [hu]))

/-- a name that is not defined stands for itself -/
theorem plain_name {defs : DefineMap} {n : Name} {ws : Bool} (h : defs.get n = none) :
    Plain defs (.ident n ws) where
  hash := by simp [Verif.Preproc.hash]
  doc := by simp
  ibegin := by simp
  iend := by simp
  name := by intro m w hm; cases hm; exact h

/-- the macros after the two files -/
def demoWorld : World :=
  ⟨⟨[(['Z'], [(at_ 1, .constant [.int 7])]), (['F'], [(at_ 1, demoFDef)])]⟩, [2], [], [], [], []⟩

/-- the meaning of the environment: `z`, `a v_a "c d"` and the line ends of the text -/
theorem demo_program : Program demoEnv3 0 32 ⟨⟨[]⟩, [], [], [], [], []⟩ (demoF ++ demoUse)
    [idt 2 "z", nlt 2, idt 3 "a", idt 3 "v_a", ⟨at_ 3, .str "c d".toList⟩, nlt 3] demoWorld := by
  have p1 : Expands demoEnv3 demoWorld.defs (demoEnv3.pathText 1) 31 [idt 2 "z", nlt 2] [idt 2 "z", nlt 2] :=
    expands_plain _ (by
      intro t ht
      simp only [List.mem_cons, List.not_mem_nil, or_false] at ht
      rcases ht with rfl | rfl
      · exact plain_name (by decide +kernel)
      · exact ⟨by decide +kernel, by simp [nlt, newline], by simp [nlt, newline], by simp [nlt, newline],
          by simp [nlt, newline]⟩) _
  have p2 : Expands demoEnv3 demoWorld.defs (demoEnv3.pathText 0) 32 [nlt 3] [nlt 3] :=
    expands_plain _ (by
      intro t ht
      simp only [List.mem_cons, List.not_mem_nil, or_false] at ht
      rcases ht with rfl
      exact ⟨by decide +kernel, by simp [nlt, newline], by simp [nlt, newline], by simp [nlt, newline],
          by simp [nlt, newline]⟩) _
  have p3 : Expands demoEnv3 demoWorld.defs (demoEnv3.pathText 0) 31
      [idt 3 "a", idt 3 "v_a", ⟨at_ 3, .str "c d".toList⟩] [idt 3 "a", idt 3 "v_a", ⟨at_ 3, .str "c d".toList⟩] :=
    expands_plain _ (by
      intro t ht
      simp only [List.mem_cons, List.not_mem_nil, or_false] at ht
      rcases ht with rfl | rfl | rfl
      · exact plain_name (by decide +kernel)
      · exact plain_name (by decide +kernel)
      · exact ⟨by decide +kernel, by simp, by simp, by simp, by simp⟩) _
  have call : Expands demoEnv3 demoWorld.defs (demoEnv3.pathText 0) 32
      [idt 3 "F", ⟨at_ 3, lparen⟩, idt 3 "a", ⟨at_ 3, comma⟩, idt 3 "c", idt 3 "d", ⟨at_ 3, rparen⟩, nlt 3]
      [idt 3 "a", idt 3 "v_a", ⟨at_ 3, .str "c d".toList⟩, nlt 3] :=
    Expands.call (n := ['F']) (ws := false) (as := [idt 3 "a", ⟨at_ 3, comma⟩, idt 3 "c", idt 3 "d"])
      (args := [[nm "a"], [nm "c", nm "d"]]) (ts := [nlt 3]) (ld := at_ 1) (ps := [['x'], ['y']]) (v := false)
      (o := [idt 3 "a", idt 3 "v_a", ⟨at_ 3, .str "c d".toList⟩])
      (by decide +kernel) (by decide +kernel) (by decide +kernel) (by simp)
      (by
        intro a ha
        simp only [List.mem_cons, List.not_mem_nil, or_false] at ha
        rcases ha with rfl | rfl
        · exact .tok (by decide +kernel) (by decide +kernel) (by decide +kernel) .nil
        · exact .tok (by decide +kernel) (by decide +kernel) (by decide +kernel)
            (.tok (by decide +kernel) (by decide +kernel) (by decide +kernel) .nil))
      (by decide +kernel) (.fixed rfl) demoF_body p3 p2
  have incl : Program demoEnv3 1 31 ⟨⟨[(['F'], [(at_ 1, demoFDef)])]⟩, [2], [], [], [], []⟩
      [hsh 1, idt 1 "define", ⟨at_ 1, .ident ['Z'] true⟩, intt 1 7, nlt 1, idt 2 "z", nlt 2]
      [idt 2 "z", nlt 2] demoWorld := by
    refine .define (t := ⟨at_ 1, .ident ['Z'] true⟩) (line := [intt 1 7]) (ws := false) (l1 := at_ 1)
      (l2 := at_ 1) (l3 := at_ 1)
      (.object (n := ['Z']) (ts := [.int 7]) (by simp) (by decide +kernel)) ?_
    rw [if_neg (by decide +kernel)]
    exact .text p1 .nil
  refine .define (t := idt 1 "F") (line := (demoF.drop 3).dropLast) (ws := false) (l1 := at_ 1)
      (l2 := at_ 1) (l3 := at_ 1) demoF_line ?_
  rw [if_neg (by decide +kernel)]
  refine .source (q := 1) (o := [idt 2 "z", nlt 2]) (by decide +kernel) rfl (by decide +kernel) ?_ (w1 := demoWorld)
    (.text call .nil)
  rw [if_neg (by decide +kernel)]
  exact incl

/-- … and this is what preprocessing delivers. -/
example : ∃ m o s', (PP.init demoEnv3 ⟨[]⟩ (demoF ++ demoUse)).run demoEnv3 m = .ok (o, s') ∧
    inline o = [idt 2 "z", idt 3 "a", idt 3 "v_a", ⟨at_ 3, .str "c d".toList⟩] ∧
    s'.defines = demoWorld.defs ∧ s'.incLocs = [2] := by
  obtain ⟨m, o, s', h1, h2, h3, h4, -⟩ := PP.environment_preprocessed demoEnv3 ⟨[]⟩ _ _ _ demo_program
  exact ⟨m, o, s', h1, h2.trans (by decide +kernel), h3, h4⟩

/-- the same by running -/
example : (((PP.init demoEnv3 ⟨[]⟩ (demoF ++ demoUse)).run demoEnv3 100).toOption.map fun r => inline r.1) =
    some [idt 2 "z", idt 3 "a", idt 3 "v_a", ⟨at_ 3, .str "c d".toList⟩] := by decide +kernel

/-- `F(a)` has the wrong number of arguments -/
example : PP.Micro demoEnv3 false
    { stack := [.file 0 [idt 3 "F", ⟨at_ 3, lparen⟩, idt 3 "a", ⟨at_ 3, rparen⟩, nlt 3]]
      defines := demoWorld.defs }
    { stack := [.file 0 [nlt 3]]
      defines := demoWorld.defs
      lastLoc := at_ 3
      errs := [.wrongArgCount] } :=
  PP.wrong_arguments_reported demoEnv3
    { stack := [.file 0 [idt 3 "F", ⟨at_ 3, lparen⟩, idt 3 "a", ⟨at_ 3, rparen⟩, nlt 3]]
      defines := demoWorld.defs } 0 (at_ 3) (at_ 3) (at_ 3) (at_ 1) ['F'] false false
    [['x'], ['y']] [nm "x", nm "v_", tokenPaste, nm "x", hash, nm "y"] [idt 3 "a"] [[nm "a"]] [nlt 3] []
    rfl (by decide +kernel) (by decide +kernel) (by decide +kernel) (by decide) (by simp)
    (by
      intro a ha
      simp only [List.mem_cons, List.not_mem_nil, or_false] at ha
      rcases ha with rfl
      exact .tok (by decide +kernel) (by decide +kernel) (by decide +kernel) .nil)
    (by decide +kernel) (by
      intro bnd hb
      generalize hv : false = v at hb
      generalize hps : [['x'], ['y']] = ps at hb
      generalize hz : [[nm "a"]] = z at hb
      cases hb with
      | fixed h => rw [← hps, ← hz] at h; simp at h
      | rest => cases hv
      | missing => cases hv) rfl rfl rfl

/-! ### What the preprocessor of C does differently -/

/-- `F A` with `#define A 1`: after a name of a function-like macro that is not called, the next token is
delivered without being expanded -/
theorem uncalled_macro_hides_next :
    (((PP.init demoEnv3 ⟨[(['A'], [(at_ 1, .constant [.int 1])]), (['F'], [(at_ 1, demoFDef)])]⟩
      [idt 2 "F", idt 2 "A", idt 2 "A"]).run demoEnv3 100).toOption.map fun r => r.1.map LTok.tok) =
    some [nm "F", nm "A", .int 1] := by decide +kernel

/-- `x e##y` with an empty argument `e`: the empty argument leaves no trace, so that `y` is pasted to
the token before it -/
theorem empty_argument_pastes_neighbours :
    PP.paste demoEnv3 [['e']] [[]] [nm "x", nm "e", tokenPaste, nm "y"] [] = some [nm "xy"] := by
  decide +kernel

/-- numbers are not pasted to each other, nor a number written in the body to a name -/
theorem numbers_not_pasted :
    PP.paste demoEnv3 [['e']] [[]] [.int 1, tokenPaste, .int 2] [] = some [.int 1, .int 2] ∧
    PP.paste demoEnv3 [['e']] [[]] [nm "x", tokenPaste, .int 2] [] = some [nm "x", .int 2] ∧
    PP.paste demoEnv3 [['e']] [[.int 2]] [nm "x", tokenPaste, nm "e"] [] = some [nm "x2"] := by
  decide +kernel

end Verif.Preproc
