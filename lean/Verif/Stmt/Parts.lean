import Verif.Stmt.Fuel
import Verif.Decl.Parts

/-!
# The parts of statements are read as they are written
-/

namespace Verif.Stmt

open Verif.Objtree (Ident)
open Verif.Decl (Tok kw VarTy InTy Init PathW ExprW AsW SpecW flagsOf flagWords withList sufInit sufToks initToks SufOk
  treePath varSuffix inputSpec inputType Ends NotSep)

variable {A B E : Type}

/-! ## Results -/

@[simp] theorem R.pre_nil (r : R A) : r.pre [] = r := by cases r <;> rfl

@[simp] theorem R.pre_pre (r : R A) (a b : List Diag) : (r.pre b).pre a = r.pre (a ++ b) := by
  cases r <;> simp [R.pre]

@[simp] theorem R.pre_ok (a : A) (ts : List Tok) (x y : List Diag) : (R.ok a ts y).pre x = .ok a ts (x ++ y) := rfl

@[simp] theorem R.need_ok (a : A) (ts : List Tok) (ds : List Diag) (k : A → List Tok → R B) :
    (R.ok a ts ds).need k = (k a ts).pre ds := rfl

@[simp] theorem R.lead_ok (a : A) (ts : List Tok) (ds : List Diag) (k : A → List Tok → R B) :
    (R.ok a ts ds).lead k = (k a ts).pre ds := rfl

@[simp] theorem R.maybe_ok (a : A) (ts ts' : List Tok) (ds : List Diag) (k : Option A → List Tok → R B) :
    (R.ok a ts ds).maybe ts' k = (k (some a) ts).pre ds := rfl

@[simp] theorem R.maybe_nothing (ts' : List Tok) (k : Option A → List Tok → R B) :
    (R.nothing : R A).maybe ts' k = k none ts' := rfl

@[simp] theorem R.lead_nothing (k : A → List Tok → R B) : (R.nothing : R A).lead k = .nothing := rfl

@[simp] theorem exact_self (t : Tok) (r : List Tok) : exact t (t :: r) = .ok () r [] := by simp [exact]

theorem exact_ne {t : Tok} {ts : List Tok} (h : ts.head? ≠ some t) : exact t ts = .nothing := by
  cases ts with
  | nil => rfl
  | cons t' r =>
    rw [exact, if_neg]
    intro he
    exact h (by simp [he])

theorem exact_other {t t' : Tok} (r : List Tok) (h : t' ≠ t) : exact t (t' :: r) = .nothing := by
  rw [exact, if_neg h]

@[simp] theorem word_self (s : String) (r : List Tok) : word s (.ident (kw s) :: r) = .ok () r [] := exact_self _ _

theorem word_ne {s : String} {ts : List Tok} (h : ts.head? ≠ some (.ident (kw s))) : word s ts = .nothing := exact_ne h

@[simp] theorem ident_ident (s : Ident) (r : List Tok) : ident (.ident s :: r) = .ok s r [] := rfl

theorem ex_reads {X : ExprP E} {e : ExprW E} {rest : List Tok} (h : Reads X e rest) :
    X.ex (e.toks ++ rest) = .ok e.val rest [] := by
  unfold ExprP.ex
  rw [show X.expr (e.toks ++ rest) = _ from h]

theorem ex_none {X : ExprP E} {rest : List Tok} (h : X.expr rest = some none) : X.ex rest = .nothing := by
  unfold ExprP.ex
  rw [h]

theorem ex_stop (X : ExprP E) (t : Tok) (rest : List Tok) (h : t ∈ [Tok.semi, .comma, .rparen, .rbracket, .rbrace]) :
    X.ex (t :: rest) = .nothing := ex_none (X.expr_stop _ _ h)

/-- an expression that may be missing -/
theorem ex_opt {X : ExprP E} {e : Option (ExprW E)} {rest : List Tok} (h : OptReads X e rest)
    (k : Option E → List Tok → R B) :
    (X.ex (optToks e ++ rest)).maybe (optToks e ++ rest) k = k (e.map ExprW.val) rest := by
  cases e with
  | none =>
    have h : X.expr rest = some none := h
    simp only [optToks, List.nil_append, ex_none h, R.maybe_nothing, Option.map_none]
  | some e =>
    have h : Reads X e rest := h
    simp only [optToks, ex_reads h, R.maybe_ok, R.pre_nil, Option.map_some]

theorem reads_ne_nil {X : ExprP E} {e : ExprW E} {rest : List Tok} (h : Reads X e rest) : e.toks ≠ [] := by
  intro he
  have := X.expr_takes _ _ _ h
  rw [he] at this
  simp at this

@[simp] theorem terminator_semi (r : List Tok) : terminator (.semi :: r) = .ok () r [] := rfl

theorem terminator_end {ended : Bool} {rest : List Tok} (h : EndOk ended rest) :
    terminator (endToks ended ++ rest) = .ok () rest [] := by
  cases ended with
  | true => rfl
  | false =>
    have := h rfl
    simp only [endToks, Bool.false_eq_true, if_false, List.nil_append]
    unfold AtEnd at this
    split at this
    · rfl
    · exact this.elim

/-- what follows a statement that is ended -/
theorem end_ends {ended : Bool} {rest : List Tok} (h : EndOk ended rest) : Ends (endToks ended ++ rest) := by
  cases ended with
  | true => exact trivial
  | false =>
    have := h rfl
    unfold AtEnd at this
    split at this
    · exact trivial
    · exact this.elim

/-! ## Simple statements -/

theorem flags_warns (v : VarW E) (rest : List Diag) :
    flagDiags { flags := flagsOf v.flags, path := v.path.dirs.dropWhile fun w => decide (w ∈ flagWords) } ++
      ((if v.spec.as_.val.isSome ∨ v.spec.in_.isSome then [.asLocalVar] else []) ++ rest) = v.warns ++ rest := by
  unfold flagDiags VarW.warns flagsOf
  simp only [List.append_assoc, decide_eq_true_eq]

/-- what may follow a variable -/
def VarEnds (inFor : Bool) (v : VarW E) (rest : List Tok) : Prop :=
  if inFor then v.spec = {} ∧ ForEnds rest else Ends rest

theorem spec_head {inFor : Bool} {v : VarW E} {rest : List Tok} (h : VarEnds inFor v rest) :
    ∀ t, (v.spec.toks ++ rest).head? = some t → t ≠ .lbracket ∧ t ≠ .assign ∧ Decl.sep t = none := by
  intro t ht
  cases inFor with
  | true =>
    obtain ⟨hv, hr⟩ := h
    rw [hv] at ht
    simp only [SpecW.toks, AsW.toks, List.nil_append] at ht
    unfold ForEnds at hr
    split at hr <;> first | (exact hr.elim) | (simp only [List.head?_cons, Option.some.injEq] at ht; subst ht; simp [Decl.sep])
  | false =>
    have hr : Ends rest := h
    rcases SpecW.head hr t ht with ⟨h, -⟩ | h | h | h | h | h <;> subst h <;> simp [Decl.sep]

theorem varOne_toks {X : ExprP E} (v : VarW E) (inFor : Bool) (rest : List Tok) (h : v.Ok X rest)
    (hr : VarEnds inFor v rest) : varOne X inFor (v.toks ++ rest) = .ok v.val rest v.warns := by
  have hh := spec_head hr
  obtain ⟨path, suf, init, spec⟩ := v
  obtain ⟨ht, hs, hi, hp⟩ := h
  simp only at ht hs hi hp hr hh
  have hpar : path.parsed = path.dirs ++ [path.last] := by
    unfold PathW.parsed PathW.names
    simp [ht]
  have hb : (initToks init ++ (spec.toks ++ rest)).head? ≠ some .lbracket := by
    cases init with
    | none => intro h; exact (hh _ h).1 rfl
    | some e => simp [initToks]
  have hsep : NotSep (sufToks suf ++ (initToks init ++ (spec.toks ++ rest))) := by
    intro t ht
    cases suf with
    | nil =>
      cases init with
      | none => exact (hh _ ht).2.2
      | some e => simp [sufToks, initToks] at ht; subst ht; rfl
    | cons a suf => simp [sufToks] at ht; subst ht; rfl
  have hval : varValue X (suf.map (Option.map ExprW.val)) (initToks init ++ (spec.toks ++ rest))
      = .ok (VarW.val ⟨path, suf, init, spec⟩).value (spec.toks ++ rest) [] := by
    unfold varValue VarW.val
    cases init with
    | none =>
      rw [exact_ne (by intro h; exact (hh _ h).2.1 rfl)]
      simp [initToks, Decl.initializer_eq]
    | some e =>
      have := hi e (by simp)
      simp [initToks, ex_reads this]
  have hspec : varSpec X inFor (spec.toks ++ rest)
      = .ok () rest (if spec.as_.val.isSome ∨ spec.in_.isSome then [.asLocalVar] else []) := by
    unfold varSpec
    cases inFor with
    | true =>
      obtain ⟨hv, -⟩ := hr
      simp only at hv
      subst hv
      simp [SpecW.toks, AsW.toks, AsW.val]
    | false =>
      rw [if_neg (by simp), Decl.inputSpec_toks spec hp rest hr]
      simp
  have hfl := flags_warns ⟨path, suf, init, spec⟩ []
  simp only [List.append_nil] at hfl
  unfold varOne
  simp only [VarW.toks, List.append_assoc]
  rw [Decl.treePath_toks path _ hsep (by simp [ht]), Option.map_some, hpar]
  simp only [part, R.need_ok, List.map_nil, R.pre_nil, List.getLast?_append, List.getLast?_singleton, Option.some_or,
    List.dropLast_concat]
  rw [Decl.varSuffix_toks suf hs _ hb, Option.map_some]
  simp only [R.need_ok, hval, hspec, List.map_nil, R.pre_nil, R.pre_ok, List.append_nil, Decl.suffix_eq]
  rw [← hfl, Decl.ofPath_eq]
  simp [VarW.val, VarW.flags]

theorem VarsOk.tail {X : ExprP E} {rest : List Tok} {v : VarW E} {vs : List (VarW E)} (h : VarsOk X rest (v :: vs)) :
    VarsOk X rest vs := h.2

theorem moreVars_ends (vs : List (VarW E)) {rest : List Tok} (h : Ends rest) : Ends (moreVars vs ++ rest) := by
  cases vs <;> exact (by first | exact h | exact trivial)

theorem varLoop_toks {X : ExprP E} (vs : List (VarW E)) : ∀ (v : VarW E) (f : Nat) (rest : List Tok), vs.length < f →
    VarsOk X rest (v :: vs) → Ends rest → rest.head? ≠ some .comma →
    varLoop X false f (v.toks ++ (moreVars vs ++ rest))
      = .ok (v.val :: vs.map VarW.val) rest ((v :: vs).flatMap VarW.warns) := by
  induction vs with
  | nil =>
    intro v f rest hf h hr hc
    obtain ⟨f, rfl⟩ : ∃ g, f = g + 1 := ⟨f - 1, by omega⟩
    rw [varLoop, varOne_toks v false _ h.1 (moreVars_ends _ hr)]
    simp [moreVars, exact_ne hc]
  | cons w vs ih =>
    intro v f rest hf h hr hc
    obtain ⟨f, rfl⟩ : ∃ g, f = g + 1 := ⟨f - 1, by omega⟩
    rw [varLoop, varOne_toks v false _ h.1 (moreVars_ends (w :: vs) hr)]
    simp only [R.need_ok, moreVars, List.cons_append, List.append_assoc, Bool.false_eq_true, if_false, exact_self,
      R.maybe_ok, R.pre_nil]
    rw [ih w f rest (by simpa using hf) h.tail hr hc]
    simp

theorem varLoop_for {X : ExprP E} (v : VarW E) (f : Nat) (rest : List Tok) (hf : 0 < f) (h : v.Ok X rest)
    (hs : v.spec = {}) (hr : ForEnds rest) : varLoop X true f (v.toks ++ rest) = .ok [v.val] rest v.warns := by
  obtain ⟨f, rfl⟩ : ∃ g, f = g + 1 := ⟨f - 1, by omega⟩
  rw [varLoop, varOne_toks v true _ h ⟨hs, hr⟩]
  simp

theorem starts_cons {ts : List Tok} (h : Starts ts) : ∃ t r, ts = t :: r ∧ t ≠ .lbrace ∧ t ≠ .rbrace ∧ t ≠ .semi ∧
    ∀ s, t = .ident s → s ∉ words := by
  unfold Starts at h
  split at h
  · exact h.elim
  · exact ⟨_, _, rfl, by simp, by simp, by simp, by simpa using h⟩
  · exact h.elim
  · exact h.elim
  · exact h.elim
  · rename_i t r h1 h2 h3 h4
    exact ⟨_, _, rfl, h2, h3, h4,
      fun s hs => absurd hs (h1 s)⟩

theorem SKw.of_none {s : Ident} (h : s ∉ words) : SKw.of s = none := by
  unfold words at h
  simp only [List.map_cons, List.map_nil, List.mem_cons, List.not_mem_nil, or_false, not_or] at h
  unfold SKw.of
  simp only [h, if_false]

theorem Kw.of_none {s : Ident} (h : s ∉ words) : Kw.of s = none := by
  unfold words at h
  simp only [List.map_cons, List.map_nil, List.mem_cons, List.not_mem_nil, or_false, not_or] at h
  unfold Kw.of
  simp only [h, if_false]

theorem SKw.first_none {ts : List Tok} (h : Starts ts) (rest : List Tok) : SKw.first (ts ++ rest) = none := by
  obtain ⟨t, r, rfl, -, -, -, hs⟩ := starts_cons h
  rw [List.cons_append]
  unfold SKw.first
  split
  · rename_i s r' he
    rw [SKw.of_none (hs s (by cases he; rfl))]
    rfl
  · rfl

theorem Kw.first_none {ts : List Tok} (h : Starts ts) (rest : List Tok) : Kw.first (ts ++ rest) = none := by
  obtain ⟨t, r, rfl, -, -, -, hs⟩ := starts_cons h
  rw [List.cons_append]
  unfold Kw.first
  split
  · rename_i s r' he
    rw [Kw.of_none (hs s (by cases he; rfl))]
    rfl
  · rfl

@[simp] theorem SKw.first_var (r : List Tok) : SKw.first (.ident (kw "var") :: r) = some (.var, r) := by
  have : SKw.of (kw "var") = some .var := by decide +kernel
  simp [SKw.first, this]

@[simp] theorem SKw.first_ret (r : List Tok) : SKw.first (.ident (kw "return") :: r) = some (.ret, r) := by
  have : SKw.of (kw "return") = some .ret := by decide +kernel
  simp [SKw.first, this]

@[simp] theorem SKw.first_crash (r : List Tok) : SKw.first (.ident (kw "CRASH") :: r) = some (.crash, r) := by
  have : SKw.of (kw "CRASH") = some .crash := by decide +kernel
  simp [SKw.first, this]

@[simp] theorem SKw.first_throw (r : List Tok) : SKw.first (.ident (kw "throw") :: r) = some (.throw_, r) := by
  have : SKw.of (kw "throw") = some .throw_ := by decide +kernel
  simp [SKw.first, this]

@[simp] theorem SKw.first_goto (r : List Tok) : SKw.first (.ident (kw "goto") :: r) = some (.goto, r) := by
  have : SKw.of (kw "goto") = some .goto := by decide +kernel
  simp [SKw.first, this]

theorem moreVars_length (v : VarW E) (vs : List (VarW E)) (rest : List Tok) :
    vs.length < (v.toks ++ (moreVars vs ++ rest)).length + 1 := by
  have : vs.length ≤ (moreVars vs).length := by
    induction vs with
    | nil => simp
    | cons w vs ih => simp [moreVars]; omega
  simp
  omega

/-- what may follow a simple statement -/
def SimpleEnds (inFor : Bool) (s : SimpleW E) (rest : List Tok) : Prop :=
  match s with
  | .vars _ _ => if inFor then s.InFor ∧ ForEnds rest else Ends rest ∧ rest.head? ≠ some .comma
  | _ => True

theorem simple_toks {X : ExprP E} (s : SimpleW E) (inFor : Bool) (rest : List Tok) (h : s.Ok X rest)
    (hr : SimpleEnds inFor s rest) : simple X inFor (s.toks ++ rest) = .ok s.val rest s.warns := by
  unfold simple
  cases s with
  | expr e =>
    obtain ⟨h1, h2⟩ := h
    simp only [SimpleW.toks, SKw.first_none h1 rest, ex_reads h2, R.lead_ok, R.pre_nil]
    rfl
  | ret e =>
    have h : OptReads X e rest := h
    simp only [SimpleW.toks, List.cons_append, SKw.first_ret, ex_opt h]
    rfl
  | throw_ e =>
    have h : Reads X e rest := h
    simp only [SimpleW.toks, List.cons_append, SKw.first_throw, ex_reads h, R.need_ok, R.pre_nil]
    rfl
  | crash e =>
    have h : OptReads X e (.rparen :: rest) := h
    simp only [SimpleW.toks, List.cons_append, List.append_assoc, List.nil_append, SKw.first_crash, exact_self,
      R.need_ok, R.pre_nil, ex_opt h]
    rfl
  | goto l =>
    simp only [SimpleW.toks, List.cons_append, List.nil_append, SKw.first_goto, ident_ident, R.need_ok, R.pre_nil]
    rfl
  | vars v vs =>
    simp only [SimpleW.toks, List.cons_append, List.append_assoc, SKw.first_var]
    cases inFor with
    | true =>
      obtain ⟨⟨rfl, hs⟩, hr⟩ := hr
      have h : v.Ok X rest := h.1
      simp only [moreVars, List.nil_append]
      rw [varLoop_for v _ rest (by omega) h hs hr]
      simp [SimpleW.val, SimpleW.warns]
    | false =>
      obtain ⟨hr, hc⟩ := hr
      rw [varLoop_toks vs v _ rest (moreVars_length _ _ _) h hr hc]
      cases vs <;> simp [SimpleW.val, SimpleW.warns]

/-- there is no statement before a token that does not start one -/
theorem simple_none (X : ExprP E) (inFor : Bool) (t : Tok) (rest : List Tok)
    (h : t ∈ [Tok.semi, .comma, .rparen, .rbracket, .rbrace]) : simple X inFor (t :: rest) = .nothing := by
  have hk : SKw.first (t :: rest) = none := by
    unfold SKw.first
    split
    · rename_i he; cases he; simp at h
    · rfl
  unfold simple
  simp only [hk, ex_stop X t rest h, R.lead_nothing]

/-! ## Loops -/

theorem init_toks {X : ExprP E} {B : Type} (i : Option (SimpleW E)) (t : Tok) (rest : List Tok)
    (ht : t = .semi ∨ t = .comma) (h : InitOk X i (t :: rest)) (k : Option (Simple E) → List Tok → R B) :
    (simple X true (optSimple i ++ t :: rest)).maybe (optSimple i ++ t :: rest) k
      = (k (i.map SimpleW.val) (t :: rest)).pre (i.elim [] SimpleW.warns) := by
  cases i with
  | none =>
    simp only [optSimple, List.nil_append]
    rw [simple_none X true t rest (by rcases ht with rfl | rfl <;> simp)]
    simp
  | some s =>
    obtain ⟨h1, h2⟩ := h s (by simp)
    simp only [optSimple]
    rw [simple_toks s true _ h1 (by
      cases s with
      | vars v vs => exact ⟨h2, by rcases ht with rfl | rfl <;> exact trivial⟩
      | _ => exact trivial)]
    simp

theorem inc_toks {X : ExprP E} {B : Type} (i : Option (SimpleW E)) (rest : List Tok)
    (h : ∀ s ∈ i, s.Ok X (.rparen :: rest)) (k : Option (Simple E) → List Tok → R B) :
    (simple X false (optSimple i ++ .rparen :: rest)).maybe (optSimple i ++ .rparen :: rest) k
      = (k (i.map SimpleW.val) (.rparen :: rest)).pre (i.elim [] SimpleW.warns) := by
  cases i with
  | none =>
    simp only [optSimple, List.nil_append]
    rw [simple_none X false .rparen rest (by simp)]
    simp
  | some s =>
    simp only [optSimple]
    rw [simple_toks s false _ (h s (by simp)) (by
      cases s with
      | vars v vs => exact ⟨trivial, by simp⟩
      | _ => exact trivial)]
    simp

/-- the variable of a loop as the first part of the head -/
def LoopVar.first : LoopVar E → Simple E
  | .var v => .var v.val
  | .name _ e => .expr e.val

theorem loopVar_toks {X : ExprP E} (v : LoopVar E) (rest : List Tok) (h : v.Ok X rest) (hr : ForEnds rest) :
    simple X true (v.toks ++ rest) = .ok v.first rest v.warns := by
  cases v with
  | var v =>
    obtain ⟨h1, h2, h3⟩ := h
    have := simple_toks (X := X) (.vars v []) true rest ⟨by simpa [moreVars] using h1, trivial⟩ ⟨⟨rfl, h2⟩, hr⟩
    simpa [SimpleW.toks, moreVars, LoopVar.toks, LoopVar.first, LoopVar.warns, SimpleW.val, SimpleW.warns] using this
  | name n e =>
    obtain ⟨h1, h2, h3⟩ := h
    exact simple_toks (X := X) (.expr e) true rest ⟨h1, h2⟩ trivial

theorem inTy_as (a : AsW) (ha : a.Ok) (rest : List Tok) (h : rest.head? ≠ some .bitOr)
    (hn : rest.head? ≠ some (.ident (kw "as"))) {B : Type} (k : Option InTy → List Tok → R B) :
    ((word "as" (a.toks ++ rest)).maybe (a.toks ++ rest) fun c ts =>
      match c with
      | some () => (inTy ts).need fun t ts => k (some t) ts
      | none => k none ts) = k a.val rest := by
  cases a with
  | none => simp [AsW.toks, word_ne hn, AsW.val]
  | parens => simp [AsW.toks, AsW.val, inTy, inputType]
  | names first ns =>
    simp only [AsW.toks, List.cons_append, word_self, R.maybe_ok, R.pre_nil, AsW.val]
    rw [inTy, Decl.inputType_names first ns ha rest h]
    simp

theorem forRange_toks {X : ExprP E} (ty : Option VarTy) (name : Ident) (start : Init E) (stop : E)
    (step : Option (ExprW E)) (rest : List Tok) (h : StepOk X step (.rparen :: rest)) :
    forRange X ty name start stop (stepToks step ++ .rparen :: rest)
      = .ok (.range ty name start stop (step.map ExprW.val)) rest [] := by
  unfold forRange
  cases step with
  | none => simp [stepToks, word_ne (s := "step") (ts := .rparen :: rest) (by simp)]
  | some e => simp [stepToks, ex_reads (h e (by simp))]

theorem kw_to : kw "to" ≠ kw "as" := by decide +kernel

theorem kw_step : kw "step" ≠ kw "as" := by decide +kernel

theorem kw_step_to : kw "step" ≠ kw "to" := by decide +kernel

/-- the head of a `for` after its first part -/
theorem forHead_first {X : ExprP E} {ts r : List Tok} {init : Simple E} {ds : List Diag} (a : AsW) (ha : a.Ok)
    (h : simple X true ts = .ok init (a.toks ++ r) ds) (hb : r.head? ≠ some .bitOr)
    (hn : r.head? ≠ some (.ident (kw "as"))) :
    forHead X (.lparen :: ts) = (forRest X (some init) a.val r).pre ds := by
  unfold forHead
  simp only [exact_self, R.need_ok, R.pre_nil, h, R.maybe_ok]
  exact congrArg (R.pre ds) (inTy_as a ha r hb hn fun t ts => forRest X (some init) t ts)

theorem forHead_expr {X : ExprP E} {e : ExprW E} {r : List Tok} (h1 : Starts e.toks) (h2 : Reads X e r)
    (hb : r.head? ≠ some .bitOr) (hn : r.head? ≠ some (.ident (kw "as"))) :
    forHead X (.lparen :: (e.toks ++ r)) = forRest X (some (.expr e.val)) none r := by
  have := forHead_first (X := X) (ts := e.toks ++ r) .none trivial
    (simple_toks (.expr e) true r ⟨h1, h2⟩ trivial) hb hn
  rw [this]
  simp [SimpleW.warns, SimpleW.val, AsW.val]

theorem forHead_init {X : ExprP E} (i : Option (SimpleW E)) (t : Tok) (rest : List Tok)
    (ht : t = .semi ∨ t = .comma) (h : InitOk X i (t :: rest)) :
    forHead X (.lparen :: (optSimple i ++ t :: rest))
      = (forRest X (i.map SimpleW.val) none (t :: rest)).pre (i.elim [] SimpleW.warns) := by
  unfold forHead
  simp only [exact_self, R.need_ok, R.pre_nil]
  rw [init_toks i t rest ht h]
  rw [word_ne (by rcases ht with rfl | rfl <;> simp)]
  simp

theorem forRest_semi (X : ExprP E) (i : Option (Simple E)) (k : Option InTy) (r : List Tok) :
    forRest X i k (.semi :: r) = forSemi X i r := by
  simp [forRest]

theorem forRest_comma (X : ExprP E) (i : Option (Simple E)) (k : Option InTy) (r : List Tok) :
    forRest X i k (.comma :: r) = forComma X i k r := by
  simp [forRest, exact_other]

theorem forRest_one (X : ExprP E) (i : Simple E) (k : Option InTy) (r : List Tok) (h1 : r.head? ≠ some .semi)
    (h2 : r.head? ≠ some .comma) : forRest X (some i) k r = forOne X i r := by
  simp [forRest, exact_ne h1, exact_ne h2]

theorem forTwo_trail {X : ExprP E} (i : Option (Simple E)) (k : Option InTy) (test : Option (ExprW E)) (trail : Bool)
    (rest : List Tok) (h : OptReads X test ((if trail then [.comma] else []) ++ .rparen :: rest)) :
    forComma X i k (optToks test ++ ((if trail then [.comma] else []) ++ .rparen :: rest))
      = forTwo X i k (test.map ExprW.val) (.rparen :: rest) := by
  unfold forComma
  rw [ex_opt h]
  cases trail with
  | false => simp [exact_other]
  | true =>
    simp only [if_true, List.cons_append, List.nil_append, exact_self, R.maybe_ok, R.pre_nil]
    rw [simple_none X false .rparen rest (by simp)]
    simp

theorem forList_toks {X : ExprP E} (ty : Option VarTy) (name : Ident) (in_ : Option (ExprW E)) (rest : List Tok)
    (h : ∀ e ∈ in_, Reads X e (.rparen :: rest)) :
    forList X ty name ((match in_ with | none => [] | some e => .in_ :: e.toks) ++ .rparen :: rest)
      = .ok (.list ty name none (in_.map ExprW.val)) rest [] := by
  unfold forList
  cases in_ with
  | none => simp [word, exact_other]
  | some e => simp [word, exact_other, ex_reads (h e (by simp))]

theorem forList_range {X : ExprP E} (ty : Option VarTy) (name : Ident) (start stop : ExprW E) (step : Option (ExprW E))
    (rest : List Tok) (h1 : Reads X start (.ident (kw "to") :: stop.toks ++ stepToks step ++ .rparen :: rest))
    (h2 : Reads X stop (stepToks step ++ .rparen :: rest)) (h3 : StepOk X step (.rparen :: rest)) :
    forList X ty name (.in_ :: start.toks ++ (.ident (kw "to") :: stop.toks ++ stepToks step ++ .rparen :: rest))
      = .ok (.range ty name (.expr start.val) stop.val (step.map ExprW.val)) rest [] := by
  unfold forList
  simp only [List.cons_append, List.append_assoc] at h1 ⊢
  rw [word_ne (by simp)]
  simp only [R.maybe_nothing, exact_self, R.maybe_ok, R.pre_nil, ex_reads h1, R.need_ok, word_self, ex_reads h2,
    forRange_toks _ _ _ _ _ _ h3]

theorem forOne_var {X : ExprP E} (v : LoopVar E) {ts rest : List Tok} (h : v.Ok X rest) :
    forOne X v.first ts = forList X v.ty v.ident ts := by
  cases v with
  | var v =>
    obtain ⟨-, -, h⟩ := h
    simp only [LoopVar.first, forOne, h]
    rfl
  | name n e =>
    obtain ⟨-, -, h⟩ := h
    simp only [LoopVar.first, forOne, X.ident_assign _ _ h, X.ident_in _ _ h, h]
    rfl

theorem keyOf_var {X : ExprP E} (v : LoopVar E) {rest : List Tok} (h : v.Ok X rest) :
    keyOf X (some v.first) = some (v.ty, v.ident) := by
  cases v with
  | var v =>
    obtain ⟨-, -, h⟩ := h
    simp only [LoopVar.first, keyOf, h]
    rfl
  | name n e =>
    obtain ⟨-, -, h⟩ := h
    simp only [LoopVar.first, keyOf, h]
    rfl

theorem as_forEnds (a : AsW) {r : List Tok} (h : ForEnds r) : ForEnds (a.toks ++ r) := by
  cases a with
  | none => exact h
  | _ => exact trivial

theorem forHead_toks {X : ExprP E} (h : ForW E) (rest : List Tok) (hk : h.Ok X rest) :
    forHead X (.lparen :: (h.toks ++ .rparen :: rest)) = .ok h.val rest h.warns := by
  cases h with
  | infinite =>
    have := simple_none X true .rparen rest (by simp)
    simp [ForW.toks, forHead, this, word, exact_other, forRest, ForW.val, ForW.warns]
  | semi init test inc =>
    cases inc with
    | none =>
      obtain ⟨h1, h2⟩ := hk
      simp only [ForW.toks, List.append_assoc, List.cons_append, List.nil_append] at h1 h2 ⊢
      rw [forHead_init init .semi _ (.inl rfl) h1, forRest_semi, forSemi, ex_opt h2]
      simp [exact_other, ForW.val, ForW.warns]
    | some inc =>
      obtain ⟨h1, h2, h3⟩ := hk
      simp only [ForW.toks, List.append_assoc, List.cons_append, List.nil_append] at h1 h2 ⊢
      rw [forHead_init init .semi _ (.inl rfl) h1, forRest_semi, forSemi, ex_opt h2]
      simp only [exact_self, R.maybe_ok, R.pre_nil]
      rw [inc_toks inc rest h3]
      simp [ForW.val, ForW.warns]
  | comma init test inc =>
    obtain ⟨h1, h2, h3⟩ := hk
    simp only [ForW.toks, List.append_assoc, List.cons_append, List.nil_append] at h1 h2 ⊢
    rw [forHead_init init .comma _ (.inr rfl) h1, forRest_comma, forComma, ex_opt h2]
    simp only [exact_self, R.maybe_ok, R.pre_nil]
    have := inc_toks (X := X) (B := ForHead E) (some inc) rest (by simpa using h3)
    simp only [optSimple] at this
    rw [this]
    simp [ForW.val, ForW.warns]
  | two init test trail =>
    obtain ⟨h1, h2, h3⟩ := hk
    simp only [ForW.toks, List.append_assoc, List.cons_append, List.nil_append] at h1 h2 ⊢
    rw [forHead_init init .comma _ (.inr rfl) h1, forRest_comma, forTwo_trail _ _ _ _ _ h2, forTwo]
    have : (test.map ExprW.val).bind X.asIn = none := by
      cases test with
      | none => rfl
      | some e => exact h3 e (by simp)
    rw [this]
    simp [ForW.val, ForW.warns]
  | keyValue key as_ e value l trail =>
    obtain ⟨h1, h2, h3, v, h4, h5⟩ := hk
    simp only [ForW.toks, List.append_assoc, List.cons_append, List.nil_append] at h1 h3 ⊢
    rw [forHead_first as_ h2 (loopVar_toks key _ h1 (as_forEnds _ trivial)) (by simp) (by simp), forRest_comma]
    have := forTwo_trail (X := X) (some key.first) as_.val (some e) trail rest h3
    simp only [optToks] at this
    rw [this, forTwo]
    simp only [Option.map_some, Option.bind_some, h4, keyOf_var key h1, h5]
    simp [ForW.val, ForW.warns]
  | list v as_ in_ =>
    cases in_ with
    | none =>
      obtain ⟨h1, h2⟩ := hk
      simp only [ForW.toks, List.append_assoc, List.cons_append, List.nil_append] at h1 ⊢
      rw [forHead_first as_ h2 (loopVar_toks v _ h1 (as_forEnds _ trivial)) (by simp) (by simp),
        forRest_one _ _ _ _ (by simp) (by simp), forOne_var v h1]
      have := forList_toks (X := X) v.ty v.ident none rest (by simp)
      simp only [List.nil_append] at this
      rw [this]
      simp [ForW.val, ForW.warns]
    | some e =>
      obtain ⟨h1, h2, h3⟩ := hk
      simp only [ForW.toks, List.append_assoc, List.cons_append, List.nil_append] at h1 ⊢
      rw [forHead_first as_ h2 (loopVar_toks v _ h1 (as_forEnds _ trivial)) (by simp) (by simp),
        forRest_one _ _ _ _ (by simp) (by simp), forOne_var v h1]
      have := forList_toks (X := X) v.ty v.ident (some e) rest (by simpa using h3)
      simp only [List.cons_append] at this
      rw [this]
      simp [ForW.val, ForW.warns]
  | listExpr e x l =>
    obtain ⟨h1, h2, h3, v, h4, h5⟩ := hk
    simp only [ForW.toks]
    rw [forHead_expr h1 h2 (by simp) (by simp),
      forRest_one _ _ _ _ (by simp) (by simp)]
    simp [SimpleW.val, forOne, X.in_assign _ _ h4, h4, h5, h3, ForW.val, ForW.warns, SimpleW.warns]
  | rangeVar v start stop step =>
    obtain ⟨h1, h2, h3, h4, h5⟩ := hk
    simp only [ForW.toks, List.append_assoc, List.cons_append, List.nil_append] at h1 ⊢
    have hs := simple_toks (X := X) (.vars v []) true
      (.ident (kw "to") :: (stop.toks ++ (stepToks step ++ .rparen :: rest)))
      ⟨by simpa [moreVars] using h1, trivial⟩ ⟨⟨rfl, h2⟩, trivial⟩
    simp only [SimpleW.toks, moreVars, List.append_nil, List.cons_append, List.nil_append] at hs
    rw [forHead_first .none trivial hs (by simp) (by simpa using kw_to), forRest_one _ _ _ _ (by simp) (by simp)]
    simp only [SimpleW.val, forOne, h3, word_self, R.need_ok, R.pre_nil, ex_reads h4, forRange_toks _ _ _ _ _ _ h5]
    simp [ForW.val, ForW.warns, SimpleW.warns, VarW.val]
  | rangeAssign e x start stop step =>
    obtain ⟨h1, h2, ⟨l, h3, h4⟩, h5, h6⟩ := hk
    simp only [ForW.toks, List.append_assoc, List.cons_append, List.nil_append] at h2 ⊢
    rw [forHead_expr h1 h2 (by simp) (by simpa using kw_to),
      forRest_one _ _ _ _ (by simp) (by simp)]
    simp only [SimpleW.val, forOne, h3, h4, word_self, R.need_ok, R.pre_nil, ex_reads h5, forRange_toks _ _ _ _ _ _ h6]
    simp [ForW.val, ForW.warns, SimpleW.warns]
  | rangeIn v as_ start stop step =>
    obtain ⟨h1, h2, h3, h4, h5⟩ := hk
    have hl := forList_range (X := X) v.ty v.ident start stop step rest h3 h4 h5
    simp only [ForW.toks, List.append_assoc, List.cons_append, List.nil_append] at h1 hl ⊢
    rw [forHead_first as_ h2 (loopVar_toks v _ h1 (as_forEnds _ trivial)) (by simp) (by simp),
      forRest_one _ _ _ _ (by simp) (by simp), forOne_var v h1, hl]
    simp [ForW.val, ForW.warns]
  | rangeExpr e x start stop step =>
    obtain ⟨h1, h2, ⟨l, r, h3, h4, h5⟩, h6⟩ := hk
    simp only [ForW.toks, List.append_assoc]
    rw [forHead_expr h1 h2
        (by cases step <;> simp [stepToks]) (by cases step <;> simp [stepToks]; exact kw_step),
      forRest_one _ _ _ _ (by cases step <;> simp [stepToks]) (by cases step <;> simp [stepToks])]
    simp only [SimpleW.val, forOne, X.in_assign _ _ h3, h3, h4, h5, forRange_toks _ _ _ _ _ _ h6]
    simp [ForW.val, ForW.warns, SimpleW.warns]

/-! ## Lists in parentheses -/

theorem separated_toks {A W : Type} {p : List Tok → R A} {toks : W → List Tok} {val : W → A} (ws : List W)
    (join : List W → List Tok) (h0 : join [] = []) (h1 : ∀ w, join [w] = toks w)
    (h2 : ∀ w x l, join (w :: x :: l) = toks w ++ .comma :: join (x :: l)) (rest : List Tok)
    (ok : List W → Prop)
    (ho : ∀ w l, ok (w :: l) → ok l ∧
      p (toks w ++ ((if l = [] then [] else .comma :: join l) ++ .rparen :: rest))
        = .ok (val w) ((if l = [] then [] else .comma :: join l) ++ .rparen :: rest) [])
    (hs : ∀ w l, ok (w :: l) → ∀ r, ∀ t ∈ [Tok.rparen, .comma], (toks w ++ r).head? ≠ some t) :
    ok ws → ∀ f, 2 * ws.length < f → separated p f false (join ws ++ .rparen :: rest) = .ok (ws.map val) rest [] := by
  intro hk
  induction ws with
  | nil =>
    intro f hf
    obtain ⟨f, rfl⟩ : ∃ g, f = g + 1 := ⟨f - 1, by omega⟩
    rw [separated, h0]
    simp
  | cons w l ih =>
    intro f hf
    obtain ⟨f, rfl⟩ : ∃ g, f = g + 2 := ⟨f - 2, by simp at hf; omega⟩
    obtain ⟨hl, hp⟩ := ho w l hk
    have hj : join (w :: l) = toks w ++ if l = [] then [] else .comma :: join l := by
      cases l with
      | nil => simp [h1]
      | cons x l => simp [h2]
    rw [separated, hj, List.append_assoc, exact_ne (hs w l hk _ _ (by simp))]
    simp only [R.maybe_nothing]
    rw [exact_ne (hs w l hk _ _ (by simp))]
    simp only [R.maybe_nothing, Bool.false_eq_true, if_false]
    rw [hp]
    simp only [R.need_ok, R.pre_nil]
    cases l with
    | nil =>
      rw [separated]
      simp
    | cons x l =>
      rw [separated]
      simp only [List.cons_ne_nil, if_false, List.cons_append]
      rw [exact_other _ (by simp)]
      simp only [R.maybe_nothing, exact_self, R.maybe_ok, R.pre_nil, if_true]
      rw [ih hl f (by simp at hf ⊢; omega)]
      simp

theorem reads_head {X : ExprP E} {e : ExprW E} {rest : List Tok} (h : Reads X e rest) (r : List Tok) (t : Tok)
    (ht : t ∈ [Tok.semi, .comma, .rparen, .rbracket, .rbrace]) : (e.toks ++ r).head? ≠ some t := by
  intro hh
  cases he : e.toks with
  | nil => exact reads_ne_nil h he
  | cons t' ts =>
    rw [he] at hh
    simp only [List.cons_append, List.head?_cons, Option.some.injEq] at hh
    subst hh
    have h : X.expr (e.toks ++ rest) = some (some (e.val, rest)) := h
    rw [he, List.cons_append, X.expr_stop _ _ ht] at h
    cases h

theorem case_head {X : ExprP E} {c : CaseW E} {rest : List Tok} (h : c.Ok X rest) (r : List Tok) (t : Tok)
    (ht : t ∈ [Tok.semi, .comma, .rparen, .rbracket, .rbrace]) : (c.toks ++ r).head? ≠ some t := by
  cases c with
  | exact e => exact reads_head h r t ht
  | range a b =>
    have := reads_head h.1 (.ident (kw "to") :: b.toks ++ r) t ht
    simpa [CaseW.toks] using this

theorem case_toks {X : ExprP E} (c : CaseW E) (rest : List Tok) (h : c.Ok X rest)
    (hr : rest.head? ≠ some (.ident (kw "to"))) : case X (c.toks ++ rest) = .ok c.val rest [] := by
  unfold case
  cases c with
  | exact e =>
    simp [CaseW.toks, ex_reads h, word_ne hr, CaseW.val]
  | range a b =>
    obtain ⟨h1, h2⟩ := h
    simp only [CaseW.toks, List.append_assoc, List.cons_append] at h1 ⊢
    simp [ex_reads h1, ex_reads h2, CaseW.val]

theorem casesOk_cons {X : ExprP E} {rest : List Tok} {c : CaseW E} {l : List (CaseW E)} (h : CasesOk X rest (c :: l)) :
    CasesOk X rest l ∧ c.Ok X ((if l = [] then [] else .comma :: caseToks l) ++ rest) := by
  cases l with
  | nil => exact ⟨trivial, h⟩
  | cons d l => exact ⟨h.2, by simpa using h.1⟩

theorem caseHead_toks {X : ExprP E} (cs : List (CaseW E)) (rest : List Tok) (h : CasesOk X (.rparen :: rest) cs) :
    caseHead X (.lparen :: (caseToks cs ++ .rparen :: rest))
      = .ok (cs.map CaseW.val) rest (if cs = [] then [.emptyCase] else []) := by
  have hlen : ∀ cs : List (CaseW E), CasesOk X (.rparen :: rest) cs → 2 * cs.length ≤ (caseToks cs).length + 1 := by
    intro cs
    induction cs with
    | nil => intro _; simp
    | cons c l ih =>
      intro h
      obtain ⟨h1, h2⟩ := casesOk_cons h
      have := ih h1
      have hp : 0 < c.toks.length := by
        cases c with
        | exact e => exact List.length_pos_iff.2 (reads_ne_nil h2)
        | range a b => simp [CaseW.toks]; omega
      cases l with
      | nil => simp [caseToks]; omega
      | cons d l => simp [caseToks] at this ⊢; omega
  unfold caseHead
  simp only [exact_self, R.need_ok, R.pre_nil]
  rw [separated_toks (toks := CaseW.toks) (val := CaseW.val) cs caseToks rfl (fun _ => rfl) (fun _ _ _ => rfl) rest
    (CasesOk X (.rparen :: rest))
    (fun w l hw => ⟨(casesOk_cons hw).1, case_toks w _ (casesOk_cons hw).2 (by split <;> simp)⟩)
    (fun w l hw r t ht => case_head (casesOk_cons hw).2 r t (by simp at ht ⊢; tauto)) h _
    (by have := hlen cs h; simp; omega)]
  simp

theorem catchParams_toks (ps : List PathW) (rest : List Tok) (h : ∀ p ∈ ps, p.trail = false) :
    catchParams (.lparen :: (pathsToks ps ++ .rparen :: rest)) = .ok (ps.map PathW.names) rest [] := by
  have hlen : ∀ ps : List PathW, 2 * ps.length ≤ (pathsToks ps).length + 1 := by
    intro ps
    induction ps with
    | nil => simp
    | cons p l ih =>
      have hp : 0 < p.toks.length := by simp [PathW.toks]; omega
      cases l with
      | nil => simp [pathsToks]; omega
      | cons d l => simp [pathsToks] at ih ⊢; omega
  unfold catchParams
  simp only [exact_self, R.maybe_ok, R.pre_nil]
  refine separated_toks (toks := PathW.toks) (val := PathW.names) ps pathsToks rfl (fun _ => rfl) (fun _ _ _ => rfl) rest
    (fun l => ∀ p ∈ l, p.trail = false) ?_ ?_ h _ (by have := hlen ps; simp; omega)
  · intro w l hw
    refine ⟨fun p hp => hw p (List.mem_cons_of_mem _ hp), ?_⟩
    have ht := hw w (by simp)
    unfold catchParam
    rw [Decl.treePath_toks w _ (by intro t ht; split at ht <;> simp at ht <;> subst ht <;> rfl) (by simp [ht])]
    simp [PathW.parsed, ht]
  · intro w l hw r t ht
    obtain ⟨abs, dirs, last, trail⟩ := w
    cases abs <;> cases dirs <;> simp [PathW.toks] <;> simp at ht <;> rcases ht with rfl | rfl <;> simp

theorem catchParams_none {ts : List Tok} (h : ts.head? ≠ some .lparen) : catchParams ts = .ok [] ts [] := by
  simp [catchParams, exact_ne h]

theorem paren_toks {X : ExprP E} (e : ExprW E) (rest : List Tok) (h : Reads X e (.rparen :: rest)) :
    paren X (.lparen :: (e.toks ++ .rparen :: rest)) = .ok e.val rest [] := by
  simp [paren, ex_reads h]

theorem delay_some {X : ExprP E} (d : Option (ExprW E)) (rest : List Tok) (h : OptReads X d (.rparen :: rest)) :
    delay X (.lparen :: (optToks d ++ .rparen :: rest)) = .ok (d.map ExprW.val) rest [] := by
  simp [delay, ex_opt h]

theorem delay_none {X : ExprP E} {ts : List Tok} (h : ts.head? ≠ some .lparen) : delay X ts = .ok none ts [] := by
  simp [delay, exact_ne h]

theorem skipSemis_semis (k : Nat) (ts : List Tok) (h : ts.head? ≠ some .semi) : skipSemis (semis k ++ ts) = ts := by
  induction k with
  | zero =>
    simp only [semis, List.replicate_zero, List.nil_append]
    unfold skipSemis
    split
    · exact absurd rfl h
    · rfl
  | succ k ih =>
    simp only [semis, List.replicate_succ, List.cons_append] at ih ⊢
    rw [skipSemis, ih]

end Verif.Stmt
