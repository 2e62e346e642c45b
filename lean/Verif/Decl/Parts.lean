import Verif.Decl.Fuel

/-!
# The parts of a declaration are read as they are written
-/

namespace Verif.Decl

open Verif.Objtree (Ident)

variable {E C : Type}

/-! ## Flags -/

theorem VarFlags.ext' {a b : VarFlags} (h1 : a.static = b.static) (h2 : a.const = b.const) (h3 : a.tmp = b.tmp)
    (h4 : a.final = b.final) (h5 : a.priv = b.priv) (h6 : a.prot = b.prot) : a = b := by
  cases a; cases b; simp_all

theorem flagsOf_append (a b : List Ident) : flagsOf (a ++ b) = (flagsOf a).or (flagsOf b) := by
  apply VarFlags.ext' <;> simp only [flagsOf, VarFlags.or, List.mem_append, Bool.decide_or] <;> try rfl
  · cases decide ((kw "global") ∈ a) <;> cases decide ((kw "static") ∈ a) <;>
      cases decide ((kw "global") ∈ b) <;> cases decide ((kw "static") ∈ b) <;> rfl
  · cases decide ((kw "final") ∈ a) <;> cases decide ((kw "SpacemanDMM_final") ∈ a) <;>
      cases decide ((kw "final") ∈ b) <;> cases decide ((kw "SpacemanDMM_final") ∈ b) <;> rfl

theorem flagsOf_nil : flagsOf [] = {} := by decide

theorem flagsOf_other {w : Ident} (h : w ∉ flagWords) : flagsOf [w] = {} := by
  unfold flagWords at h
  simp only [List.map_cons, List.map_nil, List.mem_cons, List.not_mem_nil, or_false, not_or] at h
  obtain ⟨h1, h2, h3, h4, h5, h6, h7, h8⟩ := h
  apply VarFlags.ext' <;> simp only [flagsOf, List.mem_singleton, decide_eq_false_iff_not] <;>
    simp only [eq_comm (b := w), h1, h2, h3, h4, h5, h6, h7, h8, or_self, not_false_eq_true]

theorem or_empty (a : VarFlags) : a.or {} = a := by cases a; simp [VarFlags.or]

theorem empty_or (a : VarFlags) : VarFlags.or {} a = a := by cases a; simp [VarFlags.or]

theorem fromName_eq (w : Ident) : VarFlags.fromName w = if w ∈ flagWords then some (flagsOf [w]) else none := by
  by_cases h : w ∈ flagWords
  · rw [if_pos h]
    unfold flagWords at h
    simp only [List.map_cons, List.map_nil, List.mem_cons, List.not_mem_nil, or_false] at h
    rcases h with h | h | h | h | h | h | h | h <;> subst h <;> decide +kernel
  · rw [if_neg h]
    unfold flagWords at h
    simp only [List.map_cons, List.map_nil, List.mem_cons, List.not_mem_nil, or_false, not_or] at h
    obtain ⟨h1, h2, h3, h4, h5, h6, h7, h8⟩ := h
    unfold VarFlags.fromName
    rw [if_neg (by simp only [h1, h2, or_self, not_false_eq_true]), if_neg h3, if_neg h4,
      if_neg (by simp only [h5, h6, or_self, not_false_eq_true]), if_neg h7, if_neg h8]

theorem ofPath_eq (ws : List Ident) : VarTy.ofPath ws =
    { flags := flagsOf (ws.takeWhile fun w => decide (w ∈ flagWords))
      path := ws.dropWhile fun w => decide (w ∈ flagWords) } := by
  induction ws with
  | nil => simp [VarTy.ofPath, flagsOf_nil]
  | cons w ws ih =>
    rw [VarTy.ofPath, fromName_eq]
    by_cases h : w ∈ flagWords
    · rw [if_pos h]
      simp only [ih, List.takeWhile_cons, List.dropWhile_cons, decide_eq_true h, if_true]
      rw [← List.singleton_append (x := w) (l := List.takeWhile _ ws), flagsOf_append]
    · rw [if_neg h]
      simp only [List.takeWhile_cons, List.dropWhile_cons, decide_eq_false h, Bool.false_eq_true, if_false]
      rw [flagsOf_nil]

/-! ## Paths -/

/-- the text does not go on with a separator of paths -/
def NotSep (ts : List Tok) : Prop := ∀ t ∈ ts.head?, sep t = none

/-- the text does not go on with a name -/
def NotIdent (ts : List Tok) : Prop := ∀ s, ts.head? ≠ some (.ident s)

theorem pathLoop_end (parts : List Ident) (ts : List Tok) (h : NotSep ts) : pathLoop parts ts = (parts, ts, []) := by
  cases ts with
  | nil => rw [pathLoop]
  | cons t rest =>
    rw [pathLoop.eq_def]
    simp only
    rw [h t (by simp)]

theorem pathLoop_ident (parts : List Ident) (i : Ident) (rest : List Tok) :
    pathLoop parts (.slash :: .ident i :: rest) = pathLoop (parts ++ [i]) rest := by
  rw [pathLoop.eq_def]
  simp [sep]

theorem pathLoop_trail (parts : List Ident) (rest : List Tok) (hi : NotIdent rest) :
    pathLoop parts (.slash :: rest) =
      pathLoop (if parts.getLast? = some (kw "operator") then parts.dropLast ++ [(kw "operator/")] else parts)
        rest := by
  rw [pathLoop.eq_def]
  simp only [sep]
  split
  · rename_i i rest'
    exact absurd rfl (hi i)
  · simp

theorem pathLoop_dirs (dirs : List Ident) : ∀ (parts : List Ident) (last : Ident) (rest : List Tok),
    pathLoop parts (.slash :: ((dirs.flatMap fun d => [.ident d, .slash]) ++ .ident last :: rest))
      = pathLoop (parts ++ dirs ++ [last]) rest := by
  induction dirs with
  | nil => intro parts last rest; simp [pathLoop_ident]
  | cons d ds ih =>
    intro parts last rest
    simp only [List.flatMap_cons, List.cons_append, List.nil_append]
    rw [pathLoop_ident, ih]
    simp

/-- the names that the parser gives to a path -/
def PathW.parsed (p : PathW) : List Ident :=
  if p.trail = true ∧ p.last = (kw "operator") then p.dirs ++ [(kw "operator/")] else p.names

theorem leadSlash_path (p : PathW) (rest : List Tok) :
    leadSlash (p.toks ++ rest) = (p.abs, false,
      (p.dirs.flatMap fun d => [.ident d, .slash]) ++ .ident p.last :: ((if p.trail then [.slash] else []) ++ rest),
      []) := by
  obtain ⟨abs, dirs, last, trail⟩ := p
  cases abs
  · cases dirs <;> simp [PathW.toks, leadSlash]
  · simp [PathW.toks, leadSlash]

theorem pathLoop_tail (p : PathW) (parts : List Ident) (hp : parts ≠ [] → parts.getLast? = some p.last)
    (hn : parts ≠ []) (rest : List Tok) (hs : NotSep rest) (hi : p.trail = true → NotIdent rest) :
    pathLoop parts ((if p.trail then [.slash] else []) ++ rest)
      = (if p.trail = true ∧ p.last = (kw "operator") then parts.dropLast ++ [(kw "operator/")] else parts,
          rest, []) := by
  cases ht : p.trail
  · simp [pathLoop_end _ _ hs]
  · simp only [if_true, List.cons_append, List.nil_append]
    rw [pathLoop_trail _ _ (hi ht), pathLoop_end _ _ hs, hp hn]
    simp

theorem treePath_toks (p : PathW) (rest : List Tok) (hs : NotSep rest) (hi : p.trail = true → NotIdent rest) :
    treePath (p.toks ++ rest) = some (p.abs, p.parsed, rest, []) := by
  unfold treePath
  rw [leadSlash_path]
  simp only
  rcases hd : p.dirs with - | ⟨d, ds⟩
  · simp only [List.flatMap_nil, List.nil_append]
    rw [pathLoop_tail p _ (by simp) (by simp) rest hs hi]
    simp [PathW.parsed, PathW.names, hd]
  · simp only [List.flatMap_cons, List.cons_append, List.nil_append]
    rw [pathLoop_dirs, pathLoop_tail p _ (fun _ => List.getLast?_concat) (by simp) rest hs hi]
    simp only [PathW.parsed, PathW.names, hd, List.dropLast_concat]
    simp

/-! ## Suffixes and clauses -/

theorem varSuffix_end (X : Parsers E C) (ts : List Tok) (h : ts.head? ≠ some .lbracket) :
    varSuffix X ts = some ([], ts) := by
  rw [varSuffix.eq_def]
  split
  · exact absurd rfl h
  · rfl

theorem varSuffix_toks {X : Parsers E C} (suf : List (Option (ExprW E))) (hk : SufOk X suf) (rest : List Tok)
    (h : rest.head? ≠ some .lbracket) :
    varSuffix X (sufToks suf ++ rest) = some (suf.map (Option.map ExprW.val), rest) := by
  induction suf with
  | nil => simpa [sufToks] using varSuffix_end X rest h
  | cons s suf ih =>
    have hk' : SufOk X suf := ⟨fun x hx => hk.1 x (List.mem_cons_of_mem _ hx), fun hx => hk.2 (List.mem_cons_of_mem _ hx)⟩
    obtain ⟨mid, e, hp⟩ : ∃ mid, sufToks (s :: suf) ++ rest = .lbracket :: mid
        ∧ suffixPart X mid = some (s.map ExprW.val, sufToks suf ++ rest) := by
      unfold suffixPart
      cases s with
      | none =>
        refine ⟨.rbracket :: (sufToks suf ++ rest), by simp [sufToks], ?_⟩
        rw [hk.2 (by simp)]; rfl
      | some x =>
        refine ⟨x.toks ++ .rbracket :: (sufToks suf ++ rest), by simp [sufToks], ?_⟩
        rw [hk.1 (some x) (by simp) x (by simp) (.rbracket :: (sufToks suf ++ rest)) trivial]; rfl
    rw [e, varSuffix.eq_def]
    simp only
    split
    · rename_i h'; rw [hp] at h'; cases h'
    · rename_i h'
      rw [hp] at h'
      cases h'
      simp [ih hk']

theorem suffix_eq (suf : List (Option (ExprW E))) (t : VarTy) :
    t.suffix (suf.map (Option.map ExprW.val)) = withList suf t := by
  cases suf <;> simp [VarTy.suffix, withList]

theorem initializer_eq (suf : List (Option (ExprW E))) :
    initializer (suf.map (Option.map ExprW.val)) = sufInit suf := by
  have : (suf.map (Option.map ExprW.val)).filterMap id = (suf.filterMap id).map ExprW.val := by
    induction suf with
    | nil => rfl
    | cons s suf ih => cases s <;> simp_all
  unfold initializer sufInit
  simp only [this]
  cases suf.filterMap id <;> simp

theorem inputName_ok {n : Ident} (h : n ∈ inputNames) : inputName n = ([n], []) := by
  rw [inputName, if_pos h]

theorem inputLoop_end (ts : List Tok) (h : ts.head? ≠ some .bitOr) : inputLoop ts = some ([], ts, []) := by
  rw [inputLoop.eq_def]
  split
  · exact absurd rfl h
  · exact absurd rfl h
  · rfl

theorem inputLoop_toks (ns : List Ident) (hn : ∀ n ∈ ns, n ∈ inputNames) (rest : List Tok)
    (h : rest.head? ≠ some .bitOr) :
    inputLoop ((ns.flatMap fun n => [.bitOr, .ident n]) ++ rest) = some (ns, rest, []) := by
  induction ns with
  | nil => exact inputLoop_end _ h
  | cons n ns ih =>
    simp only [List.flatMap_cons, List.cons_append, List.nil_append]
    rw [inputLoop, ih (fun m hm => hn m (List.mem_cons_of_mem _ hm))]
    simp [inputName_ok (hn n (by simp))]

theorem inputType_names (first : Ident) (ns : List Ident) (hn : ∀ n ∈ first :: ns, n ∈ inputNames) (rest : List Tok)
    (h : rest.head? ≠ some .bitOr) :
    inputType (.ident first :: ((ns.flatMap fun n => [.bitOr, .ident n]) ++ rest))
      = some (some (first :: ns, rest, [])) := by
  rw [inputType, inputLoop_toks ns (fun m hm => hn m (List.mem_cons_of_mem _ hm)) rest h]
  simp [inputName_ok (hn first (by simp))]

theorem asClause_toks (a : AsW) (ha : a.Ok) (rest : List Tok) (h : rest.head? ≠ some .bitOr)
    (h' : rest.head? ≠ some (.ident (kw "as"))) : asClause (a.toks ++ rest) = some (a.val, rest, []) := by
  cases a with
  | none =>
    simp only [AsW.toks, List.nil_append, AsW.val]
    unfold asClause
    split
    · rename_i s r
      rw [if_neg]
      intro hs
      exact h' (by rw [hs]; rfl)
    · rfl
  | parens => simp only [AsW.toks, List.cons_append, List.nil_append, AsW.val, asClause, if_true, inputType]
  | names first ns =>
    simp only [AsW.toks, List.cons_append, AsW.val, asClause, if_true, inputType_names first ns ha rest h]

/-- what may come after a clause -/
def Ends : List Tok → Prop
  | .semi :: _ | .rbrace :: _ | .rparen :: _ | .comma :: _ => True
  | _ => False

theorem Ends.cases {ts : List Tok} (h : Ends ts) :
    ∃ r, ts = .semi :: r ∨ ts = .rbrace :: r ∨ ts = .rparen :: r ∨ ts = .comma :: r := by
  unfold Ends at h
  split at h
  · exact ⟨_, .inl rfl⟩
  · exact ⟨_, .inr (.inl rfl)⟩
  · exact ⟨_, .inr (.inr (.inl rfl))⟩
  · exact ⟨_, .inr (.inr (.inr rfl))⟩
  · cases h

theorem Ends.stop {ts : List Tok} (h : Ends ts) : Stop ts := by
  obtain ⟨r, rfl | rfl | rfl | rfl⟩ := h.cases <;> exact trivial

theorem Ends.ne {ts : List Tok} (h : Ends ts) (t : Tok) (ht : t ≠ .semi ∧ t ≠ .rbrace ∧ t ≠ .rparen ∧ t ≠ .comma) :
    ts.head? ≠ some t := by
  obtain ⟨r, rfl | rfl | rfl | rfl⟩ := h.cases <;> simp <;> intro h <;> subst h <;> simp at ht

theorem inputSpec_none {X : Parsers E C} {ts rest : List Tok} {t : Option InTy} (ha : asClause ts = some (t, rest, []))
    (h : rest.head? ≠ some .in_) : inputSpec X ts = some (t, none, rest, []) := by
  unfold inputSpec
  rw [ha]
  split
  · rename_i h'; cases h'
  · rename_i h'; cases h'; exact absurd rfl h
  · rename_i h'; cases h'; rfl

theorem asClause_none {ts : List Tok} (h : ts.head? ≠ some (.ident (kw "as"))) :
    asClause ts = some (none, ts, []) := by
  unfold asClause
  split
  · rename_i s r
    rw [if_neg]
    intro hs
    exact h (by rw [hs]; rfl)
  · rfl

theorem inputSpec_toks {X : Parsers E C} (s : SpecW E) (hs : s.Ok X) (rest : List Tok) (hr : Ends rest) :
    inputSpec X (s.toks ++ rest) = some (s.as_.val, s.in_.map ExprW.val, rest, []) := by
  obtain ⟨a, i⟩ := s
  obtain ⟨ha, hi⟩ := hs
  cases i with
  | none =>
    simp only [SpecW.toks, List.append_nil, Option.map_none]
    exact inputSpec_none (asClause_toks a ha rest (hr.ne _ (by simp)) (hr.ne _ (by simp))) (hr.ne _ (by simp))
  | some e =>
    simp only [SpecW.toks, List.append_assoc, List.cons_append, Option.map_some]
    unfold inputSpec
    rw [asClause_toks a ha _ (by simp) (by simp)]
    simp only
    rw [hi e (by simp) rest hr.stop]
    simp only
    rw [asClause_none (hr.ne _ (by simp))]
    simp

theorem SpecW.stop {s : SpecW E} (h : s.AfterExpr) {rest : List Tok} (hr : Ends rest) : Stop (s.toks ++ rest) := by
  obtain ⟨a, i⟩ := s
  cases a with
  | none =>
    cases i with
    | none => exact hr.stop
    | some e => exact absurd (h rfl) (by simp [AsW.val])
  | parens => exact rfl
  | names _ _ => exact rfl

theorem SpecW.head {s : SpecW E} {rest : List Tok} (hr : Ends rest) (t : Tok) (ht : (s.toks ++ rest).head? = some t) :
    t = .ident (kw "as") ∧ s.as_.val.isSome = true ∨ t = .in_ ∨ t = .semi ∨ t = .rbrace ∨ t = .rparen ∨ t = .comma := by
  obtain ⟨a, i⟩ := s
  cases a with
  | none =>
    cases i with
    | none =>
      obtain ⟨r, rfl | rfl | rfl | rfl⟩ := hr.cases <;> simp [SpecW.toks, AsW.toks] at ht <;> simp [← ht]
    | some e => simp [SpecW.toks, AsW.toks] at ht; simp [← ht]
  | parens => simp [SpecW.toks, AsW.toks] at ht; simp [← ht, AsW.val]
  | names _ _ => simp [SpecW.toks, AsW.toks] at ht; simp [← ht, AsW.val]

/-! ## Procs -/

theorem paramDefault_toks {X : Parsers E C} (init : Option (ExprW E)) (hi : ∀ e ∈ init, e.Ok X) (rest : List Tok)
    (hr : init.isSome → Stop rest) (hn : init = none → rest.head? ≠ some .assign) :
    paramDefault X (initToks init ++ rest) = some (init.map ExprW.val, rest) := by
  cases init with
  | none =>
    simp only [initToks, List.nil_append, Option.map_none]
    unfold paramDefault
    split
    · exact absurd rfl (hn rfl)
    · rfl
  | some e =>
    simp only [initToks, List.cons_append, Option.map_some, paramDefault, hi e (by simp) rest (hr rfl)]

theorem paramHead_eq (path : PathW) (ht : path.trail = false) :
    paramHead path.parsed = (path.last,
      { flags := flagsOf ((paramWords path).takeWhile (fun w => decide (w ∈ flagWords)))
        path := (paramWords path).dropWhile (fun w => decide (w ∈ flagWords)) },
      (if path.dirs.head? = some (kw "var") then [.varInParam] else [])
      ++ (if (flagsOf ((paramWords path).takeWhile (fun w => decide (w ∈ flagWords)))).static then [.staticInParam]
          else [])) := by
  have e : path.parsed = path.dirs ++ [path.last] := by simp [PathW.parsed, ht, PathW.names]
  have hw : (if path.dirs.head? = some (kw "var") then path.dirs.tail else path.dirs) = paramWords path := by
    unfold paramWords
    cases path.dirs with
    | nil => rfl
    | cons d ds => simp
  unfold paramHead
  rw [e]
  simp only [List.getLast?_concat, Option.getD_some, List.dropLast_concat, hw, ofPath_eq]
  simp

theorem procParam_toks {X : Parsers E C} (p : ParamW E) (hp : p.Ok X) (rest : List Tok)
    (hr : ∃ r, rest = .comma :: r ∨ rest = .rparen :: r) :
    procParam X (p.toks ++ rest) = some (p.val, rest, p.warns) := by
  have he : Ends rest := by obtain ⟨r, rfl | rfl⟩ := hr <;> exact trivial
  cases p with
  | ellipsis => simp [ParamW.toks, procParam, ParamW.val, ParamW.warns]
  | param path suf init spec =>
    obtain ⟨ht, hs, hi, hsp, hae⟩ := hp
    have e : (ParamW.param path suf init spec).toks ++ rest
        = path.toks ++ (sufToks suf ++ (initToks init ++ (spec.toks ++ rest))) := by simp [ParamW.toks]
    have hhead : ∀ t, (initToks init ++ (spec.toks ++ rest)).head? = some t →
        t = .assign ∧ init.isSome = true ∨ t = .ident (kw "as") ∨ t = .in_ ∨ t = .comma ∨ t = .rparen := by
      intro t h
      cases init with
      | some x => simp [initToks] at h; simp [← h]
      | none =>
        rcases spec.head he t (by simpa [initToks] using h) with ⟨h, _⟩ | h | h | h | h | h
        · simp [h]
        · simp [h]
        · subst h
          exfalso
          obtain ⟨a, i⟩ := spec
          cases a <;> cases i <;> simp [initToks, SpecW.toks, AsW.toks] at h
          obtain ⟨r, rfl | rfl⟩ := hr <;> simp at h
        · subst h
          exfalso
          obtain ⟨a, i⟩ := spec
          cases a <;> cases i <;> simp [initToks, SpecW.toks, AsW.toks] at h
          obtain ⟨r, rfl | rfl⟩ := hr <;> simp at h
        · simp [h]
        · simp [h]
    have hsep : NotSep (sufToks suf ++ (initToks init ++ (spec.toks ++ rest))) := by
      intro t h
      cases suf with
      | cons s suf => simp [sufToks] at h; simp [← h, sep]
      | nil =>
        rcases hhead t (by simpa [sufToks] using h) with ⟨h, _⟩ | h | h | h | h <;> simp [h, sep]
    have hne : ∀ r, path.toks ++ r ≠ .ellipsis :: (path.toks ++ r).tail := by
      intro r h
      have : (path.toks ++ r).head? = some .ellipsis := by rw [h]; rfl
      obtain ⟨abs, dirs, last, trail⟩ := path
      cases abs <;> cases dirs <;> simp [PathW.toks] at this
    rw [e]
    unfold procParam
    split
    · rename_i h
      exact absurd (by rw [h]; rfl) (hne (sufToks suf ++ (initToks init ++ (spec.toks ++ rest))))
    · rw [treePath_toks path _ hsep (by simp [ht])]
      simp only
      rw [varSuffix_toks suf hs _ (by
        intro h
        rcases hhead _ h with ⟨h, _⟩ | h | h | h | h <;> cases h)]
      simp only
      rw [paramDefault_toks init hi _ (fun h => SpecW.stop (hae h) he) (by
        intro hn h
        subst hn
        rcases hhead _ (by simpa [initToks] using h) with ⟨_, h⟩ | h | h | h | h <;> cases h)]
      simp only
      rw [inputSpec_toks spec hsp rest he]
      have hps : paramSemi rest = (rest, []) := by
        obtain ⟨r, rfl | rfl⟩ := hr <;> rfl
      simp only [hps, paramHead_eq path ht, suffix_eq, List.nil_append, List.append_nil, ParamW.val, ParamW.warns]

theorem procParam_start (p : ParamW E) (rest : List Tok) : (∀ r, p.toks ++ rest ≠ .rparen :: r) ∧
    (∀ r, p.toks ++ rest ≠ .comma :: r) := by
  cases p with
  | ellipsis => simp [ParamW.toks]
  | param path suf init spec =>
    obtain ⟨abs, dirs, last, trail⟩ := path
    constructor <;> intro r h <;>
      cases abs <;> cases dirs <;> simp [ParamW.toks, PathW.toks] at h

theorem procParams_cons {X : Parsers E C} {ts r : List Tok} {p : Param E} {ds : List Diag}
    (h1 : ∀ r, ts ≠ .rparen :: r) (h2 : ∀ r, ts ≠ .comma :: r) (h : procParam X ts = some (p, r, ds)) :
    procParams X false ts = (procParams X true r).map fun w => (p :: w.1, w.2.1, ds ++ w.2.2) := by
  rw [procParams.eq_def]
  split
  · exact absurd rfl (h1 _)
  · exact absurd rfl (h2 _)
  · simp only [Bool.false_eq_true, if_false]
    split
    · rename_i h'; rw [h] at h'; cases h'
    · rename_i h'
      rw [h] at h'
      cases h'
      cases procParams X true r <;> rfl

theorem procParams_toks {X : Parsers E C} (ps : List (ParamW E)) (hp : ∀ p ∈ ps, p.Ok X) (rest : List Tok) :
    procParams X false (paramToks ps ++ .rparen :: rest) = some (ps.map ParamW.val, rest, ps.flatMap ParamW.warns) := by
  induction ps with
  | nil =>
    rw [paramToks, List.nil_append, procParams.eq_def]
    rfl
  | cons p ps ih =>
    have hp' : ∀ q ∈ ps, q.Ok X := fun q hq => hp q (List.mem_cons_of_mem _ hq)
    cases ps with
    | nil =>
      rw [paramToks]
      have hs := procParam_start p (.rparen :: rest)
      rw [procParams_cons hs.1 hs.2 (procParam_toks p (hp p (by simp)) _ ⟨_, .inr rfl⟩), procParams.eq_def]
      simp
    | cons q qs =>
      rw [paramToks, List.append_assoc, List.cons_append]
      have hs := procParam_start p (.comma :: (paramToks (q :: qs) ++ .rparen :: rest))
      rw [procParams_cons hs.1 hs.2 (procParam_toks p (hp p (by simp)) _ ⟨_, .inl rfl⟩), procParams.eq_def]
      simp only [if_true]
      rw [ih hp']
      simp

theorem retPath_toks (ns : List Ident) (rest : List Tok) (h : rest.head? ≠ some .slash) :
    retPath ((ns.flatMap fun n => [.slash, .ident n]) ++ rest) = some (ns, rest) := by
  induction ns with
  | nil =>
    rw [List.flatMap_nil, List.nil_append, retPath.eq_def]
    split
    · exact absurd rfl h
    · exact absurd rfl h
    · rfl
  | cons n ns ih =>
    simp only [List.flatMap_cons, List.cons_append, List.nil_append]
    rw [retPath, ih]

theorem returnType_toks (decl : Option ProcB) (ret : RetW) (hr : ret.Ok) (rest : List Tok)
    (h1 : rest.head? ≠ some .slash) (h2 : rest.head? ≠ some .bitOr) (h3 : rest.head? ≠ some (.ident (kw "as"))) :
    returnType decl (ret.toks ++ rest)
      = some (ret.val, rest, if ret.val.isSome ∧ decl = none then [.returnOnOverride] else []) := by
  cases ret with
  | none =>
    simp only [RetW.toks, RetW.val, List.nil_append]
    unfold returnType
    split
    · rename_i s r
      rw [if_neg]
      · simp
      · intro hs
        exact h3 (by rw [hs]; rfl)
    · simp
  | parens =>
    simp only [RetW.toks, RetW.val, List.cons_append, List.nil_append, returnType, if_true, inputType]
    cases decl <;> simp
  | names first ns =>
    simp only [RetW.toks, RetW.val, List.cons_append, returnType, if_true, inputType_names first ns hr rest h2]
    cases decl <;> simp
  | path first ns =>
    simp only [RetW.toks, RetW.val, List.cons_append, returnType, if_true, inputType, retPath_toks ns rest h1]
    cases decl <;> simp

theorem Pair.facts {o c : Tok} (h : Pair o c) : closer o = some c ∧ o.isBracket = true ∧ c.isBracket = true
    ∧ closer c = none ∧ o ≠ .semi ∧ o ≠ .rbrace := by
  cases h <;> simp [closer, Tok.isBracket]

theorem closer_none {t : Tok} (h : t.isBracket = false) : closer t = none := by
  cases t <;> simp_all [closer, Tok.isBracket]

theorem groupLoop_balanced {ts : List Tok} (h : Balanced ts) : ∀ (o c : Tok) (stack rest : List Tok), Pair o c →
    groupLoop (c :: stack) (ts ++ rest) = (groupLoop (c :: stack) rest).map fun w => (ts ++ w.1, w.2) := by
  induction h with
  | nil => intro o c stack rest _; simp
  | tok t ts ht _ ih =>
    intro o c stack rest hp
    have hne : t ≠ c := by rintro rfl; rw [hp.facts.2.2.1] at ht; cases ht
    rw [List.cons_append, groupLoop, if_neg hne, closer_none ht]
    simp only
    rw [ih o c stack rest hp]
    cases groupLoop (c :: stack) rest <;> simp
  | group o' c' g ts hp' _ _ ihg ih =>
    intro o c stack rest hp
    have hne : o' ≠ c := by
      rintro rfl
      have := hp.facts.2.2.2.1
      rw [hp'.facts.1] at this
      cases this
    have e : o' :: g ++ c' :: ts ++ rest = o' :: (g ++ (c' :: (ts ++ rest))) := by simp
    rw [e, groupLoop, if_neg hne, hp'.facts.1]
    simp only
    rw [ihg o' c' _ _ hp', groupLoop, if_pos rfl, ih o c stack rest hp]
    cases groupLoop (c :: stack) rest <;> simp

theorem groupLoop_group {ts : List Tok} (h : Balanced ts) {o c : Tok} (hp : Pair o c) (rest : List Tok) :
    groupLoop [c] (ts ++ c :: rest) = some (ts ++ [c], rest) := by
  rw [groupLoop_balanced h o c [] _ hp, groupLoop, if_pos rfl, groupLoop]
  rfl

theorem lineBody_end {ts r : List Tok} (h : terminator ts = some r) : lineBody ts = some ([.semi], r) := by
  rw [lineBody, h]

theorem lineBody_cons {ts g r : List Tok} (h : terminator ts = none) (hr : readTT ts = some (g, r)) :
    lineBody ts = (lineBody r).map fun w => (g ++ w.1, w.2) := by
  rw [lineBody, h]
  simp only
  split
  · rename_i h'; rw [hr] at h'; cases h'
  · rename_i h'
    rw [hr] at h'
    cases h'
    cases lineBody r <;> rfl

theorem terminator_none {t : Tok} (h1 : t ≠ .semi) (h2 : t ≠ .rbrace) (rest : List Tok) :
    terminator (t :: rest) = none := by
  unfold terminator
  split
  · rename_i h; cases h; exact absurd rfl h1
  · rename_i h; cases h; exact absurd rfl h2
  · rfl

theorem lineBody_line {ts : List Tok} (h : Line ts) {rest r : List Tok} (hr : terminator rest = some r) :
    lineBody (ts ++ rest) = some (ts ++ [.semi], r) := by
  induction h with
  | nil => exact lineBody_end hr
  | tok t ts ht hs _ ih =>
    have hb : t ≠ .rbrace := by rintro rfl; cases ht
    rw [List.cons_append, lineBody_cons (terminator_none hs hb _)
      (by rw [readTT, closer_none ht])]
    simp [ih]
  | group o c g ts hp hg _ ih =>
    have e : o :: g ++ c :: ts ++ rest = o :: (g ++ (c :: (ts ++ rest))) := by simp
    rw [e, lineBody_cons (terminator_none hp.facts.2.2.2.2.1 hp.facts.2.2.2.2.2 _)
      (by rw [readTT, hp.facts.1]; simp only; rw [groupLoop_group hg hp])]
    simp [ih]

/-- the body of a proc is read up to its end, whatever it is -/
theorem procBody_toks (b : BodyW) (hb : b.Ok) (rest r : List Tok)
    (hr : (∀ ts, b ≠ .block ts) → terminator rest = some r) (hr' : (∃ ts, b = .block ts) → r = rest) :
    procBody (b.toks ++ rest) = some (b.val, r) := by
  cases b with
  | none =>
    have := hr (by simp)
    simp only [BodyW.toks, BodyW.val, List.nil_append]
    rw [procBody.eq_def, this]
  | block ts =>
    have := hr' ⟨ts, rfl⟩
    subst this
    have e : (BodyW.block ts).toks ++ r = .lbrace :: (ts ++ .rbrace :: r) := by simp [BodyW.toks]
    rw [e, procBody.eq_def, terminator_none (by simp) (by simp)]
    simp only
    rw [groupLoop_group (o := .lbrace) hb .brace]
    simp [BodyW.val]
  | line ts =>
    have := hr (by simp)
    obtain ⟨hl, t, ht, h1, -, -, -⟩ := hb
    simp only [BodyW.toks, BodyW.val]
    have hlb := lineBody_line hl this
    rw [procBody.eq_def]
    rcases ts with - | ⟨t', ts⟩
    · simp at ht
    · simp at ht
      subst ht
      have hn : terminator (t' :: ts ++ rest) = none := by
        cases hl with
        | tok _ _ hb hs _ => exact terminator_none hs (by rintro rfl; cases hb) _
        | group o c g ts' hp _ _ =>
          exact terminator_none hp.facts.2.2.2.2.1 hp.facts.2.2.2.2.2 _
      rw [hn]
      simp only
      rw [← hlb]
      split
      · rename_i h'
        simp at h'
        exact absurd h'.1 h1
      · rfl

end Verif.Decl
