import Verif.Stmt.Parts

/-!
# Statements are read as they are written
-/

namespace Verif.Stmt

open Verif.Objtree (Ident)
open Verif.Decl (Tok kw PathW ExprW)

variable {A E : Type}

/-- with enough fuel -/
def Ev (p : Nat → R A) (r : R A) : Prop := ∃ n, ∀ f, n ≤ f → p f = r

theorem Ev.one {p : Nat → R A} {q : Nat → R B} {r : R A} {s : R B} (h : Ev q s) (hp : ∀ f, q f = s → p (f + 1) = r) :
    Ev p r := by
  obtain ⟨n, h⟩ := h
  refine ⟨n + 1, fun f hf => ?_⟩
  obtain ⟨f, rfl⟩ : ∃ g, f = g + 1 := ⟨f - 1, by omega⟩
  exact hp f (h f (by omega))

theorem Ev.two {B C : Type} {p : Nat → R A} {q : Nat → R B} {q' : Nat → R C} {r : R A} {s : R B} {s' : R C}
    (h : Ev q s) (h' : Ev q' s') (hp : ∀ f, q f = s → q' f = s' → p (f + 1) = r) : Ev p r := by
  obtain ⟨n, h⟩ := h
  obtain ⟨n', h'⟩ := h'
  refine ⟨n + n' + 1, fun f hf => ?_⟩
  obtain ⟨f, rfl⟩ : ∃ g, f = g + 1 := ⟨f - 1, by omega⟩
  exact hp f (h f (by omega)) (h' f (by omega))

theorem Ev.zero {p : Nat → R A} {r : R A} (hp : ∀ f, p (f + 1) = r) : Ev p r := by
  refine ⟨1, fun f hf => ?_⟩
  obtain ⟨f, rfl⟩ : ∃ g, f = g + 1 := ⟨f - 1, by omega⟩
  exact hp f

section
variable (r : List Tok)

@[simp] theorem Kw.first_if : Kw.first (.ident (kw "if") :: r) = some (.if_, r) := by
  have : Kw.of (kw "if") = some .if_ := by decide +kernel
  simp [Kw.first, this]

@[simp] theorem Kw.first_while : Kw.first (.ident (kw "while") :: r) = some (.while_, r) := by
  have : Kw.of (kw "while") = some .while_ := by decide +kernel
  simp [Kw.first, this]

@[simp] theorem Kw.first_do : Kw.first (.ident (kw "do") :: r) = some (.do_, r) := by
  have : Kw.of (kw "do") = some .do_ := by decide +kernel
  simp [Kw.first, this]

@[simp] theorem Kw.first_for : Kw.first (.ident (kw "for") :: r) = some (.for_, r) := by
  have : Kw.of (kw "for") = some .for_ := by decide +kernel
  simp [Kw.first, this]

@[simp] theorem Kw.first_spawn : Kw.first (.ident (kw "spawn") :: r) = some (.spawn, r) := by
  have : Kw.of (kw "spawn") = some .spawn := by decide +kernel
  simp [Kw.first, this]

@[simp] theorem Kw.first_switch : Kw.first (.ident (kw "switch") :: r) = some (.switch, r) := by
  have : Kw.of (kw "switch") = some .switch := by decide +kernel
  simp [Kw.first, this]

@[simp] theorem Kw.first_try : Kw.first (.ident (kw "try") :: r) = some (.try_, r) := by
  have : Kw.of (kw "try") = some .try_ := by decide +kernel
  simp [Kw.first, this]

@[simp] theorem Kw.first_set : Kw.first (.ident (kw "set") :: r) = some (.set, r) := by
  have : Kw.of (kw "set") = some .set := by decide +kernel
  simp [Kw.first, this]

@[simp] theorem Kw.first_break : Kw.first (.ident (kw "break") :: r) = some (.break_, r) := by
  have : Kw.of (kw "break") = some .break_ := by decide +kernel
  simp [Kw.first, this]

@[simp] theorem Kw.first_continue : Kw.first (.ident (kw "continue") :: r) = some (.continue_, r) := by
  have : Kw.of (kw "continue") = some .continue_ := by decide +kernel
  simp [Kw.first, this]

@[simp] theorem Kw.first_del : Kw.first (.ident (kw "del") :: r) = some (.del, r) := by
  have : Kw.of (kw "del") = some .del := by decide +kernel
  simp [Kw.first, this]

end

theorem simple_kw {X : ExprP E} {s : SimpleW E} {rest : List Tok} (h : s.Ok X rest) (r : List Tok) :
    Kw.first (s.toks ++ r) = none := by
  have hw : ∀ w ∈ ["var", "return", "CRASH", "throw", "goto"], Kw.of (kw w) = none := by decide +kernel
  have hw' : ∀ w ∈ ["var", "return", "CRASH", "throw", "goto"], ∀ r, Kw.first (.ident (kw w) :: r) = none := by
    intro w h r
    simp [Kw.first, hw w h]
  cases s with
  | expr e => exact Kw.first_none h.1 r
  | ret e => exact hw' _ (by simp) _
  | throw_ e => exact hw' _ (by simp) _
  | crash e => exact hw' _ (by simp) _
  | goto l => exact hw' _ (by simp) _
  | vars v vs => exact hw' _ (by simp) _

theorem words_if : kw "if" ∈ words := by
  unfold words
  simp

/-- a token that a block does not start with -/
def Opens (t : Tok) : Prop := t ≠ .lbrace ∧ t ≠ .rbrace ∧ t ≠ .semi

theorem ident_opens (s : Ident) : Opens (.ident s) := by simp [Opens]

/-- how a statement starts -/
theorem stmt_head {X : ExprP E} {s : SStmt E} {rest : List Tok} (h : s.Ok X rest) :
    ∃ t r, s.toks = t :: r ∧ Opens t ∧ (t = .ident (kw "if") → (SBlock.line s).isIf) := by
  have hk : ∀ w ∈ ["while", "do", "for", "spawn", "switch", "try", "set", "break", "continue", "del", "var", "return",
      "CRASH", "throw", "goto"], kw w ≠ kw "if" := by decide +kernel
  have hw : ∀ w ∈ ["while", "do", "for", "spawn", "switch", "try", "set", "break", "continue", "del", "var", "return",
      "CRASH", "throw", "goto"], ∀ p : Prop, Tok.ident (kw w) = .ident (kw "if") → p := by
    intro w h p he
    exact absurd (by simpa using he) (hk w h)
  have hs : ∀ (ts r : List Tok), Starts ts → ∃ t r', ts ++ r = t :: r' ∧ Opens t ∧ ∀ p : Prop, t = .ident (kw "if") → p := by
    intro ts r h
    obtain ⟨t, r', rfl, h1, h2, h3, h4⟩ := starts_cons h
    exact ⟨t, r' ++ r, rfl, ⟨h1, h2, h3⟩, fun p he => absurd words_if (h4 _ he)⟩
  cases s with
  | simple s ended =>
    cases s with
    | expr e =>
      obtain ⟨t, r, h1, h2, h3⟩ := hs e.toks (endToks ended) h.1.1
      exact ⟨t, r, h1, h2, h3 _⟩
    | ret e => exact ⟨_, _, rfl, ident_opens _, hw _ (by simp) _⟩
    | throw_ e => exact ⟨_, _, rfl, ident_opens _, hw _ (by simp) _⟩
    | crash e => exact ⟨_, _, rfl, ident_opens _, hw _ (by simp) _⟩
    | goto l => exact ⟨_, _, rfl, ident_opens _, hw _ (by simp) _⟩
    | vars v vs => exact ⟨_, _, rfl, ident_opens _, hw _ (by simp) _⟩
  | if_ c b els =>
    exact ⟨.ident (kw "if"), _, (by simp only [SStmt.toks, List.cons_append]; rfl), ident_opens _, fun _ => trivial⟩
  | while_ c b =>
    exact ⟨.ident (kw "while"), _, (by simp only [SStmt.toks, List.cons_append]; rfl), ident_opens _, hw "while" (by simp) _⟩
  | doWhile b k c ended =>
    exact ⟨.ident (kw "do"), _, (by simp only [SStmt.toks, List.cons_append]; rfl), ident_opens _, hw "do" (by simp) _⟩
  | for_ h b =>
    exact ⟨.ident (kw "for"), _, (by simp only [SStmt.toks, List.cons_append]; rfl), ident_opens _, hw "for" (by simp) _⟩
  | switch e cs =>
    exact ⟨.ident (kw "switch"), _, (by simp only [SStmt.toks, List.cons_append]; rfl), ident_opens _, hw "switch" (by simp) _⟩
  | setting n m e ended =>
    exact ⟨.ident (kw "set"), _, (by simp only [SStmt.toks, List.cons_append]; rfl), ident_opens _, hw "set" (by simp) _⟩
  | break_ l ended =>
    exact ⟨.ident (kw "break"), _, (by simp only [SStmt.toks, List.cons_append]; rfl), ident_opens _, hw "break" (by simp) _⟩
  | continue_ l ended =>
    exact ⟨.ident (kw "continue"), _, (by simp only [SStmt.toks, List.cons_append]; rfl), ident_opens _, hw "continue" (by simp) _⟩
  | del e ended =>
    exact ⟨.ident (kw "del"), _, (by simp only [SStmt.toks, List.cons_append]; rfl), ident_opens _, hw "del" (by simp) _⟩
  | spawn d b =>
    cases d <;>
      exact ⟨.ident (kw "spawn"), _, (by simp only [SStmt.toks, List.cons_append]; rfl), ident_opens _, hw "spawn" (by simp) _⟩
  | tryCatch b k ps b' =>
    cases ps <;>
      exact ⟨.ident (kw "try"), _, (by simp only [SStmt.toks, List.cons_append]; rfl), ident_opens _, hw "try" (by simp) _⟩
  | label n e b =>
    have h1 : Starts e.toks := by
      unfold SStmt.Ok at h
      exact h.1
    obtain ⟨t, r, h1, h2, h3⟩ := hs e.toks (.colon :: b.toks) h1
    exact ⟨t, r, by simpa only [SStmt.toks] using h1, h2, h3 _⟩

/-- an `else` with a block that is not an `if` is not an `else if` -/
theorem block_not_if {X : ExprP E} {b : SBlock E} {rest : List Tok} (h : b.Ok X rest) (hi : ¬b.isIf) :
    (b.toks ++ rest).head? ≠ some (.ident (kw "if")) := by
  cases b with
  | braces is => simp [SBlock.toks]
  | empty => simp [SBlock.toks]
  | omitted =>
    have h : AtEnd rest := by simpa only [SBlock.Ok] using h
    unfold AtEnd at h
    split at h
    · simp [SBlock.toks]
    · exact h.elim
  | line s =>
    have h : s.Ok X rest := by simpa only [SBlock.Ok] using h
    obtain ⟨t, r, h1, -, h3⟩ := stmt_head h
    simp only [SBlock.toks, h1, List.cons_append, List.head?_cons, ne_eq, Option.some.injEq]
    exact fun he => hi (h3 he)

theorem kw_facts : kw "else" ≠ kw "if" ∧ kw "if" ≠ kw "else" := by decide +kernel

theorem end_not_colon {ended : Bool} {rest : List Tok} (h : EndOk ended rest) :
    (endToks ended ++ rest).head? ≠ some .colon := by
  cases ended with
  | true => simp [endToks]
  | false =>
    have := h rfl
    unfold AtEnd at this
    split at this
    · simp [endToks]
    · exact this.elim

theorem end_not_ident {ended : Bool} {rest : List Tok} (h : EndOk ended rest) :
    ident (endToks ended ++ rest) = .nothing := by
  cases ended with
  | true => rfl
  | false =>
    have := h rfl
    unfold AtEnd at this
    split at this
    · rfl
    · exact this.elim

theorem simple_end {s : SimpleW E} {ended : Bool} {rest : List Tok} (h : EndOk ended rest) :
    SimpleEnds false s (endToks ended ++ rest) := by
  cases s with
  | vars v vs =>
    refine ⟨end_ends h, ?_⟩
    cases ended with
    | true => simp [endToks]
    | false =>
      have := h rfl
      unfold AtEnd at this
      split at this
      · simp [endToks]
      · exact this.elim
  | _ => exact trivial

mutual
theorem block_toks {X : ExprP E} (b : SBlock E) (rest : List Tok) (h : b.Ok X rest) :
    Ev (fun f => block X f (b.toks ++ rest)) (.ok b.val rest b.warns) := by
  match b with
  | .braces is =>
    have h : is.Ok X (.rbrace :: rest) := by simpa only [SBlock.Ok] using h
    refine (items_toks is rest h).one fun f hf => ?_
    simp only [SBlock.toks, List.cons_append, List.append_assoc, List.nil_append, block, exact_self, R.maybe_ok,
      R.pre_nil, hf, SBlock.val, SBlock.warns]
  | .empty =>
    refine Ev.zero fun f => ?_
    simp [SBlock.toks, block, exact_other, SBlock.val, SBlock.warns]
  | .omitted =>
    have h : AtEnd rest := by simpa only [SBlock.Ok] using h
    unfold AtEnd at h
    refine Ev.zero fun f => ?_
    split at h
    · simp [SBlock.toks, block, exact_other, SBlock.val, SBlock.warns, terminator, Decl.terminator]
    · exact h.elim
  | .line s =>
    have h : s.Ok X rest := by simpa only [SBlock.Ok] using h
    refine (stmt_toks s rest h).one fun f hf => ?_
    obtain ⟨t, r, h1, ⟨h2, h3, h4⟩, -⟩ := stmt_head h
    have hterm : terminator (t :: (r ++ rest)) = .nothing := by
      rw [terminator, Decl.terminator_none h4 h3]
    simp only [SBlock.toks, h1, List.cons_append, block, exact_other _ h2, R.maybe_nothing, hterm] at hf ⊢
    simp [hf, SBlock.val, SBlock.warns]

theorem items_toks {X : ExprP E} (is : SItems E) (rest : List Tok) (h : is.Ok X (.rbrace :: rest)) :
    Ev (fun f => items X f (is.toks ++ .rbrace :: rest)) (.ok is.val rest is.warns) := by
  match is with
  | .nil =>
    refine Ev.zero fun f => ?_
    simp [SItems.toks, items, SItems.val, SItems.warns]
  | .semi r =>
    have h : r.Ok X (.rbrace :: rest) := by simpa only [SItems.Ok] using h
    refine (items_toks r rest h).one fun f hf => ?_
    simp [SItems.toks, items, exact_other, hf, SItems.val, SItems.warns]
  | .cons s r =>
    have h : s.Ok X (r.toks ++ .rbrace :: rest) ∧ r.Ok X (.rbrace :: rest) := by simpa only [SItems.Ok] using h
    refine (stmt_toks s _ h.1).two (items_toks r rest h.2) fun f hf hg => ?_
    obtain ⟨t, r', h1, ⟨h2, h3, h4⟩, -⟩ := stmt_head h.1
    simp only [SItems.toks, h1, List.cons_append, List.append_assoc, items, exact_other _ h3, exact_other _ h4,
      R.maybe_nothing] at hf ⊢
    simp [hf, hg, SItems.val, SItems.warns]

theorem stmt_toks {X : ExprP E} (s : SStmt E) (rest : List Tok) (h : s.Ok X rest) :
    Ev (fun f => stmt X f (s.toks ++ rest)) (.ok s.val rest s.warns) := by
  match s with
  | .simple s ended =>
    have h : s.Ok X (endToks ended ++ rest) ∧ EndOk ended rest := by simpa only [SStmt.Ok] using h
    refine Ev.zero fun f => ?_
    simp only [SStmt.toks, List.append_assoc, stmt, simple_kw h.1, simple_toks s false _ h.1 (simple_end h.2), R.lead_ok]
    cases s with
    | expr e =>
      simp only [SimpleW.val]
      split <;> simp [terminator_end h.2, exact_ne (end_not_colon h.2), SStmt.val, SStmt.warns, SimpleW.val]
    | vars v vs => cases vs <;> simp [SimpleW.val, terminator_end h.2, SStmt.val, SStmt.warns]
    | _ => simp [SimpleW.val, terminator_end h.2, SStmt.val, SStmt.warns]
  | .if_ c b els =>
    have h : Reads X c (.rparen :: b.toks ++ els.toks ++ rest) ∧ b.Ok X (els.toks ++ rest) ∧ els.Ok X rest := by
      simpa only [SStmt.Ok] using h
    obtain ⟨h1, h2, h3⟩ := h
    refine (block_toks b _ h2).two (elses_toks els rest h3) fun f hf hg => ?_
    simp only [SStmt.toks, List.cons_append, List.append_assoc] at h1 ⊢
    simp only [stmt, Kw.first_if, paren_toks c _ h1, R.need_ok, R.pre_nil, hf, hg]
    simp [SStmt.val, SStmt.warns]
  | .while_ c b =>
    have h : Reads X c (.rparen :: b.toks ++ rest) ∧ b.Ok X rest := by simpa only [SStmt.Ok] using h
    obtain ⟨h1, h2⟩ := h
    refine (block_toks b _ h2).one fun f hf => ?_
    simp only [SStmt.toks, List.cons_append, List.append_assoc] at h1 ⊢
    simp only [stmt, Kw.first_while, paren_toks c _ h1, R.need_ok, R.pre_nil, hf]
    simp [SStmt.val, SStmt.warns]
  | .doWhile b k c ended =>
    have h : b.Ok X (semis k ++ .ident (kw "while") :: .lparen :: c.toks ++ .rparen :: endToks ended ++ rest)
        ∧ Reads X c (.rparen :: endToks ended ++ rest) ∧ EndOk ended rest := by simpa only [SStmt.Ok] using h
    obtain ⟨h1, h2, h3⟩ := h
    refine (block_toks b _ h1).one fun f hf => ?_
    simp only [SStmt.toks, List.cons_append, List.append_assoc] at h2 hf ⊢
    simp only [stmt, Kw.first_do, R.need_ok, R.pre_nil, hf]
    rw [skipSemis_semis _ _ (by simp)]
    simp only [word_self, R.need_ok, R.pre_nil, paren_toks c _ h2, terminator_end h3]
    simp [SStmt.val, SStmt.warns]
  | .for_ hd b =>
    have h : hd.Ok X (b.toks ++ rest) ∧ b.Ok X rest := by simpa only [SStmt.Ok] using h
    obtain ⟨h1, h2⟩ := h
    refine (block_toks b _ h2).one fun f hf => ?_
    simp only [SStmt.toks, List.cons_append, List.append_assoc] at h1 ⊢
    simp only [stmt, Kw.first_for, forHead_toks hd _ h1, R.need_ok, R.pre_nil, hf]
    simp [SStmt.val, SStmt.warns]
  | .spawn none b =>
    have h : (b.toks ++ rest).head? ≠ some .lparen ∧ b.Ok X rest := by simpa only [SStmt.Ok] using h
    obtain ⟨h1, h2⟩ := h
    refine (block_toks b _ h2).one fun f hf => ?_
    simp only [SStmt.toks, List.cons_append, List.append_assoc]
    simp only [stmt, Kw.first_spawn, delay_none h1, R.need_ok, R.pre_nil, hf]
    simp [SStmt.val, SStmt.warns]
  | .spawn (some d) b =>
    have h : OptReads X d (.rparen :: b.toks ++ rest) ∧ b.Ok X rest := by simpa only [SStmt.Ok] using h
    obtain ⟨h1, h2⟩ := h
    refine (block_toks b _ h2).one fun f hf => ?_
    simp only [SStmt.toks, List.cons_append, List.append_assoc] at h1 ⊢
    simp only [stmt, Kw.first_spawn, delay_some d _ h1, R.need_ok, R.pre_nil, hf]
    simp [SStmt.val, SStmt.warns]
  | .switch e cs =>
    have h : Reads X e (.rparen :: .lbrace :: cs.toks ++ .rbrace :: rest) ∧ cs.Ok X (.rbrace :: rest) := by
      simpa only [SStmt.Ok] using h
    obtain ⟨h1, h2⟩ := h
    refine (cases_toks cs rest h2).one fun f hf => ?_
    simp only [SStmt.toks, List.cons_append, List.append_assoc, List.nil_append] at h1 ⊢
    simp only [stmt, Kw.first_switch, paren_toks e _ h1, R.need_ok, R.pre_nil, exact_self, hf]
    simp [SStmt.val, SStmt.warns]
  | .tryCatch b k none b' =>
    have h : b.Ok X (semis k ++ .ident (kw "catch") :: b'.toks ++ rest) ∧ (b'.toks ++ rest).head? ≠ some .lparen
        ∧ b'.Ok X rest := by simpa only [SStmt.Ok] using h
    obtain ⟨h1, h2, h3⟩ := h
    refine (block_toks b _ h1).two (block_toks b' _ h3) fun f hf hg => ?_
    simp only [SStmt.toks, List.cons_append, List.append_assoc] at hf ⊢
    simp only [stmt, Kw.first_try, R.need_ok, R.pre_nil, hf]
    rw [skipSemis_semis _ _ (by simp)]
    simp only [word_self, R.need_ok, R.pre_nil, catchParams_none h2, hg]
    simp [SStmt.val, SStmt.warns]
  | .tryCatch b k (some ps) b' =>
    have h : b.Ok X (semis k ++ .ident (kw "catch") :: .lparen :: pathsToks ps ++ .rparen :: b'.toks ++ rest)
        ∧ (∀ p ∈ ps, p.trail = false) ∧ b'.Ok X rest := by simpa only [SStmt.Ok] using h
    obtain ⟨h1, h2, h3⟩ := h
    refine (block_toks b _ h1).two (block_toks b' _ h3) fun f hf hg => ?_
    simp only [SStmt.toks, List.cons_append, List.append_assoc] at hf ⊢
    simp only [stmt, Kw.first_try, R.need_ok, R.pre_nil, hf]
    rw [skipSemis_semis _ _ (by simp)]
    simp only [word_self, R.need_ok, R.pre_nil, catchParams_toks ps _ h2, hg]
    simp [SStmt.val, SStmt.warns]
  | .setting n m e ended =>
    have h : Reads X e (endToks ended ++ rest) ∧ EndOk ended rest := by simpa only [SStmt.Ok] using h
    refine Ev.zero fun f => ?_
    simp only [SStmt.toks, List.cons_append, List.append_assoc, stmt, Kw.first_set, ident_ident, R.need_ok, R.pre_nil]
    cases m <;> simp [setMode, exact_other, ex_reads h.1, terminator_end h.2, SStmt.val, SStmt.warns]
  | .break_ l ended =>
    have h : EndOk ended rest := by simpa only [SStmt.Ok] using h
    refine Ev.zero fun f => ?_
    simp only [SStmt.toks, List.cons_append, List.append_assoc, stmt, Kw.first_break]
    cases l <;> simp [end_not_ident h, terminator_end h, SStmt.val, SStmt.warns]
  | .continue_ l ended =>
    have h : EndOk ended rest := by simpa only [SStmt.Ok] using h
    refine Ev.zero fun f => ?_
    simp only [SStmt.toks, List.cons_append, List.append_assoc, stmt, Kw.first_continue]
    cases l <;> simp [end_not_ident h, terminator_end h, SStmt.val, SStmt.warns]
  | .del e ended =>
    have h : Reads X e (endToks ended ++ rest) ∧ EndOk ended rest := by simpa only [SStmt.Ok] using h
    refine Ev.zero fun f => ?_
    simp only [SStmt.toks, List.cons_append, List.append_assoc, stmt, Kw.first_del, ex_reads h.1]
    simp [terminator_end h.2, SStmt.val, SStmt.warns]
  | .label n e b =>
    have h : Starts e.toks ∧ Reads X e (.colon :: b.toks ++ rest) ∧ X.ident e.val = some n ∧ b.Ok X rest := by
      simpa only [SStmt.Ok] using h
    obtain ⟨h1, h2, h3, h4⟩ := h
    refine (block_toks b _ h4).one fun f hf => ?_
    have := simple_toks (X := X) (.expr e) false (.colon :: b.toks ++ rest) ⟨h1, h2⟩ trivial
    simp only [SimpleW.toks, SimpleW.val, SimpleW.warns, List.cons_append] at this
    simp only [SStmt.toks, List.cons_append, List.append_assoc, stmt, Kw.first_none h1, this, R.lead_ok, R.pre_nil, h3,
      exact_self, R.maybe_ok, hf]
    simp [SStmt.val, SStmt.warns]

theorem elses_toks {X : ExprP E} (e : SElse E) (rest : List Tok) (h : e.Ok X rest) :
    Ev (fun f => elses X f (e.toks ++ rest)) (.ok (e.arms, e.last) rest e.warns) := by
  match e with
  | .none k =>
    have h : rest.head? ≠ some .semi ∧ rest.head? ≠ some (.ident (kw "else")) := by simpa only [SElse.Ok] using h
    refine Ev.zero fun f => ?_
    simp only [SElse.toks, elses, skipSemis_semis k _ h.1, word_ne h.2]
    simp [SElse.arms, SElse.last, SElse.warns]
  | .elif k c b r =>
    have h : Reads X c (.rparen :: b.toks ++ r.toks ++ rest) ∧ b.Ok X (r.toks ++ rest) ∧ r.Ok X rest := by
      simpa only [SElse.Ok] using h
    obtain ⟨h1, h2, h3⟩ := h
    refine (block_toks b _ h2).two (elses_toks r rest h3) fun f hf hg => ?_
    simp only [SElse.toks, List.cons_append, List.append_assoc] at h1 ⊢
    simp only [elses]
    rw [skipSemis_semis _ _ (by simp)]
    simp only [word_self, R.maybe_ok, R.pre_nil, paren_toks c _ h1, R.need_ok, hf, hg]
    simp [SElse.arms, SElse.last, SElse.warns]
  | .els k b =>
    have h : ¬b.isIf ∧ b.Ok X rest := by simpa only [SElse.Ok] using h
    refine (block_toks b _ h.2).one fun f hf => ?_
    simp only [SElse.toks, List.cons_append, List.append_assoc, elses]
    rw [skipSemis_semis _ _ (by simp)]
    simp only [word_self, R.maybe_ok, R.pre_nil, word_ne (block_not_if h.2 h.1), R.maybe_nothing, R.need_ok, hf]
    simp [SElse.arms, SElse.last, SElse.warns]

theorem cases_toks {X : ExprP E} (cs : SCases E) (rest : List Tok) (h : cs.Ok X (.rbrace :: rest)) :
    Ev (fun f => cases X f (cs.toks ++ .rbrace :: rest)) (.ok (cs.cases, cs.dflt) (.rbrace :: rest) cs.warns) := by
  match cs with
  | .nil =>
    refine Ev.zero fun f => ?_
    simp [SCases.toks, Stmt.cases, word, exact_other, SCases.cases, SCases.dflt, SCases.warns]
  | .semi r =>
    have h : r.Ok X (.rbrace :: rest) := by simpa only [SCases.Ok] using h
    refine (cases_toks r rest h).one fun f hf => ?_
    simp [SCases.toks, Stmt.cases, word, exact_other, hf, SCases.cases, SCases.dflt, SCases.warns]
  | .cons what b r =>
    have h : CasesOk X (.rparen :: b.toks ++ r.toks ++ .rbrace :: rest) what ∧ b.Ok X (r.toks ++ .rbrace :: rest)
        ∧ r.Ok X (.rbrace :: rest) := by simpa only [SCases.Ok] using h
    obtain ⟨h1, h2, h3⟩ := h
    refine (block_toks b _ h2).two (cases_toks r rest h3) fun f hf hg => ?_
    simp only [SCases.toks, List.cons_append, List.append_assoc] at h1 ⊢
    simp only [Stmt.cases, word_self, R.maybe_ok, R.pre_nil, caseHead_toks what _ h1, R.need_ok, hf, hg]
    simp [SCases.cases, SCases.dflt, SCases.warns]
  | .default b =>
    have h : b.Ok X (.rbrace :: rest) := by simpa only [SCases.Ok] using h
    refine (block_toks b _ h).one fun f hf => ?_
    simp only [SCases.toks, List.cons_append, Stmt.cases]
    rw [word_ne (by simpa using kw_facts.1)]
    simp only [R.maybe_nothing, word_self, R.maybe_ok, R.pre_nil, R.need_ok, hf]
    simp [SCases.cases, SCases.dflt, SCases.warns]
end

end Verif.Stmt
