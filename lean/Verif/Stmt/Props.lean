import Verif.Stmt.Read
import Verif.Decl.Props

/-!
# Properties of the parser of proc bodies
-/

namespace Verif.Stmt

open Verif.Objtree (Ident)
open Verif.Decl (Tok kw VarTy InTy Init PathW ExprW AsW SpecW ParamW RetW OpW BodyW Leaf Src Env World run)

variable {E : Type}

/-! ## Bodies are read as they are written -/

/-- **C67**: for every expression parser, every body written in the grammar and whatever tokens come after it: the
parser reads exactly the tokens of the body, gives the statements it means, and says exactly the messages of the
specification -/
theorem bodies_mean_their_statements {X : ExprP E} (b : SBlock E) (rest : List Tok) (h : b.Ok X rest) :
    body X (b.toks ++ rest) = .ok b.val rest b.warns := by
  obtain ⟨n, hn⟩ := block_toks b rest h
  have hne : block X (2 * (b.toks ++ rest).length + 2) (b.toks ++ rest) ≠ .fuel := by
    have := (enough X (2 * (b.toks ++ rest).length + 2)).1 (b.toks ++ rest) (Nat.le_refl _)
    intro h
    rw [h] at this
    exact this
  have hm := hn (max n (2 * (b.toks ++ rest).length + 2)) (Nat.le_max_left _ _)
  unfold body
  rw [← block_mono X _ _ _ (Nat.le_max_right n _) hne]
  exact hm

/-- **C67**: the grammar is unambiguous: what is written with the same tokens means the same statements -/
theorem one_reading {X : ExprP E} (b b' : SBlock E) (rest rest' : List Tok) (h : b.Ok X rest) (h' : b'.Ok X rest')
    (ht : b.toks ++ rest = b'.toks ++ rest') : b.val = b'.val ∧ rest = rest' ∧ b.warns = b'.warns := by
  have h1 := bodies_mean_their_statements b rest h
  rw [ht, bodies_mean_their_statements b' rest' h'] at h1
  simp only [R.ok.injEq] at h1
  exact ⟨h1.1.symm, h1.2.1.symm, h1.2.2.symm⟩

/-- **C67**: an `else` belongs to the nearest `if` that has none -/
theorem else_goes_to_the_nearest_if {X : ExprP E} (c d : ExprW E) (yes no : SItems E) (rest : List Tok)
    (hc : Reads X c (.rparen :: .ident (kw "if") :: .lparen :: (d.toks ++ .rparen :: .lbrace :: (yes.toks ++ .rbrace ::
      .ident (kw "else") :: .lbrace :: (no.toks ++ .rbrace :: rest)))))
    (hd : Reads X d (.rparen :: .lbrace :: (yes.toks ++ .rbrace :: .ident (kw "else") :: .lbrace ::
      (no.toks ++ .rbrace :: rest))))
    (hy : yes.Ok X (.rbrace :: .ident (kw "else") :: .lbrace :: (no.toks ++ .rbrace :: rest)))
    (hn : no.Ok X (.rbrace :: rest)) (h1 : rest.head? ≠ some .semi) (h2 : rest.head? ≠ some (.ident (kw "else"))) :
    body X (.ident (kw "if") :: .lparen :: (c.toks ++ .rparen :: .ident (kw "if") :: .lparen :: (d.toks ++ .rparen ::
      .lbrace :: (yes.toks ++ .rbrace :: .ident (kw "else") :: .lbrace :: (no.toks ++ .rbrace :: rest)))))
      = .ok [.if_ [(c.val, [.if_ [(d.val, yes.val)] (some no.val)])] none] rest (yes.warns ++ no.warns) := by
  have := bodies_mean_their_statements (X := X)
    (.line (.if_ c (.line (.if_ d (.braces yes) (.els 0 (.braces no)))) (.none 0))) rest (by
      simp only [SBlock.Ok, SStmt.Ok, SElse.Ok, SBlock.toks, SStmt.toks, SElse.toks, semis, List.replicate_zero,
        List.append_assoc, List.cons_append, List.nil_append, SBlock.isIf, not_false_eq_true, true_and]
      exact ⟨hc, ⟨hd, hy, hn⟩, h1, h2⟩)
  simpa [SBlock.toks, SStmt.toks, SElse.toks, semis, SBlock.val, SStmt.val, SElse.arms, SElse.last, SBlock.warns,
    SStmt.warns, SElse.warns] using this

/-! ## Procs have the statements of their bodies -/

/-- the code of a proc whose body is written `{ … }`, on the same line as the head of the proc, or not at all -/
inductive Coded (X : ExprP E) : BodyW → Block E → List Diag → Prop
  | block (is : SItems E) (h : is.Ok X [.rbrace]) : Coded X (.block is.toks) is.val is.warns
  | line (s : SStmt E) (ts : List Tok) (ht : s.toks = ts ++ [.semi]) (h : s.Ok X []) : Coded X (.line ts) [s.val] s.warns
  | none : Coded X .none [] []

theorem Coded.code {X : ExprP E} {b : BodyW} {ss : Block E} {ds : List Diag} (h : Coded X b ss ds) :
    X.parsers.block b.val = some (ss, ds) := by
  cases h with
  | block is h =>
    have := bodies_mean_their_statements (X := X) (.braces is) [] (by simpa only [SBlock.Ok] using h)
    simp only [SBlock.toks, SBlock.val, SBlock.warns, List.append_nil] at this
    simp only [ExprP.parsers, BodyW.val, this]
  | line s ts ht h =>
    have := bodies_mean_their_statements (X := X) (.line s) [] (by simpa only [SBlock.Ok] using h)
    simp only [SBlock.toks, SBlock.val, SBlock.warns, List.append_nil, ht] at this
    simp only [ExprP.parsers, BodyW.val, this]
  | none =>
    have := bodies_mean_their_statements (X := X) .empty [] (by simp only [SBlock.Ok])
    simp only [SBlock.toks, SBlock.val, SBlock.warns, List.append_nil] at this
    simp only [ExprP.parsers, BodyW.val, this]

/-- **C67**: the declaration of a proc puts the statements of its body into the tree -/
theorem procs_have_their_statements {X : ExprP E} {v : Env E (Block E × List Diag)} (hv : v.Wf) (p : PathW) (op : OpW)
    (params : List (ParamW E)) (ret : RetW) (b : BodyW) (ended : Bool) {ss : Block E} {ds : List Diag}
    (hc : Coded X b ss ds) (h : (Src.leaf p (.proc op params ret b) ended .nil).Ok X.parsers [] false) :
    ∃ v', run X.parsers v (Src.leaf p (.proc op params ret b) ended .nil).toks
        = .ok v' [] ((Src.leaf p (.proc op params ret b) ended .nil).warns []) ∧
      v'.see = v.see.tell (.proc (Decl.read (Decl.dir [] p)).1 (Decl.procName p op) (Decl.read (Decl.dir [] p)).2.decl
        ret.val ⟨params.map ParamW.val, b.val, some (ss, ds)⟩) := by
  obtain ⟨v', h1, -, h2⟩ := Decl.declarations_mean_their_paths hv _ h
  refine ⟨v', h1, ?_⟩
  rw [h2]
  simp only [Src.facts, Leaf.fact, hc.code, List.foldl_cons, List.foldl_nil]

/-! ## Reading a body ends -/

/-- **C68**: for all tokens and every expression parser the parser of bodies comes to an end: with statements, "there is
none here" or an error; and the tokens left are no more than there were -/
theorem body_parsing_ends (X : ExprP E) (ts : List Tok) :
    body X ts ≠ .fuel ∧ ∀ b rest ds, body X ts = .ok b rest ds → rest.length ≤ ts.length := by
  have := (enough X (2 * ts.length + 2)).1 ts (Nat.le_refl _)
  unfold body
  constructor
  · intro h
    rw [h] at this
    exact this
  · intro b rest ds h
    rw [h] at this
    exact Nat.le_of_lt_succ this

/-- **C68**: more time does not change what is read -/
theorem body_is_determined (X : ExprP E) (ts : List Tok) (f : Nat) (h : block X f ts ≠ .fuel) :
    block X f ts = body X ts := by
  have hne : block X (2 * ts.length + 2) ts ≠ .fuel := (body_parsing_ends X ts).1
  unfold body
  rcases Nat.le_total f (2 * ts.length + 2) with hf | hf
  · exact (block_mono X ts f _ hf h).symm
  · exact block_mono X ts _ f hf hne

end Verif.Stmt
