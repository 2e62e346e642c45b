import Verif.Stmt.Props

/-!
# Where the parser of bodies and the language part, and examples
-/

namespace Verif.Stmt

open Verif.Objtree (Ident)
open Verif.Decl (Tok kw VarTy InTy Init PathW ExprW AsW SpecW)

variable {E : Type}

/-! ## Disagreements -/

/-- `for(var/x as mob in L)` means the same as `for(var/x in L)`: the type after `as` is read as that of a key
(parser.rs:1562-1567) and does not get into the loop -/
theorem list_loop_forgets_its_type {X : ExprP E} (v : LoopVar E) (a : AsW) (e : ExprW E) (b : SBlock E) (rest : List Tok)
    (h : (SBlock.line (.for_ (.list v a (some e)) b)).Ok X rest) :
    ∃ ds, body X ((SBlock.line (.for_ (.list v a (some e)) b)).toks ++ rest)
      = .ok [.for_ (.list v.ty v.ident none (some e.val)) b.val] rest ds := by
  refine ⟨(SBlock.line (.for_ (.list v a (some e)) b)).warns, (bodies_mean_their_statements _ rest h).trans ?_⟩
  simp only [SBlock.val, SStmt.val, ForW.val, Option.map_some]

/-- what comes after the first statement of a body on the same line as the head of a proc is dropped without a message -/
theorem rest_of_the_line_is_dropped {X : ExprP E} (b : SBlock E) (rest : List Tok) (h : b.Ok X rest) :
    X.parsers.block (b.toks ++ rest) = some (b.val, b.warns) := by
  simp only [ExprP.parsers, bodies_mean_their_statements b rest h]

/-- a `;` after the last block of a `switch` with `else` is an error (elsewhere in a `switch` it is ignored); the
indentation processor makes one when the file ends there -/
theorem semicolon_after_the_default {X : ExprP E} (e : ExprW E) (is : SItems E) (rest : List Tok)
    (h1 : Reads X e (.rparen :: .lbrace :: .ident (kw "else") :: .lbrace :: (is.toks ++ .rbrace :: .semi :: rest)))
    (h2 : is.Ok X (.rbrace :: .semi :: rest)) :
    body X (.ident (kw "switch") :: .lparen :: (e.toks ++ .rparen :: .lbrace :: .ident (kw "else") :: .lbrace ::
      (is.toks ++ .rbrace :: .semi :: rest))) = .err := by
  set ts := Tok.ident (kw "switch") :: .lparen :: (e.toks ++ .rparen :: .lbrace :: .ident (kw "else") :: .lbrace ::
      (is.toks ++ .rbrace :: .semi :: rest)) with hts
  obtain ⟨n, hn⟩ := block_toks (X := X) (.braces is) (.semi :: rest) (by simpa only [SBlock.Ok] using h2)
  have hb : block X (n + 3) ts = .err := by
    have hs : stmt X (n + 2) ts = .err := by
      have hk : word "if" (.ident (kw "else") :: .lbrace :: (is.toks ++ .rbrace :: .semi :: rest)) = .nothing :=
        word_ne (by simpa using kw_facts.1)
      have hi := hn n (Nat.le_refl n)
      simp only [SBlock.toks, List.cons_append, List.append_assoc, List.nil_append] at hi
      rw [hts, stmt]
      simp only [Kw.first_switch, paren_toks e _ h1, R.need_ok, R.pre_nil, exact_self, Stmt.cases, hk, R.maybe_nothing,
        word_self, R.maybe_ok, hi, R.pre_ok, exact_other _ (show Tok.semi ≠ .rbrace by simp)]
      rfl
    rw [block, exact_ne (by rw [hts]; simp)]
    have ht : terminator ts = .nothing := by rw [hts]; rfl
    simp only [R.maybe_nothing, ht, hs]
    rfl
  rw [← body_is_determined X ts (n + 3) (by rw [hb]; simp), hb]

/-- `for(init, value in list)` is an error unless `init` is a variable without a value or a name: the test of a loop of
two parts cannot be `a in b` -/
theorem in_test_of_two_parts {X : ExprP E} (i : SimpleW E) (e : ExprW E) (p : E × E) (rest : List Tok)
    (h1 : i.Ok X (.comma :: (e.toks ++ .rparen :: rest))) (hi : i.InFor) (h2 : Reads X e (.rparen :: rest))
    (h3 : X.asIn e.val = some p) (h4 : keyOf X (some i.val) = none) :
    forHead X (.lparen :: (i.toks ++ .comma :: (e.toks ++ .rparen :: rest))) = .err := by
  have h := forHead_init (X := X) (some i) .comma (e.toks ++ .rparen :: rest) (.inr rfl) (by
    intro s hs
    cases hs
    exact ⟨h1, hi⟩)
  simp only [optSimple] at h
  rw [h, forRest_comma]
  have := forTwo_trail (X := X) (some i.val) none (some e) false rest (by simpa [OptReads] using h2)
  simp only [optToks, Bool.false_eq_true, if_false, List.nil_append] at this
  simp only [Option.map_some, this, forTwo, Option.bind_some, h3, h4]
  rfl

/-! ## A parser of a few expressions, to run examples -/

inductive Ex where
  | id (s : Ident)
  | in_ (a : Ident) (b : Ident)
  | inTo (a b c : Ident)
  | toOf (a b : Ident)
  | assign (a b : Ident)
deriving DecidableEq

/-- names, `a in b`, `a in b to c` and `a = b` -/
def demoExpr : List Tok → Option (Option (Ex × List Tok))
  | .ident a :: .in_ :: .ident b :: .ident t :: .ident c :: r =>
    if t = kw "to" then some (some (.inTo a b c, r)) else some (some (.in_ a b, .ident t :: .ident c :: r))
  | .ident a :: .in_ :: .ident b :: r => some (some (.in_ a b, r))
  | .ident a :: .assign :: .ident b :: r => some (some (.assign a b, r))
  | .ident a :: r => some (some (.id a, r))
  | _ => some none

def demo : ExprP Ex where
  expr := demoExpr
  expr_takes ts e rest h := by
    unfold demoExpr at h
    split at h
    · split at h <;> simp only [Option.some.injEq, Prod.mk.injEq] at h <;> obtain ⟨-, rfl⟩ := h <;> simp; omega
    all_goals first | (simp only [Option.some.injEq, Prod.mk.injEq] at h; obtain ⟨-, rfl⟩ := h; simp; done) |
      (simp only [Option.some.injEq, Prod.mk.injEq] at h; obtain ⟨-, rfl⟩ := h; simp; omega) | (simp at h)
  expr_stop t rest h := by
    simp only [List.mem_cons, List.not_mem_nil, or_false] at h
    rcases h with rfl | rfl | rfl | rfl | rfl <;> rfl
  ident e := match e with | .id s => some s | _ => none
  asIn e := match e with | .in_ a b => some (.id a, .id b) | .inTo a b c => some (.id a, .toOf b c) | _ => none
  asTo e := match e with | .toOf a b => some (.id a, .id b) | _ => none
  asAssign e := match e with | .assign a b => some (.id a, .id b) | _ => none
  ident_in e n h := by cases e <;> simp_all
  ident_assign e n h := by cases e <;> simp_all
  in_assign e p h := by cases e <;> simp_all

/-- an expression of one name -/
def nm (s : String) : ExprW Ex := ⟨[.ident (kw s)], .id (kw s)⟩

/-- `{ var/tmp/obj/x = a as mob; if(a) b; else if(c) { d } else return; for(var/mob/m as mob in l) { del m }
switch(a) { if(b, c to d) e; else { } } do x = y; while(z); try f; catch(var/e) g; l: { break l } }` -/
def sample : SBlock Ex :=
  .braces
    (.cons (.simple (.vars
        { path := { abs := true, dirs := [kw "tmp", kw "obj"], last := kw "x" }
          init := some (nm "a")
          spec := { as_ := .names (kw "mob") [] } } []) true)
    (.cons (.if_ (nm "a") (.line (.simple (.expr (nm "b")) true))
      (.elif 0 (nm "c") (.braces (.cons (.simple (.expr (nm "d")) false) .nil))
        (.els 0 (.line (.simple (.ret none) true)))))
    (.cons (.for_ (.list (.var { path := { abs := true, dirs := [kw "mob"], last := kw "m" } })
        (.names (kw "mob") []) (some (nm "l")))
      (.braces (.cons (.del (nm "m") false) .nil)))
    (.cons (.switch (nm "a") (.cons [.exact (nm "b"), .range (nm "c") (nm "d")] (.line (.simple (.expr (nm "e")) true))
      (.default (.braces .nil))))
    (.cons (.doWhile (.line (.simple (.expr ⟨[.ident (kw "x"), .assign, .ident (kw "y")], .assign (kw "x") (kw "y")⟩)
      true)) 0 (nm "z") true)
    (.cons (.tryCatch (.line (.simple (.expr (nm "f")) true)) 0 (some [{ dirs := [kw "var"], last := kw "e" }])
      (.line (.simple (.expr (nm "g")) true)))
    (.cons (.label (kw "l") (nm "l") (.braces (.cons (.break_ (some (kw "l")) false) .nil)))
    .nil)))))))

theorem sample_ok : sample.Ok demo [] := by
  have hw : ∀ w ∈ ["b", "d", "e", "f", "g", "l", "x"], kw w ∉ words := by decide +kernel
  have hin : kw "mob" ∈ Decl.inputNames := by decide +kernel
  simp only [sample, SBlock.Ok, SItems.Ok, SStmt.Ok, SElse.Ok, SCases.Ok, ForW.Ok, SimpleW.Ok, VarsOk, LoopVar.Ok, CasesOk,
    CaseW.Ok, SBlock.isIf, EndOk, OptReads, VarW.Ok]
  repeat' apply And.intro
  all_goals first
    | rfl
    | trivial
    | exact hw _ (by simp)
    | (intro h rest; exact absurd h (by simp))
    | (intro e he; cases he; rfl)
    | (intro h; cases h; done)
    | (intro h; exact trivial)
    | simp [AsW.Ok, hin]

example : body demo sample.toks = .ok sample.val [] [.tmpNoEffect, .asLocalVar] := by
  have := bodies_mean_their_statements sample [] sample_ok
  rw [List.append_nil] at this
  rw [this]
  rfl

/-- the same, with the statements written out -/
example : sample.val =
    [.simple (.var ⟨{ flags := { tmp := true }, path := [kw "obj"] }, kw "x", some (.expr (.id (kw "a")))⟩),
      .if_ [(.id (kw "a"), [.simple (.expr (.id (kw "b")))]), (.id (kw "c"), [.simple (.expr (.id (kw "d")))])]
        (some [.simple (.ret none)]),
      .for_ (.list (some { path := [kw "mob"] }) (kw "m") none (some (.id (kw "l")))) [.del (.id (kw "m"))],
      .switch (.id (kw "a")) [([.exact (.id (kw "b")), .range (.id (kw "c")) (.id (kw "d"))],
        [.simple (.expr (.id (kw "e")))])] (some []),
      .doWhile [.simple (.expr (.assign (kw "x") (kw "y")))] (.id (kw "z")),
      .tryCatch [.simple (.expr (.id (kw "f")))] [[kw "var", kw "e"]] [.simple (.expr (.id (kw "g")))],
      .label (kw "l") [.break_ (some (kw "l"))]] := by
  rfl

/-- what may be in the head of a loop: all of these are read as they are written -/
def heads : List (ForW Ex) :=
  [.infinite,
    .semi none (some (nm "a")) none,
    .semi (some (.vars { path := { abs := true, last := kw "x" }, init := some (nm "a") } [])) none (some none),
    .semi (some (.expr (nm "a"))) (some (nm "b")) (some (some (.expr (nm "d")))),
    .comma (some (.expr (nm "a"))) (some (nm "b")) (.expr (nm "d")),
    .two (some (.expr (nm "a"))) (some (nm "b")) true,
    .keyValue (.var { path := { abs := true, last := kw "x" } }) (.names (kw "mob") []) ⟨[.ident (kw "v"), .in_,
      .ident (kw "l")], .in_ (kw "v") (kw "l")⟩ (kw "v") (.id (kw "l")) false,
    .keyValue (.name (kw "e") (nm "e")) .none ⟨[.ident (kw "v"), .in_, .ident (kw "l")], .in_ (kw "v") (kw "l")⟩ (kw "v")
      (.id (kw "l")) false,
    .list (.var { path := { abs := true, last := kw "x" } }) .none none,
    .listExpr ⟨[.ident (kw "x"), .in_, .ident (kw "l")], .in_ (kw "x") (kw "l")⟩ (kw "x") (.id (kw "l")),
    .rangeVar { path := { abs := true, last := kw "x" }, init := some (nm "a") } (.expr (.id (kw "a"))) (nm "b")
      (some (nm "d")),
    .rangeAssign ⟨[.ident (kw "x"), .assign, .ident (kw "a")], .assign (kw "x") (kw "a")⟩ (kw "x") (.id (kw "a")) (nm "b")
      none,
    .rangeIn (.var { path := { abs := true, last := kw "x" } }) .none (nm "a") (nm "b") none,
    .rangeExpr ⟨[.ident (kw "x"), .in_, .ident (kw "a"), .ident (kw "to"), .ident (kw "b")],
      .inTo (kw "x") (kw "a") (kw "b")⟩ (kw "x") (.id (kw "a")) (.id (kw "b")) (some (nm "d"))]

example : ∀ h ∈ heads, h.Ok demo [.semi] := by
  have hw : ∀ w ∈ ["a", "b", "d", "e", "f", "g", "l", "x"], kw w ∉ words := by decide +kernel
  have hin : kw "mob" ∈ Decl.inputNames := by decide +kernel
  unfold heads
  simp only [List.forall_mem_cons, List.not_mem_nil, false_implies, implies_true, and_true, ForW.Ok, LoopVar.Ok,
    VarW.Ok, InitOk, Option.mem_def, OptReads, SimpleW.Ok, SimpleW.InFor, Option.some.injEq, forall_eq', VarsOk,
    StepOk, reduceCtorEq, false_implies]
  repeat' apply And.intro
  all_goals first
    | rfl
    | trivial
    | exact hw _ (by simp)
    | (intro h rest; exact absurd h (by simp))
    | (intro e he; cases he; rfl)
    | (intro h; cases h; done)
    | simp [AsW.Ok, hin]
    | exact ⟨_, rfl, rfl⟩
    | exact ⟨_, _, rfl, rfl, rfl⟩

/-- the `mob` of `for(var/m as mob in l) { }` is not in the loop -/
example : body demo [.ident (kw "for"), .lparen, .ident (kw "var"), .slash, .ident (kw "m"), .ident (kw "as"),
      .ident (kw "mob"), .in_, .ident (kw "l"), .rparen, .lbrace, .rbrace]
    = .ok [.for_ (.list (some {}) (kw "m") none (some (.id (kw "l")))) []] [] [] := by
  have hin : kw "mob" ∈ Decl.inputNames := by decide +kernel
  have h' := bodies_mean_their_statements (X := demo) (.line (.for_ (.list (.var { path := { abs := true, last := kw "m" } })
    (.names (kw "mob") []) (some (nm "l"))) (.braces .nil))) [] (by
      simp only [SBlock.Ok, SStmt.Ok, ForW.Ok, LoopVar.Ok, VarW.Ok, SItems.Ok]
      exact ⟨⟨⟨⟨trivial, ⟨by simp, by simp⟩, by simp, trivial, by simp⟩, trivial, rfl⟩, by simp [AsW.Ok, hin], rfl⟩, trivial⟩)
  exact h'

/-- `if(a) { } b;` on the same line as the head of a proc: `b` is not in the code, and there is no message -/
example : demo.parsers.block [.ident (kw "if"), .lparen, .ident (kw "a"), .rparen, .lbrace, .rbrace, .ident (kw "b"),
    .semi] = some ([.if_ [(.id (kw "a"), [])] none], []) := by
  rfl

/-- `switch(a) { else { b } ; }` -/
example : body demo [.ident (kw "switch"), .lparen, .ident (kw "a"), .rparen, .lbrace, .ident (kw "else"), .lbrace,
    .ident (kw "b"), .rbrace, .semi, .rbrace] = .err := by
  rfl

/-- `for(x = a, y in l) { }` -/
example : body demo [.ident (kw "for"), .lparen, .ident (kw "x"), .assign, .ident (kw "a"), .comma, .ident (kw "y"), .in_,
    .ident (kw "l"), .rparen, .lbrace, .rbrace] = .err := by
  rfl

/-- `/proc/f(x) { return x }` has its statement in the tree -/
example : ∃ v', Decl.run demo.parsers Decl.Env.init [.slash, .ident (kw "proc"), .slash, .ident (kw "f"), .lparen,
      .ident (kw "x"), .rparen, .lbrace, .ident (kw "return"), .ident (kw "x"), .rbrace] = .ok v' [] [] ∧
    v'.see = Decl.World.empty.tell (.proc [] (kw "f") (some ⟨.proc, false⟩) none
      ⟨[{ name := kw "x", ty := {} }], [.lbrace, .ident (kw "return"), .ident (kw "x"), .rbrace],
        some ([.simple (.ret (some (.id (kw "x"))))], [])⟩) := by
  have hc : Coded demo (.block [.ident (kw "return"), .ident (kw "x")])
      [.simple (.ret (some (.id (kw "x"))))] [] := by
    have h := Coded.block (X := demo) (.cons (.simple (.ret (some (nm "x"))) false) .nil) (by
      simp only [SItems.Ok, SStmt.Ok, SimpleW.Ok, OptReads, EndOk]
      exact ⟨⟨rfl, fun _ => trivial⟩, trivial⟩)
    exact h
  have := procs_have_their_statements (X := demo) Decl.init_wf
    { abs := true, dirs := [kw "proc"], last := kw "f" } .none
    [.param { last := kw "x" } [] none {}] .none _ false hc 
    ⟨fun _ => rfl, ⟨.inr ⟨.proc, [], by decide +kernel, nofun⟩, by
      intro q hq
      rw [List.mem_singleton] at hq
      subst hq
      exact ⟨rfl, ⟨by simp, by simp⟩, by simp, ⟨trivial, by simp⟩, by simp⟩, trivial,
      .tok _ _ rfl (.tok _ _ rfl .nil), by simp⟩, fun _ => .inl trivial, trivial⟩
  rw [Decl.init_see] at this
  exact this

end Verif.Stmt
