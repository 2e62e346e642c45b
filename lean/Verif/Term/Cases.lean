import Verif.Term.Props

/-!
# Cases of terms, and where the parser differs from what one would expect (C113)
-/

namespace Verif.Term

open Verif.Objtree (Ident)
open Verif.Decl (kw)

variable {E : Type}

/-! ## A term with most things in it -/

/-- a name -/
def nameW (s : String) : GroupW Ex := ⟨[], .ident (kw s), []⟩

/-- a written group as an expression -/
def inner (g : GroupW Ex) : ExprW Ex := ⟨g.toks, .of g.val⟩

/-- `-list(a, , new /obj/x{n = b}(a)):f?.g(pick(a; b, a,))[locate(b)]++`, with `"s[a]t[]u"` for the first argument -/
def sample : GroupW Ex :=
  ⟨[.neg, .not],
    .list false [some (inner ⟨[], .interp (kw "s") [(some (inner (nameW "a")), kw "t")] (none, kw "u"), []⟩), none,
      some (inner ⟨[], .newPath (.from_ ⟨(.slash, some (kw "obj")), [(.slash, some (kw "x"))],
        some [some (kw "n", inner (nameW "b"))]⟩) (some [some (inner (nameW "a"))]), []⟩)],
    [.field .colon (kw "f"),
      .call .safeDot (kw "g") [some (inner ⟨[], .pick [⟨some (inner (nameW "a")), inner (nameW "b")⟩,
        ⟨none, inner (nameW "a")⟩] true, []⟩)],
      .index false (inner ⟨[], .locate [some (inner (nameW "b"))] none, []⟩), .inc]⟩

theorem nameW_reads (n : Nat) (s : String) (hs : wordOf (kw s) = none) (ts : List Tok)
    (hts : ∀ t ∈ ts, t ∈ [.comma, .rparen, .rbracket, .rbrace, .semi] ∨ ∃ s, t = .interpPart s) :
    (inner (nameW s)).ReadsAt (nested (n + 1)) ts := by
  intro t ht rest
  refine nested_reads n (nameW s) (t :: rest) ⟨nofun, ⟨hs, NoHead.of ?_⟩, NoHead.of ?_⟩
  · rcases hts t ht with h | ⟨s, rfl⟩
    · simp only [List.mem_cons, List.not_mem_nil, or_false] at h
      rcases h with rfl | rfl | rfl | rfl | rfl <;> simp
    · simp
  · rcases hts t ht with h | ⟨s, rfl⟩
    · simp only [List.mem_cons, List.not_mem_nil, or_false] at h
      rcases h with rfl | rfl | rfl | rfl | rfl <;> simp
    · simp

/-- the hypotheses of `group_reads` are met by it -/
theorem sample_ok : sample.Ok (nested 2) false [.semi] := by
  have ha : wordOf (kw "a") = none := by decide +kernel
  have hb : wordOf (kw "b") = none := by decide +kernel
  refine ⟨by simp [sample], ?_, ?_⟩
  · intro e he t ht rest
    have ht' : t ∈ [Tok.comma, .rparen, .rbracket, .rbrace, .semi] := by simp at ht ⊢; tauto
    simp only [List.mem_cons, Option.some.injEq, List.not_mem_nil, or_false, reduceCtorEq, false_or] at he
    rcases he with rfl | rfl
    · refine nested_reads 1 _ _ ⟨nofun, ⟨?_, nofun⟩, NoHead.of ?_⟩
      · intro e s he
        simp only [List.mem_cons, List.not_mem_nil, or_false, Prod.mk.injEq, Option.some.injEq] at he
        obtain ⟨rfl, rfl⟩ := he
        exact nameW_reads 0 "a" ha _ (fun t ht => .inr ⟨_, by simpa using ht⟩)
      · simp only [List.mem_cons, List.not_mem_nil, or_false] at ht'
        rcases ht' with rfl | rfl | rfl | rfl | rfl <;> simp
    · refine nested_reads 1 _ _ ⟨nofun, ⟨⟨by simp, ?_⟩, ?_⟩, NoHead.of ?_⟩
      · intro k e he
        simp only [List.mem_cons, List.not_mem_nil, or_false, Prod.mk.injEq, Option.some.injEq] at he
        obtain ⟨rfl, rfl⟩ := he
        exact nameW_reads 0 "b" hb _ (fun t ht => .inl (by simp at ht ⊢; tauto))
      · intro e he
        simp only [List.mem_cons, List.not_mem_nil, or_false, Option.some.injEq] at he
        subst he
        exact nameW_reads 0 "a" ha _ (fun t ht => .inl (by simp at ht ⊢; tauto))
      · simp only [List.mem_cons, List.not_mem_nil, or_false] at ht'
        rcases ht' with rfl | rfl | rfl | rfl | rfl <;> simp
  · refine ⟨⟨nofun, NoHead.of (by simp [accTok])⟩, ⟨nofun, ?_⟩, ?_, trivial, NoHead.of (by simp)⟩
    · intro e he t ht rest
      simp only [List.mem_cons, List.not_mem_nil, or_false, Option.some.injEq] at he
      subst he
      refine nested_reads 1 _ _ ⟨nofun, ?_, NoHead.of ?_⟩
      · intro p hp
        simp only [List.mem_cons, List.not_mem_nil, or_false] at hp
        rcases hp with rfl | rfl
        · refine ⟨nameW_reads 0 "b" hb _ (fun t ht => .inl (by simp at ht ⊢; tauto)), ?_⟩
          intro w hw
          injection hw with hw
          subst hw
          exact nameW_reads 0 "a" ha _ (fun t ht => .inl (by simp at ht ⊢; tauto))
        · exact ⟨nameW_reads 0 "a" ha _ (fun t ht => .inl (by simp at ht ⊢; tauto)), nofun⟩
      · simp only [List.mem_cons, List.not_mem_nil, or_false] at ht
        rcases ht with rfl | rfl <;> simp
    · intro t ht rest
      simp only [List.mem_cons, List.not_mem_nil, or_false] at ht
      subst ht
      refine nested_reads 1 _ _ ⟨nofun, ⟨?_, NoHead.of (by simp)⟩, NoHead.of (by simp)⟩
      intro e he
      simp only [List.mem_cons, List.not_mem_nil, or_false, Option.some.injEq] at he
      subst he
      exact nameW_reads 0 "b" hb _ (fun t ht => .inl (by simp at ht ⊢; tauto))

example : group (nested 2) false (sample.toks ++ [.semi]) = .ok sample.val [.semi] := group_reads false sample _ sample_ok

/-- the same, with the value written out: the empty argument is gone -/
example : sample.val.follow = [.field .colon (kw "f"),
    .call .safeDot (kw "g") [.base (.pick [(some (.base (.ident (kw "a")) []), .base (.ident (kw "b")) []),
      (none, .base (.ident (kw "a")) [])]) []],
    .index false (.base (.locate [.base (.ident (kw "b")) []] none) []),
    .unary .postIncr, .unary .not, .unary .neg] := rfl

/-! ## Where the parser differs -/

/-- **C113, disagreement.** An argument left out between commas is not `null`: it is gone, and those behind it move up. -/
theorem empty_arguments_vanish {X : ExprP E} (f : Ident) (hf : wordOf f = none) (e : ExprW E)
    (he : e.ReadsAt X [.comma, .rparen]) (rest : List Tok) :
    term X (.ident f :: .lparen :: .comma :: (e.toks ++ .rparen :: rest)) = .ok (.call f [e.val], false) rest := by
  have := term_reads (X := X) (.call f [none, some e]) rest ⟨hf, fun x hx => by
    simp only [List.mem_cons, Option.some.injEq, List.not_mem_nil, or_false, reduceCtorEq, false_or] at hx
    exact hx ▸ he⟩
  simpa [TermW.toks, ArgsW.toks, joined, TermW.val, ArgsW.val, TermW.named] using this

/-- **C113, disagreement.** Arguments behind `x::f` are read and dropped. -/
theorem proc_reference_arguments_vanish (k : Ident) (a a' : ArgsW E) :
    (FollowW.call .scope k a).val = (FollowW.call .scope k a').val := rfl

/-- **C113, disagreement.** A path of one name after a dot takes no variables: the brace is left. -/
theorem dot_path_leaves_the_brace {X : ExprP E} (i : Ident) (rest : List Tok) :
    term X (.dot :: .ident i :: .lbrace :: rest) = .ok (.prefab ⟨[(.dot, i)], []⟩, false) (.lbrace :: rest) := rfl

/-- **C113, disagreement.** A `/` without any name is a path that names no type, without a message. -/
theorem lone_slash {X : ExprP E} (rest : List Tok) :
    term X (.slash :: .semi :: rest) = .ok (.prefab ⟨[(.slash, kw "__PARSE_ERROR__")], []⟩, false) (.semi :: rest) := rfl

/-- in `a ? b : c` the colon without spaces belongs to the name before it, but not to a number or a call -/
theorem colon_in_ternary {X : ExprP E} (b c : Ident) (hb : wordOf b = none) (rest : List Tok) :
    group X true (.ident b :: .closeColon :: .ident c :: .semi :: rest) =
      .ok ⟨.ident b, [.field .colon c]⟩ (.semi :: rest) ∧
    group X true (.ident b :: .lparen :: .rparen :: .closeColon :: .ident c :: .semi :: rest) =
      .ok ⟨.call b [], []⟩ (.closeColon :: .ident c :: .semi :: rest) := by
  constructor
  · have := group_reads (X := X) true ⟨[], .ident b, [.field .colon c]⟩ (.semi :: rest)
      ⟨nofun, ⟨hb, NoHead.of (by simp [accTok])⟩, ⟨fun _ _ => rfl, NoHead.of (by simp)⟩, NoHead.of (by simp)⟩
    exact this
  · have := group_reads (X := X) true ⟨[], .call b [], []⟩ (.closeColon :: .ident c :: .semi :: rest)
      ⟨nofun, ⟨hb, nofun⟩, NoHead.of (by simp [TermW.named])⟩
    exact this

end Verif.Term
