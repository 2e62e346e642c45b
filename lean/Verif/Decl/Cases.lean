import Verif.Decl.Body
import Verif.Indents.Model

/-!
# Declarations: cases
-/

namespace Verif.Decl

open Verif.Objtree (Ident Builder mget)

variable {E C : Type}

/-! ## Tokens that end the reading -/

/-- **C65**: a `}` too many is a fatal error: the tree has everything before it and nothing after it -/
theorem stray_brace_ends_reading {X : Parsers E C} {v : Env E C} (hv : v.Wf) (src : Src E) (h : src.Ok X [] false) :
    ∃ v', v'.see = (src.facts X []).foldl World.tell v.see ∧
      ∀ ts, run X v (src.toks ++ .rbrace :: ts) = .fail v' (src.warns []) := by
  obtain ⟨v', _, s, r⟩ := read_in_sequence hv src h
  refine ⟨v', s, fun ts => ?_⟩
  have he : entry X .root v' (.rbrace :: ts) [] = .nothing := by
    rw [entry_eq X _ _ _ _ (by simp)]
    rfl
  rw [r, run_eq, entries_cons X _ _ _ _ _ _ (by simp) (by simp), he]
  simp [Out.pre]

/-- the token that comes out of the indent processor, as it goes into the parser -/
def embed : Indents.Tok Tok → Tok
  | .lbrace => .lbrace
  | .rbrace => .rbrace
  | .lparen => .lparen
  | .rparen => .rparen
  | .semi => .semi
  | .other t => t
  | _ => .semi

/-- `/a{n()(})`, on one line -/
def crossed (a n : Ident) : List (Indents.LTok Tok) :=
  [(1, .other .slash), (1, .other (.ident a)), (1, .lbrace), (1, .other (.ident n)), (1, .lparen), (1, .rparen),
    (1, .lparen), (1, .rbrace), (1, .rparen)]

/-- **C64**: the indent processor closes what is open at the end of the file, but it counts only braces.  With crossed
brackets the parser still gets to the end of the file in a block, and panics. -/
theorem crossed_brackets_panic (X : Parsers E C) {v : Env E C} (hv : v.Wf) (a n : Ident) (ha : a ∉ keywords)
    (ha' : a ≠ kw "operator") :
    ∃ out, Indents.process (crossed a n) = some (out, []) ∧ run X v (out.map fun t => embed t.2) = .afterEof := by
  refine ⟨_, rfl, ?_⟩
  have hts : ([(1, .other .slash), (1, .other (.ident a)), (1, .lbrace), (1, .other (.ident n)), (1, .lparen),
      (1, .rparen), (1, .lparen), (1, .rbrace), (1, .rparen), (1, .semi)] : List (Indents.LTok Tok)).map
        (fun t => embed t.2)
      = [.slash, .ident a, .lbrace, .ident n, .lparen, .rparen, .lparen, .rbrace, .rparen, .semi] := rfl
  refine (congrArg (run X v) hts).trans ?_
  rw [mem_keywords, not_or, not_or] at ha
  obtain ⟨v1, j, hs, so1, e1, l1⟩ := subtype_ok hv.sound hv.sound.1 a
  have hj : j < v1.tree.inner.graph.length :=
    (lookup_valid so1 _ _ _ so1.1 l1).1
  have h1 : entryHead X v .root [.slash, .ident a, .lbrace, .ident n, .lparen, .rparen, .lparen, .rbrace, .rparen, .semi]
      = .at v .root a [] [.lbrace, .ident n, .lparen, .rparen, .lparen, .rbrace, .rparen, .semi] [] := by
    unfold entryHead
    simp only [treePath, leadSlash, pathLoop, sep, List.append_nil, List.getLast?_singleton, List.dropLast_singleton,
      steps, start, Pos.root, ne_eq, not_true_eq_false, and_false, if_false]
    rw [operatorName_other ha']
    simp [suffixIf]
  have h2 : step v .root a = some (v1, ⟨j, none, none⟩, []) := by
    unfold step
    simp only [Pos.root, if_neg ha.1, fromName_kind, if_neg ha.2.1, if_neg ha.2.2, hs]
  have hlb : procBody [.lparen, .rbrace, .rparen, .semi] = some ([.lparen, .rbrace, .rparen, .semi], []) := by
    simp [procBody, terminator, lineBody, readTT, closer, groupLoop]
  obtain ⟨v2, hp, so2, e2⟩ := proc_ok so1 hj n none none
    ⟨[], [.lparen, .rbrace, .rparen, .semi], X.block [.lparen, .rbrace, .rparen, .semi]⟩
  have h3 : entry X ⟨j, none, none⟩ v1 [.ident n, .lparen, .rparen, .lparen, .rbrace, .rparen, .semi] []
      = .ok v2 [] [] := by
    rw [entry_eq X _ _ _ _ (by simp)]
    have hh : entryHead X v1 ⟨j, none, none⟩ [.ident n, .lparen, .rparen, .lparen, .rbrace, .rparen, .semi]
        = .at v1 ⟨j, none, none⟩ n [] [.lparen, .rparen, .lparen, .rbrace, .rparen, .semi] [] := by
      unfold entryHead
      simp only [treePath, leadSlash, pathLoop, sep, List.append_nil, List.getLast?_singleton, List.dropLast_singleton,
        steps, start, Bool.false_eq_true, false_and, if_false]
      rw [operatorName_plain _ _ _ rfl (by simp) (by simp)]
      simp [suffixIf]
    rw [hh]
    simp only [procEntry, procRest, procParams, returnType, hlb, hp, List.append_nil]
  have h4 : entry X .root v [.slash, .ident a, .lbrace, .ident n, .lparen, .rparen, .lparen, .rbrace, .rparen, .semi] []
      = .afterEof := by
    rw [entry_eq X _ _ _ _ (by simp), h1]
    simp only [h2, List.append_nil]
    rw [entries_cons X _ _ _ _ _ _ (by simp) (by simp), h3]
    simp only
    rw [entries_nil]
    rfl
  rw [run_eq, entries_cons X _ _ _ _ _ _ (by simp) (by simp), h4]

/-! ## A parser of expressions and of bodies for examples -/

/-- a parser of expressions that knows only literals, and a parser of bodies that counts tokens -/
def demo : Parsers Nat Nat where
  expr := fun ts =>
    match ts with
    | .other n :: rest => some (some (n, rest))
    | _ => some none
  expr_takes := by
    intro ts e rest h
    split at h
    · cases h; simp
    · cases h
  block := fun ts => some ts.length

def lit (n : Nat) : ExprW Nat := ⟨[.other n], n⟩

theorem demo_lit (n : Nat) : (lit n).Ok demo := fun _ _ => rfl

theorem demo_suf (l : List (Option Nat)) : SufOk demo (l.map (Option.map lit)) := by
  refine ⟨?_, fun _ _ => rfl⟩
  intro s hs e he
  obtain ⟨o, _, rfl⟩ := List.mem_map.1 hs
  cases o with
  | none => cases he
  | some n =>
    cases he
    exact demo_lit n

/--
```
/mob
    var
        hp = 100
        const/list/L[][2]
    proc
        final/heal(mob/M, amount = 5 as num|null) as num
            …
    New() … ;
    tmp_name = 3
    obj/box/
/datum/thing/operator+(other) { }
```
-/
def exSrc : Src Nat :=
  .block { abs := true, last := kw "mob" }
    (.block { last := kw "var" }
      (.leaf { last := kw "hp" } (.var [] (some (lit 100)) {}) true
        (.leaf { dirs := [kw "const", kw "list"], last := kw "L" } (.var [none, some (lit 2)] none {}) false .nil))
      (.block { last := kw "proc" }
        (.leaf { dirs := [kw "final"], last := kw "heal" }
          (.proc .none
            [.param { dirs := [kw "mob"], last := kw "M" } [] none {},
              .param { last := kw "amount" } [] (some (lit 5)) { as_ := .names (kw "num") [kw "null"] }]
            (.names (kw "num") []) (.block [.ident (kw "M"), .lparen, .other 7, .rparen, .semi])) false .nil)
        (.leaf { last := kw "New" } (.proc .none [] .none (.line [.other 3])) true
          (.leaf { last := kw "tmp_name" } (.override (lit 3)) true
            (.leaf { dirs := [kw "obj"], last := kw "box", trail := true } .type false .nil)))))
    (.leaf { abs := true, dirs := [kw "datum", kw "thing"], last := kw "operator" }
      (.proc (.sym (.op (kw "+"))) [.param { last := kw "other" } [] none {}] .none (.block [])) false .nil)

theorem spec_none : (({} : SpecW Nat)).Ok demo := ⟨trivial, nofun⟩

theorem suf_nil : SufOk demo [] := ⟨by simp, by simp⟩

theorem exSrc_ok : exSrc.Ok demo [] false := by
  refine ⟨fun _ => rfl, nofun, trivial, ⟨nofun, nofun, ?_, ?_, ?_⟩, ?_⟩
  · show kw "var" ∉ []
    simp
  · refine ⟨nofun, ⟨⟨[], by decide +kernel, by simp⟩, by decide +kernel, by decide +kernel,
      fun h => absurd h (by decide +kernel), suf_nil, ?_, spec_none, ?_, ?_⟩, by simp, ?_⟩
    · intro e he; cases he; exact demo_lit 100
    · intro _ h; cases h
    · intro h; cases h
    · refine ⟨nofun, ⟨⟨[kw "const", kw "list"], by decide +kernel, by decide +kernel⟩, by decide +kernel,
        by decide +kernel, fun h => absurd h (by decide +kernel), demo_suf [none, some 2], ?_, spec_none, ?_, ?_⟩,
        fun _ => .inr ⟨rfl, rfl⟩, trivial⟩
      · intro e he; cases he
      · intro h; cases h
      · intro h; cases h
  · refine ⟨nofun, nofun, nofun, ?_, ?_⟩
    · refine ⟨nofun, ⟨.inr ⟨.proc, [kw "final"], by decide +kernel, by simp⟩, ?_,
        (by show ∀ n ∈ [kw "num"], n ∈ inputNames; decide +kernel), ?_,
        nofun⟩, fun _ => .inl trivial, trivial⟩
      · intro q hq
        simp only [List.mem_cons, List.not_mem_nil, or_false] at hq
        rcases hq with rfl | rfl
        · exact ⟨rfl, suf_nil, nofun, spec_none, nofun⟩
        · exact ⟨rfl, suf_nil, (by intro e he; cases he; exact demo_lit 5),
            ⟨(by show ∀ n ∈ [kw "num", kw "null"], n ∈ inputNames; decide +kernel), nofun⟩, fun _ => nofun⟩
      · exact .tok _ _ rfl (.group _ _ [.other 7] _ .paren (.tok _ _ rfl .nil) (.tok _ _ rfl .nil))
    · refine ⟨nofun, ⟨.inl (by decide +kernel), by simp, trivial, ⟨.tok _ _ rfl (by simp) .nil, _, rfl,
        by simp, by simp, by simp, by simp⟩, nofun⟩, by simp, ?_⟩
      refine ⟨nofun, ⟨by decide +kernel, nofun, demo_lit 3⟩, by simp, ?_⟩
      exact ⟨nofun, ⟨by decide +kernel, fun _ => by decide +kernel⟩, fun _ => .inr ⟨rfl, rfl⟩, trivial⟩
  · refine ⟨fun _ => rfl, ⟨.inl (by decide +kernel), ?_, trivial, .nil, ?_⟩, fun _ => .inl trivial, trivial⟩
    · intro q hq
      simp only [List.mem_singleton] at hq
      subst hq
      exact ⟨rfl, suf_nil, nofun, spec_none, nofun⟩
    · exact ⟨rfl, rfl, by simp, _, rfl, by decide +kernel⟩

/-- the theorems apply to it -/
example : ∃ v', run demo Env.init exSrc.toks = .ok v' [] [] ∧
    v'.see = (exSrc.facts demo []).foldl World.tell World.empty := by
  obtain ⟨v', h1, _, h2⟩ := declarations_mean_their_paths init_wf exSrc exSrc_ok
  rw [init_see] at h2
  exact ⟨v', h1, h2⟩

example : ∃ v', run demo Env.init exSrc.toks = .ok v' [] [] ∧ run demo Env.init (exSrc.flat [] .nil).toks = .ok v' [] [] := by
  obtain ⟨_, v', h1, h2⟩ := blocks_only_save_writing init_wf.sound exSrc exSrc_ok
  exact ⟨v', h1, h2⟩

/-- what it says -/
def exWorld : World Nat Nat := (exSrc.facts demo []).foldl World.tell World.empty

example : exWorld.isType [kw "mob", kw "obj", kw "box"] = true ∧ exWorld.isType [kw "mob", kw "proc"] = false ∧
    exWorld.isType [kw "datum"] = true ∧ exWorld.isType [kw "box"] = false ∧
    exWorld.var [kw "mob"] (kw "hp") = some (⟨some (.expr 100)⟩, some {}) ∧
    exWorld.var [kw "mob"] (kw "L") =
      some (⟨some (.newList [2])⟩, some { flags := { const := true }, path := [kw "list", kw "list"] }) ∧
    exWorld.var [kw "mob"] (kw "tmp_name") = some (⟨some (.expr 3)⟩, none) ∧
    ((exWorld.procs [kw "mob"] (kw "heal")).map fun x => x.2) = some (some ⟨⟨.proc, true⟩, some (.input [kw "num"])⟩) ∧
    ((exWorld.procs [kw "mob"] (kw "New")).map fun x => x.2) = some none ∧
    (exWorld.procs [kw "datum", kw "thing"] (kw "operator+")).isSome = true := by
  decide +kernel

/-- a block that is not closed -/
example : run demo Env.init (exSrc.toks ++ (PathW.toks { abs := true, last := kw "turf" } ++ .lbrace :: Src.toks
    (.leaf { last := kw "x" } (.override (lit 1)) true .nil : Src Nat))) = .afterEof :=
  unclosed_block_panics init_wf exSrc exSrc_ok { abs := true, last := kw "turf" } (nofun) trivial
    (.leaf { last := kw "x" } (.override (lit 1)) true .nil)
    ⟨nofun, ⟨by decide +kernel, nofun, demo_lit 1⟩, by simp, trivial⟩

/-- the crossed brackets -/
example : ∃ out, Indents.process (crossed (kw "mob") (kw "New")) = some (out, []) ∧
    run demo Env.init (out.map fun t => embed t.2) = .afterEof :=
  crossed_brackets_panic demo init_wf (kw "mob") (kw "New") (by decide +kernel) (by decide +kernel)

/-- two files about different things -/
def exA : Src Nat := .leaf { abs := true, dirs := [kw "mob"], last := kw "x" } (.override (lit 1)) true .nil
def exB : Src Nat := .leaf { abs := true, dirs := [kw "mob"], last := kw "y" } (.override (lit 2)) true .nil
/-- and one about the same as the first -/
def exA' : Src Nat := .leaf { abs := true, dirs := [kw "mob"], last := kw "x" } (.override (lit 3)) true .nil

theorem exA_ok : exA.Ok demo [] false :=
  ⟨fun _ => rfl, ⟨by decide +kernel, nofun, demo_lit 1⟩, by simp, trivial⟩

theorem exB_ok : exB.Ok demo [] false :=
  ⟨fun _ => rfl, ⟨by decide +kernel, nofun, demo_lit 2⟩, by simp, trivial⟩

example : ∃ vab vba, run demo Env.init (exA.toks ++ exB.toks) = .ok vab [] [] ∧
    run demo Env.init (exB.toks ++ exA.toks) = .ok vba [] [] ∧ vab.see = vba.see := by
  refine order_of_independent_files init_wf exA exB exA_ok exB_ok ?_
  intro f hf g hg
  simp only [exA, exB, Src.facts, Leaf.fact, List.mem_singleton] at hf hg
  subst hf hg
  right
  decide +kernel

/-- of two values for the same variable the last counts -/
example :
    (match run demo Env.init (exA.toks ++ exA'.toks) with
      | .ok v _ _ => v.see.var [kw "mob"] (kw "x")
      | _ => none) = some (⟨some (.expr 3)⟩, none) ∧
    (match run demo Env.init (exA'.toks ++ exA.toks) with
      | .ok v _ _ => v.see.var [kw "mob"] (kw "x")
      | _ => none) = some (⟨some (.expr 1)⟩, none) := by
  decide +kernel

/-! ## Where the parser does something else than the paths say -/

/-- **C63**, why absolute paths are not allowed among variables: `/mob{var{/x;}}` declares a global variable -/
theorem absolute_path_among_variables :
    (match run demo Env.init [.slash, .ident (kw "mob"), .lbrace, .ident (kw "var"), .lbrace, .slash, .ident (kw "x"),
        .semi, .rbrace, .rbrace] with
      | .ok v _ ds => some (v.see.var [] (kw "x"), v.see.isType [kw "x"], ds)
      | _ => none) = some (some (⟨none⟩, some {}), false, [.nestedAbsolute]) := by
  decide +kernel

/-- **C63**, why a block may not be named `operator/`: it gives a type with a `/` in its name -/
theorem operator_slash_block :
    (match run demo Env.init [.slash, .ident (kw "mob"), .slash, .ident (kw "operator"), .slash, .lbrace, .rbrace] with
      | .ok v _ ds => some (v.see.isType [kw "mob", kw "operator/"], v.see.isType [kw "mob", kw "operator"], ds)
      | _ => none) = some (true, false, []) := by
  decide +kernel

/-- **C63**, why only `final` comes between `proc` and a name: `/mob/proc/a/b()` is `/mob/proc/b()`, with a message -/
theorem path_after_proc :
    (match run demo Env.init [.slash, .ident (kw "mob"), .slash, .ident (kw "proc"), .slash, .ident (kw "a"), .slash,
        .ident (kw "b"), .lparen, .rparen, .semi] with
      | .ok v _ ds => some ((v.see.procs [kw "mob"] (kw "b")).isSome, v.see.isType [kw "mob", kw "a"], ds)
      | _ => none) = some (true, false, [.procSubBlock]) := by
  decide +kernel

/-- **C66**: a body that no parser understands -/
example : ∃ v v', run demo Env.init exSrc.toks = .ok v [] [] ∧ run demo.bodyless Env.init exSrc.toks = .ok v' [] [] ∧
    v.strip = v'.strip := by
  obtain ⟨v, h1, _, _⟩ := declarations_mean_their_paths init_wf exSrc exSrc_ok
  have h2 := bodies_do_not_matter demo demo.bodyless rfl Env.init exSrc.toks
  rw [h1] at h2
  cases hr : run demo.bodyless Env.init exSrc.toks with
  | ok v' r ds =>
    rw [hr] at h2
    simp only [Out.strip, Out.ok.injEq] at h2
    obtain ⟨h3, rfl, rfl⟩ := h2
    exact ⟨v, v', h1, rfl, h3⟩
  | _ => rw [hr] at h2; simp [Out.strip] at h2

end Verif.Decl
