import Verif.Term.Read

/-!
# Theorems about the parser of terms (C113)
-/

namespace Verif.Term

open Verif.Objtree (Ident)
open Verif.Decl (kw)

variable {A B E : Type}

/-! ## What is written is read -/

theorem prefixes_reads (us : List Un) (h : ∀ u ∈ us, u ≠ .postIncr ∧ u ≠ .postDecr) (rest : List Tok)
    (hr : NoHead (fun t => (prefixOf t).isSome = true) rest) : prefixes (us.map opTok ++ rest) = (us, rest) := by
  induction us with
  | nil =>
    cases rest with
    | nil => rfl
    | cons t r =>
      have := hr t rfl
      simp only [Bool.not_eq_true, Option.isSome_eq_false_iff, Option.isNone_iff_eq_none] at this
      simp only [List.map_nil, List.nil_append, prefixes, this]
  | cons u us ih =>
    have ih := ih (fun v hv => h v (List.mem_cons_of_mem _ hv))
    obtain ⟨h1, h2⟩ := h u List.mem_cons_self
    have : prefixOf (opTok u) = some u := by cases u <;> first | rfl | exact absurd rfl h1 | exact absurd rfl h2
    simp only [List.map_cons, List.cons_append, prefixes, this, ih]

theorem term_head (t : TermW E) (rest : List Tok) : NoHead (fun t => (prefixOf t).isSome = true) (t.toks ++ rest) := by
  cases t
  case path p =>
    cases p with
    | dot i => exact NoHead.of (by simp [prefixOf])
    | dotMore i p => exact NoHead.of (by simp [prefixOf])
    | from_ p =>
      obtain ⟨⟨s, o⟩, more, vs⟩ := p
      cases s <;> exact NoHead.of (by simp [prefixOf, sepTok])
  all_goals exact NoHead.of (by simp [prefixOf])

theorem follow_none {X : ExprP E} {b inT : Bool} {rest : List Tok} (h : FollowsOk X inT b [] rest) :
    follow X b inT rest = .nothing ∧ rest.head? ≠ some .plusPlus ∧ rest.head? ≠ some .minusMinus := by
  simp only [FollowsOk] at h
  cases rest with
  | nil => exact ⟨rfl, nofun, nofun⟩
  | cons t r =>
    have := h t rfl
    simp only [List.mem_cons, List.not_mem_nil, or_false, not_or, not_and] at this
    obtain ⟨⟨a1, a2, a3, a4, a5, a6, a7, a8⟩, a9⟩ := this
    refine ⟨?_, by simpa using a1, by simpa using a2⟩
    have : accOf b inT t = none := by
      cases t <;> first | rfl | (exfalso; first | exact a5 rfl | exact a6 rfl | exact a7 rfl | exact a8 rfl) | skip
      have := a9 rfl
      cases b <;> cases inT <;> simp_all [accOf]
    simp [follow, a3, a4, this]

theorem access_reads {X : ExprP E} (b : Bool) (k : Acc) (i : Ident) (a : Option (ArgsW E)) (rest : List Tok)
    (h : OptOk X a rest) : access X b k i (optToks a ++ rest) =
      match a with
      | some a => .ok ((FollowW.call k i a).val, false) rest
      | none => .ok ((FollowW.field k i : FollowW E).val, b) rest := by
  unfold access
  rw [opt_reads a rest h]
  cases a <;> cases k <;> rfl

theorem accOf_accTok {b inT : Bool} {k : Acc} (h : k = .colon → inT = true → b = true) : accOf b inT (accTok k) = some k := by
  cases k <;> simp [accTok, accOf]
  cases b <;> cases inT <;> simp_all

theorem follows_reads {X : ExprP E} (inT : Bool) : ∀ (fs : List (FollowW E)) (b : Bool) (n : Nat) (rest : List Tok),
    fs.length < n → FollowsOk X inT b fs rest →
    follows X inT n b (fs.flatMap FollowW.toks ++ rest) = .ok (fs.map FollowW.val) rest := by
  intro fs
  induction fs with
  | nil =>
    intro b n rest hn h
    cases n with
    | zero => omega
    | succ n =>
      obtain ⟨h1, h2, h3⟩ := follow_none h
      simp [follows, h1, h2, h3, R.maybe]
  | cons f fs ih =>
    intro b n rest hn h
    cases n with
    | zero => omega
    | succ n =>
    obtain ⟨h1, h2⟩ := h
    have ih := ih (f.named b) n rest (by simp at hn; omega) h2
    have acc : ∀ (k : Acc) (i : Ident) (ts : List Tok), (k = .colon → inT = true → b = true) →
        follow X b inT (accTok k :: .ident i :: ts) = access X b k i ts ∧
        (accTok k :: Tok.ident i :: ts).head? ≠ some .plusPlus ∧ (accTok k :: Tok.ident i :: ts).head? ≠ some .minusMinus := by
      intro k i ts hk
      have := accOf_accTok hk
      have n1 : ¬ (accTok k = .lbracket ∨ accTok k = .safeLBracket) := by cases k <;> simp [accTok]
      exact ⟨by simp only [follow, if_neg n1, this], by cases k <;> simp [accTok], by cases k <;> simp [accTok]⟩
    cases f with
    | inc =>
      simp only [List.flatMap_cons, FollowW.toks, List.cons_append, List.nil_append, follows, List.head?_cons, if_true,
        List.tail_cons]
      simp only [FollowW.named] at ih
      rw [ih]
      rfl
    | dec =>
      simp only [List.flatMap_cons, FollowW.toks, List.cons_append, List.nil_append, follows, List.head?_cons, if_true,
        List.tail_cons, Option.some.injEq, reduceCtorEq, if_false]
      simp only [FollowW.named] at ih
      rw [ih]
      rfl
    | index safe e =>
      have he := h1 .rbracket (by simp) (fs.flatMap FollowW.toks ++ rest)
      unfold ExprW.Reads at he
      simp only [FollowW.named] at ih
      cases safe <;>
        simp [FollowW.toks, follows, follow, he, R.need, maybe_ok, ih, R.map, FollowW.val]
    | field k i =>
      obtain ⟨h3, h4⟩ := h1
      obtain ⟨e1, e2, e3⟩ := acc k i (fs.flatMap FollowW.toks ++ rest) h3
      have ha := access_reads (X := X) b k i none (fs.flatMap FollowW.toks ++ rest) h4
      simp only [optToks, List.nil_append] at ha
      simp only [FollowW.named] at ih
      simp only [List.flatMap_cons, FollowW.toks, List.cons_append, List.nil_append, follows, if_neg e2, if_neg e3, e1, ha,
        maybe_ok, ih, R.map, List.map_cons]
    | call k i a =>
      obtain ⟨h3, h4⟩ := h1
      obtain ⟨e1, e2, e3⟩ := acc k i (a.toks ++ (fs.flatMap FollowW.toks ++ rest)) h3
      have ha := access_reads (X := X) b k i (some a) (fs.flatMap FollowW.toks ++ rest) h4
      simp only [optToks] at ha
      simp only [FollowW.named] at ih
      simp only [List.flatMap_cons, FollowW.toks, List.cons_append, List.append_assoc, follows, if_neg e2, if_neg e3, e1,
        ha, maybe_ok, ih, R.map, List.map_cons]

/-- **C113.** Whatever term is written, with operators in front of it and fields, calls and indices behind it, is read as
just that, up to its end, if the expressions in it are read as what they are. -/
theorem group_reads {X : ExprP E} (inTernary : Bool) (g : GroupW E) (rest : List Tok) (h : g.Ok X inTernary rest) :
    group X inTernary (g.toks ++ rest) = .ok g.val rest := by
  obtain ⟨h1, h2, h3⟩ := h
  have hp := prefixes_reads g.ops h1 (g.term.toks ++ (g.follow.flatMap FollowW.toks ++ rest)) (term_head _ _)
  have ht := term_reads g.term _ h2
  have hf := follows_reads (X := X) inTernary g.follow g.term.named
    ((g.follow.flatMap FollowW.toks ++ rest).length + 1) rest (by
      have : ∀ fs : List (FollowW E), fs.length ≤ (fs.flatMap FollowW.toks).length := by
        intro fs
        induction fs with
        | nil => simp
        | cons f fs ih =>
          have : 0 < f.toks.length := by cases f <;> simp [FollowW.toks]
          simp only [List.length_cons, List.flatMap_cons, List.length_append]
          omega
      have := this g.follow
      simp only [List.length_append]
      omega) h3
  unfold group GroupW.toks
  simp only [List.append_assoc, hp, ht]
  split <;> simp only [R.lead, R.need, hf, R.map, GroupW.val]

/-- **C113.** A text means one thing: if it can be written as two terms they mean the same and end at the same place. -/
theorem one_meaning {X : ExprP E} (inTernary : Bool) (g g' : GroupW E) (rest rest' : List Tok)
    (h : g.Ok X inTernary rest) (h' : g'.Ok X inTernary rest') (e : g.toks ++ rest = g'.toks ++ rest') :
    g.val = g'.val ∧ rest = rest' := by
  have a := group_reads inTernary g rest h
  rw [e, group_reads inTernary g' rest' h'] at a
  injection a with a b
  exact ⟨a.symm, b.symm⟩

/-! ## Reading ends, on any tokens -/

/-- not out of fuel, and what is read is at least `d` tokens of `n` -/
def R.Good (n d : Nat) : R A → Prop
  | .ok _ rest => rest.length + d ≤ n
  | .fuel => False
  | _ => True

theorem R.Good.mono {r : R A} {n d n' d' : Nat} (h : r.Good n d) (hn : n + d' ≤ n' + d) : r.Good n' d' := by
  cases r with
  | ok a rest => simp only [R.Good] at h ⊢; omega
  | _ => exact h

theorem R.Good.need {r : R A} {n d m e : Nat} (h : r.Good n d) {k : A → List Tok → R B}
    (hk : ∀ a rest, rest.length + d ≤ n → (k a rest).Good m e) : (r.need k).Good m e := by
  cases r with
  | ok a rest => exact hk a rest h
  | fuel => exact h.elim
  | _ => trivial

theorem R.Good.lead {r : R A} {n d m e : Nat} (h : r.Good n d) {k : A → List Tok → R B}
    (hk : ∀ a rest, rest.length + d ≤ n → (k a rest).Good m e) : (r.lead k).Good m e := by
  cases r with
  | ok a rest => exact hk a rest h
  | fuel => exact h.elim
  | _ => trivial

theorem R.Good.maybe {r : R A} {n d m e : Nat} (h : r.Good n d) {ts : List Tok} (hts : ts.length ≤ n)
    {k : Option A → List Tok → R B} (hs : ∀ a rest, rest.length + d ≤ n → (k (some a) rest).Good m e)
    (hn : (k none ts).Good m e) : (r.maybe ts k).Good m e := by
  cases r with
  | ok a rest => exact hs a rest h
  | fuel => exact h.elim
  | nothing => exact hn
  | err => trivial

theorem R.Good.map {r : R A} {n d : Nat} (h : r.Good n d) (f : A → B) : (r.map f).Good n d := by
  cases r <;> exact h

theorem expr_good (X : ExprP E) (ts : List Tok) : (X.expr ts).Good ts.length 1 := by
  cases h : X.expr ts with
  | ok e rest => exact X.takes _ _ _ h
  | fuel => exact absurd h (X.ends ts)
  | _ => trivial

theorem separated_good {f : List Tok → R A} (hf : ∀ ts, (f ts).Good ts.length 1) (sep close : Tok) (empty : Bool) :
    ∀ (n : Nat) (legal : Bool) (ts : List Tok), ts.length < n →
      (separated sep close empty f n legal ts).Good ts.length 1 := by
  intro n
  induction n with
  | zero => intro _ ts h; omega
  | succ n ih =>
    intro legal ts hn
    unfold separated
    split
    · next h =>
      cases ts with
      | nil => simp at h
      | cons t r => simp [R.Good]
    · split
      · next h =>
        cases ts with
        | nil => simp at h
        | cons t r =>
          split
          · exact (ih false r (by simp at hn; omega)).mono (by simp)
          · trivial
      · split
        · trivial
        · exact (hf ts).need fun a r hr => ((ih true r (by omega)).map _).mono (by omega)

theorem args_good (X : ExprP E) (ts : List Tok) : (args X ts).Good ts.length 1 := by
  unfold args
  split
  · next r => exact (separated_good (expr_good X) _ _ _ _ _ _ (by omega)).mono (by simp)
  · trivial

theorem pickArgs_good (X : ExprP E) (ts : List Tok) : (pickArgs X ts).Good ts.length 1 := by
  have he : ∀ ts, (pickEntry X ts).Good ts.length 1 := by
    intro ts
    unfold pickEntry
    refine (expr_good X ts).lead fun a r hr => ?_
    split
    · next r' =>
      refine (expr_good X r').need fun b r'' h => ?_
      simp [R.Good] at hr ⊢
      omega
    · exact hr
  unfold pickArgs
  split
  · next r => exact (separated_good he _ _ _ _ _ _ (by omega)).mono (by simp)
  · trivial

theorem segs_len : ∀ (ts : List Tok) (p : Option Sep), (segs p ts).2.length ≤ ts.length := by
  intro ts
  induction ts with
  | nil => intro p; cases p <;> simp [segs]
  | cons t r ih =>
    intro p
    unfold segs
    split
    · exact Nat.le_succ_of_le (ih none)
    · split
      · exact Nat.le_succ_of_le (ih _)
      · simp

theorem varEntry_good (X : ExprP E) (ts : List Tok) : (varEntry X ts).Good ts.length 1 := by
  unfold varEntry
  split
  · next k r =>
    refine (expr_good X r).need fun e r' h => ?_
    simp [R.Good]
    omega
  · trivial

theorem vars_good (X : ExprP E) (p : List (Sep × Ident)) (ts : List Tok) : (vars X p ts).Good ts.length 0 := by
  unfold vars
  split
  · next r =>
    exact ((separated_good (varEntry_good X) _ _ _ _ _ _ (by omega)).map _).mono (by simp; omega)
  · simp [R.Good]

/-- with a separator in front, at least that is read -/
theorem prefabEx_good (X : ExprP E) (parts : List (Sep × Ident)) (ts : List Tok) :
    (prefabEx X parts ts).Good ts.length 0 ∧ (parts = [] → (prefabEx X parts ts).Good ts.length 1) := by
  unfold prefabEx
  split
  · next s h =>
    have hl : ts.tail.length + 1 ≤ ts.length := by
      cases ts with
      | nil => simp at h
      | cons t r => simp
    have := segs_len ts.tail (some s)
    exact ⟨(vars_good X _ _).mono (by omega), fun _ => (vars_good X _ _).mono (by omega)⟩
  · split
    · exact ⟨trivial, fun _ => trivial⟩
    · next h =>
      refine ⟨by simp [R.Good], fun hp => ?_⟩
      subst hp
      simp at h

theorem fields_len : ∀ (ts : List Tok) (p : Option Acc), (fields p ts).2.length ≤ ts.length := by
  intro ts
  induction ts with
  | nil => intro p; cases p <;> simp [fields]
  | cons t r ih =>
    intro p
    cases p with
    | none =>
      simp only [fields]
      split
      · exact Nat.le_succ_of_le (ih _)
      · simp
    | some k =>
      cases t
      case ident i => simp only [fields]; exact Nat.le_succ_of_le (ih none)
      all_goals
        simp only [fields]
        split
        · exact Nat.le_succ_of_le (ih _)
        · simp

theorem orNames_good : ∀ (n : Nat) (ts : List Tok), ts.length < n → (orNames ts).Good ts.length 0 := by
  intro n
  induction n with
  | zero => intro ts h; omega
  | succ n ih =>
    intro ts h
    unfold orNames
    split
    · next s r => exact ((ih r (by simp at h; omega)).map _).mono (by simp)
    · trivial
    · simp [R.Good]

theorem inputType_good (ts : List Tok) : (inputType ts).Good ts.length 1 := by
  unfold inputType
  split
  · simp [R.Good]
  · trivial
  · next s r => exact ((orNames_good _ r (Nat.lt_succ_self _)).map _).mono (by simp)
  · trivial

theorem asClause_good (ts : List Tok) : (asClause ts).Good ts.length 1 := by
  unfold asClause
  split
  · next s r =>
    split
    · refine (inputType_good r).need fun a r' h => ?_
      simp [R.Good]
      omega
    · trivial
  · trivial

theorem inputSpec_good (X : ExprP E) (ts : List Tok) : (inputSpec X ts).Good ts.length 0 := by
  have key : ∀ (ty : Option (List Ident)) (r : List Tok), r.length ≤ ts.length →
      (match r with
        | .in_ :: r => (X.expr r).need fun e r => (asClause r).maybe r fun _ r => R.ok (ty, some e) r
        | _ => R.ok (ty, none) r).Good ts.length 0 := by
    intro ty r hr
    split
    · next r' =>
      refine (expr_good X r').need fun e r'' h => ?_
      simp at hr
      refine (asClause_good r'').maybe (Nat.le_refl _) (fun _ r h => ?_) ?_ <;> simp [R.Good] <;> omega
    · simpa [R.Good] using hr
  unfold inputSpec
  exact (asClause_good ts).maybe (Nat.le_refl _) (fun a r h => key _ _ (by omega)) (key _ _ (Nat.le_refl _))

theorem interpLoop_good (X : ExprP E) : ∀ (n : Nat) (ts : List Tok), ts.length < n →
    (interpLoop X n ts).Good ts.length 1 := by
  intro n
  induction n with
  | zero => intro ts h; omega
  | succ n ih =>
    intro ts hn
    have key : ∀ (e : Option E) (r : List Tok), r.length ≤ ts.length →
        (match r with
          | .interpPart s :: r => (interpLoop X n r).map ((e, s) :: ·)
          | .interpEnd s :: r => R.ok [(e, s)] r
          | _ => .err).Good ts.length 1 := by
      intro e r hr
      split
      · next s r' => simp at hr; exact ((ih r' (by omega)).map _).mono (by omega)
      · next s r' => simp [R.Good] at hr ⊢; omega
      · trivial
    unfold interpLoop
    exact (expr_good X ts).maybe (Nat.le_refl _) (fun a r h => key _ _ (by omega)) (key _ _ (Nat.le_refl _))

/-- optional arguments, and what is made of them -/
theorem optArgs_good (X : ExprP E) (ts : List Tok) (n d : Nat) (h : ts.length + d ≤ n) (k : Option (List E) → List Tok → R B)
    (hk : ∀ o r, r.length ≤ ts.length → (k o r).Good n d) : ((args X ts).maybe ts k).Good n d :=
  (args_good X ts).maybe (Nat.le_refl _) (fun a r h => hk _ _ (by omega)) (hk _ _ (Nat.le_refl _))

theorem newTerm_good (X : ExprP E) (ts : List Tok) : (newTerm X ts).Good ts.length 0 := by
  unfold newTerm
  split
  · next i r =>
    refine ((prefabEx_good X _ r).1).need fun p r' h => ?_
    exact optArgs_good X r' _ _ (by simp; omega) _ fun o r'' h' => by simp [R.Good]; omega
  · next r _ =>
    exact optArgs_good X r _ _ (by simp) _ fun o r'' h' => by simp [R.Good]; omega
  · next i r =>
    have := fields_len r none
    exact optArgs_good X _ _ _ (by simp; omega) _ fun o r'' h' => by simp [R.Good]; omega
  · refine ((prefabEx_good X [] ts).1).maybe (Nat.le_refl _) (fun p r h => ?_) ?_
    · exact optArgs_good X _ _ _ (by omega) _ fun o r'' h' => by simp [R.Good]; omega
    · exact optArgs_good X _ _ _ (by omega) _ fun o r'' h' => by simp [R.Good]; omega

theorem callExt_good (X : ExprP E) (ts : List Tok) : (callExt X ts).Good ts.length 0 := by
  unfold callExt
  split
  · next r =>
    refine (expr_good X r).need fun a r1 h1 => ?_
    split
    · next r2 =>
      refine (expr_good X r2).need fun b r3 h3 => ?_
      split
      · next r4 =>
        refine (args_good X r4).need fun c r5 h5 => ?_
        simp [R.Good] at h1 h3 ⊢
        omega
      · trivial
    · next r2 =>
      refine (args_good X r2).need fun c r5 h5 => ?_
      simp [R.Good] at h1 ⊢
      omega
    · trivial
  · trivial

theorem wordTerm_good (X : ExprP E) (i : Ident) (ts : List Tok) (w : Word) : (wordTerm X i ts w).Good ts.length 0 := by
  cases w <;> simp only [wordTerm]
  case new => exact newTerm_good X ts
  case callExt => exact callExt_good X ts
  case null => simp [R.Good]
  case procName => simp [R.Good]
  case typeName => simp [R.Good]
  case impliedType => simp [R.Good]
  case list => exact optArgs_good X ts _ 0 (Nat.le_refl _) _ fun o r h => by cases o <;> simpa [R.Good] using h
  case alist => exact optArgs_good X ts _ 0 (Nat.le_refl _) _ fun o r h => by cases o <;> simpa [R.Good] using h
  case call =>
    refine (args_good X ts).need fun a r h => (args_good X r).need fun b r' h' => ?_
    simp [R.Good]
    omega
  case input =>
    refine optArgs_good X ts _ 0 (Nat.le_refl _) _ fun o r h => ?_
    cases o with
    | none => simpa [R.Good] using h
    | some a => exact (inputSpec_good X r).need fun p r' h' => by simp [R.Good]; omega
  case locate =>
    refine optArgs_good X ts _ 0 (Nat.le_refl _) _ fun o r h => ?_
    cases o with
    | none => simpa [R.Good] using h
    | some a =>
      simp only
      split
      · next r' => exact (expr_good X r').need fun e r'' h' => by simp [R.Good] at h ⊢; omega
      · simpa [R.Good] using h
  case pick =>
    refine (pickArgs_good X ts).maybe (Nat.le_refl _) (fun a r h => ?_) ?_ <;> simp [R.Good] <;> omega
  case as_ =>
    split
    · next r =>
      have key : ∀ (o : Option (List Ident)) (r1 : List Tok), r1.length ≤ r.length →
          (match r1 with
            | .rparen :: r => R.ok (Term.as_ (o.getD []) : Term E) r
            | _ => .err).Good (Tok.lparen :: r).length 0 := by
        intro o r1 h
        split
        · simp [R.Good] at h ⊢; omega
        · trivial
      exact (inputType_good r).maybe (Nat.le_refl _) (fun a r1 h => key _ _ (by omega)) (key _ _ (Nat.le_refl _))
    · trivial

theorem term_good (X : ExprP E) (ts : List Tok) : (term X ts).Good ts.length 1 := by
  unfold term
  split
  · next i r =>
    split
    · exact ((wordTerm_good X i r _).map _).mono (by simp)
    · refine optArgs_good X r _ _ (by simp) _ fun o r' h => ?_
      cases o <;> simpa [R.Good] using h
  · next r => exact (args_good X r).need fun a r' h => by simp [R.Good]; omega
  · next i r => exact ((prefabEx_good X _ r).1).need fun a r' h => by simp [R.Good]; omega
  · next r _ =>
    refine optArgs_good X r _ _ (by simp) _ fun o r' h => ?_
    cases o <;> simpa [R.Good] using h
  · next i r =>
    refine optArgs_good X r _ 1 (by simp) _ fun o r' h => ?_
    cases o <;> simp [R.Good] <;> omega
  · trivial
  · simp [R.Good]
  · simp [R.Good]
  · next r _ =>
    refine (expr_good X r).need fun e r' h => ?_
    split
    · simp [R.Good] at h ⊢; omega
    · trivial
  · next s r => exact ((interpLoop_good X _ r (Nat.lt_succ_self _)).map _).mono (by simp)
  · next r =>
    exact ((prefabEx_good X [] _).2 rfl).need fun a r' h => by simpa [R.Good] using h
  · next r =>
    exact ((prefabEx_good X [] _).2 rfl).need fun a r' h => by simpa [R.Good] using h
  · trivial

theorem follow_good (X : ExprP E) (b inT : Bool) (ts : List Tok) : (follow X b inT ts).Good ts.length 1 := by
  have acc : ∀ (k : Acc) (i : Ident) (r : List Tok), (access X b k i r).Good r.length 0 := by
    intro k i r
    refine optArgs_good X r _ _ (by omega) _ fun o r' h => ?_
    cases o <;> simpa [R.Good] using h
  unfold follow
  split
  · trivial
  · next t r =>
    split
    · refine (expr_good X r).need fun e r' h => ?_
      split
      · simp [R.Good] at h ⊢; omega
      · trivial
    · split
      · trivial
      · next k _ =>
        split
        · next i r' => exact (acc k i r').mono (by simp)
        · exact (acc k [] r).mono (by simp)

theorem follows_good (X : ExprP E) (inT : Bool) : ∀ (n : Nat) (b : Bool) (ts : List Tok), ts.length < n →
    (follows X inT n b ts).Good ts.length 0 := by
  intro n
  induction n with
  | zero => intro _ ts h; omega
  | succ n ih =>
    intro b ts hn
    unfold follows
    split
    · next h =>
      cases ts with
      | nil => simp at h
      | cons t r => exact ((ih b r (by simp at hn; omega)).map _).mono (by simp)
    · split
      · next h =>
        cases ts with
        | nil => simp at h
        | cons t r => exact ((ih b r (by simp at hn; omega)).map _).mono (by simp)
      · exact (follow_good X b inT ts).maybe (Nat.le_refl _)
          (fun p r h => ((ih p.2 r (by omega)).map _).mono (by omega)) (by simp [R.Good])

theorem prefixes_len (ts : List Tok) : (prefixes ts).2.length ≤ ts.length := by
  induction ts with
  | nil => simp [prefixes]
  | cons t r ih =>
    unfold prefixes
    split
    · exact Nat.le_succ_of_le ih
    · simp

theorem group_good (X : ExprP E) (inT : Bool) (ts : List Tok) : (group X inT ts).Good ts.length 1 := by
  have := prefixes_len ts
  unfold group
  simp only
  split
  · exact (term_good X _).lead fun p r h => ((follows_good X inT _ p.2 r (Nat.lt_succ_self _)).map _).mono (by omega)
  · exact (term_good X _).need fun p r h => ((follows_good X inT _ p.2 r (Nat.lt_succ_self _)).map _).mono (by omega)

/-- **C113.** On any tokens reading a term ends, and if one is read it has at least one token and the rest is what is
left of them. -/
theorem group_ends (X : ExprP E) (inTernary : Bool) (ts : List Tok) :
    group X inTernary ts ≠ .fuel ∧ ∀ e rest, group X inTernary ts = .ok e rest → rest.length < ts.length := by
  have := group_good X inTernary ts
  refine ⟨fun h => ?_, fun e rest h => ?_⟩
  · rw [h] at this; exact this
  · rw [h] at this; exact this

/-- **C113.** Where an expression cannot begin, nothing is read and nothing is reported. -/
theorem group_stops (X : ExprP E) (inTernary : Bool) (t : Tok) (rest : List Tok) (h : stops t = true) :
    group X inTernary (t :: rest) = .nothing := by
  cases t <;> first | (simp [stops] at h; done) | rfl

/-! ## Terms inside terms -/

/-- expressions without operators between terms -/
inductive Ex where
  | base (t : Term Ex) (fs : List (Follow Ex))

def Ex.of (b : Base Ex) : Ex := .base b.term b.follow

/-- the parser of expressions without operators between terms, for texts nested up to some depth -/
def nested : Nat → ExprP Ex
  | 0 => ⟨fun _ => .nothing, nofun, nofun, fun _ _ _ => rfl⟩
  | n + 1 =>
    { expr := fun ts => (group (nested n) false ts).map Ex.of
      takes := fun ts e rest h => by
        cases hg : group (nested n) false ts with
        | ok b r =>
          rw [hg] at h
          simp only [R.map, R.ok.injEq] at h
          exact h.2 ▸ (group_ends (nested n) false ts).2 b r hg
        | _ => rw [hg] at h; cases h
      ends := fun ts h => by
        cases hg : group (nested n) false ts with
        | fuel => exact (group_ends (nested n) false ts).1 hg
        | _ => rw [hg] at h; cases h
      stop := fun t rest h => by rw [group_stops (nested n) false t rest h]; rfl }

/-- **C113.** Terms in terms, to any depth: what is written inside is read as it is outside. -/
theorem nested_reads (n : Nat) (g : GroupW Ex) (rest : List Tok) (h : g.Ok (nested n) false rest) :
    ExprW.Reads (nested (n + 1)) ⟨g.toks, .of g.val⟩ rest := by
  unfold ExprW.Reads
  simp only [nested, group_reads false g rest h, R.map]

end Verif.Term
