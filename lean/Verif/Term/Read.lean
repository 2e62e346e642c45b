import Verif.Term.Spec

/-!
# Terms are read as what they are written as
-/

namespace Verif.Term

open Verif.Objtree (Ident)
open Verif.Decl (kw)

variable {A B E : Type}

theorem NoHead.of {p : Tok → Prop} {t : Tok} {r : List Tok} (h : ¬ p t) : NoHead p (t :: r) := by
  intro x hx
  simp only [List.head?_cons, Option.some.injEq] at hx
  exact hx ▸ h

theorem reads_head {X : ExprP E} {e : ExprW E} {rest : List Tok} (h : e.Reads X rest) :
    ∃ t r, e.toks = t :: r ∧ stops t = false := by
  unfold ExprW.Reads at h
  have := X.takes _ _ _ h
  cases ht : e.toks with
  | nil => rw [ht] at this; simp at this
  | cons t r =>
    refine ⟨t, r, rfl, ?_⟩
    cases hs : stops t with
    | false => rfl
    | true =>
      rw [ht, List.cons_append, X.stop t _ hs] at h
      cases h

/-! ## Lists -/

/-- an entry that `f` reads in front of a separator or the end -/
def Entry (f : List Tok → R A) (sep close : Tok) (tk : List Tok) (a : A) : Prop :=
  (∃ t r, tk = t :: r ∧ t ≠ sep ∧ t ≠ close) ∧ ∀ t rest, t = sep ∨ t = close → f (tk ++ t :: rest) = .ok a (t :: rest)

/-- the tokens of an entry that may be empty -/
def entryToks (o : Option (List Tok × A)) : List Tok := (o.map (·.1)).getD []

theorem separated_reads {f : List Tok → R A} {sep close : Tok} (hne : sep ≠ close) (empty : Bool) :
    ∀ (l : List (Option (List Tok × A))) (n : Nat) (rest : List Tok),
      (∀ tk a, some (tk, a) ∈ l → Entry f sep close tk a) →
      (empty = true ∨ ∀ i, l[i]? = some none → i + 1 = l.length) →
      (joined sep (l.map entryToks)).length + 1 < n →
      separated sep close empty f n false
        (joined sep (l.map entryToks) ++ close :: rest) =
        .ok (l.filterMap fun o => o.map (·.2)) rest := by
  intro l
  induction l with
  | nil =>
    intro n rest _ _ hn
    cases n with
    | zero => omega
    | succ n => simp [joined, separated, entryToks]
  | cons o l ih =>
    intro n rest hl he hn
    cases n with
    | zero => omega
    | succ n =>
    cases l with
    | nil =>
      cases o with
      | none => simp [joined, separated, entryToks]
      | some p =>
        obtain ⟨⟨t, r, e, h1, h2⟩, h3⟩ := hl p.1 p.2 (by simp)
        have h3 := h3 close rest (.inr rfl)
        simp only [List.map_cons, List.map_nil, joined, entryToks, Option.map_some, Option.getD_some] at hn ⊢
        rw [e] at h3 hn ⊢
        cases n with
        | zero => simp at hn
        | succ n =>
          simp only [List.cons_append] at h3 ⊢
          simp [separated, h1, h2, h3, R.need, R.map]
    | cons o' l =>
      have ih' := ih
      have he' : empty = true ∨ ∀ i, (o' :: l)[i]? = some none → i + 1 = (o' :: l).length := by
        rcases he with h | h
        · exact .inl h
        · exact .inr fun i hi => by have := h (i + 1) (by simpa using hi); simp at this ⊢; omega
      have hl' : ∀ tk a, some (tk, a) ∈ o' :: l → Entry f sep close tk a :=
        fun tk a h => hl tk a (List.mem_cons_of_mem _ h)
      cases o with
      | none =>
        have hemp : empty = true := by
          rcases he with h | h
          · exact h
          · have := h 0 (by simp); simp at this
        have := ih' n rest hl' he' (by simp only [List.map_cons, joined, entryToks, Option.map_none, Option.getD_none, List.nil_append, List.length_cons] at hn ⊢; omega)
        have en : entryToks (none : Option (List Tok × A)) = [] := rfl
        simp only [List.map_cons, joined, en, List.nil_append, List.cons_append, separated, List.head?_cons, List.tail_cons,
          Option.some.injEq, if_neg hne, if_true, hemp, Bool.or_true, Bool.true_eq_false] at this ⊢
        rw [this]
        simp
      | some p =>
        obtain ⟨⟨t, r, e, h1, h2⟩, h3⟩ := hl p.1 p.2 (by simp)
        have ep : entryToks (some p) = p.1 := rfl
        have h3 := h3 sep (joined sep ((o' :: l).map entryToks) ++ close :: rest)
          (.inl rfl)
        rw [e] at h3
        simp only [List.map_cons, joined, ep, e, List.cons_append, List.append_assoc, List.length_cons, List.length_append]
          at hn h3 ⊢
        cases n with
        | zero => omega
        | succ n =>
          have := ih' n rest hl' he' (by simp only [List.map_cons]; omega)
          simp only [List.map_cons] at this
          rw [separated]
          simp only [List.head?_cons, Option.some.injEq, if_neg h1, if_neg h2, Bool.false_eq_true, if_false, h3, R.need]
          rw [separated]
          simp only [List.head?_cons, Option.some.injEq, if_neg hne, if_true, Bool.true_or, List.tail_cons, this, R.map]
          simp

theorem args_reads {X : ExprP E} (a : ArgsW E) (h : a.Ok X) (rest : List Tok) :
    args X (a.toks ++ rest) = .ok a.val rest := by
  have e : (a.map fun o => (o.map (·.toks)).getD []) =
      (a.map fun o => o.map fun e => (e.toks, e.val)).map entryToks := by
    rw [List.map_map]
    congr 1
    funext o
    cases o <;> rfl
  unfold ArgsW.toks args
  simp only [List.cons_append, List.append_assoc, List.nil_append]
  rw [e, separated_reads (by decide) true _ _ rest _ (.inl rfl) (by simp)]
  · congr 1
    unfold ArgsW.val
    rw [List.filterMap_map]
    congr 1
    funext o
    cases o <;> rfl
  · intro tk v hm
    simp only [List.mem_map, Option.map_eq_some_iff, Prod.mk.injEq] at hm
    obtain ⟨o, ho, e', rfl, rfl, rfl⟩ := hm
    have := h e' ho
    refine ⟨?_, ?_⟩
    · obtain ⟨t, r, h1, h2⟩ := reads_head (this .comma (by simp) [])
      exact ⟨t, r, h1, (by rintro rfl; cases h2), (by rintro rfl; cases h2)⟩
    · rintro t rest (rfl | rfl)
      · exact this _ (by simp) rest
      · exact this _ (by simp) rest

theorem pick_reads {X : ExprP E} (ps : List (PickW E)) (t : Bool) (h : ∀ p ∈ ps, p.Ok X) (rest : List Tok) :
    pickArgs X (pickToks ps t ++ rest) = .ok (ps.map PickW.val) rest := by
  have e : joined .comma (ps.map PickW.toks ++ if t then [[]] else []) = joined .comma
      ((ps.map (fun x : PickW E => (some (x.toks, x.val) : Option (List Tok × (Option E × E)))) ++
        if t then [none] else []).map entryToks) := by
    congr 1
    cases t <;> simp [entryToks]
  unfold pickToks pickArgs
  simp only [List.cons_append, List.append_assoc, List.nil_append]
  rw [e, separated_reads (by decide) false _ _ rest _ (.inr _) (by simp)]
  · congr 1
    cases t <;> simp [List.filterMap_append, List.filterMap_map]
  · intro tk v hm
    simp only [List.mem_append, List.mem_map, Option.some.injEq, Prod.mk.injEq] at hm
    rcases hm with ⟨p, hp, rfl, rfl⟩ | hm
    · obtain ⟨h1, h2⟩ := h p hp
      cases hw : p.weight with
      | none =>
        refine ⟨?_, ?_⟩
        · obtain ⟨t, r, h3, h4⟩ := reads_head (h1 .comma (by simp) [])
          exact ⟨t, r, by simp [PickW.toks, hw, h3], (by rintro rfl; cases h4), (by rintro rfl; cases h4)⟩
        · intro t rest ht
          have h1 := h1 t (by simpa using ht) rest
          unfold ExprW.Reads at h1
          simp only [PickW.toks, hw, List.nil_append, pickEntry, h1, R.lead, PickW.val, Option.map_none]
          rcases ht with rfl | rfl <;> rfl
      | some w =>
        have h2 := h2 w hw
        refine ⟨?_, ?_⟩
        · obtain ⟨t, r, h3, h4⟩ := reads_head (h2 .semi (by simp) [])
          exact ⟨t, r ++ [.semi] ++ p.item.toks, by simp [PickW.toks, hw, h3], (by rintro rfl; cases h4),
            (by rintro rfl; cases h4)⟩
        · intro t rest ht
          have h1 := h1 t (by simpa using ht) rest
          have h2 := h2 .semi (by simp) (p.item.toks ++ t :: rest)
          unfold ExprW.Reads at h1 h2
          simp only [PickW.toks, hw, List.append_assoc, List.cons_append, List.nil_append, pickEntry, h2, h1, R.lead,
            R.need, PickW.val, Option.map_some]
    · cases t <;> simp at hm
  · intro i hi
    cases t with
    | false =>
      simp only [Bool.false_eq_true, if_false, List.append_nil, List.getElem?_map, Option.map_eq_some_iff] at hi
      obtain ⟨_, _, h⟩ := hi
      cases h
    | true =>
      by_cases hlt : i < ps.length
      · rw [List.getElem?_append_left (by simpa using hlt)] at hi
        simp only [List.getElem?_map, Option.map_eq_some_iff] at hi
        obtain ⟨_, _, h⟩ := hi
        cases h
      · have : i < _ := (List.getElem?_eq_some_iff.1 hi).1
        simp at this ⊢
        omega

/-! ## Paths -/

theorem sepOf_sepTok (s : Sep) : sepOf (sepTok s) = some s := by cases s <;> rfl

theorem segs_sepTok (p : Option Sep) (s : Sep) (r : List Tok) : segs p (sepTok s :: r) = segs (some s) r := by
  cases s <;> cases p <;> simp [segs, sepTok, sepOf]

theorem segs_reads : ∀ (more : List SegW) (first : SegW) (rest : List Tok),
    NoHead (fun t => t ∈ [.slash, .dot, .closeColon] ∨
      (((first :: more).getLast (by simp)).2 = none ∧ ∃ i, t = .ident i)) rest →
    segs (some first.1) ((nameToks first.2 ++ more.flatMap SegW.toks) ++ rest) =
      ((first :: more).filterMap SegW.val, rest) := by
  intro more
  induction more with
  | nil =>
    intro first rest h
    obtain ⟨s, o⟩ := first
    have key : ∀ p, (p = none ∨ (p = some s ∧ o = none)) → segs p rest = ([], rest) := by
      intro p hp
      cases rest with
      | nil => cases p <;> rfl
      | cons t r =>
        have := h t rfl
        simp only [List.mem_cons, List.not_mem_nil, or_false, List.getLast_singleton, not_or, not_and, not_exists] at this
        obtain ⟨⟨a1, a2, a3⟩, a4⟩ := this
        have hs : sepOf t = none := by cases t <;> simp_all [sepOf]
        rcases hp with rfl | ⟨rfl, ho⟩
        · simp [segs, hs]
        · have a4 := a4 ho
          cases t <;> first | (simp [segs, hs]; done) | exact absurd rfl (a4 _)
    cases o with
    | none => simp [SegW.val, nameToks, key (some s) (.inr ⟨rfl, rfl⟩)]
    | some i => simp [SegW.val, nameToks, segs, key none (.inl rfl)]
  | cons m more ih =>
    intro first rest h
    obtain ⟨s, o⟩ := first
    have ih := ih m rest (by simpa using h)
    have key : ∀ p, segs p ((m :: more).flatMap SegW.toks ++ rest) = ((m :: more).filterMap SegW.val, rest) := by
      intro p
      simp only [List.flatMap_cons, SegW.toks, List.cons_append, List.append_assoc]
      rw [segs_sepTok]
      simpa [List.append_assoc] using ih
    cases o with
    | none =>
      simp only [nameToks, List.nil_append, key]
      rfl
    | some i =>
      simp only [nameToks, List.cons_append, List.nil_append, segs, key]
      simp [SegW.val]

theorem vars_reads {X : ExprP E} (v : VarsW E) (h : v.Ok X) (path : List (Sep × Ident)) (rest : List Tok) :
    vars X path (v.toks ++ rest) = .ok ⟨path, v.val⟩ rest := by
  have e : (v.map fun o => (o.map fun p => Tok.ident p.1 :: .assign :: p.2.toks).getD []) =
      (v.map fun o => o.map fun p => (Tok.ident p.1 :: .assign :: p.2.toks, (p.1, p.2.val))).map entryToks := by
    rw [List.map_map]
    congr 1
    funext o
    rcases o with _ | ⟨k, e⟩ <;> rfl
  unfold VarsW.toks vars
  simp only [List.cons_append, List.append_assoc, List.nil_append]
  rw [e, separated_reads (by decide) true _ _ rest _ (.inl rfl) (by simp)]
  · simp only [R.map]
    congr 2
    unfold VarsW.val
    rw [List.filterMap_map]
    congr 1
    funext o
    rcases o with _ | ⟨k, e⟩ <;> rfl
  · intro tk a hm
    simp only [List.mem_map, Option.map_eq_some_iff, Prod.mk.injEq] at hm
    obtain ⟨o, ho, ⟨k, e'⟩, rfl, rfl, rfl⟩ := hm
    have := h k e' ho
    refine ⟨⟨_, _, rfl, nofun, nofun⟩, ?_⟩
    intro t rest ht
    have := this t (by simpa using ht) rest
    unfold ExprW.Reads at this
    simp only [List.cons_append, varEntry, this, R.need]

theorem tail_reads {X : ExprP E} (p : TailW E) (parts : List (Sep × Ident)) (rest : List Tok) (h : p.Ok X rest) :
    prefabEx X parts (p.toks ++ rest) = .ok (p.val parts) rest := by
  obtain ⟨first, more, vs⟩ := p
  have hs : ∀ rest', NoHead (fun t => t ∈ [.slash, .dot, .closeColon] ∨
      (((first :: more).getLast (by simp)).2 = none ∧ ∃ i, t = .ident i)) rest' →
      prefabEx X parts ((first :: more).flatMap SegW.toks ++ rest') =
        vars X (match parts ++ (first :: more).filterMap SegW.val with
          | [] => [(.slash, kw "__PARSE_ERROR__")]
          | l => l) rest' := by
    intro rest' hr
    have := segs_reads more first rest' hr
    unfold prefabEx
    simp only [List.flatMap_cons, SegW.toks, List.cons_append, List.head?_cons, Option.bind_some, sepOf_sepTok,
      List.tail_cons]
    rw [this]
    congr 1
    cases parts ++ (first :: more).filterMap SegW.val <;> rfl
  unfold TailW.toks TailW.val
  cases vs with
  | none =>
    simp only [TailW.Ok] at h
    simp only [List.append_nil]
    rw [hs rest (fun t ht => by
      have := h t ht
      simp only [List.mem_cons, not_or, not_and, TailW.Open] at this ⊢
      exact ⟨this.1.2, this.2⟩)]
    cases rest with
    | nil => rfl
    | cons t r =>
      have := h t rfl
      cases t <;> first | rfl | simp at this
  | some v =>
    simp only [TailW.Ok] at h
    simp only [List.append_assoc]
    rw [hs (v.toks ++ rest) (by
      unfold VarsW.toks
      exact NoHead.of (by simp))]
    rw [vars_reads v h]
    rfl

theorem path_reads {X : ExprP E} (p : PathW E) (rest : List Tok) (h : p.Ok X rest) :
    (match p with
      | .dot i => prefabEx X [(.dot, i)] rest
      | .dotMore i p => prefabEx X [(.dot, i)] (p.toks ++ rest)
      | .from_ p => prefabEx X [] (p.toks ++ rest)) = .ok p.val rest := by
  cases p with
  | dot i =>
    simp only [PathW.Ok] at h
    cases rest with
    | nil => rfl
    | cons t r =>
      have := h t rfl
      simp only [prefabEx, List.head?_cons, Option.bind_some, PathW.val]
      have : sepOf t = none := by cases t <;> simp_all [sepOf]
      simp [this]
  | dotMore i p => exact tail_reads p _ rest h
  | from_ p => exact tail_reads p _ rest h.2

theorem maybe_ok (a : A) (r ts : List Tok) (k : Option A → List Tok → R B) : (R.ok a r).maybe ts k = k (some a) r := rfl
theorem maybe_nothing (ts : List Tok) (k : Option A → List Tok → R B) : (R.nothing : R A).maybe ts k = k none ts := rfl

/-! ## Terms -/

theorem orNames_reads (more : List Ident) (rest : List Tok) (h : NoHead (· = .bitOr) rest) :
    orNames (more.flatMap (fun j => [.bitOr, .ident j]) ++ rest) = .ok more rest := by
  induction more with
  | nil =>
    cases rest with
    | nil => rfl
    | cons t r =>
      have := h t rfl
      cases t <;> first | rfl | exact absurd rfl this
  | cons j more ih =>
    simp only [List.flatMap_cons, List.cons_append, List.nil_append, orNames, ih, R.map]

theorem type_reads (t : TypeW) (rest : List Tok) (h : NoHead (· = .bitOr) rest) :
    inputType (t.toks ++ rest) = .ok t.val rest := by
  cases t with
  | parens => rfl
  | names i more =>
    simp only [TypeW.toks, List.cons_append, inputType, orNames_reads more rest h, R.map, TypeW.val]

theorem args_none {X : ExprP E} {rest : List Tok} (h : NoHead (· = .lparen) rest) : args X rest = .nothing := by
  cases rest with
  | nil => rfl
  | cons t r =>
    have := h t rfl
    cases t <;> first | rfl | exact absurd rfl this

theorem pickArgs_none {X : ExprP E} {rest : List Tok} (h : NoHead (· = .lparen) rest) : pickArgs X rest = .nothing := by
  cases rest with
  | nil => rfl
  | cons t r =>
    have := h t rfl
    cases t <;> first | rfl | exact absurd rfl this

theorem opt_reads {X : ExprP E} (a : Option (ArgsW E)) (rest : List Tok) (h : OptOk X a rest)
    (k : Option (List E) → List Tok → R B) :
    (args X (optToks a ++ rest)).maybe (optToks a ++ rest) k = k (optVal a) rest := by
  cases a with
  | none => simp only [optToks, List.nil_append, args_none h, R.maybe, optVal, Option.map_none]
  | some a => simp only [optToks, args_reads a h rest, R.maybe, optVal, Option.map_some]

theorem asClause_none {rest : List Tok} (h : NoHead (fun t => t = .ident (kw "as")) rest) : asClause rest = .nothing := by
  cases rest with
  | nil => rfl
  | cons t r =>
    have := h t rfl
    cases t <;> first | rfl | skip
    next s =>
      have : s ≠ kw "as" := fun hs => this (by rw [hs])
      simp [asClause, this]

theorem asClause_reads (t : TypeW) (rest : List Tok) (h : NoHead (· = .bitOr) rest) :
    asClause (.ident (kw "as") :: (t.toks ++ rest)) = .ok t.val rest := by
  simp [asClause, type_reads t rest h, R.need]

theorem inputSpec_reads {X : ExprP E} (t : Option TypeW) (e : Option (ExprW E)) (rest : List Tok)
    (hi : InOk X e rest) (ha : NoHead (fun t => t = .ident (kw "as")) rest)
    (ho : t ≠ none → e = none → NoHead (· = .bitOr) rest) :
    inputSpec X (asToks t ++ (inToks e ++ rest)) =
      .ok (t.map TypeW.val, e.map (·.val)) rest := by
  have key : ∀ ty : Option (List Ident),
      (match inToks e ++ rest with
      | .in_ :: r => (X.expr r).need fun e r => (asClause r).maybe r fun _ r => R.ok (ty, some e) r
      | _ => R.ok (ty, none) (inToks e ++ rest)) = .ok (ty, e.map (·.val)) rest := by
    intro ty
    cases e with
    | none =>
      simp only [inToks, List.nil_append, Option.map_none]
      cases rest with
      | nil => rfl
      | cons t r =>
        have := hi t rfl
        cases t <;> first | rfl | exact absurd rfl this
    | some e =>
      simp only [InOk, ExprW.Reads] at hi
      simp only [inToks, List.cons_append, hi, R.need, asClause_none ha, R.maybe, Option.map_some]
  unfold inputSpec
  cases t with
  | none =>
    have hn : asClause (inToks e ++ rest) = .nothing := by
      cases e with
      | none => exact asClause_none ha
      | some e => rfl
    simp only [asToks, List.nil_append, hn, maybe_nothing, Option.map_none]
    exact key none
  | some t =>
    have hb : NoHead (· = .bitOr) (inToks e ++ rest) := by
      cases e with
      | none => exact ho (by simp) rfl
      | some e => exact NoHead.of (by simp)
    simp only [asToks, List.cons_append, asClause_reads t _ hb, maybe_ok, Option.map_some]
    exact key _

theorem interp_reads {X : ExprP E} (last : Option (ExprW E) × Ident) (rest : List Tok)
    (hl : ∀ e, last.1 = some e → e.ReadsAt X [.interpEnd last.2]) :
    ∀ (mid : List (Option (ExprW E) × Ident)) (n : Nat), mid.length < n →
      (∀ e s, (some e, s) ∈ mid → e.ReadsAt X [.interpPart s]) →
      interpLoop X n (mid.flatMap (fun p => partToks p (.interpPart p.2)) ++ (partToks last (.interpEnd last.2) ++ rest)) =
        .ok ((mid ++ [last]).map fun p => (p.1.map (·.val), p.2)) rest := by
  intro mid
  induction mid with
  | nil =>
    intro n hn _
    cases n with
    | zero => omega
    | succ n =>
      obtain ⟨o, s⟩ := last
      cases o with
      | none =>
        simp only [List.flatMap_nil, List.nil_append, partToks, List.cons_append, interpLoop, X.stop (.interpEnd s) _ rfl,
          R.maybe, List.map_cons, List.map_nil, Option.map_none]
      | some e =>
        have := hl e rfl (.interpEnd s) (by simp) rest
        unfold ExprW.Reads at this
        simp only [List.flatMap_nil, List.nil_append, partToks, List.cons_append, List.append_assoc, interpLoop, this,
          R.maybe, List.map_cons, List.map_nil, Option.map_some]
  | cons p mid ih =>
    intro n hn hm
    cases n with
    | zero => omega
    | succ n =>
      have ih := ih n (by simp at hn; omega) (fun e s h => hm e s (List.mem_cons_of_mem _ h))
      obtain ⟨o, s⟩ := p
      cases o with
      | none =>
        simp only [List.flatMap_cons, partToks, List.cons_append, List.nil_append, interpLoop,
          X.stop (.interpPart s) _ rfl, R.maybe] at ih ⊢
        rw [ih]
        rfl
      | some e =>
        have := hm e s (by simp) (.interpPart s) (by simp) (mid.flatMap (fun p => partToks p (.interpPart p.2)) ++
          (partToks last (.interpEnd last.2) ++ rest))
        unfold ExprW.Reads at this
        simp only [List.flatMap_cons, partToks, List.cons_append, List.nil_append, List.append_assoc, interpLoop,
          R.maybe] at this ih ⊢
        rw [this]
        simp only
        rw [ih]
        rfl

theorem fields_reads : ∀ (fs : List (Acc × Ident)) (rest : List Tok), (∀ f ∈ fs, f.1 ≠ .scope) →
    NoHead (· ∈ [.dot, .closeColon, .safeDot, .safeColon]) rest →
    fields none (fs.flatMap (fun f => [accTok f.1, .ident f.2]) ++ rest) = (fs, rest) := by
  intro fs
  induction fs with
  | nil =>
    intro rest _ h
    cases rest with
    | nil => rfl
    | cons t r =>
      have := h t rfl
      have : fieldKind t = none := by cases t <;> simp_all [fieldKind]
      simp [fields, this]
  | cons f fs ih =>
    intro rest hf h
    obtain ⟨k, i⟩ := f
    have hk := hf (k, i) (by simp)
    have ih := ih rest (fun f h => hf f (List.mem_cons_of_mem _ h)) h
    have e : ∀ t : Tok, fieldKind t = some k → fields none (t :: .ident i ::
      (fs.flatMap (fun f => [accTok f.1, .ident f.2]) ++ rest)) = ((k, i) :: fs, rest) := by
      intro t ht
      simp only [fields, ht, ih]
    exact e (accTok k) (by cases k <;> first | rfl | exact absurd rfl hk)

theorem words : wordOf (kw "new") = some .new ∧ wordOf (kw "list") = some .list ∧ wordOf (kw "alist") = some .alist ∧
    wordOf (kw "call") = some .call ∧ wordOf (kw "call_ext") = some .callExt ∧ wordOf (kw "input") = some .input ∧
    wordOf (kw "locate") = some .locate ∧ wordOf (kw "pick") = some .pick ∧ wordOf (kw "null") = some .null ∧
    wordOf (kw "as") = some .as_ ∧ wordOf (kw "__PROC__") = some .procName ∧ wordOf (kw "__TYPE__") = some .typeName ∧
    wordOf (kw "__IMPLIED_TYPE__") = some .impliedType := by decide +kernel

theorem term_reads {X : ExprP E} (t : TermW E) (rest : List Tok) (h : t.Ok X rest) :
    term X (t.toks ++ rest) = .ok (t.val, t.named) rest := by
  obtain ⟨w1, w2, w3, w4, w5, w6, w7, w8, w9, w10, w11, w12, w13⟩ := words
  cases t with
  | null => simp only [TermW.toks, List.cons_append, List.nil_append, term, w9, wordTerm, R.map]; rfl
  | procName => simp only [TermW.toks, List.cons_append, List.nil_append, term, w11, wordTerm, R.map]; rfl
  | typeName => simp only [TermW.toks, List.cons_append, List.nil_append, term, w12, wordTerm, R.map]; rfl
  | impliedType => simp only [TermW.toks, List.cons_append, List.nil_append, term, w13, wordTerm, R.map]; rfl
  | nullParens => rfl
  | lit l => rfl
  | ident i =>
    simp only [TermW.toks, List.cons_append, List.nil_append, term, h.1, args_none h.2, R.maybe]
    rfl
  | wordIdent w =>
    obtain ⟨h1, h2⟩ := h
    cases w <;> first | (simp [Word.name] at h1; done) | skip
    all_goals
      simp only [TermW.toks, Word.name, Option.getD_some, List.cons_append, List.nil_append, term, w2, w3, w6, w7, w8,
        wordTerm, args_none h2, pickArgs_none h2, R.maybe, R.map]
      rfl
  | dot =>
    simp only [TermW.Ok] at h
    cases rest with
    | nil => rfl
    | cons t r =>
      have := h t rfl
      cases t <;> first | rfl | simp at this
  | as_ t =>
    cases t with
    | none => 
      simp only [TermW.toks, List.cons_append, List.nil_append, term, w10, wordTerm, inputType, R.maybe, R.map]
      rfl
    | some t =>
      simp only [TermW.toks, List.cons_append, List.nil_append, List.append_assoc, term, w10, wordTerm,
        type_reads t (.rparen :: rest) (NoHead.of (by simp)), R.maybe, R.map]
      rfl
  | parens e =>
    obtain ⟨t, r, h1, h2⟩ := reads_head (h .rparen (by simp) [])
    have := h .rparen (by simp) rest
    unfold ExprW.Reads at this
    simp only [TermW.toks, List.cons_append, List.append_assoc, List.nil_append, h1] at this ⊢
    unfold term
    split <;> simp_all [stops, R.need, TermW.val, TermW.named]
  | path p =>
    have hp := path_reads p rest h
    cases p with
    | dot i =>
      simp only [TermW.toks, PathW.toks, List.cons_append, List.nil_append, term] at hp ⊢
      rw [hp]; rfl
    | dotMore i p =>
      simp only [TermW.toks, PathW.toks, List.cons_append, List.nil_append, term] at hp ⊢
      rw [hp]; rfl
    | from_ p =>
      obtain ⟨⟨s, o⟩, more, vs⟩ := p
      have hs := h.1
      simp only [TermW.toks, PathW.toks, TailW.toks, List.flatMap_cons, SegW.toks, List.cons_append] at hp ⊢
      cases s <;> first | exact absurd rfl hs | (simp only [sepTok, term] at hp ⊢; rw [hp]; rfl)
  | interp s mid last =>
    have := interp_reads last rest h.2 mid
    simp only [TermW.toks, List.cons_append, List.append_assoc, term]
    rw [this _ ?_ h.1]
    · rfl
    · have : mid.length ≤ (mid.flatMap (fun p => partToks p (.interpPart p.2))).length := by
        clear h this
        induction mid with
        | nil => simp
        | cons p mid ih =>
          simp only [List.flatMap_cons, List.length_append, List.length_cons, partToks, List.length_nil] at ih ⊢
          omega
      simp only [List.length_append]
      omega
  | call f a => simp only [TermW.toks, List.cons_append, term, h.1, args_reads a h.2, R.maybe]; rfl
  | selfCall a =>
    have := args_reads a h rest
    simp only [TermW.toks, ArgsW.toks, List.cons_append, term] at this ⊢
    simp only [this, R.maybe]; rfl
  | parentCall a => simp only [TermW.toks, List.cons_append, term, args_reads a h, R.need]; rfl
  | newImplicit a =>
    obtain ⟨h1, h2⟩ := h
    have hp : newTerm X (optToks a ++ rest) = .ok (.newImplicit (optVal a)) rest := by
      have key : ∀ ts : List Tok, NoHead (fun t => t ∈ [.slash, .dot, .closeColon] ∨ ∃ i, t = .ident i) ts →
          newTerm X ts = (args X ts).maybe ts fun a r => .ok (.newImplicit a) r := by
        intro ts h
        cases ts with
        | nil => rfl
        | cons t r =>
          have := h t rfl
          cases t <;> first | rfl | simp at this
      rw [key, opt_reads a rest h1]
      cases a with
      | none => exact h2 rfl
      | some a => exact NoHead.of (by simp)
    simp only [TermW.toks, List.cons_append, term, w1, wordTerm, hp, R.map]
    rfl
  | newPath p a =>
    obtain ⟨h1, h2⟩ := h
    have hp := path_reads p _ h1
    have : newTerm X (p.toks ++ (optToks a ++ rest)) = .ok (.newPrefab p.val (optVal a)) rest := by
      cases p with
      | dot i =>
        simp only [PathW.toks, List.cons_append, List.nil_append, newTerm] at hp ⊢
        rw [hp]
        simp only [R.need]
        rw [opt_reads a rest h2]
      | dotMore i p =>
        simp only [PathW.toks, List.cons_append, List.nil_append, newTerm] at hp ⊢
        rw [hp]
        simp only [R.need]
        rw [opt_reads a rest h2]
      | from_ p =>
        obtain ⟨⟨s, o⟩, more, vs⟩ := p
        have hs := h1.1
        simp only [PathW.toks, TailW.toks, List.flatMap_cons, SegW.toks, List.cons_append] at hp ⊢
        cases s <;> first | exact absurd rfl hs | (simp only [sepTok, newTerm] at hp ⊢; rw [hp]; simp only [maybe_ok]; rw [opt_reads a rest h2])
    simp only [TermW.toks, List.cons_append, List.append_assoc, term, w1, wordTerm, this, R.map]
    rfl
  | newMini i fs a =>
    obtain ⟨h1, h2, h3⟩ := h
    have hf := fields_reads fs (optToks a ++ rest) h1 (by
      cases a with
      | none => exact h3 rfl
      | some a => exact NoHead.of (by simp))
    simp only [TermW.toks, List.cons_append, List.append_assoc, term, w1, wordTerm, newTerm, hf]
    rw [opt_reads a rest h2]
    rfl
  | newDot a =>
    obtain ⟨h1, h2⟩ := h
    have : newTerm X (.dot :: (optToks a ++ rest)) = .ok (.newMini (kw ".") [] (optVal a)) rest := by
      have key : ∀ ts : List Tok, NoHead (fun t => ∃ i, t = .ident i) ts →
          newTerm X (.dot :: ts) = (args X ts).maybe ts fun a r => .ok (.newMini (kw ".") [] a) r := by
        intro ts h
        cases ts with
        | nil => rfl
        | cons t r =>
          have := h t rfl
          cases t <;> first | rfl | simp at this
      rw [key, opt_reads a rest h1]
      cases a with
      | none => exact h2 rfl
      | some a => exact NoHead.of (by simp)
    simp only [TermW.toks, List.cons_append, term, w1, wordTerm, this, R.map]
    rfl
  | list b a =>
    cases b <;>
      simp only [TermW.toks, if_true, Bool.false_eq_true, if_false, List.cons_append, term, w2, w3, wordTerm,
        args_reads a h, R.maybe, R.map] <;> rfl
  | input a t e =>
    obtain ⟨h1, h2, h3, h4⟩ := h
    simp only [TermW.toks, List.cons_append, List.append_assoc, term, w6, wordTerm, args_reads a h1, R.maybe]
    have := inputSpec_reads t e rest h2 h3 h4
    rw [this]
    rfl
  | locate a e =>
    obtain ⟨h1, h2⟩ := h
    simp only [TermW.toks, List.cons_append, List.append_assoc, term, w7, wordTerm, args_reads a h1, R.maybe]
    cases e with
    | none =>
      simp only [inToks, List.nil_append]
      cases rest with
      | nil => rfl
      | cons t r =>
        have := h2 t rfl
        cases t <;> first | rfl | exact absurd rfl this
    | some e =>
      simp only [InOk, ExprW.Reads] at h2
      simp only [inToks, List.cons_append, h2, R.need, R.map]
      rfl
  | pick ps t => simp only [TermW.toks, List.cons_append, term, w8, wordTerm, pick_reads ps t h, R.maybe, R.map]; rfl
  | dynamicCall a b =>
    simp only [TermW.toks, List.cons_append, List.append_assoc, term, w4, wordTerm, args_reads a h.1, args_reads b h.2,
      R.need, R.map]
    rfl
  | externalCall l f a =>
    obtain ⟨h1, h2, h3⟩ := h
    have h2 := h2 .rparen (by simp) (a.toks ++ rest)
    unfold ExprW.Reads at h2
    cases l with
    | none =>
      simp only [TermW.toks, List.cons_append, List.nil_append, List.append_assoc, term, w5, wordTerm, callExt, h2, R.need,
        args_reads a h3, R.map]
      rfl
    | some l =>
      have h1 := h1 l rfl .comma (by simp) (f.toks ++ .rparen :: (a.toks ++ rest))
      unfold ExprW.Reads at h1
      simp only [TermW.toks, List.cons_append, List.nil_append, List.append_assoc, term, w5, wordTerm, callExt, h1, h2,
        R.need, args_reads a h3, R.map]
      rfl
  | globalCall f a => simp only [TermW.toks, List.cons_append, term, args_reads a h, R.maybe]; rfl
  | globalIdent i =>
    simp only [TermW.toks, List.cons_append, List.nil_append, term, args_none h, R.maybe]; rfl

end Verif.Term
