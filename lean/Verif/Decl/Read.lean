import Verif.Decl.Place

/-!
# Entries are read as they are written
-/

namespace Verif.Decl

open Verif.Objtree (Ident Builder mget)

variable {E C : Type}

theorem start_ok {v : Env E C} (hv : v.Sound) {ctx : List Ident} {pos : Pos} (h : PosOk v ctx pos) (p : PathW)
    (hp : PathOk ctx p) :
    PosOk v (if p.abs then [] else ctx) (start pos p.abs).1 ∧ (start pos p.abs).2 = nested ctx p := by
  have hcur : pos.cur ≠ 0 ↔ (read ctx).1 ≠ [] := by
    constructor
    · intro hc he
      have h1 := h.1
      rw [he] at h1
      simp only [lookup, Option.some.injEq] at h1
      exact hc h1.symm
    · intro he
      exact (lookup_valid hv _ _ _ hv.1 h.1).2 he
  cases ha : p.abs
  · simp only [Bool.false_eq_true, if_false]
    refine ⟨by simpa [start] using h, by simp [start, nested, ha]⟩
  · have hm := hp ha
    obtain ⟨h1, h2, h3⟩ := h
    rw [hm] at h2 h3
    simp only at h3
    simp only [if_true]
    unfold start nested
    rw [ha]
    simp only [true_and, hcur]
    by_cases hc : (read ctx).1 = []
    · have h0 : pos.cur = 0 := by
        by_contra h'
        exact hcur.1 h' hc
      simp only [hc, ne_eq, not_true_eq_false, if_false, and_true]
      exact ⟨by simp [read, lookup, h0], h2, by simpa [read] using h3⟩
    · simp only [hc, ne_eq, not_false_eq_true, if_true, and_true]
      exact ⟨by simp [read, lookup], h2, by simpa [read] using h3⟩

theorem parsed_split (p : PathW) : ∃ l, p.parsed = p.dirs ++ [l] ∧
    l = (if p.trail = true ∧ p.last = kw "operator" then kw "operator/" else p.last) := by
  unfold PathW.parsed PathW.names
  split <;> exact ⟨_, rfl, rfl⟩

theorem dir_eq (ctx : List Ident) (p : PathW) : dir ctx p = (if p.abs then [] else ctx) ++ p.dirs := by
  unfold dir
  split <;> simp

theorem full_eq (ctx : List Ident) (p : PathW) : full ctx p = dir ctx p ++ [p.last] := by
  unfold full dir PathW.names
  split <;> simp

/-- the path of an entry is followed to where its full name leads -/
theorem head_ok {X : Parsers E C} {v : Env E C} (hv : v.Sound) {ctx : List Ident} {pos : Pos} (h : PosOk v ctx pos)
    (p : PathW) (hp : PathOk ctx p) (hpl : (read (dir ctx p)).2.plain) :
    ∃ v' pos', PosOk v' (dir ctx p) pos' ∧ v'.Sound ∧ Ext v v' ∧
      place v 0 (read (dir ctx p)).1 = some (v', pos'.cur) ∧
      ∀ rest last r suf r', NotSep rest → (p.trail = true → NotIdent rest) →
        operatorName (if p.trail = true ∧ p.last = kw "operator" then kw "operator/" else p.last) rest = some (last, r) →
        suffixIf X pos'.vt.isSome r = some (suf, r') →
        entryHead X v pos (p.toks ++ rest) = .at v' pos' last suf r' (nested ctx p) := by
  obtain ⟨h1, h2⟩ := start_ok hv h p hp
  rw [dir_eq] at hpl ⊢
  obtain ⟨v', pos', s1, p1, so1, e1, pl1⟩ := steps_ok hv p.dirs h1 hpl
  refine ⟨v', pos', p1, so1, e1, pl1, ?_⟩
  intro rest last r suf r' hs hi ho hsuf
  obtain ⟨l, hl, hle⟩ := parsed_split p
  unfold entryHead
  rw [treePath_toks p rest hs hi]
  simp only [hl, List.getLast?_concat, List.dropLast_concat, s1]
  rw [← hle] at ho
  simp only [ho, hsuf, h2, List.nil_append, List.append_nil]

/-- what may come after an entry that does not end by itself -/
def Tail : List Tok → Prop
  | .semi :: _ | .rbrace :: _ => True
  | _ => False

theorem Tail.cases {ts : List Tok} (h : Tail ts) : ∃ r, ts = .semi :: r ∨ ts = .rbrace :: r := by
  unfold Tail at h
  split at h
  · exact ⟨_, .inl rfl⟩
  · exact ⟨_, .inr rfl⟩
  · cases h

theorem Tail.ends {ts : List Tok} (h : Tail ts) : Ends ts := by
  obtain ⟨r, rfl | rfl⟩ := h.cases <;> exact trivial

theorem Tail.terminator {ts : List Tok} (h : Tail ts) : ∃ r, terminator ts = some r ∧ (r = ts ∨ ts = .semi :: r) := by
  obtain ⟨r, rfl | rfl⟩ := h.cases
  · exact ⟨r, rfl, .inr rfl⟩
  · exact ⟨_, rfl, .inl rfl⟩

theorem operatorName_other {last : Ident} (h : last ≠ kw "operator") (ts : List Tok) :
    operatorName last ts = some (last, ts) := by
  rw [operatorName.eq_def, if_neg h]

theorem operatorName_plain (last : Ident) (t : Tok) (ts : List Tok) (h1 : t.sym = none) (h2 : t ≠ .lbracket)
    (h3 : t ≠ .emptyStr) : operatorName last (t :: ts) = some (last, t :: ts) := by
  rw [operatorName.eq_def]
  split
  · cases t <;> simp [Tok.sym] at h1 h2 h3 ⊢
  · rfl

theorem not_trail_operator {p : PathW} (h : p.NotOp) :
    (if p.trail = true ∧ p.last = kw "operator" then kw "operator/" else p.last) = p.last := by
  rw [if_neg]
  exact fun hh => h hh.1 hh.2

theorem path_ne_nil (p : PathW) (rest : List Tok) : p.toks ++ rest ≠ [] := by
  obtain ⟨abs, dirs, last, trail⟩ := p
  simp [PathW.toks]

theorem path_start (p : PathW) (rest : List Tok) : ∃ t r, p.toks ++ rest = t :: r ∧ t ≠ .semi ∧ t ≠ .rbrace := by
  obtain ⟨abs, dirs, last, trail⟩ := p
  cases abs
  · cases dirs
    · exact ⟨.ident last, _, rfl, by simp, by simp⟩
    · exact ⟨_, _, rfl, by simp, by simp⟩
  · exact ⟨.slash, _, rfl, by simp, by simp⟩

/-- what reading an entry gives -/
def ReadAs (X : Parsers E C) (pos : Pos) (v : Env E C) (ts tail : List Tok) (ds ds' : List Diag) (fact : Fact E C) :
    Prop :=
  ∃ v' r, fact.add v = some v' ∧ v'.Sound ∧ Ext v v' ∧ entry X pos v ts ds = .ok v' r (ds ++ ds') ∧
    (r = tail ∨ tail = .semi :: r)

section
variable {X : Parsers E C} {v : Env E C} {ctx : List Ident} {pos : Pos} {p : PathW} {tail : List Tok} {ds : List Diag}

theorem type_ok (hv : v.Sound) (h : PosOk v ctx pos) (hp : PathOk ctx p) (hl : (Leaf.type : Leaf E).Ok X ctx p)
    (ht : Tail tail) :
    ReadAs X pos v (p.toks ++ ((Leaf.type : Leaf E).toks ++ tail)) tail ds (nested ctx p ++ [])
      ((Leaf.type : Leaf E).fact X ctx p) := by
  obtain ⟨hl1, hl2⟩ := hl
  obtain ⟨hr1, hr2⟩ := read_full hl1
  rw [full_eq] at hl1 hr1 hr2
  have hpl : (read (dir ctx p)).2.plain := plain_prefix _ [p.last] (by rw [hl1]; trivial)
  have hdm : (read (dir ctx p)).2 = .type := by
    rw [read_type (fun w hw => hr2 w (List.mem_append_left _ hw))]
  have hdr := (read_full hdm).1
  obtain ⟨v1, pos1, p1, so1, e1, pl1, hh⟩ := head_ok (X := X) hv h p hp hpl
  obtain ⟨q1, q2, q3⟩ := p1
  rw [hdm] at q2 q3
  simp only at q3
  simp only [Mode.decl] at q2
  have hlast := hr2 p.last (by simp)
  rw [mem_keywords, not_or, not_or] at hlast
  obtain ⟨v2, j, hs, so2, e2, l2⟩ := subtype_ok so1 (lookup_valid so1 _ _ _ so1.1 q1).1 p.last
  refine ⟨v2, tail, ?_, so2, e1.trans e2, ?_, .inl rfl⟩
  · simp only [Leaf.fact, Fact.add, full_eq]
    rw [place_append, ← hdr, pl1]
    simp only [Option.bind_some, place, hs, Option.map_some]
  · simp only [Leaf.toks, List.nil_append]
    obtain ⟨r, hr⟩ := ht.cases
    rw [entry_eq X pos v _ ds (path_ne_nil _ _), hh tail p.last tail [] tail
      (by intro t hx; rcases hr with rfl | rfl <;> simp at hx <;> subst hx <;> rfl)
      (by intro _ s hx; rcases hr with rfl | rfl <;> simp at hx)
      (by
        rw [not_trail_operator hl2]
        rcases hr with rfl | rfl <;> exact operatorName_plain _ _ _ rfl (by simp) (by simp))
      (by simp [suffixIf, q3])]
    have hb : bareEntry v1 pos1 p.last tail (ds ++ nested ctx p) = .ok v2 tail (ds ++ nested ctx p) := by
      unfold bareEntry
      rw [if_neg hlast.1, fromName_kind, if_neg hlast.2.1, if_neg hlast.2.2, q2, hs]
      simp
    rcases hr with rfl | rfl <;> simp only [q3, hb, List.append_nil]

theorem override_leaf_ok {e : ExprW E} (hv : v.Sound) (h : PosOk v ctx pos) (hp : PathOk ctx p)
    (hl : (Leaf.override e : Leaf E).Ok X ctx p) (ht : Tail tail) :
    ReadAs X pos v (p.toks ++ ((Leaf.override e : Leaf E).toks ++ tail)) tail ds (nested ctx p ++ [])
      ((Leaf.override e : Leaf E).fact X ctx p) := by
  obtain ⟨hl1, hl2, hl3⟩ := hl
  obtain ⟨v1, pos1, p1, so1, e1, pl1, hh⟩ := head_ok (X := X) hv h p hp (by rw [hl1]; trivial)
  obtain ⟨q1, q2, q3⟩ := p1
  rw [hl1] at q2 q3
  simp only at q3
  obtain ⟨v2, hs, so2, e2⟩ := override_ok so1 (lookup_valid so1 _ _ _ so1.1 q1).1 p.last e.val
  obtain ⟨r, hr1, hr2⟩ := ht.terminator
  refine ⟨v2, r, ?_, so2, e1.trans e2, ?_, hr2⟩
  · simp only [Leaf.fact, Fact.add, pl1, Option.bind_some, hs]
  · simp only [Leaf.toks, List.cons_append]
    rw [entry_eq X pos v _ ds (path_ne_nil _ _), hh (.assign :: (e.toks ++ tail)) p.last _ [] _
      (by intro t hx; simp at hx; subst hx; rfl)
      (by intro _ s hx; simp at hx)
      (by rw [not_trail_operator hl2]; exact operatorName_plain _ _ _ rfl (by simp) (by simp))
      (by simp [suffixIf, q3]; rfl)]
    simp only [assignEntry]
    rw [hl3 tail ht.ends.stop]
    simp only
    rw [inputSpec_none (asClause_none (ht.ends.ne _ (by simp))) (ht.ends.ne _ (by simp))]
    simp only [hr1, q3, hs, List.append_nil]

theorem var_leaf_ok {suf : List (Option (ExprW E))} {init : Option (ExprW E)} {spec : SpecW E} (hv : v.Sound)
    (h : PosOk v ctx pos) (hp : PathOk ctx p)
    (hl : (Leaf.var suf init spec : Leaf E).Ok X ctx p) (ht : Tail tail) :
    ReadAs X pos v (p.toks ++ ((Leaf.var suf init spec : Leaf E).toks ++ tail)) tail ds (nested ctx p ++ [])
      ((Leaf.var suf init spec : Leaf E).fact X ctx p) := by
  obtain ⟨⟨ws, hl1, hws⟩, hl2, hl3, hl4, hl5, hl6, hl7, hl8, hl9⟩ := hl
  obtain ⟨v1, pos1, p1, so1, e1, pl1, hh⟩ := head_ok (X := X) hv h p hp (by rw [hl1]; exact hws)
  obtain ⟨q1, q2, q3⟩ := p1
  rw [hl1] at q2 q3
  simp only at q3
  have e : (Leaf.var suf init spec : Leaf E).toks ++ tail = sufToks suf ++ (initToks init ++ (spec.toks ++ tail)) := by
    simp [Leaf.toks]
  have hhead : ∀ t, (initToks init ++ (spec.toks ++ tail)).head? = some t →
      t = .assign ∧ init.isSome = true ∨ t = .ident (kw "as") ∧ spec.as_.val.isSome = true ∨ t = .in_ ∨ t = .semi
        ∨ t = .rbrace := by
    intro t hx
    cases init with
    | some x => simp [initToks] at hx; simp [← hx]
    | none =>
      rcases spec.head ht.ends t (by simpa [initToks] using hx) with hx' | hx' | hx' | hx' | hx' | hx'
      · simp [hx']
      · simp [hx']
      · simp [hx']
      · simp [hx']
      all_goals
        subst hx'
        exfalso
        obtain ⟨a, i⟩ := spec
        cases a <;> cases i <;> simp [initToks, SpecW.toks, AsW.toks] at hx
        obtain ⟨r, rfl | rfl⟩ := ht.cases <;> simp at hx
  have hsep : NotSep (sufToks suf ++ (initToks init ++ (spec.toks ++ tail))) := by
    intro t hx
    cases suf with
    | cons s suf => simp [sufToks] at hx; simp [← hx, sep]
    | nil =>
      rcases hhead t (by simpa [sufToks] using hx) with ⟨hx, _⟩ | ⟨hx, _⟩ | hx | hx | hx <;> simp [hx, sep]
  have hni : p.trail = true → NotIdent (sufToks suf ++ (initToks init ++ (spec.toks ++ tail))) := by
    intro htr s hx
    cases suf with
    | cons s suf => simp [sufToks] at hx
    | nil =>
      rcases hhead _ (by simpa [sufToks] using hx) with ⟨hx, _⟩ | ⟨hx, hy⟩ | hx | hx | hx
      · cases hx
      · rw [hl9 htr] at hy; cases hy
      all_goals cases hx
  have hhd := hh (sufToks suf ++ (initToks init ++ (spec.toks ++ tail))) p.last
    (sufToks suf ++ (initToks init ++ (spec.toks ++ tail)))
    (suf.map (Option.map ExprW.val)) (initToks init ++ (spec.toks ++ tail)) hsep hni
    (by
      rw [not_trail_operator (fun h1 h2 => by simp [(hl4 h2).2] at h1)]
      by_cases ho : p.last = kw "operator"
      · obtain ⟨rfl, _⟩ := hl4 ho
        simp only [sufToks, List.flatMap_nil, List.nil_append] at hhead ⊢
        cases hts : initToks init ++ (spec.toks ++ tail) with
        | nil => rw [operatorName.eq_def, if_pos ho]
        | cons t ts =>
          rw [hts] at hhead
          rcases hhead t rfl with ⟨hx, _⟩ | ⟨hx, _⟩ | hx | hx | hx <;> subst hx <;>
            exact operatorName_plain _ _ ts rfl (by simp) (by simp)
      · exact operatorName_other ho _)
    (by
      simp only [suffixIf, q3, Option.isSome_some, if_true]
      refine varSuffix_toks suf hl5 _ ?_
      intro hx
      rcases hhead _ hx with ⟨hx, _⟩ | ⟨hx, _⟩ | hx | hx | hx <;> cases hx)
  have hval := lookup_valid so1 _ _ _ so1.1 q1
  cases init with
  | some x =>
    obtain ⟨v2, hs, so2, e2⟩ := declare_ok so1 hval.1 p.last
      { withList suf (varType ws) with input := spec.as_.val } (some (.expr x.val))
    obtain ⟨r, hr1, hr2⟩ := ht.terminator
    refine ⟨v2, r, ?_, so2, e1.trans e2, ?_, hr2⟩
    · simp only [Leaf.fact, Fact.add, pl1, Option.bind_some, hl1, hs]
    · rw [e, entry_eq X pos v _ ds (path_ne_nil _ _), hhd]
      simp only [initToks, List.cons_append, assignEntry]
      rw [hl6 x (by simp) _ (SpecW.stop (hl8 rfl) ht.ends)]
      simp only
      rw [inputSpec_toks spec hl7 tail ht.ends]
      simp only [hr1, q3, suffix_eq, hs, List.append_nil]
  | none =>
    obtain ⟨v2, hs, so2, e2⟩ := declare_ok so1 hval.1 p.last
      { withList suf (varType ws) with input := spec.as_.val } (sufInit suf)
    refine ⟨v2, tail, ?_, so2, e1.trans e2, ?_, .inl rfl⟩
    · simp only [Leaf.fact, Fact.add, pl1, Option.bind_some, hl1, hs]
    · rw [e, entry_eq X pos v _ ds (path_ne_nil _ _), hhd]
      simp only [initToks, List.nil_append] at hhead ⊢
      have hb : bareVar X v1 pos1.cur (varType ws) p.last (suf.map (Option.map ExprW.val)) (spec.toks ++ tail)
          (ds ++ nested ctx p) = .ok v2 tail (ds ++ nested ctx p) := by
        unfold bareVar
        rw [inputSpec_toks spec hl7 tail ht.ends]
        simp only
        rw [if_neg hl2, fromName_eq, if_neg hl3, suffix_eq, initializer_eq, hs]
        simp
      rw [List.append_nil]
      split
      · rename_i hx
        rw [hx] at hhead
        rcases hhead _ rfl with ⟨hx, _⟩ | ⟨hx, _⟩ | hx | hx | hx <;> cases hx
      · rename_i hx
        rw [hx] at hhead
        rcases hhead _ rfl with ⟨hx, hy⟩ | ⟨hx, _⟩ | hx | hx | hx
        · cases hy
        all_goals cases hx
      · rename_i hx
        rw [hx] at hhead
        rcases hhead _ rfl with ⟨hx, _⟩ | ⟨hx, _⟩ | hx | hx | hx <;> cases hx
      · simp only [q3, hb]

theorem BodyW.head {b : BodyW} (hb : b.Ok) (ht : (∃ ts, b = .block ts) ∨ Tail tail) (t : Tok)
    (h : (b.toks ++ tail).head? = some t) : t ≠ .slash ∧ t ≠ .bitOr ∧ t ≠ .ident (kw "as") := by
  cases b with
  | none =>
    rcases ht with ⟨ts, ht⟩ | ht
    · cases ht
    · obtain ⟨r, rfl | rfl⟩ := ht.cases <;> simp [BodyW.toks] at h <;> simp [← h]
  | block ts => simp [BodyW.toks] at h; simp [← h]
  | line ts =>
    obtain ⟨hl, t', ht', h1, h2, h3, h4⟩ := hb
    rcases ts with - | ⟨t'', ts⟩
    · simp at ht'
    · simp [BodyW.toks] at h ht'
      subst h ht'
      exact ⟨h3, h4, h2⟩

theorem proc_leaf_ok {op : OpW} {params : List (ParamW E)} {ret : RetW} {body : BodyW} (hv : v.Sound)
    (h : PosOk v ctx pos) (hp : PathOk ctx p)
    (hl : (Leaf.proc op params ret body : Leaf E).Ok X ctx p) (ht : (∃ ts, body = .block ts) ∨ Tail tail) :
    ReadAs X pos v (p.toks ++ ((Leaf.proc op params ret body : Leaf E).toks ++ tail)) tail ds
      (nested ctx p ++ (Leaf.proc op params ret body : Leaf E).warns ctx p)
      ((Leaf.proc op params ret body : Leaf E).fact X ctx p) := by
  obtain ⟨hl1, hl2, hl3, hl4, hl5⟩ := hl
  obtain ⟨v1, pos1, p1, so1, e1, pl1, hh⟩ := head_ok (X := X) hv h p hp (by
    rcases hl1 with hl1 | ⟨k, ws, hl1, hws⟩
    · rw [hl1]; trivial
    · rw [hl1]; exact hws)
  obtain ⟨q1, q2, q3⟩ := p1
  have q3 : pos1.vt = none := by
    rcases hl1 with hl1 | ⟨k, ws, hl1, hws⟩ <;> rw [hl1] at q3 <;> exact q3
  obtain ⟨v2, hs, so2, e2⟩ := proc_ok so1 (lookup_valid so1 _ _ _ so1.1 q1).1 (procName p op)
    (read (dir ctx p)).2.decl ret.val ⟨params.map ParamW.val, body.val, X.block body.val⟩
  obtain ⟨r, hb1, hb2, hr⟩ : ∃ r, ((∀ ts, body ≠ .block ts) → terminator tail = some r) ∧
      ((∃ ts, body = .block ts) → r = tail) ∧ (r = tail ∨ tail = .semi :: r) := by
    by_cases hblk : ∃ ts, body = .block ts
    · exact ⟨tail, fun hn => absurd hblk (by simpa using hn), fun _ => rfl, .inl rfl⟩
    · rcases ht with ht | ht
      · exact absurd ht hblk
      · obtain ⟨r, hr1, hr2⟩ := ht.terminator
        exact ⟨r, fun _ => hr1, fun hx => absurd hx hblk, hr2⟩
  have e : (Leaf.proc op params ret body : Leaf E).toks ++ tail
      = op.toks ++ .lparen :: (paramToks params ++ .rparen :: (ret.toks ++ (body.toks ++ tail))) := by simp [Leaf.toks]
  refine ⟨v2, r, ?_, so2, e1.trans e2, ?_, hr⟩
  · simp only [Leaf.fact, Fact.add, pl1, Option.bind_some, hs]
  · generalize hR : paramToks params ++ .rparen :: (ret.toks ++ (body.toks ++ tail)) = R at e
    have hop : ∀ (op : OpW) (R : List Tok), (match op with
          | .none => p.trail = true → p.last = kw "operator"
          | .sym t => p.last = kw "operator" ∧ p.trail = false ∧ t ≠ .slash ∧ ∃ s ∈ t.sym, s ∈ operatorSyms
          | _ => p.last = kw "operator" ∧ p.trail = false) →
        NotSep (op.toks ++ .lparen :: R) ∧ (p.trail = true → NotIdent (op.toks ++ .lparen :: R)) ∧
        operatorName (if p.trail = true ∧ p.last = kw "operator" then kw "operator/" else p.last)
          (op.toks ++ .lparen :: R) = some (procName p op, .lparen :: R) := by
      have k1 : kw "operator/" = kw "operator" ++ kw "/" := by decide +kernel
      have k2 : kw "operator[]" = kw "operator" ++ kw "[]" := by decide +kernel
      have k3 : kw "operator[]=" = kw "operator" ++ kw "[]=" := by decide +kernel
      have k4 : kw "operator\"\"" = kw "operator" ++ kw "\"\"" := by decide +kernel
      have k5 : kw "operator/" ≠ kw "operator" := by decide +kernel
      intro op R hop
      cases op with
      | none =>
        simp only [OpW.toks, List.nil_append, procName]
        refine ⟨by intro t hx; simp at hx; subst hx; rfl, fun _ s hx => by simp at hx, ?_⟩
        cases htr : p.trail
        · simp only [Bool.false_eq_true, false_and, if_false]
          by_cases hlo : p.last = kw "operator"
          · rw [operatorName.eq_def, if_pos hlo]
            rfl
          · exact operatorName_other hlo _
        · rw [if_pos ⟨rfl, hop htr⟩, if_pos rfl, hop htr, ← k1]
          exact operatorName_other k5 _
      | sym t =>
        obtain ⟨ho1, ho2, ho3, s, hs1, hs2⟩ := hop
        have hs1 : t.sym = some s := hs1
        simp only [OpW.toks, List.cons_append, List.nil_append, procName, ho2, Bool.false_eq_true, false_and, if_false,
          hs1, Option.getD_some]
        have hsep : sep t = none := by
          cases t <;> simp [Tok.sym] at hs1 <;> simp [sep] at ho3 ⊢
        refine ⟨by intro t hx; simp at hx; subst hx; exact hsep, fun hx => absurd hx (by simp), ?_⟩
        rw [operatorName.eq_def, if_pos ho1]
        cases t <;> simp [Tok.sym] at hs1 <;> simp only [Tok.sym, hs1, hs2, if_true]
      | index =>
        obtain ⟨ho1, ho2⟩ := hop
        simp only [OpW.toks, List.cons_append, List.nil_append, procName, ho2, Bool.false_eq_true, false_and, if_false]
        refine ⟨by intro t hx; simp at hx; subst hx; rfl, fun hx => absurd hx (by simp), ?_⟩
        rw [operatorName.eq_def, if_pos ho1, ho1, ← k2]
      | indexAssign =>
        obtain ⟨ho1, ho2⟩ := hop
        simp only [OpW.toks, List.cons_append, List.nil_append, procName, ho2, Bool.false_eq_true, false_and, if_false]
        refine ⟨by intro t hx; simp at hx; subst hx; rfl, fun hx => absurd hx (by simp), ?_⟩
        rw [operatorName.eq_def, if_pos ho1, ho1, ← k3]
      | text =>
        obtain ⟨ho1, ho2⟩ := hop
        simp only [OpW.toks, List.cons_append, List.nil_append, procName, ho2, Bool.false_eq_true, false_and, if_false]
        refine ⟨by intro t hx; simp at hx; subst hx; rfl, fun hx => absurd hx (by simp), ?_⟩
        rw [operatorName.eq_def, if_pos ho1, ho1, ← k4]
    obtain ⟨o1, o2, o3⟩ := hop op R hl5
    rw [e, entry_eq X pos v _ ds (path_ne_nil _ _), hh _ _ _ [] _ o1 o2 o3 (by simp [suffixIf, q3]; rfl)]
    simp only [procEntry, procRest]
    rw [← hR, procParams_toks params hl2]
    have hbh := BodyW.head hl4 ht
    simp only
    rw [returnType_toks pos1.pb ret hl3 _ (fun hx => (hbh _ hx).1 rfl) (fun hx => (hbh _ hx).2.1 rfl)
      (fun hx => (hbh _ hx).2.2 rfl)]
    simp only
    rw [procBody_toks body hl4 tail r hb1 hb2]
    simp only [q2, hs, Leaf.warns, List.append_assoc]

end

theorem leaf_ok {X : Parsers E C} {v : Env E C} {ctx : List Ident} {pos : Pos} {p : PathW} {tail : List Tok}
    {ds : List Diag} (l : Leaf E) (hv : v.Sound) (h : PosOk v ctx pos) (hp : PathOk ctx p) (hl : l.Ok X ctx p)
    (ht : l.closed ∨ Tail tail) :
    ReadAs X pos v (p.toks ++ (l.toks ++ tail)) tail ds (nested ctx p ++ l.warns ctx p) (l.fact X ctx p) := by
  cases l with
  | type => exact type_ok hv h hp hl (ht.resolve_left (fun hx => hx))
  | override e => exact override_leaf_ok hv h hp hl (ht.resolve_left (fun hx => hx))
  | var suf init spec => exact var_leaf_ok hv h hp hl (ht.resolve_left (fun hx => hx))
  | proc op params ret body =>
    refine proc_leaf_ok hv h hp hl ?_
    rcases ht with ht | ht
    · left
      cases body with
      | block ts => exact ⟨ts, rfl⟩
      | none => exact ht.elim
      | line _ => exact ht.elim
    · exact .inr ht

theorem addAll_append {v : Env E C} (a b : List (Fact E C)) :
    addAll v (a ++ b) = (addAll v a).bind fun v' => addAll v' b := by
  induction a generalizing v with
  | nil => rfl
  | cons f a ih =>
    simp only [List.cons_append, addAll]
    cases f.add v with
    | none => rfl
    | some v1 => exact ih

/-- entries are read as they are written, wherever they are and whatever comes after them; `last` says whether the
last one may end at a `}` -/
theorem src_ok {X : Parsers E C} (s : Src E) : ∀ {v : Env E C} {ctx : List Ident} {pos : Pos} {inner last : Bool}
    (tail : List Tok) (ds : List Diag), v.Sound → PosOk v ctx pos → s.Ok X ctx last →
    (last = true → ∃ r, tail = .rbrace :: r) →
    ∃ v', addAll v (s.facts X ctx) = some v' ∧ v'.Sound ∧ Ext v v' ∧
      entries X pos inner v (s.toks ++ tail) ds = entries X pos inner v' tail (ds ++ s.warns ctx) := by
  induction s with
  | nil =>
    intro v ctx pos inner last tail ds hv _ _ _
    exact ⟨v, rfl, hv, Ext.refl _, by simp [Src.toks, Src.warns]⟩
  | semi rest ih =>
    intro v ctx pos inner last tail ds hv h hk ht
    obtain ⟨v', h1, h2, h3, h4⟩ := ih tail ds hv h hk ht
    refine ⟨v', h1, h2, h3, ?_⟩
    simp only [Src.toks, List.cons_append, entries_semi, Src.warns]
    exact h4
  | block p body rest ihb ihr =>
    intro v ctx pos inner last tail ds hv h hk ht
    obtain ⟨hk1, hk2, hk3, hk4, hk5⟩ := hk
    have hfull := full_eq ctx p
    obtain ⟨v1, pos1, p1, so1, e1, pl1, hh⟩ := head_ok (X := X) hv h p hk1
      (plain_prefix _ [p.last] (by rw [← hfull]; exact hk3))
    obtain ⟨v2, pos2, s2, p2, so2, e2, pl2⟩ := step_ok so1 p1 p.last (by rw [← hfull]; exact hk3)
    rw [← hfull] at p2 pl2
    -- the type of the block
    have hplace : place v 0 (read (full ctx p)).1 = some (v2, pos2.cur) := by
      obtain ⟨q, hq⟩ : ∃ q, (read (full ctx p)).1 = (read (dir ctx p)).1 ++ q := by
        rw [hfull, read_snoc]
        simp only
        split
        · exact ⟨_, rfl⟩
        · exact ⟨[], by simp⟩
      rw [hq] at pl2 ⊢
      rw [place_append] at pl2 ⊢
      rw [pl1]
      rw [lookup_place _ _ _ p1.1] at pl2
      exact pl2
    obtain ⟨v3, a3, so3, e3, en3⟩ := ihb (.rbrace :: (rest.toks ++ tail)) (ds ++ nested ctx p) so2 p2 hk4
      (fun _ => ⟨_, rfl⟩)
    have e13 := (e1.trans e2).trans e3
    obtain ⟨v4, a4, so4, e4, en4⟩ := ihr tail (ds ++ nested ctx p ++ body.warns (full ctx p)) so3 (h.ext e13) hk5 ht
    refine ⟨v4, ?_, so4, e13.trans e4, ?_⟩
    · simp only [Src.facts, List.cons_append, addAll, Fact.add, hplace, Option.map_some, Option.bind_some]
      rw [addAll_append, a3]
      exact a4
    · have e : (Src.block p body rest).toks ++ tail
          = p.toks ++ .lbrace :: (body.toks ++ .rbrace :: (rest.toks ++ tail)) := by simp [Src.toks]
      have hentry : entry X pos v (p.toks ++ .lbrace :: (body.toks ++ .rbrace :: (rest.toks ++ tail))) ds
          = .ok v3 (rest.toks ++ tail) (ds ++ nested ctx p ++ body.warns (full ctx p)) := by
        rw [entry_eq X pos v _ ds (path_ne_nil _ _), hh (.lbrace :: _) p.last _ [] _
          (by intro t hx; simp at hx; subst hx; rfl)
          (by intro _ s hx; simp at hx)
          (by rw [not_trail_operator hk2]; exact operatorName_plain _ _ _ rfl (by simp) (by simp))
          (by
            unfold suffixIf
            split
            · exact varSuffix_end X _ (by simp)
            · rfl)]
        simp only [s2, List.append_nil]
        rw [en3, entries_close]
      obtain ⟨t, r, hp1, hp2, hp3⟩ := path_start p (.lbrace :: (body.toks ++ .rbrace :: (rest.toks ++ tail)))
      rw [e, hp1, entries_cons X pos inner v t r ds hp2 (fun hx => hp3 hx.2), ← hp1, hentry]
      simp only
      rw [en4]
      simp only [Src.warns, List.append_assoc]
  | leaf p l ended rest ih =>
    intro v ctx pos inner last tail ds hv h hk ht
    obtain ⟨hk1, hk2, hk3, hk4⟩ := hk
    have htl : l.closed ∨ Tail ((if ended then [.semi] else []) ++ (rest.toks ++ tail)) := by
      cases ended
      · rcases hk3 rfl with hc | ⟨hi, rfl⟩
        · exact .inl hc
        · obtain ⟨r, rfl⟩ := ht hi
          exact .inr trivial
      · exact .inr trivial
    obtain ⟨v1, r, a1, so1, e1, en1, hr⟩ := leaf_ok (ds := ds) l hv h hk1 hk2 htl
    obtain ⟨v2, a2, so2, e2, en2⟩ := ih tail (ds ++ (nested ctx p ++ l.warns ctx p)) so1 (h.ext e1) hk4 ht
    refine ⟨v2, ?_, so2, e1.trans e2, ?_⟩
    · simp only [Src.facts, addAll, a1, Option.bind_some]
      exact a2
    · have e : (Src.leaf p l ended rest).toks ++ tail
          = p.toks ++ (l.toks ++ ((if ended then [.semi] else []) ++ (rest.toks ++ tail))) := by simp [Src.toks]
      have hr' : entries X pos inner v1 r (ds ++ (nested ctx p ++ l.warns ctx p))
          = entries X pos inner v1 (rest.toks ++ tail) (ds ++ (nested ctx p ++ l.warns ctx p)) := by
        have hsemi : entries X pos inner v1 ((if ended then [.semi] else []) ++ (rest.toks ++ tail))
            (ds ++ (nested ctx p ++ l.warns ctx p))
            = entries X pos inner v1 (rest.toks ++ tail) (ds ++ (nested ctx p ++ l.warns ctx p)) := by
          cases ended
          · rfl
          · exact entries_semi ..
        rcases hr with rfl | hr
        · exact hsemi
        · rw [← hsemi, hr, entries_semi]
      obtain ⟨t, r', hp1, hp2, hp3⟩ := path_start p (l.toks ++ ((if ended then [.semi] else []) ++ (rest.toks ++ tail)))
      rw [e, hp1, entries_cons X pos inner v t r' ds hp2 (fun hx => hp3 hx.2), ← hp1, en1]
      simp only
      rw [hr', en2]
      simp only [Src.warns, List.append_assoc]

end Verif.Decl
