import Verif.Indents.Props

/-!
# C15: indentation depth is brace depth; locations; and the panic
-/

namespace Verif.Indents

variable {α : Type}

theorem feeds_append (a b : List (LTok α)) (s : St) :
    feeds s (a ++ b) = (feeds s a).bind fun r => (feeds r.1 b).map fun r' => (r'.1, r.2 ++ r'.2) := by
  induction a generalizing s with
  | nil => simp [feeds]
  | cons t a ih =>
    simp only [List.cons_append, feeds]
    cases feed s t with
    | none => rfl
    | some r =>
      simp only [Option.bind_some, ih]
      cases feeds r.1 a with
      | none => rfl
      | some r' =>
        simp only [Option.bind_some, Option.map_some, Option.map_map]
        cases feeds r'.1 b with
        | none => rfl
        | some r'' => simp

/-- state between lines: depth `lvl` with `k` tabs per level, no errors -/
structure AtLevel (k : Nat) (s : St) (lvl : Nat) : Prop where
  cur : s.current = if lvl = 0 then none else some (k, lvl)
  par : s.parens = 0
  err : s.errors = []

theorem feeds_tabs (k lvl : Nat) (n : Nat) : ∀ (ts : List (LTok α)) (s : St) (m : Nat),
    kinds ts = List.replicate n .tab → AtLevel k s lvl → s.spaces = some m →
    ∃ s', feeds s ts = some (s', []) ∧ AtLevel k s' lvl ∧ s'.spaces = some (m + n) := by
  induction n with
  | zero =>
    intro ts s m h hs hsp
    simp [kinds] at h
    subst h
    exact ⟨s, rfl, hs, hsp⟩
  | succ n ih =>
    intro ts s m h hs hsp
    cases ts with
    | nil => simp [kinds, List.replicate_succ] at h
    | cons t ts =>
      simp only [kinds, List.map_cons, List.replicate_succ, List.cons.injEq] at h
      obtain ⟨l, t⟩ := t
      simp only at h
      obtain ⟨rfl, h⟩ := h
      obtain ⟨s', h1, h2, h3⟩ := ih ts { s with lastLoc := l, spaces := some (m + 1) } (m + 1) h
        ⟨hs.cur, hs.par, hs.err⟩ rfl
      refine ⟨s', ?_, h2, by rw [h3]; congr 1; omega⟩
      simp [feeds, feed, realNext, hsp, h1]

theorem feeds_blank (k lvl n : Nat) (ts : List (LTok α)) (s : St)
    (h : kinds ts = .newline :: List.replicate n .tab) (hs : AtLevel k s lvl) :
    ∃ s', feeds s ts = some (s', []) ∧ AtLevel k s' lvl ∧ s'.spaces = some n := by
  cases ts with
  | nil => simp [kinds] at h
  | cons t ts =>
    simp only [kinds, List.map_cons, List.cons.injEq] at h
    obtain ⟨l, t⟩ := t
    simp only at h
    obtain ⟨rfl, h⟩ := h
    have hp := hs.par
    obtain ⟨s', h1, h2, h3⟩ := feeds_tabs k lvl n ts
      (realNext (α := α) { s with lastLoc := l } .newline |>.get rfl).1 0 h
      ⟨hs.cur, hs.par, hs.err⟩ (by simp [realNext, hp])
    refine ⟨s', ?_, h2, by simpa using h3⟩
    simp only [feeds, feed]
    simp only [realNext, Option.get_some, Option.bind_some] at h1 ⊢
    rw [h1]
    rfl

theorem kinds_split (ts : List (LTok α)) (a b : List (Tok α)) (h : kinds ts = a ++ b) :
    ∃ ta tb, ts = ta ++ tb ∧ kinds ta = a ∧ kinds tb = b := by
  obtain ⟨ta, tb, h1, h2, h3⟩ := List.map_eq_append_iff.1 h
  exact ⟨ta, tb, h1, h2, h3⟩

theorem feeds_blanks (k lvl : Nat) (bl : List Nat) : ∀ (ts : List (LTok α)) (s : St),
    kinds ts = bl.flatMap (fun n => Tok.newline :: List.replicate n .tab) → AtLevel k s lvl →
    ∃ s', feeds s ts = some (s', []) ∧ AtLevel k s' lvl := by
  induction bl with
  | nil =>
    intro ts s h hs
    simp [kinds] at h
    subst h
    exact ⟨s, rfl, hs⟩
  | cons n bl ih =>
    intro ts s h hs
    rw [List.flatMap_cons] at h
    obtain ⟨ta, tb, rfl, ha, hb⟩ := kinds_split ts _ _ h
    obtain ⟨s1, h1, h2, -⟩ := feeds_blank k lvl n ta s ha hs
    obtain ⟨s2, h3, h4⟩ := ih tb s1 hb h2
    exact ⟨s2, by simp [feeds_append, h1, h3], h4⟩

/-- the first token of a line -/
theorem feed_first (k prev lvl : Nat) (hk : 0 < k) (hlvl : lvl ≤ prev + 1) (s : St) (t : LTok α)
    (hs : AtLevel k s prev) (hsp : s.spaces = some (k * lvl))
    (hws : t.2.isWs = false) (hb : t.2 ≠ .lbrace ∧ t.2 ≠ .rbrace) :
    ∃ s' o, feed s t = some (s', o) ∧ kinds o = sep prev lvl ++ [t.2] ∧
      s'.current = (if lvl = 0 then none else some (k, lvl)) ∧ s'.errors = [] ∧
      s'.spaces = none ∧
      s'.parens = (match t.2 with | .lparen => 1 | _ => 0) := by
  obtain ⟨l, t⟩ := t
  simp only at hws hb
  have hdiv : k * lvl / k = lvl := Nat.mul_div_cancel_left _ hk
  have hmod : k * lvl % k = 0 := Nat.mul_mod_right _ _
  have hz : k * lvl = 0 ↔ lvl = 0 := by
    constructor
    · intro h; rcases Nat.mul_eq_zero.1 h with h | h <;> omega
    · intro h; simp [h]
  have hm : measure { s with lastLoc := l, spaces := none } (k * lvl) =
      (prev, lvl, { s with lastLoc := l, spaces := none,
                           current := if lvl = 0 then none else some (k, lvl) }) := by
    unfold measure
    simp only [hs.cur]
    by_cases hp : prev = 0
    · simp only [hp, if_true]
      by_cases hl : lvl = 0
      · simp [hl]
      · have : lvl = 1 := by omega
        subst this
        simp; omega
    · simp only [hp, if_false]
      by_cases hl : lvl = 0
      · simp [hl]
      · rw [if_neg (by rw [hz]; exact hl)]
        simp [hdiv, hmod, hl]
  have hip : indentPart (α := α) { s with lastLoc := l } =
      emit prev lvl { s with lastLoc := l, spaces := none,
                             current := if lvl = 0 then none else some (k, lvl) } := by
    unfold indentPart
    simp only [hsp, hm]
  have hem : ∀ s1 : St, ∃ o, emit (α := α) prev lvl s1 = (s1, o) ∧ kinds o = sep prev lvl := by
    intro s1
    unfold emit sep
    by_cases h1 : prev + 1 = lvl
    · subst h1
      exact ⟨[(s1.eolLoc, .lbrace)], by simp, by simp [kinds]⟩
    · have hlt : ¬ prev < lvl := by omega
      simp only [h1, hlt, if_false]
      by_cases h2 : prev = lvl + 1
      · subst h2
        exact ⟨[(s1.eolLoc, .rbrace)], by simp, by simp [kinds]⟩
      · by_cases h3 : lvl < prev
        · simp only [h2, h3, gt_iff_lt, if_true, if_false]
          exact ⟨_, rfl, by simp [kinds]⟩
        · simp only [h2, h3, gt_iff_lt, if_false]
          exact ⟨_, rfl, by simp [kinds]⟩
  obtain ⟨o, ho, hko⟩ := hem { s with lastLoc := l, spaces := none,
                                      current := if lvl = 0 then none else some (k, lvl) }
  have hip2 := hip.trans ho
  have hpar := hs.par
  have herr := hs.err
  unfold feed realNext
  cases t with
  | newline => simp [Tok.isWs] at hws
  | tab => simp [Tok.isWs] at hws
  | space => simp [Tok.isWs] at hws
  | lbrace => exact absurd rfl hb.1
  | rbrace => exact absurd rfl hb.2
  | lparen =>
    refine ⟨{ s with lastLoc := l, spaces := none, eol := none, parens := s.parens + 1,
                      current := if lvl = 0 then none else some (k, lvl) },
      o ++ [(l, .lparen)], ?_, by rw [← hko]; simp [kinds], rfl, herr, rfl, by simp [hpar]⟩
    simp only [Bool.false_eq_true, if_false, hip2, account, Option.map_some]
  | rparen =>
    refine ⟨{ s with lastLoc := l, spaces := none, eol := none, parens := s.parens - 1,
                      current := if lvl = 0 then none else some (k, lvl) },
      o ++ [(l, .rparen)], ?_, by rw [← hko]; simp [kinds], rfl, herr, rfl, by simp [hpar]⟩
    simp only [Bool.false_eq_true, if_false, hip2, account, Option.map_some]
  | semi =>
    refine ⟨{ s with lastLoc := l, spaces := none, eol := none, parens := s.parens,
                      current := if lvl = 0 then none else some (k, lvl) },
      o ++ [(l, .semi)], ?_, by rw [← hko]; simp [kinds], rfl, herr, rfl, by simp [hpar]⟩
    simp only [Bool.false_eq_true, if_false, hip2, account, Option.map_some]
  | other a =>
    refine ⟨{ s with lastLoc := l, spaces := none, eol := none, parens := s.parens,
                      current := if lvl = 0 then none else some (k, lvl) },
      o ++ [(l, .other a)], ?_, by rw [← hko]; simp [kinds], rfl, herr, rfl, by simp [hpar]⟩
    simp only [Bool.false_eq_true, if_false, hip2, account, Option.map_some]

/-- the rest of a line -/
theorem feeds_rest (ks : List (Tok α)) : ∀ (ts : List (LTok α)) (s : St),
    kinds ts = ks → s.spaces = none → lineScan s.parens ks = some 0 →
    ∃ s' o, feeds s ts = some (s', o) ∧ kinds o = ks.filter (fun t => !t.isWs) ∧
      s'.current = s.current ∧ s'.errors = s.errors ∧ s'.parens = 0 := by
  induction ks with
  | nil =>
    intro ts s h _ hl
    simp [kinds] at h
    subst h
    simp [lineScan] at hl
    exact ⟨s, [], rfl, rfl, rfl, rfl, hl⟩
  | cons c ks ih =>
    intro ts s h hsp hl
    cases ts with
    | nil => simp [kinds] at h
    | cons t ts =>
      simp only [kinds, List.map_cons, List.cons.injEq] at h
      obtain ⟨l, t⟩ := t
      simp only at h
      obtain ⟨rfl, h⟩ := h
      have hip : ∀ s1 : St, s1.spaces = none → indentPart (α := α) s1 = (s1, []) := by
        intro s1 h1; simp [indentPart, h1]
      cases t with
      | newline =>
        simp only [lineScan] at hl
        split at hl
        · cases hl
        · rename_i hp
          obtain ⟨s', o, h1, h2, h3, h4, h5⟩ := ih ts
            { s with lastLoc := l, eol := some (s.eol.getD l) } h hsp hl
          refine ⟨s', o, ?_, by simpa [Tok.isWs] using h2, h3, h4, h5⟩
          simp only [feeds, feed, realNext, hp, if_false, Option.bind_some, List.nil_append]
          rw [h1]; rfl
      | tab =>
        simp only [lineScan] at hl
        obtain ⟨s', o, h1, h2, h3, h4, h5⟩ := ih ts { s with lastLoc := l, spaces := none } h rfl hl
        refine ⟨s', o, ?_, by simpa [Tok.isWs] using h2, h3, h4, h5⟩
        simp only [feeds, feed, realNext, hsp, Option.bind_some, List.nil_append, Option.map_none]
        rw [h1]; rfl
      | space =>
        simp only [lineScan] at hl
        obtain ⟨s', o, h1, h2, h3, h4, h5⟩ := ih ts { s with lastLoc := l, spaces := none } h rfl hl
        refine ⟨s', o, ?_, by simpa [Tok.isWs] using h2, h3, h4, h5⟩
        simp only [feeds, feed, realNext, hsp, Option.bind_some, List.nil_append, Option.map_none]
        rw [h1]; rfl
      | lbrace => simp [lineScan] at hl
      | rbrace => simp [lineScan] at hl
      | lparen =>
        simp only [lineScan] at hl
        obtain ⟨s', o, h1, h2, h3, h4, h5⟩ := ih ts
          { s with lastLoc := l, parens := s.parens + 1, eol := none } h hsp hl
        refine ⟨s', (l, .lparen) :: o, ?_, by simpa [Tok.isWs, kinds] using h2, h3, h4, h5⟩
        simp only [feeds, feed, realNext, Bool.false_eq_true, if_false]
        rw [hip { s with lastLoc := l } hsp]
        simp only [account, Option.map_some, Option.bind_some, h1]
        rfl
      | rparen =>
        simp only [lineScan] at hl
        split at hl
        · cases hl
        · obtain ⟨s', o, h1, h2, h3, h4, h5⟩ := ih ts
            { s with lastLoc := l, parens := s.parens - 1, eol := none } h hsp hl
          refine ⟨s', (l, .rparen) :: o, ?_, by simpa [Tok.isWs, kinds] using h2, h3, h4, h5⟩
          simp only [feeds, feed, realNext, Bool.false_eq_true, if_false]
          rw [hip { s with lastLoc := l } hsp]
          simp only [account, Option.map_some, Option.bind_some, h1]
          rfl
      | semi =>
        simp only [lineScan] at hl
        obtain ⟨s', o, h1, h2, h3, h4, h5⟩ := ih ts { s with lastLoc := l, eol := none } h hsp hl
        refine ⟨s', (l, .semi) :: o, ?_, by simpa [Tok.isWs, kinds] using h2, h3, h4, h5⟩
        simp only [feeds, feed, realNext, Bool.false_eq_true, if_false]
        rw [hip { s with lastLoc := l } hsp]
        simp only [account, Option.map_some, Option.bind_some, h1]
        rfl
      | other a =>
        simp only [lineScan] at hl
        obtain ⟨s', o, h1, h2, h3, h4, h5⟩ := ih ts { s with lastLoc := l, eol := none } h hsp hl
        refine ⟨s', (l, .other a) :: o, ?_, by simpa [Tok.isWs, kinds] using h2, h3, h4, h5⟩
        simp only [feeds, feed, realNext, Bool.false_eq_true, if_false]
        rw [hip { s with lastLoc := l } hsp]
        simp only [account, Option.map_some, Option.bind_some, h1]
        rfl

theorem feeds_line (k prev : Nat) (hk : 0 < k) (ln : Line α) (hok : LineOk ln)
    (hlvl : ln.level ≤ prev + 1) (ts : List (LTok α)) (s : St) (hs : AtLevel k s prev)
    (h : kinds ts = ln.source k) :
    ∃ s' o, feeds s ts = some (s', o) ∧
      kinds o = sep prev ln.level ++ ln.toks.filter (fun t => !t.isWs) ∧ AtLevel k s' ln.level := by
  obtain ⟨bl, lvl, toks⟩ := ln
  obtain ⟨⟨t0, r, ht, hws⟩, hscan⟩ := hok
  simp only at ht hscan hlvl
  subst ht
  unfold Line.source at h
  simp only at h
  obtain ⟨tab, trest, rfl, hab, hrest⟩ := kinds_split ts _ _ h
  obtain ⟨ta, tb, rfl, ha, hb⟩ := kinds_split tab _ _ hab
  obtain ⟨s1, h1, hs1⟩ := feeds_blanks k prev bl ta s ha hs
  obtain ⟨s2, h2, hs2, hsp⟩ := feeds_blank k prev (k * lvl) tb s1 hb hs1
  cases trest with
  | nil => simp [kinds] at hrest
  | cons t trest =>
    simp only [kinds, List.map_cons, List.cons.injEq] at hrest
    obtain ⟨rfl, hrest⟩ := hrest
    have hbr : t.2 ≠ .lbrace ∧ t.2 ≠ .rbrace := by
      constructor <;> (intro he; rw [he] at hscan; simp [lineScan] at hscan)
    obtain ⟨s3, o3, h3, hk3, hc3, he3, hsp3, hp3⟩ := feed_first k prev lvl hk hlvl s2 t hs2 hsp hws hbr
    have hscan' : lineScan s3.parens r = some 0 := by
      rw [hp3]
      cases ht2 : t.2 <;> rw [ht2] at hscan hws <;> simp [lineScan, Tok.isWs] at hscan hws ⊢ <;>
        exact hscan
    obtain ⟨s4, o4, h4, hk4, hc4, he4, hp4⟩ := feeds_rest r trest s3 hrest hsp3 hscan'
    refine ⟨s4, o3 ++ o4, ?_, ?_, ⟨by rw [hc4, hc3], hp4, by rw [he4, he3]⟩⟩
    · rw [feeds_append, feeds_append, h1]
      simp only [Option.bind_some, h2, Option.map_some, List.append_nil, List.nil_append, feeds, h3, h4]
    · simp only [kinds, List.map_append] at hk3 hk4 ⊢
      rw [hk3, hk4, List.filter_cons_of_pos (by simp [hws])]
      simp

theorem feeds_lines (k : Nat) (hk : 0 < k) (ls : List (Line α)) : ∀ (prev : Nat)
    (ts : List (LTok α)) (s : St), (∀ l ∈ ls, LineOk l) → StepsOk prev ls → AtLevel k s prev →
    kinds ts = ls.flatMap (Line.source k) →
    ∃ s' o, feeds s ts = some (s', o) ∧ kinds o = layout prev ls ∧
      AtLevel k s' (lastLevel prev ls) := by
  induction ls with
  | nil =>
    intro prev ts s _ _ hs h
    simp [kinds] at h
    subst h
    exact ⟨s, [], rfl, rfl, hs⟩
  | cons l ls ih =>
    intro prev ts s hok hst hs h
    rw [List.flatMap_cons] at h
    obtain ⟨ta, tb, rfl, ha, hb⟩ := kinds_split ts _ _ h
    obtain ⟨s1, o1, h1, hk1, hs1⟩ := feeds_line k prev hk l (hok l (by simp)) hst.1 ta s hs ha
    obtain ⟨s2, o2, h2, hk2, hs2⟩ := ih l.level tb s1 (fun l hl => hok l (by simp [hl])) hst.2 hs1 hb
    refine ⟨s2, o1 ++ o2, by simp [feeds_append, h1, h2], ?_, hs2⟩
    simp only [kinds, List.map_append] at hk1 hk2 ⊢
    rw [hk1, hk2]
    rfl

theorem depth_sep (p l : Nat) : depth p (sep (α := α) p l) = some l := by
  unfold sep
  split
  · rw [depth_replicate_lbrace]; congr 1; omega
  · split
    · rw [depth_replicate_rbrace _ _ (by omega)]; congr 1; omega
    · have : p = l := by omega
      subst this; rfl

theorem depth_line (ks : List (Tok α)) : ∀ (p d : Nat), lineScan p ks = some 0 →
    depth d (ks.filter (fun t => !t.isWs)) = some d := by
  induction ks with
  | nil => intro p d _; rfl
  | cons t ks ih =>
    intro p d h
    cases t <;> simp only [lineScan] at h
    all_goals first
      | (split at h
         · cases h
         · simpa [Tok.isWs, depth] using ih _ d h)
      | (simpa [Tok.isWs, depth] using ih _ d h)
      | cases h

theorem layout_depth (ls : List (Line α)) : ∀ prev, (∀ l ∈ ls, LineOk l) →
    depth prev (layout prev ls) = some (lastLevel prev ls) := by
  induction ls with
  | nil => intro prev _; rfl
  | cons l ls ih =>
    intro prev hok
    simp only [layout, lastLevel]
    rw [depth_append, depth_append, depth_sep]
    simp only [Option.bind_some]
    rw [depth_line l.toks 0 l.level (hok l (by simp)).scan]
    simp only [Option.bind_some]
    exact ih l.level fun l hl => hok l (by simp [hl])

theorem layout_append (a b : List (Line α)) (prev : Nat) :
    layout prev (a ++ b) = layout prev a ++ layout (lastLevel prev a) b := by
  induction a generalizing prev with
  | nil => rfl
  | cons l a ih => simp only [List.cons_append, layout, ih, lastLevel, List.append_assoc]

/-- **C15.** Consistently indented input (`k ≥ 1` tabs per level, starting at level 0, going up one
level at a time; blank lines anywhere; newlines inside parentheses ignored) is processed without
panic and without errors, and the output is the lines' tokens separated by `{` when the level rises,
`;` when it stays and as many `}` as levels closed when it falls, then `;` and the remaining `}`. -/
theorem indent_layout (k : Nat) (hk : 0 < k) (ls : List (Line α)) (ts : List (LTok α))
    (hok : ∀ l ∈ ls, LineOk l) (hst : StepsOk 0 ls) (h : kinds ts = ls.flatMap (Line.source k)) :
    ∃ o, process ts = some (o, []) ∧
      kinds o = layout 0 ls ++ [.semi] ++ List.replicate (lastLevel 0 ls) .rbrace := by
  obtain ⟨s', o, h1, h2, h3⟩ := feeds_lines k hk ls 0 ts {} hok hst ⟨rfl, rfl, rfl⟩ h
  refine ⟨o ++ finish s', by simp [process, h1, h3.err], ?_⟩
  simp only [kinds, List.map_append] at h2 ⊢
  rw [h2]
  simp only [finish, List.map_cons, h3.cur, List.append_assoc, List.append_cancel_left_eq,
    List.singleton_append, List.cons.injEq, true_and]
  by_cases hl : lastLevel 0 ls = 0
  · simp [hl]
  · simp [hl]

/-- **C15.** In that output each line's tokens stand, contiguously, at brace depth equal to the
line's indentation level. -/
theorem indent_depth (k : Nat) (hk : 0 < k) (A : List (Line α)) (l : Line α) (B : List (Line α))
    (ts : List (LTok α)) (hok : ∀ x ∈ A ++ l :: B, LineOk x) (hst : StepsOk 0 (A ++ l :: B))
    (h : kinds ts = (A ++ l :: B).flatMap (Line.source k)) :
    ∃ o pre post, process ts = some (o, []) ∧
      kinds o = pre ++ l.toks.filter (fun t => !t.isWs) ++ post ∧ depth 0 pre = some l.level ∧
      pre.filter (fun t => !t.isStruct) =
        (A.flatMap Line.toks).filter (fun t => !t.isWs && !t.isStruct) := by
  obtain ⟨o, h1, h2⟩ := indent_layout k hk _ ts hok hst h
  refine ⟨o, layout 0 A ++ sep (lastLevel 0 A) l.level, layout l.level B ++ [.semi] ++
    List.replicate (lastLevel 0 (A ++ l :: B)) .rbrace, h1, ?_, ?_, ?_⟩
  · rw [h2, layout_append]
    simp [layout]
  · rw [depth_append, layout_depth A 0 fun x hx => hok x (by simp [hx])]
    simp only [Option.bind_some]
    exact depth_sep _ _
  · have hsep : ∀ p q, (sep (α := α) p q).filter (fun t => !t.isStruct) = [] := by
      intro p q
      apply filter_struct_nil
      intro t ht
      unfold sep at ht
      repeat' split at ht
      all_goals simp at ht
      all_goals first | (subst ht; rfl) | (obtain ⟨-, rfl⟩ := ht; rfl)
    rw [List.filter_append, hsep, List.append_nil]
    clear h h2 h1 hst hok
    generalize 0 = prev
    induction A generalizing prev with
    | nil => rfl
    | cons a A ih =>
      simp only [layout, List.filter_append, hsep, List.nil_append, List.flatMap_cons, ih]
      rw [List.filter_filter]
      congr 1
      apply List.filter_congr
      intro t _
      exact Bool.and_comm _ _

/-! ### locations -/

/-- **C14.** If the input locations never decrease, neither do the output locations. -/
theorem indent_locations_sorted (ts : List (LTok α)) (o : List (LTok α)) (es : List Err)
    (hs : (ts.map Prod.fst).Pairwise (· ≤ ·)) (h : process ts = some (o, es)) :
    (o.map Prod.fst).Pairwise (· ≤ ·) := by
  -- invariant: `b` bounds the output so far; `eol` lies between `b` and `lastLoc`
  have hemit : ∀ (i n : Nat) (s : St), (emit (α := α) i n s).1.lastLoc = s.lastLoc ∧
      (emit (α := α) i n s).1.eol = s.eol ∧
      ∀ x ∈ (emit (α := α) i n s).2, x.1 = s.eolLoc := by
    intro i n s
    unfold emit
    repeat' split
    all_goals refine ⟨rfl, rfl, ?_⟩
    all_goals intro x hx
    all_goals simp at hx
    all_goals first | (subst hx; rfl) | (obtain ⟨-, rfl⟩ := hx; rfl)
  have hmeas : ∀ (s : St) (n : Nat), (measure s n).2.2.lastLoc = s.lastLoc ∧
      (measure s n).2.2.eol = s.eol := by
    intro s n
    unfold measure
    split
    · split <;> simp
    · simp only
      split
      · simp
      · simp only; split <;> simp
  have hip : ∀ s : St, (indentPart (α := α) s).1.lastLoc = s.lastLoc ∧
      (indentPart (α := α) s).1.eol = s.eol ∧
      ∀ x ∈ (indentPart (α := α) s).2, x.1 = s.eolLoc := by
    intro s
    unfold indentPart
    split
    · simp
    · rename_i n _
      have h1 := hemit (measure { s with spaces := none } n).1
        (measure { s with spaces := none } n).2.1 (measure { s with spaces := none } n).2.2
      have h2 := hmeas { s with spaces := none } n
      simp only [St.eolLoc] at *
      rw [h2.1, h2.2] at h1
      exact h1
  have hfeed : ∀ (s s' : St) (t : LTok α) (o : List (LTok α)), feed s t = some (s', o) →
      s.lastLoc ≤ t.1 → (∀ e, s.eol = some e → e ≤ s.lastLoc) →
      ∀ b, (∀ e, s.eol = some e → b ≤ e) → b ≤ s.lastLoc →
      s'.lastLoc = t.1 ∧ (∀ e, s'.eol = some e → e ≤ s'.lastLoc) ∧
      (o.map Prod.fst).Pairwise (· ≤ ·) ∧ (∀ x ∈ o.map Prod.fst, b ≤ x ∧ x ≤ t.1) ∧
      (∀ e, s'.eol = some e → (∀ x ∈ o.map Prod.fst, x ≤ e) ∧ b ≤ e) := by
    intro s s' t o h hle heol b hb hb2
    obtain ⟨l, t⟩ := t
    simp only at hle
    have key : ∀ (s1 : St) (t : Tok α), s1.lastLoc = l → s1.eol = s.eol →
        ((account (indentPart (α := α) s1).1 t).map fun s' =>
          (({ s' with eol := none } : St), (indentPart s1).2 ++ [(s'.lastLoc, t)])) = some (s', o) →
        s'.lastLoc = l ∧ (∀ e, s'.eol = some e → e ≤ s'.lastLoc) ∧
        (o.map Prod.fst).Pairwise (· ≤ ·) ∧ (∀ x ∈ o.map Prod.fst, b ≤ x ∧ x ≤ l) ∧
        (∀ e, s'.eol = some e → (∀ x ∈ o.map Prod.fst, x ≤ e) ∧ b ≤ e) := by
      intro s1 t hl1 he1 h
      obtain ⟨s2, h2, h3⟩ := Option.map_eq_some_iff.1 h
      simp only [Prod.mk.injEq] at h3
      obtain ⟨rfl, rfl⟩ := h3
      obtain ⟨i1, i2, i3⟩ := hip s1
      have hacc : s2.lastLoc = l := by
        have : s2.lastLoc = (indentPart (α := α) s1).1.lastLoc := by
          generalize indentPart (α := α) s1 = r at h2
          cases t <;> simp only [account] at h2
          case rbrace =>
            split at h2
            · simp at h2; subst h2; rfl
            · split at h2
              · simp at h2; subst h2; rfl
              · split at h2
                · cases h2
                · simp at h2; subst h2; rfl
          all_goals (simp at h2; subst h2; rfl)
        rw [this, i1, hl1]
      have hel : b ≤ s1.eolLoc ∧ s1.eolLoc ≤ l := by
        unfold St.eolLoc
        rw [he1, hl1]
        cases he : s.eol with
        | none => simp; omega
        | some e => have := hb e he; have := heol e he; simp; omega
      refine ⟨hacc, by simp, ?_, ?_, by simp⟩
      · rw [List.map_append, List.pairwise_append]
        refine ⟨?_, by simp, ?_⟩
        · rw [List.pairwise_map]
          apply List.pairwise_of_forall_mem_list
          intro x hx y hy
          rw [i3 x hx, i3 y hy]; exact Nat.le_refl _
        · intro x hx y hy
          obtain ⟨z, hz, rfl⟩ := List.mem_map.1 hx
          simp only [List.map_cons, List.map_nil, List.mem_singleton] at hy
          subst hy
          rw [i3 z hz, hacc]; omega
      · intro x hx
        rw [List.map_append] at hx
        rcases List.mem_append.1 hx with hx | hx
        · obtain ⟨z, hz, rfl⟩ := List.mem_map.1 hx
          rw [i3 z hz]; omega
        · simp only [List.map_cons, List.map_nil, List.mem_singleton] at hx
          subst hx
          rw [hacc]; omega
    unfold feed realNext at h
    simp only at h
    cases t with
    | newline =>
      simp only [Option.some.injEq, Prod.mk.injEq] at h
      obtain ⟨rfl, rfl⟩ := h
      refine ⟨rfl, ?_, by simp, by simp, ?_⟩
      · intro e he
        simp only at he ⊢
        cases hse : s.eol with
        | none => rw [hse] at he; simp at he; omega
        | some e' => rw [hse] at he; simp at he; have := heol e' hse; omega
      · intro e he
        refine ⟨by simp, ?_⟩
        simp only at he
        cases hse : s.eol with
        | none => rw [hse] at he; simp at he; omega
        | some e' => rw [hse] at he; simp at he; have := hb e' hse; omega
    | tab =>
      simp only [Option.some.injEq, Prod.mk.injEq] at h
      obtain ⟨rfl, rfl⟩ := h
      refine ⟨rfl, fun e he => ?_, by simp, by simp, fun e he => ⟨by simp, hb e he⟩⟩
      have := heol e he; simp only; omega
    | space =>
      simp only [Option.some.injEq, Prod.mk.injEq] at h
      obtain ⟨rfl, rfl⟩ := h
      refine ⟨rfl, fun e he => ?_, by simp, by simp, fun e he => ⟨by simp, hb e he⟩⟩
      have := heol e he; simp only; omega
    | lbrace => exact key { s with lastLoc := l, spaces := none } .lbrace rfl rfl h
    | rbrace => exact key { s with lastLoc := l, spaces := none } .rbrace rfl rfl h
    | lparen => exact key { s with lastLoc := l } .lparen rfl rfl h
    | rparen => exact key { s with lastLoc := l } .rparen rfl rfl h
    | semi => exact key { s with lastLoc := l } .semi rfl rfl h
    | other a => exact key { s with lastLoc := l } (.other a) rfl rfl h
  have hfeeds : ∀ (ts : List (LTok α)) (s s' : St) (o : List (LTok α)), feeds s ts = some (s', o) →
      (ts.map Prod.fst).Pairwise (· ≤ ·) → (∀ x ∈ ts.map Prod.fst, s.lastLoc ≤ x) →
      (∀ e, s.eol = some e → e ≤ s.lastLoc) →
      ∀ b, (∀ e, s.eol = some e → b ≤ e) → b ≤ s.lastLoc →
      (o.map Prod.fst).Pairwise (· ≤ ·) ∧ (∀ x ∈ o.map Prod.fst, b ≤ x ∧ x ≤ s'.lastLoc) ∧
        s.lastLoc ≤ s'.lastLoc := by
    intro ts
    induction ts with
    | nil =>
      intro s s' o h _ _ _ b _ _
      simp [feeds] at h
      obtain ⟨rfl, rfl⟩ := h
      simp
    | cons t ts ih =>
      intro s s' o h hs hlb heol b hb hb2
      simp only [feeds] at h
      obtain ⟨⟨s1, o1⟩, h1, h⟩ := Option.bind_eq_some_iff.1 h
      obtain ⟨⟨s2, o2⟩, h2, h⟩ := Option.map_eq_some_iff.1 h
      simp only [Prod.mk.injEq] at h
      obtain ⟨rfl, rfl⟩ := h
      simp only [List.map_cons, List.pairwise_cons, List.mem_cons, forall_eq_or_imp] at hs hlb
      obtain ⟨f1, f2, f3, f4, f5⟩ := hfeed s s1 t o1 h1 hlb.1 heol b hb hb2
      -- new bound: the last output location, or b
      let b' := (o1.map Prod.fst).foldl max b
      have hfold : ∀ (l : List Nat) (b : Nat), b ≤ l.foldl max b ∧ (∀ x ∈ l, x ≤ l.foldl max b) ∧
          (∀ u, b ≤ u → (∀ x ∈ l, x ≤ u) → l.foldl max b ≤ u) := by
        intro l
        induction l with
        | nil => intro b; simp
        | cons a l ihl =>
          intro b
          obtain ⟨g1, g2, g3⟩ := ihl (max b a)
          simp only [List.foldl_cons, List.mem_cons, forall_eq_or_imp]
          refine ⟨by omega, ⟨by omega, g2⟩, ?_⟩
          intro u hu hx
          exact g3 u (by omega) hx.2
      obtain ⟨g1, g2, g3⟩ := hfold (o1.map Prod.fst) b
      obtain ⟨i1, i2, i3⟩ := ih s1 s2 o2 h2 hs.2 (by rw [f1]; exact hs.1) f2 b'
        (by
          intro e he
          obtain ⟨q1, q2⟩ := f5 e he
          exact g3 e q2 q1)
        (by
          rw [f1]
          exact g3 t.1 (by omega) fun x hx => (f4 x hx).2)
      refine ⟨?_, ?_, by omega⟩
      · rw [List.map_append, List.pairwise_append]
        refine ⟨f3, i1, ?_⟩
        intro x hx y hy
        have := g2 x hx
        have := (i2 y hy).1
        exact Nat.le_trans ‹x ≤ _› this
      · intro x hx
        rw [List.map_append] at hx
        rcases List.mem_append.1 hx with hx | hx
        · have := f4 x hx; omega
        · have := i2 x hx
          exact ⟨Nat.le_trans g1 this.1, this.2⟩
  unfold process at h
  obtain ⟨⟨s, o1⟩, h1, h⟩ := Option.map_eq_some_iff.1 h
  simp only [Prod.mk.injEq] at h
  obtain ⟨rfl, -⟩ := h
  obtain ⟨a1, a2, -⟩ := hfeeds ts {} s o1 h1 hs (by simp) (by simp) 0 (by simp) (by simp)
  have hfin : ∀ x ∈ finish (α := α) s, x.1 = s.lastLoc := by
    intro x hx
    unfold finish at hx
    simp only [List.mem_cons] at hx
    rcases hx with rfl | hx
    · rfl
    · split at hx <;> simp at hx
      obtain ⟨-, rfl⟩ := hx; rfl
  rw [List.map_append, List.pairwise_append]
  refine ⟨a1, ?_, ?_⟩
  · rw [List.pairwise_map]
    apply List.pairwise_of_forall_mem_list
    intro x hx y hy
    rw [hfin x hx, hfin y hy]; exact Nat.le_refl _
  · intro x hx y hy
    obtain ⟨z, hz, rfl⟩ := List.mem_map.1 hy
    rw [hfin z hz]
    exact (a2 x hx).2

/-! ### examples and disagreement -/

/-- `a⏎⇥b⏎⏎⇥(⏎c)⏎d` becomes `;a{b;(c)}d;` -/
def exLines : List (Line Nat) :=
  [⟨[], 0, [.other 0]⟩, ⟨[], 1, [.other 1]⟩, ⟨[0], 1, [.lparen, .newline, .other 2, .rparen]⟩,
   ⟨[], 0, [.other 3]⟩]

example : (∀ l ∈ exLines, LineOk l) ∧ StepsOk 0 exLines ∧
    (process ((exLines.flatMap (Line.source 1)).map fun t => (1, t))).map (fun r => kinds r.1) =
      some [.semi, .other 0, .lbrace, .other 1, .semi, .lparen, .other 2, .rparen, .rbrace,
        .other 3, .semi] := by
  refine ⟨?_, by simp [StepsOk, exLines], by decide⟩
  intro l hl
  simp only [exLines, List.mem_cons, List.not_mem_nil, or_false] at hl
  rcases hl with rfl | rfl | rfl | rfl
  all_goals exact ⟨⟨_, _, rfl, rfl⟩, by decide⟩

/-- **Disagreement (C14).** After a line indented by less than one unit (an error that is only
reported), an explicit `}` makes the processor panic on `y - 1` (indents.rs:187). -/
theorem indent_panics :
    process (α := Nat) [(1, .newline), (1, .tab), (1, .tab), (1, .other 0), (2, .newline), (2, .tab),
      (2, .other 1), (2, .rbrace)] = none := by decide

/-- **Disagreement (C14).** An unmatched explicit `}` is reported but still passed on, so the output
is then unbalanced. -/
theorem indent_unmatched_passed_on :
    process (α := Nat) [(1, .rbrace)] = some ([(1, .rbrace), (1, .semi)], [.unmatched]) := by decide

end Verif.Indents
