import Verif.Indents.Spec

/-!
# C14, C15: the indentation processor
-/

namespace Verif.Indents

variable {α : Type}

/-! ### basic facts about `depth` -/

theorem depth_append (a b : List (Tok α)) (d : Nat) :
    depth d (a ++ b) = (depth d a).bind (fun d' => depth d' b) := by
  induction a generalizing d with
  | nil => rfl
  | cons t a ih =>
    cases t <;> simp only [List.cons_append, depth, ih]
    split <;> simp

theorem depth_replicate_lbrace (n d : Nat) :
    depth d (List.replicate n (Tok.lbrace : Tok α)) = some (d + n) := by
  induction n generalizing d with
  | zero => rfl
  | succ n ih => simp [List.replicate_succ, depth, ih]; omega

theorem depth_replicate_rbrace (n d : Nat) (h : n ≤ d) :
    depth d (List.replicate n (Tok.rbrace : Tok α)) = some (d - n) := by
  induction n generalizing d with
  | zero => rfl
  | succ n ih =>
    simp only [List.replicate_succ, depth]
    rw [if_neg (by omega), ih (d - 1) (by omega)]
    congr 1; omega

/-- depth recorded in the state -/
def St.depth (s : St) : Nat := match s.current with
  | none => 0
  | some (_, n) => n

/-- outputs without their locations -/
abbrev kinds (l : List (LTok α)) : List (Tok α) := l.map Prod.snd

/-! ### the output adds only braces and semicolons -/

theorem emit_struct (i n : Nat) (s : St) :
    ∀ t ∈ kinds (emit (α := α) i n s).2, t.isStruct = true := by
  unfold emit
  intro t ht
  repeat' split at ht
  all_goals simp [kinds] at ht
  all_goals first | (subst ht; rfl) | (obtain ⟨-, rfl⟩ := ht; rfl)

theorem indentPart_struct (s : St) : ∀ t ∈ kinds (indentPart (α := α) s).2, t.isStruct = true := by
  unfold indentPart
  split
  · intro t ht; simp [kinds] at ht
  · exact emit_struct _ _ _

theorem filter_struct_nil (l : List (Tok α)) (h : ∀ t ∈ l, t.isStruct = true) :
    l.filter (fun t => !t.isStruct) = [] := by
  rw [List.filter_eq_nil_iff]
  intro t ht
  simp [h t ht]

theorem filter_struct_ws (l : List (Tok α)) (h : ∀ t ∈ l, t.isStruct = true) :
    l.filter (fun t => t.isWs) = [] := by
  rw [List.filter_eq_nil_iff]
  intro t ht
  have := h t ht
  cases t <;> simp [Tok.isStruct, Tok.isWs] at this ⊢

/-- what one call of `real_next` outputs: some structural tokens, then the token itself unless it is
whitespace -/
theorem feed_output (s : St) (t : LTok α) (s' : St) (o : List (LTok α))
    (h : feed s t = some (s', o)) :
    ∃ pre, kinds o = pre ++ (if t.2.isWs then [] else [t.2]) ∧
      (∀ x ∈ pre, x.isStruct = true) ∧ (t.2.isWs = true → pre = []) := by
  obtain ⟨l, t⟩ := t
  have key : ∀ (s1 : St) (t : Tok α), t.isWs = false →
      ((account (indentPart (α := α) s1).1 t).map fun s' =>
        (({ s' with eol := none } : St), (indentPart s1).2 ++ [(s'.lastLoc, t)])) = some (s', o) →
      ∃ pre, kinds o = pre ++ (if t.isWs then [] else [t]) ∧
        (∀ x ∈ pre, x.isStruct = true) ∧ (t.isWs = true → pre = []) := by
    intro s1 t hws h
    obtain ⟨s2, h2, h3⟩ := Option.map_eq_some_iff.1 h
    simp only [Prod.mk.injEq] at h3
    refine ⟨kinds (indentPart s1).2, ?_, indentPart_struct s1, by simp [hws]⟩
    rw [← h3.2, hws]
    simp [kinds]
  unfold feed realNext at h
  simp only at h
  cases t with
  | newline =>
    simp only [Option.some.injEq, Prod.mk.injEq] at h
    exact ⟨[], by rw [← h.2]; simp [Tok.isWs], by simp, by simp⟩
  | tab =>
    simp only [Option.some.injEq, Prod.mk.injEq] at h
    exact ⟨[], by rw [← h.2]; simp [Tok.isWs], by simp, by simp⟩
  | space =>
    simp only [Option.some.injEq, Prod.mk.injEq] at h
    exact ⟨[], by rw [← h.2]; simp [Tok.isWs], by simp, by simp⟩
  | lbrace => exact key _ .lbrace rfl h
  | rbrace => exact key _ .rbrace rfl h
  | lparen => exact key _ .lparen rfl h
  | rparen => exact key _ .rparen rfl h
  | semi => exact key _ .semi rfl h
  | other a => exact key _ (.other a) rfl h

theorem feeds_output (ts : List (LTok α)) : ∀ (s s' : St) (o : List (LTok α)),
    feeds s ts = some (s', o) →
    ((kinds ts).filter (fun t => !t.isWs)).Sublist (kinds o) ∧
    (kinds o).filter (fun t => !t.isStruct) =
      (kinds ts).filter (fun t => !t.isWs && !t.isStruct) ∧
    (kinds o).filter (fun t => t.isWs) = [] := by
  induction ts with
  | nil => intro s s' o h; simp [feeds] at h; obtain ⟨-, rfl⟩ := h; simp [kinds]
  | cons t ts ih =>
    intro s s' o h
    simp only [feeds] at h
    obtain ⟨⟨s1, o1⟩, h1, h⟩ := Option.bind_eq_some_iff.1 h
    obtain ⟨⟨s2, o2⟩, h2, h⟩ := Option.map_eq_some_iff.1 h
    simp only [Prod.mk.injEq] at h
    obtain ⟨-, rfl⟩ := h
    obtain ⟨a, b, c⟩ := ih s1 s2 o2 h2
    obtain ⟨pre, e, hpre, hws⟩ := feed_output s t s1 o1 h1
    simp only [kinds, List.map_append, List.map_cons] at *
    rw [e]
    by_cases hw : t.2.isWs = true
    · rw [hws hw]
      simp [hw, a, b, c]
    · have hw : t.2.isWs = false := by simpa using hw
      simp only [hw, Bool.false_eq_true, if_false, Bool.not_false, Bool.true_and]
      refine ⟨?_, ?_, ?_⟩
      · rw [List.filter_cons_of_pos (by simp [hw]), List.append_assoc]
        refine List.Sublist.trans ?_ (List.sublist_append_right pre _)
        exact List.Sublist.cons_cons _ a
      · rw [List.filter_append, List.filter_append, filter_struct_nil pre hpre, b]
        by_cases hs : t.2.isStruct = true
        · simp [hs, hw]
        · simp [hs, hw]
      · rw [List.filter_append, List.filter_append, filter_struct_ws pre hpre, c]
        simp [hw]

/-- **C14.** For every token stream on which the processor does not panic: its output contains no
newline, tab or space; the input's other tokens appear in the output in the same order; and the only
tokens it adds are braces and semicolons. -/
theorem indent_keeps_tokens (ts : List (LTok α)) (o : List (LTok α)) (es : List Err)
    (h : process ts = some (o, es)) :
    (∀ t ∈ kinds o, t.isWs = false) ∧
    ((kinds ts).filter (fun t => !t.isWs)).Sublist (kinds o) ∧
    (kinds o).filter (fun t => !t.isStruct) =
      (kinds ts).filter (fun t => !t.isWs && !t.isStruct) := by
  unfold process at h
  obtain ⟨⟨s, o1⟩, h1, h⟩ := Option.map_eq_some_iff.1 h
  simp only [Prod.mk.injEq] at h
  obtain ⟨rfl, -⟩ := h
  obtain ⟨a, b, c⟩ := feeds_output ts {} s o1 h1
  have hfin : ∀ t ∈ kinds (finish (α := α) s), t.isStruct = true := by
    intro t ht
    unfold finish at ht
    simp only [kinds, List.map_cons, List.mem_cons] at ht
    rcases ht with rfl | ht
    · rfl
    · split at ht <;> simp at ht
      obtain ⟨-, rfl⟩ := ht; rfl
  simp only [kinds, List.map_append] at *
  refine ⟨?_, ?_, ?_⟩
  · intro t ht
    rcases List.mem_append.1 ht with ht | ht
    · rw [List.filter_eq_nil_iff] at c
      simpa using c t ht
    · have := hfin t ht
      cases t <;> simp [Tok.isStruct, Tok.isWs] at this ⊢
  · exact a.trans (List.sublist_append_left _ _)
  · rw [List.filter_append, filter_struct_nil _ hfin, b, List.append_nil]

/-! ### balance -/

theorem emit_state (i n : Nat) (s : St) : (emit (α := α) i n s).1.current = s.current ∧
    (Err.unmatched ∈ (emit (α := α) i n s).1.errors ↔ Err.unmatched ∈ s.errors) := by
  unfold emit
  repeat' split
  all_goals simp

theorem emit_depth (i n : Nat) (s : St) : depth i (kinds (emit (α := α) i n s).2) = some n := by
  unfold emit kinds
  split
  · rename_i h; simp [depth, h]
  · split
    · rw [List.map_replicate, depth_replicate_lbrace]; congr 1; omega
    · split
      · rename_i h; subst h; simp [depth]
      · split
        · rw [List.map_replicate, depth_replicate_rbrace _ _ (by omega)]; congr 1; omega
        · have : i = n := by omega
          subst this; simp [depth]

theorem measure_depth (s : St) (k : Nat) :
    (measure s k).1 = s.depth ∧ (measure s k).2.1 = (measure s k).2.2.depth ∧
    (Err.unmatched ∈ (measure s k).2.2.errors ↔ Err.unmatched ∈ s.errors) := by
  unfold measure St.depth
  cases hc : s.current with
  | none => simp only; split <;> simp
  | some p =>
    obtain ⟨a, b⟩ := p
    simp only
    split
    · simp
    · simp only
      split <;> simp

theorem indentPart_depth (s : St) :
    depth s.depth (kinds (indentPart (α := α) s).2) = some (indentPart (α := α) s).1.depth ∧
    (Err.unmatched ∈ (indentPart (α := α) s).1.errors ↔ Err.unmatched ∈ s.errors) := by
  unfold indentPart
  split
  · simp [kinds, depth]
  · rename_i n _
    obtain ⟨h1, h2, h3⟩ := measure_depth { s with spaces := none } n
    obtain ⟨h4, h5⟩ := emit_state (α := α) (measure { s with spaces := none } n).1
      (measure { s with spaces := none } n).2.1 (measure { s with spaces := none } n).2.2
    simp only
    rw [h5, h3]
    refine ⟨?_, Iff.rfl⟩
    have hd : s.depth = ({ s with spaces := none } : St).depth := rfl
    rw [hd, ← h1, emit_depth]
    congr 1
    generalize (measure { s with spaces := none } n) = m at *
    have h6 : (emit (α := α) m.1 m.2.1 m.2.2).1.depth = m.2.2.depth := by
      unfold St.depth
      rw [h4]
    rw [h6, h2]

/-- one step keeps the recorded depth equal to the brace depth of the output, unless an
`unmatched right brace` error has been registered -/
theorem feed_depth (s : St) (t : LTok α) (s' : St) (o : List (LTok α))
    (h : feed s t = some (s', o)) (hu : Err.unmatched ∉ s'.errors) :
    Err.unmatched ∉ s.errors ∧ depth s.depth (kinds o) = some s'.depth := by
  obtain ⟨l, t⟩ := t
  have key : ∀ (s1 : St) (t : Tok α), s1.depth = s.depth → s1.errors = s.errors →
      ((account (indentPart (α := α) s1).1 t).map fun s' =>
        (({ s' with eol := none } : St), (indentPart s1).2 ++ [(s'.lastLoc, t)])) = some (s', o) →
      Err.unmatched ∉ s.errors ∧ depth s.depth (kinds o) = some s'.depth := by
    intro s1 t hd he h
    obtain ⟨s2, h2, h3⟩ := Option.map_eq_some_iff.1 h
    simp only [Prod.mk.injEq] at h3
    obtain ⟨rfl, rfl⟩ := h3
    obtain ⟨hdep, herr⟩ := indentPart_depth (α := α) s1
    simp only [kinds, List.map_append, List.map_cons, List.map_nil] at *
    rw [depth_append, ← hd, hdep]
    simp only [Option.bind_some]
    rw [← he, ← herr]
    have hsd : St.depth { s2 with eol := none } = s2.depth := rfl
    rw [hsd]
    generalize indentPart (α := α) s1 = r at *
    have hplain : s2 = r.1 → Err.unmatched ∉ r.1.errors ∧ some r.1.depth = some s2.depth := by
      rintro rfl; exact ⟨hu, rfl⟩
    cases t with
    | lbrace =>
      simp only [account, Option.some.injEq] at h2
      subst h2
      refine ⟨hu, ?_⟩
      simp only [depth, St.depth]
      cases r.1.current with
      | none => simp
      | some p => simp
    | rbrace =>
      simp only [account] at h2
      cases hc : r.1.current with
      | none =>
        rw [hc] at h2
        simp only [Option.some.injEq] at h2
        subst h2
        simp at hu
      | some p =>
        obtain ⟨a, b⟩ := p
        rw [hc] at h2
        simp only at h2
        split at h2
        · rename_i hb
          simp only [Option.some.injEq] at h2
          subst h2
          refine ⟨hu, ?_⟩
          simp [depth, St.depth, hc, hb]
        · split at h2
          · cases h2
          · rename_i hb1 hb0
            simp only [Option.some.injEq] at h2
            subst h2
            refine ⟨hu, ?_⟩
            simp [depth, St.depth, hc, hb0]
    | lparen =>
      simp only [account, Option.some.injEq] at h2; subst h2; exact ⟨hu, rfl⟩
    | rparen =>
      simp only [account, Option.some.injEq] at h2; subst h2; exact ⟨hu, rfl⟩
    | newline => simp only [account, Option.some.injEq] at h2; exact hplain h2.symm
    | tab => simp only [account, Option.some.injEq] at h2; exact hplain h2.symm
    | space => simp only [account, Option.some.injEq] at h2; exact hplain h2.symm
    | semi => simp only [account, Option.some.injEq] at h2; exact hplain h2.symm
    | other a => simp only [account, Option.some.injEq] at h2; exact hplain h2.symm
  unfold feed realNext at h
  simp only at h
  cases t with
  | newline =>
    simp only [Option.some.injEq, Prod.mk.injEq] at h
    obtain ⟨rfl, rfl⟩ := h
    exact ⟨hu, rfl⟩
  | tab =>
    simp only [Option.some.injEq, Prod.mk.injEq] at h
    obtain ⟨rfl, rfl⟩ := h
    exact ⟨hu, rfl⟩
  | space =>
    simp only [Option.some.injEq, Prod.mk.injEq] at h
    obtain ⟨rfl, rfl⟩ := h
    exact ⟨hu, rfl⟩
  | lbrace => exact key { s with lastLoc := l, spaces := none } .lbrace rfl rfl h
  | rbrace => exact key { s with lastLoc := l, spaces := none } .rbrace rfl rfl h
  | lparen => exact key { s with lastLoc := l } .lparen rfl rfl h
  | rparen => exact key { s with lastLoc := l } .rparen rfl rfl h
  | semi => exact key { s with lastLoc := l } .semi rfl rfl h
  | other a => exact key { s with lastLoc := l } (.other a) rfl rfl h

theorem feeds_depth (ts : List (LTok α)) : ∀ (s s' : St) (o : List (LTok α)),
    feeds s ts = some (s', o) → Err.unmatched ∉ s'.errors →
    Err.unmatched ∉ s.errors ∧ depth s.depth (kinds o) = some s'.depth := by
  induction ts with
  | nil => intro s s' o h hu; simp [feeds] at h; obtain ⟨rfl, rfl⟩ := h; exact ⟨hu, rfl⟩
  | cons t ts ih =>
    intro s s' o h hu
    simp only [feeds] at h
    obtain ⟨⟨s1, o1⟩, h1, h⟩ := Option.bind_eq_some_iff.1 h
    obtain ⟨⟨s2, o2⟩, h2, h⟩ := Option.map_eq_some_iff.1 h
    simp only [Prod.mk.injEq] at h
    obtain ⟨rfl, rfl⟩ := h
    obtain ⟨a1, a2⟩ := ih s1 s2 o2 h2 hu
    obtain ⟨b1, b2⟩ := feed_depth s t s1 o1 h1 a1
    refine ⟨b1, ?_⟩
    simp only [kinds, List.map_append] at *
    rw [depth_append, b2]
    exact a2

/-- **C14.** For every token stream on which the processor neither panics nor reports an unmatched
right brace, the braces of the output – the generated and the explicit ones together – are
balanced. -/
theorem indent_output_balanced (ts : List (LTok α)) (o : List (LTok α)) (es : List Err)
    (h : process ts = some (o, es)) (hu : Err.unmatched ∉ es) : Balanced (kinds o) := by
  unfold process at h
  obtain ⟨⟨s, o1⟩, h1, h⟩ := Option.map_eq_some_iff.1 h
  simp only [Prod.mk.injEq] at h
  obtain ⟨rfl, rfl⟩ := h
  obtain ⟨-, h2⟩ := feeds_depth ts {} s o1 h1 hu
  unfold Balanced
  simp only [kinds, List.map_append] at *
  rw [depth_append]
  have h0 : St.depth {} = 0 := rfl
  rw [h0] at h2
  rw [h2]
  simp only [Option.bind_some, finish, List.map_cons, depth]
  unfold St.depth
  cases s.current with
  | none => rfl
  | some p =>
    obtain ⟨a, b⟩ := p
    simp only [List.map_replicate]
    rw [depth_replicate_rbrace _ _ (Nat.le_refl _), Nat.sub_self]

/-- **C14.** `unmatched right brace` is reported only when the input really contains an explicit
`}`, so brace-free input is always balanced. -/
theorem indent_brace_free_balanced (ts : List (LTok α)) (hb : ∀ t ∈ kinds ts, t ≠ Tok.rbrace) :
    ∃ o es, process ts = some (o, es) ∧ Balanced (kinds o) := by
  have : ∀ (ts : List (LTok α)) (s : St), (∀ t ∈ kinds ts, t ≠ Tok.rbrace) →
      Err.unmatched ∉ s.errors → ∃ s' o, feeds s ts = some (s', o) ∧ Err.unmatched ∉ s'.errors := by
    intro ts
    induction ts with
    | nil => intro s _ hu; exact ⟨s, [], rfl, hu⟩
    | cons t ts ih =>
      intro s hb hu
      have hone : ∃ s1 o1, feed s t = some (s1, o1) ∧ Err.unmatched ∉ s1.errors := by
        obtain ⟨l, t⟩ := t
        have key : ∀ (s1 : St) (t : Tok α), s1.errors = s.errors → t ≠ .rbrace →
            ∃ s2 o2, ((account (indentPart (α := α) s1).1 t).map fun s' =>
              (({ s' with eol := none } : St), (indentPart s1).2 ++ [(s'.lastLoc, t)])) =
                some (s2, o2) ∧ Err.unmatched ∉ s2.errors := by
          intro s1 t he ht
          have h2 := (indentPart_depth (α := α) s1).2
          rw [he] at h2
          have h3 := mt h2.1 hu
          cases t <;> simp only [account, Option.map_some] <;> first
            | exact ⟨_, _, rfl, h3⟩
            | exact absurd rfl ht
        have ht : t ≠ .rbrace := hb t (by simp [kinds])
        unfold feed realNext
        cases t with
        | newline => exact ⟨_, _, rfl, hu⟩
        | tab => exact ⟨_, _, rfl, hu⟩
        | space => exact ⟨_, _, rfl, hu⟩
        | lbrace => exact key _ .lbrace rfl (by simp)
        | rbrace => exact absurd rfl ht
        | lparen => exact key _ .lparen rfl (by simp)
        | rparen => exact key _ .rparen rfl (by simp)
        | semi => exact key _ .semi rfl (by simp)
        | other a => exact key _ (.other a) rfl (by simp)
      obtain ⟨s1, o1, h1, hu1⟩ := hone
      obtain ⟨s2, o2, h2, hu2⟩ := ih s1 (fun t ht => hb t (by
        simp only [kinds, List.map_cons, List.mem_cons]; exact Or.inr ht)) hu1
      exact ⟨s2, o1 ++ o2, by simp [feeds, h1, h2], hu2⟩
  obtain ⟨s, o, h, hu⟩ := this ts {} hb (by simp)
  have hp : process ts = some (o ++ finish s, s.errors) := by simp [process, h]
  exact ⟨_, _, hp, indent_output_balanced ts _ _ hp hu⟩

end Verif.Indents
