import Verif.Parse.Complete

/-! # Properties of the expression parser -/

namespace Verif.Parse

theorem expression_fuel (ts : List Tok) : expression ts ≠ .error .fuel := by
  intro h
  have h1 := (total (8 * ts.length + 4)).2.2.2.1 13 ⟨ts, false⟩ (by simp)
  have := h1.1 _ h
  cases this

/-- C38: for every token stream the parser ends, without panic: it yields an expression and the tokens after it,
or no expression and all tokens, or an error of syntax -/
theorem parse_total (ts : List Tok) :
    expression ts = .error .syntax ∨ (∃ st, expression ts = .ok (none, st) ∧ st.toks.length ≤ ts.length) ∨
      ∃ e st, expression ts = .ok (some e, st) ∧ st.toks.length < ts.length := by
  have h1 := (total (8 * ts.length + 4)).2.2.2.1 13 ⟨ts, false⟩ (by simp)
  change Ok2 _ (expression ts) at h1
  cases h : expression ts with
  | error e => exact .inl (by rw [h1.1 e h])
  | ok x =>
    obtain ⟨o, st⟩ := x
    obtain ⟨h2, h3⟩ := h1.2 o st h
    cases o with
    | none => exact .inr (.inl ⟨st, rfl, h2⟩)
    | some e => exact .inr (.inr ⟨e, st, rfl, h3 rfl⟩)

/-- C38: an expression yielded without warning is spelled, by the grammar, by exactly the tokens that were used -/
theorem expression_sound (ts : List Tok) (e : Expr) (st : St) (h : expression ts = .ok (some e, st))
    (hw : st.warned = false) : ∃ used, ts = used ++ st.toks ∧ Derives 15 used e := by
  obtain ⟨used, h1, h2⟩ := (sound _).2.2.2.1 13 ⟨ts, false⟩ e st h (.inl rfl)
  exact ⟨used, h1, (h2 hw).2.1⟩

/-- C38: if tokens spell an expression and what comes after cannot continue one, then exactly those tokens are used,
the result is that expression and there is no warning -/
theorem expression_complete (ts : List Tok) (e : Expr) (rest : List Tok) (h : Derives 15 ts e) (hr : Ends 15 rest) :
    expression (ts ++ rest) = .ok (some e, ⟨rest, false⟩) := by
  obtain ⟨N, h1⟩ := ex_of_reach (complete _ 15 ts e rest h (Nat.lt_succ_self _) hr) (.inr ⟨rfl, rfl⟩) hr
  have h2 := exprEx_more (8 * (ts ++ rest).length + 4) (max N (8 * (ts ++ rest).length + 4)) 13 ⟨ts ++ rest, false⟩
    (by omega) (expression_fuel _)
  unfold expression
  rw [← h2]
  exact h1 _ (by omega)

/-- C38: the parser accepts exactly the grammar, with the expression of the grammar -/
theorem parse_iff (ts : List Tok) (e : Expr) : parse ts = some e ↔ Derives 15 ts e := by
  constructor
  · intro h
    unfold parse at h
    split at h
    · rename_i e' st heq
      split at h
      · rename_i hc
        cases h
        simp only [Bool.and_eq_true, List.isEmpty_iff, Bool.not_eq_true'] at hc
        obtain ⟨used, h1, h2⟩ := expression_sound ts e st heq hc.2
        rw [hc.1, List.append_nil] at h1
        rw [h1]
        exact h2
      · cases h
    · cases h
  · intro h
    have h1 := expression_complete ts e [] h ends_nil
    rw [List.append_nil] at h1
    unfold parse
    rw [h1]
    rfl

/-- C38: the grammar is unambiguous -/
theorem derives_unique (ts : List Tok) (e e' : Expr) (h : Derives 15 ts e) (h' : Derives 15 ts e') : e = e' := by
  have h1 := (parse_iff ts e).2 h
  rw [(parse_iff ts e').2 h'] at h1
  exact (Option.some.inj h1).symm

def var (a : Nat) : Expr := .base (.atom a) []

theorem derives_var (a : Nat) : Derives 0 [.atom a] (var a) :=
  .unary (ps := []) (os := []) (fts := []) (fs := []) .nil .atom .nil

theorem leftOp_level {k p o} (h : LeftOp k p o) : 1 ≤ k ∧ k ≤ 14 := by cases h <;> decide

/-- C38: of two binary operators the one of the tighter level is applied first; of two of the same level, the left one -/
theorem two_operators {k1 k2 : Nat} {p1 p2 : Punct} {o1 o2 : BinaryOp} (h1 : LeftOp k1 p1 o1) (h2 : LeftOp k2 p2 o2)
    (a b c : Nat) :
    parse [.atom a, .op p1, .atom b, .op p2, .atom c] =
      if k1 ≤ k2 then some (.binary o2 (.binary o1 (var a) (var b)) (var c))
      else some (.binary o1 (var a) (.binary o2 (var b) (var c))) := by
  have hk1 := leftOp_level h1
  have hk2 := leftOp_level h2
  obtain ⟨k1, rfl⟩ : ∃ k, k1 = k + 1 := ⟨k1 - 1, by omega⟩
  obtain ⟨k2, rfl⟩ : ∃ k, k2 = k + 1 := ⟨k2 - 1, by omega⟩
  split
  · rename_i hle
    rw [parse_iff]
    have d1 := Derives.left h1 (ups (derives_var a) (Nat.zero_le (k1 + 1)) (by omega)) (ups (derives_var b) (Nat.zero_le k1) (by omega))
    have d2 := Derives.left h2 (ups d1 hle (by omega)) (ups (derives_var c) (Nat.zero_le k2) (by omega))
    exact ups d2 (by omega) (by omega)
  · rename_i hle
    rw [parse_iff]
    have d1 := Derives.left h2 (ups (derives_var b) (Nat.zero_le (k2 + 1)) (by omega)) (ups (derives_var c) (Nat.zero_le k2) (by omega))
    have d2 := Derives.left h1 (ups (derives_var a) (Nat.zero_le (k1 + 1)) (by omega)) (ups d1 (show k2 + 1 ≤ k1 by omega) (by omega))
    exact ups d2 (by omega) (by omega)

/-- C38: of two assignments the right one is applied first -/
theorem two_assignments {p1 p2 : Punct} {o1 o2 : AssignOp} (h1 : RightOp p1 o1) (h2 : RightOp p2 o2) (a b c : Nat) :
    parse [.atom a, .op p1, .atom b, .op p2, .atom c] =
      some (.assign o1 (var a) (.assign o2 (var b) (var c))) := by
  rw [parse_iff]
  have d1 := Derives.assign h2 (ups (derives_var b) (by omega) (by omega)) (ups (derives_var c) (by omega) (by omega))
  have d2 := Derives.assign h1 (ups (derives_var a) (by omega) (by omega)) d1
  exact ups d2 (by omega) (by omega)

/-- C38: a conditional in the else arm of a conditional -/
theorem conditional_right (a b c d e : Nat) :
    parse [.atom a, .op .questionMark, .atom b, .colon, .atom c, .op .questionMark, .atom d, .colon, .atom e] =
      some (.ternary (var a) (var b) (.ternary (var c) (var d) (var e))) := by
  rw [parse_iff]
  have d1 := Derives.cond (ups (derives_var c) (by omega) (by omega)) (ups (derives_var d) (by omega) (by omega))
    (ups (derives_var e) (by omega) (by omega))
  have d2 := Derives.cond (ups (derives_var a) (by omega) (by omega)) (ups (derives_var b) (by omega) (by omega)) d1
  exact ups d2 (by omega) (by omega)

/-- C38: any expression may stand between brackets, and is not changed by what is around them -/
theorem bracketed (ts : List Tok) (e : Expr) (h : parse ts = some e) {k : Nat} {p : Punct} {o : BinaryOp}
    (hp : LeftOp k p o) (a : Nat) :
    parse (.atom a :: .op p :: .lparen :: (ts ++ [.rparen])) = some (.binary o (var a) (.base (.expr e) [])) := by
  have hk := leftOp_level hp
  obtain ⟨k, rfl⟩ : ∃ j, k = j + 1 := ⟨k - 1, by omega⟩
  rw [parse_iff] at h ⊢
  have d := Derives.unary (ps := []) (os := []) (fts := []) (fs := []) .nil (.paren h) .nil
  simp only [List.nil_append, List.append_nil, List.reverse_nil, List.map_nil] at d
  have d2 := Derives.left hp (ups (derives_var a) (Nat.zero_le (k + 1)) (by omega)) (ups d (Nat.zero_le k) (by omega))
  exact ups d2 (by omega) (by omega)

/-- C38: postfix operators bind tighter than prefix ones, and prefix ones tighter than `**` -/
theorem prefix_postfix (a b : Nat) :
    parse [.op .sub, .atom a, .plusPlus, .op .pow, .atom b] =
      some (.binary .pow (.base (.atom a) [.unary .postIncr, .unary .neg]) (var b)) := by
  rw [parse_iff]
  have d := Derives.unary (.cons .neg .nil) (DTerm.atom (a := a)) (.incr .nil)
  exact ups (Derives.left .pow (ups d (Nat.zero_le 1) (by omega)) (derives_var b)) (by omega) (by omega)

/-! ## Where the parser and the language differ -/

/-- without an expression after `:` the parser warns and goes on with `null`; but an operator after the `:` then
applies to the conditional -/
theorem missing_else (a b c : Nat) :
    expression [.atom a, .op .questionMark, .atom b, .colon, .op .add, .atom c] =
      .ok (some (.binary .add (.ternary (var a) (var b) (.base .null [])) (var c)), ⟨[], true⟩) := rfl

/-- an assignment cannot be an arm of a conditional -/
theorem assignment_in_arm (a b c d : Nat) :
    expression [.atom a, .op .questionMark, .atom b, .op .assign, .atom c, .colon, .atom d] = .error .syntax := rfl

/-! ## Examples -/

/-- `-a[b] + (c in d to e) * f = g ? h : i` -/
example : Derives 15 [.op .sub, .atom 0, .lbracket false, .atom 1, .rbracket, .op .add, .lparen, .atom 2, .op .in_,
    .atom 3, .to, .atom 4, .rparen, .op .mul, .atom 5, .op .assign, .atom 6, .op .questionMark, .atom 7, .colon, .atom 8]
    (.assign .assign
      (.binary .add (.base (.atom 0) [.index false (var 1), .unary .neg])
        (.binary .mul (.base (.expr (.binary .in_ (var 2) (.binary .to (var 3) (var 4)))) []) (var 5)))
      (.ternary (var 6) (var 7) (var 8))) :=
  (parse_iff _ _).1 rfl

example : Ends 15 [.other 0, .atom 1] where
  incr := by intro r h; cases h
  decr := by intro r h; cases h
  index := by intro s r h; cases h
  op := by intro q' r' h'; cases h'
  «to» := by intro r' h'; cases h'

example : LeftOp 2 .mul .mul ∧ LeftOp 14 .in_ .in_ ∧ RightOp .andAssign .andAssign := ⟨.mul, .in_, .andAssign⟩

end Verif.Parse
