import Verif.Lexer.Base

/-!
# Comments (C18)
-/

namespace Verif.Lexer

/-- How often the two characters `a`, `b` stand next to each other in a text (overlaps counted). -/
def pairs (a b : Char) : List Char → Nat
  | x :: y :: r => (if x = a ∧ y = b then 1 else 0) + pairs a b (y :: r)
  | _ => 0

/-- `p` is the rest of a block comment (what follows its `/*`): it is a text in which `*/` occurs once
more than `/*`, and no proper prefix of it has more `*/` than `/*`. -/
def CommentRest (p : List Char) : Prop :=
  pairs '*' '/' p = pairs '/' '*' p + 1 ∧ ∀ q, q <+: p → q ≠ p → pairs '*' '/' q ≤ pairs '/' '*' q

theorem pairs_snoc (a b x y : Char) : ∀ q : List Char,
    pairs a b (q ++ [x] ++ [y]) = pairs a b (q ++ [x]) + (if x = a ∧ y = b then 1 else 0)
  | [] => by simp [pairs]
  | [z] => by simp [pairs]
  | z :: w :: q => by
    have ih := pairs_snoc a b x y (w :: q)
    simp only [List.cons_append, pairs] at ih ⊢
    omega

variable {hd bd : List Char}

/-! ## The loop as a function of the unread text -/

/-- `blockLoop` without the lexer state: text, unread rest, whether the end was found -/
def blockScan (isDoc : Bool) : Nat → Char → List Char → List Char → List Char × List Char × Bool
  | _, _, text, [] => (text, [], false)
  | depth, b0, text, b1 :: r =>
    let text' := if b0 ≠ '\x00' ∧ isDoc then b0 :: text else text
    if b0 = '/' ∧ b1 = '*' then blockScan isDoc (depth + 1) b1 text' r
    else if b0 = '*' ∧ b1 = '/' then
      if depth - 1 = 0 then (text, r, true) else blockScan isDoc (depth - 1) b1 text' r
    else blockScan isDoc depth b1 text' r

theorem blockLoop_eq (isDoc : Bool) (fuel : Nat) : ∀ (s : Lexer) (depth : Nat) (b0 : Char)
    (text : List Char), Good hd bd s → s.view.length < fuel →
    ∃ s', blockLoop isDoc fuel s depth b0 text = ((blockScan isDoc depth b0 text s.view).1, s') ∧
      s'.view = (blockScan isDoc depth b0 text s.view).2.1 ∧ Good hd bd s' ∧
      s'.finalNewline = s.finalNewline ∧ s'.interp = s.interp ∧
      s'.errs = (if (blockScan isDoc depth b0 text s.view).2.2 then s.errs
        else (⟨(lineCol bd).line, (lineCol bd).col - 1⟩, .commentAtEof) :: s.errs) := by
  induction fuel with
  | zero => intro s _ _ _ _ h; omega
  | succ fuel ih =>
    intro s depth b0 text hg hf
    unfold blockLoop
    cases hv : s.view with
    | nil =>
      obtain ⟨s', e, hv', hg', hn', hl, hfr⟩ := hg.eof hv
      rw [e]
      exact ⟨_, rfl, by simpa [blockScan] using hv', hg'.err _ _, hfr.fin, hfr.int, by
        simp [blockScan, Lexer.err, Lexer.errAt, hfr.errs, hl]⟩
    | cons c r =>
      obtain ⟨s', e, hv', hfresh, hfr⟩ := hg.read hv
      rw [e]
      simp only [blockScan]
      have hlen : s'.view.length < fuel := by rw [hv] at hf; rw [hv']; simpa using hf
      split
      · obtain ⟨s2, h1, h2, h3, h4, h5, h6⟩ := ih s' (depth + 1) c _ hfresh.good hlen
        rw [hv'] at h1 h2 h6
        exact ⟨s2, h1, h2, h3, h4.trans hfr.fin, h5.trans hfr.int, by rw [h6, hfr.errs]⟩
      · split
        · split
          · exact ⟨s', rfl, hv', hfresh.good, hfr.fin, hfr.int, by simp [hfr.errs]⟩
          · obtain ⟨s2, h1, h2, h3, h4, h5, h6⟩ := ih s' (depth - 1) c _ hfresh.good hlen
            rw [hv'] at h1 h2 h6
            exact ⟨s2, h1, h2, h3, h4.trans hfr.fin, h5.trans hfr.int, by rw [h6, hfr.errs]⟩
        · obtain ⟨s2, h1, h2, h3, h4, h5, h6⟩ := ih s' depth c _ hfresh.good hlen
          rw [hv'] at h1 h2 h6
          exact ⟨s2, h1, h2, h3, h4.trans hfr.fin, h5.trans hfr.int, by rw [h6, hfr.errs]⟩

/-- what the scan finds, in terms of occurrence counts; `q ++ [b0]` was read before -/
theorem blockScan_rest (isDoc : Bool) (v : List Char) : ∀ (depth : Nat) (b0 : Char)
    (q text : List Char), 1 ≤ depth →
    depth + pairs '*' '/' (q ++ [b0]) = 1 + pairs '/' '*' (q ++ [b0]) →
    (∀ q', q' <+: q ++ [b0] → pairs '*' '/' q' ≤ pairs '/' '*' q') →
    ((blockScan isDoc depth b0 text v).2.2 = true ∧ ∃ p, v = p ++ (blockScan isDoc depth b0 text v).2.1 ∧
        CommentRest (q ++ [b0] ++ p)) ∨
    ((blockScan isDoc depth b0 text v).2.2 = false ∧ (blockScan isDoc depth b0 text v).2.1 = [] ∧
        ∀ q', q' <+: q ++ [b0] ++ v → pairs '*' '/' q' ≤ pairs '/' '*' q') := by
  induction v with
  | nil =>
    intro depth b0 q text _ _ hq
    exact .inr ⟨rfl, rfl, by simpa using hq⟩
  | cons b1 r ih =>
    intro depth b0 q text hd hb hq
    let T := if b0 ≠ '\x00' ∧ isDoc = true then b0 :: text else text
    have hA := pairs_snoc '/' '*' b0 b1 q
    have hB := pairs_snoc '*' '/' b0 b1 q
    -- prefixes of the text read after one more character
    have hpre : pairs '*' '/' (q ++ [b0] ++ [b1]) ≤ pairs '/' '*' (q ++ [b0] ++ [b1]) →
        ∀ q', q' <+: q ++ [b0] ++ [b1] → pairs '*' '/' q' ≤ pairs '/' '*' q' := by
      intro h q' hq'
      rw [List.prefix_concat_iff] at hq'
      rcases hq' with rfl | h'
      · exact h
      · exact hq q' h'
    have wrap : ∀ depth' text', 1 ≤ depth' →
        depth' + pairs '*' '/' (q ++ [b0] ++ [b1]) = 1 + pairs '/' '*' (q ++ [b0] ++ [b1]) →
        blockScan isDoc depth b0 text (b1 :: r) = blockScan isDoc depth' b1 text' r →
        ((blockScan isDoc depth b0 text (b1 :: r)).2.2 = true ∧
          ∃ p, b1 :: r = p ++ (blockScan isDoc depth b0 text (b1 :: r)).2.1 ∧
          CommentRest (q ++ [b0] ++ p)) ∨
        ((blockScan isDoc depth b0 text (b1 :: r)).2.2 = false ∧
          (blockScan isDoc depth b0 text (b1 :: r)).2.1 = [] ∧
          ∀ q', q' <+: q ++ [b0] ++ (b1 :: r) → pairs '*' '/' q' ≤ pairs '/' '*' q') := by
      intro depth' text' h1 h2 h3
      rw [h3]
      rcases ih depth' b1 (q ++ [b0]) text' h1 h2 (hpre (by omega)) with ⟨h4, p, h5, h6⟩ | ⟨h4, h5, h6⟩
      · refine .inl ⟨h4, b1 :: p, ?_, by simpa using h6⟩
        rw [List.cons_append, ← h5]
      · exact .inr ⟨h4, h5, by simpa using h6⟩
    by_cases hopen : b0 = '/' ∧ b1 = '*'
    · have hnc : ¬(b0 = '*' ∧ b1 = '/') := by rintro ⟨rfl, _⟩; exact absurd hopen.1 (by decide)
      rw [if_pos hopen] at hA
      rw [if_neg hnc] at hB
      exact wrap (depth + 1) T (by omega) (by omega) (by rw [blockScan]; simp only [if_pos hopen]; rfl)
    · rw [if_neg hopen] at hA
      by_cases hcl : b0 = '*' ∧ b1 = '/'
      · rw [if_pos hcl] at hB
        by_cases hd1 : depth - 1 = 0
        · have e : blockScan isDoc depth b0 text (b1 :: r) = (text, r, true) := by
            rw [blockScan]; simp only [if_neg hopen, if_pos hcl, if_pos hd1]
          refine .inl ⟨by rw [e], [b1], by rw [e]; rfl, by omega, ?_⟩
          intro q' hq' hne
          rw [List.prefix_concat_iff] at hq'
          rcases hq' with rfl | h'
          · exact absurd rfl hne
          · exact hq q' h'
        · exact wrap (depth - 1) T (by omega) (by omega)
            (by rw [blockScan]; simp only [if_neg hopen, if_pos hcl, if_neg hd1]; rfl)
      · rw [if_neg hcl] at hB
        exact wrap depth T hd (by omega)
          (by rw [blockScan]; simp only [if_neg hopen, if_neg hcl]; rfl)

/-- the comment text, oldest first: what was read, without NUL bytes -/
def docText (isDoc : Bool) (l : List Char) : List Char :=
  if isDoc then l.filter (· ≠ '\x00') else []

theorem docText_cons (isDoc : Bool) (c : Char) (l text : List Char) :
    (docText isDoc (c :: l)).reverse ++ text =
      (docText isDoc l).reverse ++ (if c ≠ '\x00' ∧ isDoc = true then c :: text else text) := by
  cases isDoc <;> simp [docText, List.filter_cons]
  split <;> simp_all

/-- the characters pushed by the loop: all that were read but the closing `*/` -/
theorem blockScan_text (isDoc : Bool) (v : List Char) : ∀ (depth : Nat) (b0 : Char)
    (text : List Char),
    ((blockScan isDoc depth b0 text v).2.2 = true → ∃ p q,
        v = p ++ (blockScan isDoc depth b0 text v).2.1 ∧ b0 :: p = q ++ ['*', '/'] ∧
        (blockScan isDoc depth b0 text v).1 = (docText isDoc q).reverse ++ text) ∧
    ((blockScan isDoc depth b0 text v).2.2 = false →
        (blockScan isDoc depth b0 text v).1 = (docText isDoc (b0 :: v).dropLast).reverse ++ text) := by
  induction v with
  | nil => intro depth b0 text; cases isDoc <;> simp [blockScan, docText]
  | cons b1 r ih =>
    intro depth b0 text
    let T := if b0 ≠ '\x00' ∧ isDoc = true then b0 :: text else text
    have wrap : ∀ depth', blockScan isDoc depth b0 text (b1 :: r) = blockScan isDoc depth' b1 T r →
        ((blockScan isDoc depth b0 text (b1 :: r)).2.2 = true → ∃ p q,
          b1 :: r = p ++ (blockScan isDoc depth b0 text (b1 :: r)).2.1 ∧ b0 :: p = q ++ ['*', '/'] ∧
          (blockScan isDoc depth b0 text (b1 :: r)).1 = (docText isDoc q).reverse ++ text) ∧
        ((blockScan isDoc depth b0 text (b1 :: r)).2.2 = false →
          (blockScan isDoc depth b0 text (b1 :: r)).1 =
            (docText isDoc (b0 :: b1 :: r).dropLast).reverse ++ text) := by
      intro depth' e
      rw [e]
      obtain ⟨h1, h2⟩ := ih depth' b1 T
      constructor
      · intro h
        obtain ⟨p, q, h3, h4, h5⟩ := h1 h
        refine ⟨b1 :: p, b0 :: q, by rw [List.cons_append, ← h3], by rw [h4]; rfl, ?_⟩
        rw [h5, docText_cons]
      · intro h
        rw [h2 h]
        rw [List.dropLast_cons_cons, docText_cons]
    by_cases hopen : b0 = '/' ∧ b1 = '*'
    · exact wrap (depth + 1) (by rw [blockScan]; simp only [if_pos hopen]; rfl)
    · by_cases hcl : b0 = '*' ∧ b1 = '/'
      · by_cases hd1 : depth - 1 = 0
        · have e : blockScan isDoc depth b0 text (b1 :: r) = (text, r, true) := by
            rw [blockScan]; simp only [if_neg hopen, if_pos hcl, if_pos hd1]
          rw [e]
          refine ⟨fun _ => ⟨[b1], [], rfl, by simp [hcl.1, hcl.2], by simp [docText]⟩, by simp⟩
        · exact wrap (depth - 1)
            (by rw [blockScan]; simp only [if_neg hopen, if_pos hcl, if_neg hd1]; rfl)
      · exact wrap depth (by rw [blockScan]; simp only [if_neg hopen, if_neg hcl]; rfl)

/-! ## `skip_block_comments` -/

/-- The documentation token made from a block comment with the given rest: `/** … */` documents the
following item (the second `*` is kept for the documentation parser), `/*! … */` the enclosing one. -/
def blockDoc (inside : List Char) : Option Tok :=
  match inside with
  | '*' :: r =>
    some (.doc .block .followingItem (('*' :: r).filter (· ≠ '\x00')))
  | '!' :: r =>
    if r.filter (· ≠ '\x00') = [] then none
    else some (.doc .block .enclosingItem (r.filter (· ≠ '\x00')))
  | _ => none

theorem commentRest_nil : ¬ CommentRest [] := by simp [CommentRest, pairs]

theorem commentRest_single (c : Char) : ¬ CommentRest [c] := by simp [CommentRest, pairs]

theorem pairs_prefix_single {q : List Char} {c : Char} (h : q <+: [] ++ [c]) :
    pairs '*' '/' q ≤ pairs '/' '*' q := by
  have : q.length ≤ 1 := by simpa using h.length_le
  match q, this with
  | [], _ => simp [pairs]
  | [x], _ => simp [pairs]

theorem skipBlockComments_spec {s : Lexer} (hg : Good hd bd s) :
    (∃ inside rest, s.view = inside ++ "*/".toList ++ rest ∧ CommentRest (inside ++ "*/".toList) ∧
      (skipBlockComments s).1 = blockDoc inside ∧ (skipBlockComments s).2.view = rest ∧
      Good hd bd (skipBlockComments s).2 ∧ Frame s (skipBlockComments s).2) ∨
    ((∀ p, p <+: s.view → ¬ CommentRest p) ∧ (skipBlockComments s).2.view = [] ∧
      (skipBlockComments s).2.errs =
        (⟨(lineCol bd).line, (lineCol bd).col - 1⟩, .commentAtEof) :: s.errs ∧
      Good hd bd (skipBlockComments s).2 ∧
      (skipBlockComments s).2.finalNewline = s.finalNewline ∧
      (skipBlockComments s).2.interp = s.interp) := by
  cases hv : s.view with
  | nil =>
    obtain ⟨s', e, hv', hg', hn', hl, hfr⟩ := hg.eof hv
    obtain ⟨s2, h1, h2, h3, h4, h5, h6⟩ := blockLoop_eq (hd := hd) (bd := bd) false
      (s'.size + 1) s' 1 '\x00' [] hg' (by rw [size_eq_view]; omega)
    rw [hv'] at h1 h2 h6
    have e2 : (skipBlockComments s).2 = s2 := by
      simp only [skipBlockComments, e]
      simp [h1]
    right
    rw [e2]
    refine ⟨?_, by simpa [blockScan] using h2, by simpa [blockScan, hfr.errs] using h6, h3,
      h4.trans hfr.fin, h5.trans hfr.int⟩
    intro p hp
    have : p = [] := by simpa using hp
    subst this; exact commentRest_nil
  | cons c r =>
    obtain ⟨s', e, hv', hfresh, hfr⟩ := hg.read hv
    -- the value `buffer[1]` starts with
    obtain ⟨target, b1, htb, hskip⟩ : ∃ (target : Option DocTarget) (b1 : Char),
        ((c = '*' ∧ target = some .followingItem ∧ b1 = '*') ∨
          (c = '!' ∧ target = some .enclosingItem ∧ b1 = '\x00') ∨
          (c ≠ '*' ∧ c ≠ '!' ∧ target = none ∧ b1 = c)) ∧
        skipBlockComments s =
          (if (blockLoop target.isSome (s'.size + 1) s' 1 b1 []).1.isEmpty then none
            else target.map (fun t => .doc .block t
              (blockLoop target.isSome (s'.size + 1) s' 1 b1 []).1.reverse),
           (blockLoop target.isSome (s'.size + 1) s' 1 b1 []).2) := by
      unfold skipBlockComments
      rw [e]
      by_cases h1 : c = '*'
      · subst h1; exact ⟨some .followingItem, '*', .inl ⟨rfl, rfl, rfl⟩, rfl⟩
      · by_cases h2 : c = '!'
        · subst h2; exact ⟨some .enclosingItem, '\x00', .inr (.inl ⟨rfl, rfl, rfl⟩), rfl⟩
        · refine ⟨none, c, .inr (.inr ⟨h1, h2, rfl, rfl⟩), ?_⟩
          simp [h1, h2]
    obtain ⟨s2, h1, h2, h3, h4, h5, h6⟩ := blockLoop_eq (hd := hd) (bd := bd) target.isSome
      (s'.size + 1) s' 1 b1 [] hfresh.good (by rw [size_eq_view]; omega)
    rw [hv'] at h1 h2 h6
    rw [h1] at hskip
    -- what was found
    have hpair : ∀ l : List Char, pairs '*' '/' ([b1] ++ l) = pairs '*' '/' (c :: l) ∧
        pairs '/' '*' ([b1] ++ l) = pairs '/' '*' (c :: l) := by
      intro l
      rcases htb with ⟨rfl, _, rfl⟩ | ⟨rfl, _, rfl⟩ | ⟨_, _, _, rfl⟩
      · exact ⟨rfl, rfl⟩
      · cases l <;> simp [pairs]
      · exact ⟨rfl, rfl⟩
    have hcr : ∀ l, CommentRest ([b1] ++ l) → CommentRest (c :: l) := by
      rintro l ⟨ha, hb⟩
      refine ⟨by rw [← (hpair l).1, ← (hpair l).2]; exact ha, ?_⟩
      intro q hq hne
      cases q with
      | nil => simp [pairs]
      | cons x q =>
        rw [List.cons_prefix_cons] at hq
        obtain ⟨rfl, hq⟩ := hq
        rw [← (hpair q).1, ← (hpair q).2]
        refine hb ([b1] ++ q) (by simpa using hq) ?_
        intro hc
        simp at hc; subst hc; exact hne rfl
    have hrest := blockScan_rest target.isSome r 1 b1 [] [] (Nat.le_refl 1) (by simp [pairs])
      (fun q' => pairs_prefix_single)
    have htext := blockScan_text target.isSome r 1 b1 []
    simp only [List.nil_append] at hrest
    rcases hrest with ⟨hend, p, hp1, hp2⟩ | ⟨hend, hre, hall⟩
    · left
      obtain ⟨p', q, hp3, hq, hqt⟩ := htext.1 hend
      have hpp : p' = p := by
        have := hp3.symm.trans hp1
        exact List.append_cancel_right this
      subst hpp
      -- the comment body starts with `c`
      have hq0 : q ≠ [] ∨ (q = [] ∧ b1 = '*') := by
        cases q with
        | nil => right; simp at hq; exact ⟨rfl, hq.1⟩
        | cons => left; simp
      have hc : c :: p' = (if q = [] then [] else c :: q.tail) ++ ['*', '/'] := by
        rcases hq0 with h0 | ⟨rfl, hb⟩
        · cases q with
          | nil => exact absurd rfl h0
          | cons x q =>
            simp only [List.cons_append, List.cons.injEq] at hq
            simp [hq.2]
        · simp at hq
          have : c = '*' := by
            rcases htb with ⟨rfl, _, _⟩ | ⟨_, _, h⟩ | ⟨_, _, _, h⟩
            · rfl
            · rw [hb] at h; exact absurd h (by decide)
            · rw [← h, hb]
          simp [this, hq.2]
      refine ⟨if q = [] then [] else c :: q.tail, (blockScan target.isSome 1 b1 [] r).2.1, ?_, ?_, ?_, ?_, ?_, ?_⟩
      · have : c :: r = c :: p' ++ (blockScan target.isSome 1 b1 [] r).2.1 := by
          rw [List.cons_append, ← hp1]
        rw [this, hc]; rfl
      · have := hcr _ hp2
        rw [hc] at this; exact this
      · rw [hskip, hqt]
        rcases htb with ⟨rfl, rfl, rfl⟩ | ⟨rfl, rfl, rfl⟩ | ⟨hc1, hc2, rfl, rfl⟩
        · cases q with
          | nil => simp [docText, blockDoc]
          | cons x q =>
            simp only [List.cons_append, List.cons.injEq] at hq
            obtain ⟨rfl, hq⟩ := hq
            simp [docText, blockDoc]
        · cases q with
          | nil => simp at hq
          | cons x q =>
            simp only [List.cons_append, List.cons.injEq] at hq
            obtain ⟨rfl, hq⟩ := hq
            simp only [docText, Option.isSome_some, if_true, List.append_nil, blockDoc,
              List.tail_cons]
            simp
        · cases q with
          | nil => simp [blockDoc]
          | cons x q =>
            simp only [reduceCtorEq, if_false, blockDoc, List.tail_cons, Option.map_none]
            have hn : ∀ y, (match b1 :: q with
                | '*' :: r => some (Tok.doc .block .followingItem (('*' :: r).filter (· ≠ '\x00')))
                | '!' :: r => if r.filter (· ≠ '\x00') = [] then none
                    else some (.doc .block .enclosingItem (r.filter (· ≠ '\x00')))
                | _ => y) = y := by
              intro y
              split
              · rename_i heq; simp at heq; exact absurd heq.1 hc1
              · rename_i heq; simp at heq; exact absurd heq.1 hc2
              · rfl
            rw [ite_self]
            exact (hn none).symm
      · rw [hskip]; exact h2
      · rw [hskip]; exact h3
      · rw [hskip]
        exact ⟨h4.trans hfr.fin, h5.trans hfr.int, by rw [h6, hend]; simpa using hfr.errs⟩
    · right
      refine ⟨?_, ?_, ?_, ?_, ?_, ?_⟩
      · intro p hp hcp
        cases p with
        | nil => exact commentRest_nil hcp
        | cons x p =>
          rw [List.cons_prefix_cons] at hp
          obtain ⟨rfl, hp⟩ := hp
          have := hall ([b1] ++ p) (by simpa using hp)
          rw [(hpair p).1, (hpair p).2] at this
          have := hcp.1
          omega
      · rw [hskip]; show s2.view = []; rw [h2, hre]
      · rw [hskip]; show s2.errs = _; rw [h6, hend, hfr.errs]; rfl
      · rw [hskip]; exact h3
      · rw [hskip]; exact h4.trans hfr.fin
      · rw [hskip]; exact h5.trans hfr.int

/-! ## Separated nesting -/

/-- a character that is neither `/` nor `*` -/
def Plain (c : Char) : Prop := c ≠ '/' ∧ c ≠ '*'

/-- Text with properly nested comments in which no two delimiters touch: every `/*` and every `*/`
inside is followed by an ordinary character. -/
inductive Nested : List Char → Prop
  | nil : Nested []
  | char (c r) : Plain c → Nested r → Nested (c :: r)
  | comment (c body d r) : Plain c → Nested body → Plain d → Nested r →
      Nested ('/' :: '*' :: c :: body ++ '*' :: '/' :: d :: r)

theorem blockScan_plain {isDoc : Bool} {depth : Nat} {b0 c : Char} {text r : List Char}
    (h : Plain c ∨ Plain b0) : ∃ T, blockScan isDoc depth b0 text (c :: r) = blockScan isDoc depth c T r := by
  have h1 : ¬(b0 = '/' ∧ c = '*') := by
    rcases h with h | h
    · exact fun hc => h.2 hc.2
    · exact fun hc => h.1 hc.1
  have h2 : ¬(b0 = '*' ∧ c = '/') := by
    rcases h with h | h
    · exact fun hc => h.1 hc.2
    · exact fun hc => h.2 hc.1
  exact ⟨_, by rw [blockScan]; simp only [if_neg h1, if_neg h2]; rfl⟩

theorem nested_scan (isDoc : Bool) {b : List Char} (h : Nested b) : ∀ (depth : Nat) (b0 : Char)
    (text w : List Char), 1 ≤ depth → Plain b0 →
    ∃ b1 T, Plain b1 ∧ blockScan isDoc depth b0 text (b ++ w) = blockScan isDoc depth b1 T w := by
  induction h with
  | nil => intro depth b0 text w _ hb; exact ⟨b0, text, hb, rfl⟩
  | char c r hc _ ih =>
    intro depth b0 text w hd hb
    obtain ⟨T, e⟩ := blockScan_plain (isDoc := isDoc) (depth := depth) (b0 := b0) (text := text)
      (r := r ++ w) (.inl hc)
    obtain ⟨b1, T', h1, h2⟩ := ih depth c T w hd hc
    exact ⟨b1, T', h1, by rw [List.cons_append, e, h2]⟩
  | comment c body d r hc _ hdp _ ih1 ih2 =>
    intro depth b0 text w hd hb
    simp only [List.cons_append, List.append_assoc]
    obtain ⟨T1, e1⟩ := blockScan_plain (isDoc := isDoc) (depth := depth) (b0 := b0) (c := '/')
      (text := text) (r := '*' :: c :: (body ++ '*' :: '/' :: d :: (r ++ w))) (.inr hb)
    have e2 : ∃ T, blockScan isDoc depth '/' T1 ('*' :: c :: (body ++ '*' :: '/' :: d :: (r ++ w))) =
        blockScan isDoc (depth + 1) '*' T (c :: (body ++ '*' :: '/' :: d :: (r ++ w))) := by
      exact ⟨_, by rw [blockScan]; simp only [and_self, if_true]; rfl⟩
    obtain ⟨T2, e2⟩ := e2
    obtain ⟨T3, e3⟩ := blockScan_plain (isDoc := isDoc) (depth := depth + 1) (b0 := '*')
      (text := T2) (r := body ++ '*' :: '/' :: d :: (r ++ w)) (.inl hc)
    obtain ⟨b1, T4, hb1, e4⟩ := ih1 (depth + 1) c T3 ('*' :: '/' :: d :: (r ++ w)) (by omega) hc
    obtain ⟨T5, e5⟩ := blockScan_plain (isDoc := isDoc) (depth := depth + 1) (b0 := b1) (c := '*')
      (text := T4) (r := '/' :: d :: (r ++ w)) (.inr hb1)
    have e6 : ∃ T, blockScan isDoc (depth + 1) '*' T5 ('/' :: d :: (r ++ w)) =
        blockScan isDoc depth '/' T (d :: (r ++ w)) := by
      refine ⟨if '*' ≠ '\x00' ∧ isDoc = true then '*' :: T5 else T5, ?_⟩
      rw [blockScan]
      have : ¬('*' = '/' ∧ '/' = '*') := by decide
      have h0 : ¬(depth + 1 - 1 = 0) := by omega
      rw [if_neg this, if_pos ⟨rfl, rfl⟩, if_neg h0, Nat.add_sub_cancel]
    obtain ⟨T6, e6⟩ := e6
    obtain ⟨T7, e7⟩ := blockScan_plain (isDoc := isDoc) (depth := depth) (b0 := '/')
      (text := T6) (r := r ++ w) (.inl hdp)
    obtain ⟨b2, T8, hb2, e8⟩ := ih2 depth d T7 w hd hdp
    exact ⟨b2, T8, hb2, by rw [e1, e2, e3, e4, e5, e6, e7, e8]⟩

theorem nested_commentRest {c : Char} {b : List Char} (hc : Plain c) (h : Nested b) :
    CommentRest (c :: b ++ "*/".toList) := by
  obtain ⟨b1, T, hb1, e⟩ := nested_scan false h 1 c [] "*/".toList (Nat.le_refl 1) hc
  obtain ⟨T5, e5⟩ := blockScan_plain (isDoc := false) (depth := 1) (b0 := b1) (c := '*')
      (text := T) (r := ['/']) (.inr hb1)
  have e6 : blockScan false 1 '*' T5 ['/'] = (T5, [], true) := by simp [blockScan]
  have e7 : blockScan false 1 c [] (b ++ "*/".toList) = (T5, [], true) := by
    rw [e]; exact e5.trans e6
  have hrest := blockScan_rest false (b ++ "*/".toList) 1 c [] [] (Nat.le_refl 1) (by simp [pairs])
      (fun q' => pairs_prefix_single)
  rw [e7] at hrest
  simpa using hrest

theorem commentRest_unique {p q t : List Char} (hp : CommentRest p) (hq : CommentRest q)
    (h1 : p <+: t) (h2 : q <+: t) : p = q := by
  have key : ∀ {p q : List Char}, CommentRest p → CommentRest q → p <+: t → q <+: t →
      p.length ≤ q.length → p = q := by
    intro p q hp hq h1 h2 hl
    have hpre := List.prefix_of_prefix_length_le h1 h2 hl
    by_contra hne
    have := hq.2 p hpre hne
    have := hp.1
    omega
  rcases Nat.le_total p.length q.length with h | h
  · exact key hp hq h1 h2 h
  · exact (key hq hp h2 h1 h).symm

/-! ## Line comments -/

/-- What remains after a line comment: everything from the first newline on that is not preceded by an
active backslash (carriage returns are ignored, a backslash acts on the next other character). -/
def afterLine : Bool → List Char → List Char
  | _, [] => []
  | escaped, c :: r =>
    if c = '\r' then afterLine escaped r
    else if escaped then afterLine false r
    else if c = '\n' then c :: r
    else afterLine (c = '\\') r

/-- the characters of a line comment that its documentation text consists of -/
def lineText : Bool → List Char → List Char
  | _, [] => []
  | escaped, c :: r =>
    if c = '\r' then lineText escaped r
    else if escaped then (if c = '\n' then [] else [c]) ++ lineText false r
    else if c = '\n' then []
    else c :: lineText (c = '\\') r

theorem lineLoop_eq (isDoc : Bool) (fuel : Nat) : ∀ (s : Lexer) (bs : Bool) (text : List Char),
    Good hd bd s → s.view.length < fuel →
    ∃ s', lineLoop isDoc fuel s bs text =
        (if isDoc then (lineText bs s.view).reverse ++ text else text, s') ∧
      s'.view = afterLine bs s.view ∧ Good hd bd s' ∧
      s'.finalNewline = s.finalNewline ∧ s'.interp = s.interp ∧ s.errs <:+ s'.errs := by
  induction fuel with
  | zero => intro s _ _ _ h; omega
  | succ fuel ih =>
    intro s bs text hg hf
    unfold lineLoop
    cases hv : s.view with
    | nil =>
      obtain ⟨s', e, hv', hg', hn', hl, hfr⟩ := hg.eof hv
      rw [e]
      exact ⟨s', by simp [lineText], by simpa [afterLine] using hv', hg', hfr.fin, hfr.int,
        by rw [hfr.errs]; exact List.suffix_refl _⟩
    | cons c r =>
      obtain ⟨s', e, hv', hfresh, hfr⟩ := hg.read hv
      rw [e]
      simp only [afterLine, lineText]
      have hlen : s'.view.length < fuel := by rw [hv] at hf; rw [hv']; simpa using hf
      have he0 : s.errs <:+ s'.errs := by rw [hfr.errs]; exact List.suffix_refl _
      by_cases hr : c = '\r'
      · subst hr
        obtain ⟨s2, h1, h2, h3, h4, h5, h6⟩ := ih s' bs text hfresh.good hlen
        rw [hv'] at h1 h2
        refine ⟨s2, ?_, by simpa using h2, h3, h4.trans hfr.fin, h5.trans hfr.int, he0.trans h6⟩
        simpa using h1
      · simp only [if_neg hr]
        cases bs with
        | true =>
          simp only [if_true]
          by_cases hn : c = '\n'
          · subst hn
            obtain ⟨s2, h1, h2, h3, h4, h5, h6⟩ := ih (s'.err .backslashInComment) false text
              (hfresh.good.err _ _) hlen
            rw [view_err, hv'] at h1 h2
            refine ⟨s2, ?_, h2, h3, h4.trans hfr.fin, h5.trans hfr.int, ?_⟩
            · simpa using h1
            · exact (he0.trans (List.suffix_cons _ _)).trans h6
          · simp only [if_neg hn]
            obtain ⟨s2, h1, h2, h3, h4, h5, h6⟩ := ih s' false
              (if c ≠ '\r' ∧ c ≠ '\n' ∧ isDoc = true then c :: text else text) hfresh.good hlen
            rw [hv'] at h1 h2
            refine ⟨s2, ?_, h2, h3, h4.trans hfr.fin, h5.trans hfr.int, he0.trans h6⟩
            rw [h1]
            cases isDoc <;> simp [hr, hn]
        | false =>
          simp only [Bool.false_eq_true, if_false]
          by_cases hn : c = '\n'
          · subst hn
            obtain ⟨hgp, hvp⟩ := hfresh.putBack
            refine ⟨s'.putBack (some '\n'), by simp, ?_, hgp, hfr.fin, hfr.int, he0⟩
            simp [hvp, hv']
          · simp only [if_neg hn]
            have hstep : (if c = '\\' then lineLoop isDoc fuel s' true
                  (if c ≠ '\r' ∧ c ≠ '\n' ∧ isDoc = true then c :: text else text)
                else lineLoop isDoc fuel s' false
                  (if c ≠ '\r' ∧ c ≠ '\n' ∧ isDoc = true then c :: text else text)) =
                lineLoop isDoc fuel s' (decide (c = '\\'))
                  (if c ≠ '\r' ∧ c ≠ '\n' ∧ isDoc = true then c :: text else text) := by
              by_cases hb : c = '\\' <;> simp [hb]
            rw [hstep]
            obtain ⟨s2, h1, h2, h3, h4, h5, h6⟩ := ih s' (decide (c = '\\'))
              (if c ≠ '\r' ∧ c ≠ '\n' ∧ isDoc = true then c :: text else text) hfresh.good hlen
            rw [hv'] at h1 h2
            refine ⟨s2, ?_, h2, h3, h4.trans hfr.fin, h5.trans hfr.int, he0.trans h6⟩
            rw [h1]
            cases isDoc <;> simp [hr, hn]

/-- the documentation token of a line comment, from the text after `//` -/
def lineDoc (rest : List Char) : Option Tok :=
  match rest with
  | '/' :: r => some (.doc .line .followingItem (lineText false r))
  | '!' :: r => some (.doc .line .enclosingItem (lineText false r))
  | _ => none

theorem skipLineComment_spec {s : Lexer} (hg : Good hd bd s) :
    (skipLineComment s).1 = lineDoc s.view ∧ (skipLineComment s).2.view = afterLine false s.view ∧
    Good hd bd (skipLineComment s).2 ∧ (skipLineComment s).2.finalNewline = s.finalNewline ∧
    (skipLineComment s).2.interp = s.interp ∧ s.errs <:+ (skipLineComment s).2.errs := by
  cases hv : s.view with
  | nil =>
    obtain ⟨s', e, hv', hg', hn', hl, hfr⟩ := hg.eof hv
    obtain ⟨s2, h1, h2, h3, h4, h5, h6⟩ := lineLoop_eq (hd := hd) (bd := bd) false (s'.size + 1) s'
      false [] hg' (by rw [size_eq_view]; omega)
    have e2 : skipLineComment s = (none, s2) := by
      simp only [skipLineComment, e]
      simp [h1]
    rw [e2]
    refine ⟨rfl, by simpa [hv', afterLine] using h2, h3, h4.trans hfr.fin, h5.trans hfr.int, ?_⟩
    rw [← hfr.errs]; exact h6
  | cons c r =>
    obtain ⟨s', e, hv', hfresh, hfr⟩ := hg.read hv
    by_cases hn : c = '\n'
    · subst hn
      obtain ⟨hgp, hvp⟩ := hfresh.putBack
      have e2 : skipLineComment s = (none, s'.putBack (some '\n')) := by
        simp only [skipLineComment, e]; simp
      rw [e2]
      refine ⟨rfl, by simp [hvp, hv', afterLine], hgp, hfr.fin, hfr.int, ?_⟩
      rw [← hfr.errs]; exact List.suffix_refl _
    · obtain ⟨target, ht⟩ : ∃ t : Option DocTarget, t =
        (if some c = some '/' then some .followingItem
          else if some c = some '!' then some .enclosingItem else none) := ⟨_, rfl⟩
      obtain ⟨s2, h1, h2, h3, h4, h5, h6⟩ := lineLoop_eq (hd := hd) (bd := bd) target.isSome
        (s'.size + 1) s' (decide (some c = some '\\')) [] hfresh.good (by rw [size_eq_view]; omega)
      have e2 : skipLineComment s = (target.map (fun t => .doc .line t
          (lineLoop target.isSome (s'.size + 1) s' (decide (some c = some '\\')) []).1.reverse), s2) := by
        simp only [skipLineComment, e]
        rw [if_neg (by simpa using hn), ← ht, h1]
      rw [e2, h1]
      refine ⟨?_, ?_, h3, h4.trans hfr.fin, h5.trans hfr.int, ?_⟩
      · rw [hv', ht]
        by_cases hs : c = '/'
        · subst hs; simp [lineDoc]
        · by_cases hx : c = '!'
          · subst hx; simp [lineDoc]
          · simp only [Option.some.injEq, hs, hx, if_false, Option.map_none, lineDoc]
            split
            · simp_all
            · simp_all
            · rfl
      · rw [h2, hv', afterLine]
        by_cases hr : c = '\r'
        · subst hr; simp
        · simp [hr, hn]
      · rw [← hfr.errs]; exact h6

end Verif.Lexer
