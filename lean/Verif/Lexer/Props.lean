import Verif.Lexer.Tokens
import Verif.Dmm.ReadWF

/-!
# Comments and strings, as seen from the token iterator (C18, C19)
-/

namespace Verif.Lexer

open Verif.Dmm (quoteDisplay containsText)

variable {hd bd : List Char}

/-- The lexer states that occur while a text is tokenized. -/
inductive Reach (fo : FloatOps) (text : List Char) : Lexer → Prop
  | new : Reach fo text (Lexer.new text)
  | step (s sn fi) : Reach fo text s → Reach fo text (step fo s sn fi).2

theorem Reach.good {fo : FloatOps} {text : List Char} (hf : Fits text) {s : Lexer}
    (h : Reach fo text s) : ∃ hd, Good hd (body text) s := by
  obtain ⟨hd, hg, _⟩ := Good.new hf
  refine ⟨hd, ?_⟩
  induction h with
  | new => exact hg
  | step s sn fi _ ih => exact (step_spec fo ih sn fi).1

/-- a character that `skip_ws` does not skip -/
theorem skipWs_stop {s : Lexer} (hg : Good hd bd s) {c : Char} {r : List Char}
    (hv : s.view = c :: r) (sn : Bool) (h1 : c ≠ '\r') (h2 : c ≠ ' ') (h3 : c ≠ '\t')
    (h4 : c ≠ '\n') :
    ∃ s1, skipWs s sn = (some c, s1) ∧ s1.view = r ∧ Fresh hd bd s1 c ∧ Frame s s1 ∧
      (s1.directive = s.directive ∨ s1.directive = .none) := by
  obtain ⟨s1, e, hv1, hf, hfr⟩ := hg.read hv
  refine ⟨s1, ?_, hv1, hf, hfr, ?_⟩
  · unfold skipWs wsLoop
    rw [e]
    simp [h1, h2, h3, h4]
  · have : s1 = s.next.2 := by rw [e]
    rw [this]
    have htn : s.trackNext.2.directive = s.directive := by
      unfold Lexer.trackNext Lexer.trackRead Lexer.bumpLine
      split <;> split <;> rfl
    unfold Lexer.next
    split
    · exact .inl rfl
    · simp only
      split
      · split
        · exact .inr rfl
        · exact .inl htn
      · split
        · split
          · exact .inr rfl
          · exact .inl htn
        · split
          · exact .inr rfl
          · exact .inl htn

/-- the step taken at a symbol that no longer symbol extends -/
theorem step_symbol (fo : FloatOps) {s : Lexer} (hg : Good hd bd s) {p : List Char}
    (hp : p ∈ symbols) (hsingle : starting p = [p]) (hclose : p ≠ [':'])
    (hws : ∀ c, p.head? = some c → c ≠ '\r' ∧ c ≠ ' ' ∧ c ≠ '\t' ∧ c ≠ '\n')
    {r : List Char} (hv : s.view = p ++ r) (hdir : s.directive ≠ .stringy) (sn fi : Bool) :
    ∃ s1 before, step fo s sn fi = onPunct s1 (lineCol before) { lit := p } fi ∧ s1.view = r ∧
      Good hd bd s1 ∧ s1.errs = s.errs ∧ bd = before ++ p ++ r := by
  have hpne : p ≠ [] := by
    rintro rfl
    exact absurd hp (by decide +kernel)
  obtain ⟨c, p', rfl⟩ : ∃ c p', p = c :: p' := by
    cases p with
    | nil => exact absurd rfl hpne
    | cons c p' => exact ⟨c, p', rfl⟩
  obtain ⟨w1, w2, w3, w4⟩ := hws c rfl
  obtain ⟨s1, e, hv1, hf, hfr, hd1⟩ := skipWs_stop hg (r := p' ++ r) (by simpa using hv) sn w1 w2 w3 w4
  obtain ⟨before, hb, hloc⟩ := hf.loc
  have hst : s1.directive ≠ .stringy := by
    rcases hd1 with h | h
    · rw [h]; exact hdir
    · rw [h]; simp
  have hvr : s1.rem = p' ++ r := by
    rw [← hv1]; simp [Lexer.view, hf.nxt]
  rcases readPunct_spec hf.good c with ⟨_, _, h3⟩ | ⟨q, h1, h2, h3, h4, h5, h6⟩
  · exact absurd (by rw [hv1]; exact ⟨r, by simp⟩) (h3 _ hp)
  · -- the longest symbol is `p`
    have hqp : q = c :: p' := by
      rw [hv1] at h2
      have hlen := h2.2.2 _ hp ⟨r, by simp⟩
      have hpre : c :: p' <+: q := prefix_total (t := c :: (p' ++ r)) ⟨r, by simp⟩ h2.2.1 hlen
      have : q ∈ starting (c :: p') := mem_starting.2 ⟨h2.1, hpre⟩
      rw [hsingle] at this
      simpa using this
    subst hqp
    have hv2 : (readPunct s1 c).2.view = r := by
      rw [hv1] at h3
      have h3' : (c :: p') ++ r = (c :: p') ++ (readPunct s1 c).2.view := by simpa using h3
      exact (List.append_cancel_left h3').symm
    have hcc : checkClose (readPunct s1 c).2 { lit := c :: p' } = ({ lit := c :: p' }, (readPunct s1 c).2) := by
      unfold checkClose
      have : ({ lit := c :: p' } : Punct).closed = { lit := c :: p' } := by
        unfold Punct.closed
        rw [if_neg]
        intro h
        exact hclose (congrArg Punct.lit h)
      rw [this]; simp
    refine ⟨(readPunct s1 c).2, before, ?_, hv2, h5, h6.errs.trans hfr.errs, by rw [hb, hvr]; simp⟩
    unfold step
    rw [e]
    simp only [onFirst]
    rw [if_neg hst, h1]
    simp only [hcc, ite_self]
    rw [hloc]

/-- **C18.** When the lexer gets to a `/*` (outside a string and outside the message of a
`#warn`/`#error`), it skips to the end of the comment: the rest of the comment is the shortest text
that contains one more `*/` than it contains `/*`, and nothing of it is left or reported; if there is
no such text, it skips to the end of the file and reports an unterminated comment. -/
theorem block_comment_exact (fo : FloatOps) {text : List Char} (hf : Fits text) {s : Lexer}
    (hr : Reach fo text s) (hdir : s.directive ≠ .stringy) {r : List Char}
    (hv : s.view = "/*".toList ++ r) (sn fi : Bool) :
    (∀ inside rest, r = inside ++ "*/".toList ++ rest → CommentRest (inside ++ "*/".toList) →
      (step fo s sn fi).2.view = rest ∧ (step fo s sn fi).2.errs = s.errs ∧
      (step fo s sn fi).1 = (match blockDoc inside with
        | some t => .emit (lineCol ((body text).take ((body text).length - s.view.length))) t
        | none => .cont false fi)) ∧
    ((∀ p, p <+: r → ¬ CommentRest p) →
      (step fo s sn fi).2.view = [] ∧ (step fo s sn fi).2.errs =
        (⟨(lineCol (body text)).line, (lineCol (body text)).col - 1⟩, .commentAtEof) :: s.errs) := by
  obtain ⟨hd, hg⟩ := hr.good hf
  obtain ⟨s1, before, e, hv1, hg1, he1, hb⟩ := step_symbol fo hg (p := "/*".toList)
    (by decide +kernel) (by decide +kernel) (by decide) (by simp) hv hdir sn fi
  have hbt : (body text).take ((body text).length - s.view.length) = before := by
    have hl : (body text).length - s.view.length = before.length := by
      rw [hb, hv]; simp
    rw [hl, hb]; simp
  have hop : onPunct s1 (lineCol before) { lit := "/*".toList } fi =
      (match (skipBlockComments s1).1 with
        | some t => (.emit (lineCol before) t, (skipBlockComments s1).2)
        | none => (.cont false fi, (skipBlockComments s1).2)) := by
    unfold onPunct
    rw [if_neg (fun h => absurd h.1 (by decide)), if_pos rfl]
    rcases h : skipBlockComments s1 with ⟨o, s2⟩
    cases o <;> rfl
  have hop2 : (onPunct s1 (lineCol before) { lit := "/*".toList } fi).2 = (skipBlockComments s1).2 := by
    rw [hop]; split <;> rfl
  rw [hbt, e, hop2]
  constructor
  · intro inside rest hrr hcr
    rcases skipBlockComments_spec hg1 with ⟨i, rest', h1, h2, h3, h4, h5, h6⟩ | ⟨h1, _⟩
    · rw [hv1] at h1
      have heq : inside ++ "*/".toList = i ++ "*/".toList :=
        commentRest_unique (t := r) hcr h2 ⟨rest, hrr.symm⟩ ⟨rest', h1.symm⟩
      have hi : inside = i := List.append_cancel_right heq
      subst hi
      have hrest : rest = rest' := by
        rw [hrr] at h1; exact List.append_cancel_left h1
      subst hrest
      refine ⟨h4, h6.errs.trans he1, ?_⟩
      rw [hop, h3]
      cases blockDoc inside <;> rfl
    · rw [hv1] at h1
      exact absurd hcr (h1 _ ⟨rest, hrr.symm⟩)
  · intro hno
    rcases skipBlockComments_spec hg1 with ⟨i, rest', h1, h2, _⟩ | ⟨_, h2, h3, _⟩
    · rw [hv1] at h1
      exact absurd h2 (hno _ ⟨rest', h1.symm⟩)
    · exact ⟨h2, by rw [h3, he1]⟩

/-- **C18, nesting.** For comments inside comments whose delimiters do not touch, the comment ends
exactly at the `*/` that matches its `/*`. -/
theorem block_comment_nests (fo : FloatOps) {text : List Char} (hf : Fits text) {s : Lexer}
    (hr : Reach fo text s) (hdir : s.directive ≠ .stringy) {c : Char} {b rest : List Char}
    (hc : Plain c) (hb : Nested b) (hv : s.view = "/*".toList ++ (c :: b ++ "*/".toList ++ rest))
    (sn fi : Bool) :
    (step fo s sn fi).2.view = rest ∧ (step fo s sn fi).2.errs = s.errs :=
  have := (block_comment_exact fo hf hr hdir hv sn fi).1 (c :: b) rest rfl
    (nested_commentRest hc hb)
  ⟨this.1, this.2.1⟩

example : Nested [' ', 'a', ' ', '/', '*', ' ', 'b', ' ', '/', '*', ' ', 'c', ' ', '*', '/', ' ',
    '*', '/', ' '] :=
  have p : ∀ c : Char, c ≠ '/' → c ≠ '*' → Plain c := fun _ h1 h2 => ⟨h1, h2⟩
  .char _ _ (p _ (by decide) (by decide)) (.char _ _ (p _ (by decide) (by decide))
    (.char _ _ (p _ (by decide) (by decide))
      (.comment ' ' ['b', ' ', '/', '*', ' ', 'c', ' ', '*', '/', ' '] ' ' []
        (p _ (by decide) (by decide))
        (.char _ _ (p _ (by decide) (by decide)) (.char _ _ (p _ (by decide) (by decide))
          (.comment ' ' ['c', ' '] ' ' [] (p _ (by decide) (by decide))
            (.char _ _ (p _ (by decide) (by decide)) (.char _ _ (p _ (by decide) (by decide)) .nil))
            (p _ (by decide) (by decide)) .nil)))
        (p _ (by decide) (by decide)) .nil)))

/-- The hypotheses are met right at the start of a file that begins with a nested comment. -/
example (fo : FloatOps) : (step fo (Lexer.new "/* a /* b */ c */ x".toList) false false).2.view =
    " x".toList ∧ (step fo (Lexer.new "/* a /* b */ c */ x".toList) false false).2.errs = [] := by
  have p : ∀ c : Char, c ≠ '/' → c ≠ '*' → Plain c := fun _ h1 h2 => ⟨h1, h2⟩
  exact block_comment_nests fo (text := "/* a /* b */ c */ x".toList)
    (fits_of_short (by decide)) .new (by decide) (c := ' ')
    (b := ['a', ' ', '/', '*', ' ', 'b', ' ', '*', '/', ' ', 'c', ' '])
    (p _ (by decide) (by decide))
    (.char _ _ (p _ (by decide) (by decide)) (.char _ _ (p _ (by decide) (by decide))
      (.comment ' ' ['b', ' '] ' ' ['c', ' '] (p _ (by decide) (by decide))
        (.char _ _ (p _ (by decide) (by decide)) (.char _ _ (p _ (by decide) (by decide)) .nil))
        (p _ (by decide) (by decide))
        (.char _ _ (p _ (by decide) (by decide)) (.char _ _ (p _ (by decide) (by decide)) .nil)))))
    (by decide) false false

/-- **Disagreement (C18).** Comment delimiters that touch are misread: in `*/*/` the slash of the
first closer is counted again as the opener of a new comment, so the properly nested comment
`/*/**/*/` swallows the rest of the file and is reported as unterminated. -/
theorem block_comment_adjacent_closers :
    (lexAll noFloats "/*/**/*/ x".toList).1 = [(⟨1, 11⟩, .punct ⟨['\n'], false⟩)] ∧
    (lexAll noFloats "/*/**/*/ x".toList).2.errs = [(⟨1, 10⟩, .commentAtEof)] := by decide +kernel

/-! ## Strings -/

/-- A string is well escaped: no unescaped `[`, no backslash at the end, no escaped line end. -/
def clean : Bool → List Char → Bool
  | esc, [] => !esc
  | false, c :: r => c != '[' && clean (c == '\\') r
  | true, c :: r => c != '\r' && c != '\n' && clean false r

theorem clean_plain {c : Char} {r : List Char} (h : ¬c = '\\') (hc : clean (c == '\\') r = true) :
    clean false r = true := by
  have : (c == '\\') = false := by simpa using h
  rwa [this] at hc

theorem strScan_quote (s : List Char) : ∀ (bs : Bool) (buf rest : List Char),
    clean bs s = true → '"' ∉ s →
    strScan ['"'] 0 0 bs buf (s ++ '"' :: rest) =
      (s.reverse ++ (if bs then '\\' :: buf else buf), false, rest, true) := by
  induction s with
  | nil =>
    intro bs buf rest hc _
    cases bs with
    | true => simp [clean] at hc
    | false => simp [strScan_cons]
  | cons c r ih =>
    intro bs buf rest hc hq
    simp only [List.mem_cons, not_or] at hq
    have hcq : ¬ ('"' = c) := hq.1
    cases bs with
    | false =>
      simp only [clean, Bool.and_eq_true, bne_iff_ne, ne_eq] at hc
      rw [List.cons_append, strScan_cons]
      simp only [List.getElem?_cons_zero, Option.some.injEq, hcq, false_and, if_false,
        Nat.lt_irrefl, gt_iff_lt, List.take_zero, List.reverse_nil, List.nil_append,
        Bool.false_eq_true, and_false, hc.1]
      by_cases hb : c = '\\'
      · subst hb
        rw [if_pos rfl, ih true buf rest (by simpa using hc.2) hq.2]
        simp
      · rw [if_neg hb, ih false (c :: buf) rest (clean_plain hb hc.2) hq.2]
        simp
    | true =>
      simp only [clean, Bool.and_eq_true, bne_iff_ne, ne_eq] at hc
      rw [List.cons_append, strScan_cons]
      have hnl : ¬((c = '\r' ∨ c = '\n') ∧ true = true) := by
        rintro ⟨h | h, _⟩
        · exact hc.1.1 h
        · exact hc.1.2 h
      simp only [Bool.not_true, Bool.false_eq_true, and_false, if_false, Nat.lt_irrefl, gt_iff_lt,
        false_and, List.take_zero, List.reverse_nil, List.nil_append, hnl, if_true]
      rw [ih false _ rest hc.2 hq.2]
      simp [hc.1.1, hc.1.2]

theorem containsText_cons {c : Char} {r : List Char}
    (h : containsText ['"', '}'] (c :: r) = false) : containsText ['"', '}'] r = false := by
  simp only [containsText, Bool.or_eq_false_iff] at h
  exact h.2

/-- the block form: `pend` says that a `"` was read and is held back -/
theorem strScan_block (s : List Char) : ∀ (bs pend : Bool) (buf rest : List Char),
    clean bs s = true → containsText ['"', '}'] (if pend then '"' :: s else s) = false →
    (pend = true → bs = false) →
    strScan ['"', '}'] 0 (if pend then 1 else 0) bs buf (s ++ '"' :: '}' :: rest) =
      (s.reverse ++ (if bs then '\\' :: buf else if pend then '"' :: buf else buf), false, rest,
        true) := by
  induction s with
  | nil =>
    intro bs pend buf rest hc _ hpb
    have hbs : bs = false := by simpa [clean] using hc
    subst hbs
    cases pend <;> simp [strScan_cons]
  | cons c r ih =>
    intro bs pend buf rest hc hq hpb
    cases bs with
    | true =>
      have hp : pend = false := by
        cases pend
        · rfl
        · exact absurd (hpb rfl) (by simp)
      subst hp
      simp only [Bool.false_eq_true, if_false] at hq ⊢
      simp only [clean, Bool.and_eq_true, bne_iff_ne, ne_eq] at hc
      rw [List.cons_append, strScan_cons]
      have hnl : ¬((c = '\r' ∨ c = '\n') ∧ true = true) := by
        rintro ⟨h | h, _⟩
        · exact hc.1.1 h
        · exact hc.1.2 h
      simp only [Bool.not_true, Bool.false_eq_true, and_false, if_false, Nat.lt_irrefl, gt_iff_lt,
        false_and, List.take_zero, List.reverse_nil, List.nil_append, hnl, if_true]
      have := ih false false (c :: '\\' :: buf) rest hc.2 (by simpa using containsText_cons hq) (by simp)
      simp only [Bool.false_eq_true, if_false] at this
      rw [this]
      simp [hc.1.1, hc.1.2]
    | false =>
      simp only [clean, Bool.and_eq_true, bne_iff_ne, ne_eq] at hc
      have hqr : containsText ['"', '}'] (c :: r) = false := by
        cases pend
        · simpa using hq
        · exact containsText_cons (by simpa using hq)
      -- the general continuation for an ordinary character or a backslash
      cases pend with
      | false =>
        simp only [Bool.false_eq_true, if_false]
        rw [List.cons_append, strScan_cons]
        by_cases hcq : c = '"'
        · subst hcq
          simp only [List.getElem?_cons_zero, Bool.not_false, and_self, if_true, List.length_cons,
            List.length_nil, Nat.zero_add]
          rw [if_neg (by decide)]
          have := ih false true buf rest (by simpa using hc.2) (by simpa using hqr) (by simp)
          simp only [if_true, Bool.false_eq_true, if_false] at this
          rw [this]; simp
        · have hcq' : ¬ ('"' = c) := fun h => hcq h.symm
          simp only [List.getElem?_cons_zero, Option.some.injEq, hcq', false_and, if_false,
            Nat.lt_irrefl, gt_iff_lt, List.take_zero, List.reverse_nil, List.nil_append,
            Bool.false_eq_true, and_false, hc.1]
          by_cases hb : c = '\\'
          · subst hb
            have := ih true false buf rest (by simpa using hc.2) (by simpa using containsText_cons hqr)
              (by simp)
            simp only [if_true, Bool.false_eq_true, if_false] at this
            rw [if_pos rfl, this]; simp
          · have := ih false false (c :: buf) rest (clean_plain hb hc.2)
              (by simpa using containsText_cons hqr) (by simp)
            simp only [Bool.false_eq_true, if_false] at this
            rw [if_neg hb, this]; simp
      | true =>
        simp only [if_true]
        have hcb : c ≠ '}' := by
          rintro rfl
          simp [containsText] at hq
        rw [List.cons_append, strScan_cons]
        have hcb' : ¬ ('}' = c) := fun h => hcb h.symm
        simp only [List.getElem?_cons_succ, List.getElem?_cons_zero, Option.some.injEq, hcb',
          false_and, if_false]
        by_cases hcq : c = '"'
        · subst hcq
          have h1 : (1 : Nat) > 0 ∧ (['"', '}'] : List Char)[1 - 1]? = some '"' ∧
              List.take (1 - 1) ['"', '}'] = List.drop 1 (List.take 1 ['"', '}']) ∧
              (!false) = true := by decide
          rw [if_pos h1]
          have := ih false true ('"' :: buf) rest (by simpa using hc.2) (by simpa using hqr) (by simp)
          simp only [if_true, Bool.false_eq_true, if_false] at this
          simp only [List.take_succ_cons, List.take_zero, List.reverse_cons, List.reverse_nil,
            List.nil_append, List.singleton_append]
          rw [this]; simp
        · have h1 : ¬ ((1 : Nat) > 0 ∧ (['"', '}'] : List Char)[1 - 1]? = some c ∧
              List.take (1 - 1) ['"', '}'] = List.drop 1 (List.take 1 ['"', '}']) ∧
              (!false) = true) := by
            rintro ⟨_, h, _⟩
            simp at h
            exact hcq h.symm
          rw [if_neg h1]
          simp only [List.take_succ_cons, List.take_zero, List.reverse_cons, List.reverse_nil,
            List.nil_append, List.singleton_append, Bool.false_eq_true, and_false, if_false, hc.1]
          by_cases hb : c = '\\'
          · subst hb
            have := ih true false ('"' :: buf) rest (by simpa using hc.2)
              (by simpa using containsText_cons hqr) (by simp)
            simp only [if_true, Bool.false_eq_true, if_false] at this
            rw [if_pos rfl, this]; simp
          · have := ih false false (c :: '"' :: buf) rest (clean_plain hb hc.2)
              (by simpa using containsText_cons hqr) (by simp)
            simp only [Bool.false_eq_true, if_false] at this
            rw [if_neg hb, this]; simp

theorem rawScan_at (s : List Char) : ∀ (buf rest : List Char), '@' ∉ s →
    rawScan ['@'] buf (s ++ '@' :: rest) = (s.reverse ++ buf, rest, true) := by
  induction s with
  | nil => intro buf rest _; simp [rawScan]
  | cons c r ih =>
    intro buf rest h
    simp only [List.mem_cons, not_or] at h
    rw [List.cons_append, rawScan]
    have hc : ¬ '@' = c := h.1
    simp only [List.reverse_cons, List.reverse_nil, List.nil_append]
    rw [if_neg (by simp [List.isPrefixOf, hc]), ih _ _ h.2]
    simp

/-- the strings that survive quoting: those containing `"}` are written raw between `@`s and must not
contain one themselves, the others must be well escaped -/
def Quotable (s : List Char) : Prop :=
  if containsText ['"', '}'] s then '@' ∉ s else clean false s = true

instance (s : List Char) : Decidable (Quotable s) := by unfold Quotable; infer_instance

/-- **C19.** When the lexer gets to the quoted form of a string (whatever follows it), it produces
exactly one token, a string token with that string as its contents, without a diagnostic, and
continues right after it. -/
theorem quote_roundtrip (fo : FloatOps) {text : List Char} (hf : Fits text) {s : Lexer}
    (hr : Reach fo text s) (hdir : s.directive ≠ .stringy) {str rest : List Char}
    (hq : Quotable str) (hv : s.view = quoteDisplay str ++ rest) (sn fi : Bool) :
    (step fo s sn fi).2.view = rest ∧ (step fo s sn fi).2.errs = s.errs ∧
    (step fo s sn fi).1 =
      .emit (lineCol ((body text).take ((body text).length - s.view.length))) (.str str) := by
  obtain ⟨hd, hg⟩ := hr.good hf
  have hbt : ∀ before v, body text = before ++ v → s.view = v →
      (body text).take ((body text).length - s.view.length) = before := by
    intro before v hb hv
    have hl : (body text).length - s.view.length = before.length := by
      rw [hb, hv]; simp
    rw [hl, hb]; simp
  unfold quoteDisplay at hv
  unfold Quotable at hq
  by_cases h1 : containsText ['"', '}'] str = true
  · rw [if_pos h1] at hv hq
    have hv' : s.view = '@' :: '@' :: (str ++ '@' :: rest) := by rw [hv]; simp
    obtain ⟨s1, e, hv1, hfr1, hfrm, hd1⟩ := skipWs_stop hg hv' sn (by decide) (by decide) (by decide)
      (by decide)
    obtain ⟨before, hb, hloc⟩ := hfr1.loc
    have hst : s1.directive ≠ .stringy := by
      rcases hd1 with h | h
      · rw [h]; exact hdir
      · rw [h]; simp
    have hrem : s1.rem = '@' :: (str ++ '@' :: rest) := by
      rw [← hv1]; simp [Lexer.view, hfr1.nxt]
    rw [hbt before _ (by rw [hb, hrem]) hv']
    have hno : (readPunct s1 '@') = (none, s1) := by
      rcases readPunct_spec hfr1.good '@' with ⟨a, b, _⟩ | ⟨p, _, hl, _, hpne, _⟩
      · exact Prod.ext a b
      · exfalso
        have hall : ∀ q ∈ symbols, q.head? ≠ some '@' := by decide +kernel
        have := hall p hl.1
        obtain ⟨t, ht⟩ := hl.2.1
        cases p with
        | nil => exact hpne rfl
        | cons x p =>
          simp only [List.cons_append, List.cons.injEq] at ht
          exact this (by simp [ht.1])
    obtain ⟨s2, e2, hv2, hfr2, hfrm2⟩ := hfr1.good.read hv1
    obtain ⟨g1, g2, g3, g4, g5⟩ := readRawStringInner_eq hfr2.good ['@']
    rw [hv2, rawScan_at str [] rest hq] at g1 g2 g5
    have hstep : step fo s sn fi =
        (.emit (lineCol before) (readRawStringInner s2 ['@']).1, (readRawStringInner s2 ['@']).2) := by
      unfold step
      rw [e]
      simp only [onFirst]
      rw [if_neg hst, hno]
      simp only [onOther]
      rw [if_neg (by decide), if_neg (by decide), if_neg (by decide), if_pos trivial]
      have : readRawString s1 = readRawStringInner s2 ['@'] := by
        unfold readRawString
        rw [e2]
        simp only
        rw [if_neg (by decide), if_neg (by decide), if_neg (by decide)]
      rw [this, hloc]
    rw [hstep]
    refine ⟨g2, ?_, ?_⟩
    · simp only [if_true] at g5
      exact g5.trans (hfrm2.errs.trans hfrm.errs)
    · rw [g1]; simp
  · rw [if_neg h1] at hv hq
    by_cases h2 : (str.contains '"' || str.contains '\n') = true
    · rw [if_pos h2] at hv
      have hv' : s.view = "{\"".toList ++ (str ++ '"' :: '}' :: rest) := by rw [hv]; simp
      obtain ⟨s1, before, e, hv1, hg1, he1, hb⟩ := step_symbol fo hg (p := "{\"".toList)
        (by decide +kernel) (by decide +kernel) (by decide) (by simp) hv' hdir sn fi
      rw [hbt before _ (by rw [hb]; simp) hv', e]
      obtain ⟨g1, g2, g3, g4, g5⟩ := readString_eq hg1 (stop := ['"', '}']) (.inr (.inl rfl)) false
      have hscan := strScan_block str false false [] rest hq (by simpa using h1) (by simp)
      simp only [Bool.false_eq_true, if_false] at hscan
      rw [hv1, hscan] at g1 g2 g4
      have hop : onPunct s1 (lineCol before) { lit := "{\"".toList } fi =
          (.emit (lineCol before) (readString s1 ['"', '}'] false).1, (readString s1 ['"', '}'] false).2) := by
        unfold onPunct
        rw [if_neg (fun h => absurd h.1 (by decide)), if_neg (by decide), if_neg (by decide),
          if_neg (by decide), if_neg (by decide), if_pos rfl]
      rw [hop]
      refine ⟨g2, ?_, ?_⟩
      · simp only [if_true] at g4; exact g4.trans he1
      · rw [g1]; simp [strTok]
    · rw [if_neg h2] at hv
      have hv' : s.view = ['"'] ++ (str ++ '"' :: rest) := by rw [hv]; simp
      obtain ⟨s1, before, e, hv1, hg1, he1, hb⟩ := step_symbol fo hg (p := ['"'])
        (by decide +kernel) (by decide +kernel) (by decide) (by simp) hv' hdir sn fi
      rw [hbt before _ (by rw [hb]; simp) hv', e]
      obtain ⟨g1, g2, g3, g4, g5⟩ := readString_eq hg1 (stop := ['"']) (.inl rfl) false
      have hscan := strScan_quote str false [] rest hq (by
        simp only [Bool.or_eq_true, not_or] at h2
        simpa using h2.1)
      simp only [Bool.false_eq_true, if_false] at hscan
      rw [hv1, hscan] at g1 g2 g4
      have hop : onPunct s1 (lineCol before) { lit := ['"'] } fi =
          (.emit (lineCol before) (readString s1 ['"'] false).1, (readString s1 ['"'] false).2) := by
        unfold onPunct
        rw [if_neg (fun h => absurd h.1 (by decide)), if_neg (by decide), if_neg (by decide),
          if_neg (by decide), if_pos rfl]
      rw [hop]
      refine ⟨g2, ?_, ?_⟩
      · simp only [if_true] at g4; exact g4.trans he1
      · rw [g1]; simp [strTok]

/-- the state of the escape automaton after a text -/
def escRun : Option Bool → List Char → Option Bool
  | o, [] => o
  | none, _ => none
  | some false, c :: r => escRun (if c = '[' then none else some (c == '\\')) r
  | some true, c :: r => escRun (if c = '\r' ∨ c = '\n' then none else some false) r

theorem escRun_none (l : List Char) : escRun none l = none := by cases l <;> rfl

theorem clean_iff_escRun (l : List Char) : ∀ b, clean b l = true ↔ escRun (some b) l = some false := by
  induction l with
  | nil => intro b; cases b <;> simp [clean, escRun]
  | cons c r ih =>
    intro b
    cases b with
    | false =>
      simp only [clean, escRun, Bool.and_eq_true, bne_iff_ne, ne_eq]
      by_cases h : c = '['
      · simp [h, escRun_none]
      · simp [h, ih]
    | true =>
      simp only [clean, escRun, Bool.and_eq_true, bne_iff_ne, ne_eq]
      by_cases h : c = '\r' ∨ c = '\n'
      · rw [if_pos h, escRun_none]
        rcases h with h | h <;> simp [h]
      · rw [if_neg h, ← ih]
        simp only [not_or] at h
        simp [h]

theorem escRun_append (l m : List Char) : ∀ o, escRun o (l ++ m) = escRun (escRun o l) m := by
  induction l with
  | nil => intro o; cases o <;> rfl
  | cons c r ih =>
    intro o
    match o with
    | none => simp [escRun, escRun_none]
    | some false => simp only [List.cons_append, escRun]; exact ih _
    | some true => simp only [List.cons_append, escRun]; exact ih _

theorem strScan_clean {stop : List Char} (hstop : StopOk stop) (v : List Char) :
    ∀ (mode idx : Nat) (bs : Bool) (buf : List Char), escRun (some false) buf.reverse = some false →
    escRun (some false) (strScan stop mode idx bs buf v).1.reverse = some false := by
  have push : ∀ (buf : List Char) (c : Char), escRun (some false) buf.reverse = some false →
      c ≠ '[' → c ≠ '\\' → escRun (some false) (c :: buf).reverse = some false := by
    intro buf c h h1 h2
    simp [escRun_append, h, escRun, h1, h2]
  have pushStop : ∀ (buf : List Char) n, escRun (some false) buf.reverse = some false →
      escRun (some false) ((stop.take n).reverse ++ buf).reverse = some false := by
    intro buf n h
    simp only [List.reverse_append, List.reverse_reverse, escRun_append, h]
    rcases hstop with rfl | rfl | rfl
    · match n with
      | 0 => rfl
      | n + 1 => simp [escRun]
    · match n with
      | 0 => rfl
      | 1 => simp [escRun]
      | n + 2 => simp [escRun]
    · match n with
      | 0 => rfl
      | n + 1 => simp [escRun]
  induction v with
  | nil => intro mode idx bs buf h; simpa [strScan] using h
  | cons c r ih =>
    intro mode idx bs buf h
    rw [strScan]
    split
    · exact ih _ _ _ _ h
    · split
      · exact ih _ _ _ _ h
      · split
        · exact ih _ _ _ _ h
        · split
          · split
            · exact h
            · exact ih _ _ _ _ h
          · split
            · exact ih _ _ _ _ (pushStop _ 1 h)
            · have hb := pushStop buf idx h
              simp only
              split
              · exact ih _ _ _ _ hb
              · rename_i hnl
                split
                · rename_i hbs
                  apply ih
                  have : ¬(c = '\r' ∨ c = '\n') := fun hc => hnl ⟨hc, hbs⟩
                  simp only [List.reverse_cons, List.append_assoc]
                  rw [escRun_append, hb]
                  simp [escRun, this]
                · split
                  · exact hb
                  · rename_i hbr
                    split
                    · exact ih _ _ _ _ hb
                    · rename_i hbk
                      exact ih _ _ _ _ (push _ _ hb hbr hbk)

/-- **C19, strings that come from source text.** The contents of every string token that the lexer
reads from an ordinary `"…"` or `{"…"}` literal are well escaped, hence survive being quoted and read
again (unless they contain both `"}` and `@`). -/
theorem string_literal_quotable {s : Lexer} (hg : Good hd bd s) {stop : List Char}
    (hs : stop = ['"'] ∨ stop = ['"', '}']) {str : List Char}
    (h : (readString s stop false).1 = .str str)
    (hat : containsText ['"', '}'] str = true → '@' ∉ str) : Quotable str := by
  have hstop : StopOk stop := by
    rcases hs with h | h
    · exact .inl h
    · exact .inr (.inl h)
  obtain ⟨h1, _⟩ := readString_eq hg hstop false
  rw [h1] at h
  unfold Quotable
  split
  · rename_i hc; exact hat hc
  · rw [clean_iff_escRun]
    have := strScan_clean hstop s.view 0 0 false [] rfl
    unfold strTok at h
    cases ho : (strScan stop 0 0 false [] s.view).2.1 with
    | true => rw [ho] at h; simp at h
    | false =>
      rw [ho] at h
      simp only [Bool.false_eq_true, if_false, Tok.str.injEq] at h
      rw [← h]; exact this

example : Quotable "a \\[b\\] \"q\" \n\\\\".toList := by decide +kernel
example : Quotable "raw \"} [x".toList := by decide +kernel
example : (lexAll noFloats (quoteDisplay "say \"hi\"".toList ++ ";".toList)).1 =
    [(⟨1, 1⟩, .str "say \"hi\"".toList), (⟨1, 13⟩, .punct ⟨[';'], false⟩),
     (⟨1, 14⟩, .punct ⟨['\n'], false⟩)] := by decide +kernel

/-- **Disagreement (C19).** Contents of raw string literals need not survive quoting: a bracket comes
back as an interpolation, a trailing backslash swallows the closing quote, and a string with both `"}`
and `@` is cut at the `@`. -/
theorem quote_not_roundtrip :
    (lexAll noFloats (quoteDisplay "[x".toList)).1.head? = some (⟨1, 1⟩, .interpBegin []) ∧
    (lexAll noFloats (quoteDisplay "x\\".toList)).2.errs = [(⟨1, 1⟩, .unterminatedString)] ∧
    (lexAll noFloats (quoteDisplay "\"}@x".toList)).1.head? = some (⟨1, 1⟩, .str "\"}".toList) := by
  decide +kernel

end Verif.Lexer
