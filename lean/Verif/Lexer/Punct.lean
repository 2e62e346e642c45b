import Verif.Lexer.Base

/-!
# Punctuation is read by longest match (C16)
-/

namespace Verif.Lexer

/-- The punctuation literals of the table that are not keywords (lexer.rs:62-136). -/
def symbols : List (List Char) :=
  ["\t", "\n", " ",
   "!", "!=", "\"",
   "#", "##",
   "%", "%%", "%%=", "%=",
   "&", "&&", "&&=", "&=",
   "'", "(", ")",
   "*", "**", "*=",
   "+", "++", "+=", ",", "-", "--", "-=",
   ".", "..", "...",
   "/", "/*", "//", "/=",
   ":", "::", ":=", ";",
   "<", "<<", "<<=", "<=", "<=>", "<>",
   "=", "==",
   ">", ">=", ">>", ">>=",
   "?", "?.", "?:", "?[",
   "[", "]",
   "^", "^=",
   "{", "{\"",
   "|", "|=", "||", "||=",
   "}",
   "~", "~!", "~="].map String.toList

/-- `p` is the longest symbol that the text starts with. -/
def LongestSymbol (p text : List Char) : Prop :=
  p ∈ symbols ∧ p <+: text ∧ ∀ q ∈ symbols, q <+: text → q.length ≤ p.length

theorem isPrefixOf_iff (a b : List Char) : a.isPrefixOf b = true ↔ a <+: b :=
  List.isPrefixOf_iff_prefix

/-- the symbols that start with `n` -/
def starting (n : List Char) : List (List Char) := symbols.filter (fun e => n.isPrefixOf e)

theorem mem_starting {n e : List Char} : e ∈ starting n ↔ e ∈ symbols ∧ n <+: e := by
  simp [starting]

/-- all non-empty prefixes of symbols -/
def prefixes : List (List Char) := 
  symbols.flatMap (fun e => (List.range e.length).map (fun i => e.take (i + 1)))

theorem mem_prefixes {n e : List Char} (hn : n ≠ []) (he : e ∈ symbols) (hp : n <+: e) :
    n ∈ prefixes := by
  simp only [prefixes, List.mem_flatMap, List.mem_map, List.mem_range]
  have h1 := hp.length_le
  have h2 := List.length_pos_iff.2 hn
  refine ⟨e, he, n.length - 1, by omega, ?_⟩
  rw [Nat.sub_add_cancel h2]
  exact (List.prefix_iff_eq_take.1 hp).symm

theorem filterPunctTable_eq (c : Char) : filterPunctTable c = starting [c] := by
  by_cases h : [c] ∈ prefixes
  · have hall : ∀ n ∈ prefixes, ∀ c, n = [c] → filterPunctTable c = starting [c] := by
      have : ∀ n ∈ prefixes, (match n with
          | [c] => decide (filterPunctTable c = starting [c]) | _ => true) = true := by decide +kernel
      intro n hn c hc
      have := this n hn
      subst hc
      simpa using this
    exact hall _ h c rfl
  · have h1 : starting [c] = [] := by
      rw [List.eq_nil_iff_forall_not_mem]
      intro e he
      obtain ⟨h1, h2⟩ := mem_starting.1 he
      exact h (mem_prefixes (by simp) h1 h2)
    rw [h1]
    have h2 : ∀ k ∈ speedyTable, [k.1] ∈ prefixes := by decide +kernel
    have h3 : speedyTable.lookup c = none := by
      rw [List.lookup_eq_none_iff]
      intro p hp
      simp only [beq_eq_false_iff_ne, ne_eq, beq_iff_eq, bne_iff_ne]
      rintro rfl
      exact h (h2 p hp)
    simp [filterPunctTable, h3]

theorem filterPunct_eq (n : List Char) (hn : n ≠ []) (b : Char) :
    filterPunct (starting n) (n ++ [b]) = starting (n ++ [b]) := by
  by_cases h : n ++ [b] ∈ prefixes
  · have hall : ∀ m ∈ prefixes, m.dropLast ≠ [] →
        filterPunct (starting m.dropLast) m = starting m := by decide +kernel
    have := hall _ h (by simpa using hn)
    simpa using this
  · have h1 : starting (n ++ [b]) = [] := by
      rw [List.eq_nil_iff_forall_not_mem]
      intro e he
      obtain ⟨h1, h2⟩ := mem_starting.1 he
      exact h (mem_prefixes (by simp) h1 h2)
    have h2 : ∀ e ∈ starting n, (n ++ [b]).isPrefixOf e = false := by
      intro e he
      obtain ⟨h3, _⟩ := mem_starting.1 he
      by_contra hc
      have hc := (isPrefixOf_iff _ _).1 (by simpa using hc)
      exact h (mem_prefixes (by simp) h3 hc)
    rw [h1, filterPunct]
    have : (starting n).dropWhile (fun e => !(n ++ [b]).isPrefixOf e) = [] := by
      generalize starting n = l at h2
      induction l with
      | nil => rfl
      | cons a l ih =>
        rw [List.dropWhile_cons]
        simp only [h2 a (by simp), Bool.not_false, if_true]
        exact ih (fun e he => h2 e (List.mem_cons_of_mem _ he))
    rw [this]; rfl

theorem starting_head {n : List Char} {e : List Char} {more : List (List Char)} (hn : n ≠ [])
    (h : starting n = e :: more) : e = n ∧ n ∈ symbols ∧ n.length ≤ 3 := by
  have he : e ∈ starting n := by simp [h]
  obtain ⟨h1, h2⟩ := mem_starting.1 he
  have hp := mem_prefixes hn h1 h2
  have hall : ∀ m ∈ prefixes, (starting m).head? = some m ∧ m ∈ symbols ∧ m.length ≤ 3 := by
    decide +kernel
  have := hall _ hp
  rw [h] at this
  simpa using this

theorem starting_single {n e : List Char} (hn : n ≠ []) (h : starting n = [e]) (q : List Char)
    (hq : q ∈ symbols) (hnq : n <+: q) : q = n := by
  have h1 := (starting_head hn h).1
  have : q ∈ starting n := mem_starting.2 ⟨hq, hnq⟩
  rw [h] at this
  simp at this
  rw [this, h1]

/-- two prefixes of one text are comparable -/
theorem prefix_total {a b t : List Char} (ha : a <+: t) (hb : b <+: t) (h : a.length ≤ b.length) :
    a <+: b := List.prefix_of_prefix_length_le ha hb h

variable {hd bd : List Char}

theorem punctLoop_spec (fuel : Nat) : ∀ (s : Lexer) (needle : List Char) (cand : Option (List Char)),
    Good hd bd s → needle ≠ [] → s.view.length + 2 ≤ fuel →
    (needle.length = 1 ∧ cand = none ∨ ∃ n b, needle = n ++ [b] ∧ n ≠ [] ∧ n ∈ symbols ∧
      cand = some n ∧ Fresh hd bd s b) →
    ∃ m ret needle' s', punctLoop fuel s needle (starting needle) cand = ((m, ret, needle'), s') ∧
      Frame s s' ∧ Good hd bd s' ∧ needle' ++ s'.view = needle ++ s.view ∧
      (ret = true → m = some needle' ∧ LongestSymbol needle' (needle ++ s.view)) ∧
      (ret = false →
        (m = none ∧ needle' = needle ∧ needle.length = 1 ∧ s' = s ∧ starting needle = []) ∨
        (∃ n b, needle' = n ++ [b] ∧ n ≠ [] ∧ m = some n ∧ Fresh hd bd s' b ∧
          LongestSymbol n (needle ++ s.view))) := by
  induction fuel with
  | zero => intro s needle cand _ _ h; omega
  | succ fuel ih =>
    intro s needle cand hg hn hf hc
    unfold punctLoop
    cases hst : starting needle with
    | nil =>
      refine ⟨cand, false, needle, s, rfl, .refl _, hg, rfl, by simp, ?_⟩
      intro _
      rcases hc with ⟨h1, h2⟩ | ⟨n, b, rfl, hn0, hns, hcand, hfr⟩
      · exact .inl ⟨h2, rfl, h1, rfl, rfl⟩
      · refine .inr ⟨n, b, rfl, hn0, hcand, hfr, hns, ⟨[b] ++ s.view, by simp⟩, ?_⟩
        intro q hq hqp
        by_contra hlt
        have hpre : n ++ [b] <+: q :=
          prefix_total ⟨s.view, rfl⟩ hqp (by simp; omega)
        have : q ∈ starting (n ++ [b]) := mem_starting.2 ⟨hq, hpre⟩
        simp [hst] at this
    | cons it more =>
      obtain ⟨rfl, hsym, hlen⟩ := starting_head hn hst
      simp only [if_true]
      cases more with
      | nil =>
        refine ⟨some it, true, it, s, rfl, .refl _, hg, rfl, ?_, by simp⟩
        intro _
        refine ⟨rfl, hsym, ⟨s.view, rfl⟩, ?_⟩
        intro q hq hqp
        by_contra hlt
        have hpre : it <+: q := prefix_total ⟨s.view, rfl⟩ hqp (by omega)
        have := starting_single hn hst q hq hpre
        subst this; omega
      | cons m2 more2 =>
        simp only [List.isEmpty_cons, Bool.false_eq_true, if_false]
        cases hv : s.view with
        | nil =>
          obtain ⟨s', e, hv', hg', hn', _, hfr⟩ := hg.eof hv
          rw [e]
          refine ⟨some it, true, it, s', rfl, hfr, hg', by simp [hv'], ?_, by simp⟩
          intro _
          refine ⟨rfl, hsym, by simp, ?_⟩
          intro q hq hqp
          simpa using hqp.length_le
        | cons b r =>
          obtain ⟨s', e, hv', hfresh, hfr⟩ := hg.read hv
          rw [e]
          simp only
          have hpn : ({ s' with panic := s'.panic || decide (it.length ≥ 8) } : Lexer) = s' := by
            have : decide (it.length ≥ 8) = false := by simp; omega
            rw [this]; simp
          rw [hpn, ← hst, filterPunct_eq _ hn]
          obtain ⟨m, ret, needle', s2, e2, hfr2, hg2, hap, h1, h2⟩ :=
            ih s' (it ++ [b]) (some it) hfresh.good (by simp)
              (by rw [hv]at hf; rw [hv']; simp at hf ⊢; omega)
              (.inr ⟨it, b, rfl, hn, hsym, rfl, hfresh⟩)
          refine ⟨m, ret, needle', s2, e2, hfr.trans hfr2, hg2, by simp [hap, hv'], ?_, ?_⟩
          · intro hr
            have := h1 hr
            simpa [hv'] using this
          · intro hr
            rcases h2 hr with ⟨_, _, hl, _⟩ | ⟨n, b', ha, hb, hc', hd', he⟩
            · simp at hl; exact absurd hl hn
            · exact .inr ⟨n, b', ha, hb, hc', hd', by simpa [hv'] using he⟩

/-- **C16 (statement about one call).** Whatever follows, `read_punct` called after `first` was read
returns the longest symbol with which `first` and the unread text start, and leaves exactly what
follows it; if there is none it returns nothing and reads nothing. -/
theorem readPunct_spec {s : Lexer} (hg : Good hd bd s) (first : Char) :
    ((readPunct s first).1 = none ∧ (readPunct s first).2 = s ∧
        ∀ q ∈ symbols, ¬ q <+: first :: s.view) ∨
    (∃ p, (readPunct s first).1 = some { lit := p } ∧ LongestSymbol p (first :: s.view) ∧
        first :: s.view = p ++ (readPunct s first).2.view ∧ p ≠ [] ∧
        Good hd bd (readPunct s first).2 ∧ Frame s (readPunct s first).2) := by
  obtain ⟨m, ret, needle', s', e, hfr, hg', hap, h1, h2⟩ :=
    punctLoop_spec (s.size + 2) s [first] none hg (by simp) (by rw [size_eq_view]; exact Nat.le_refl _)
      (.inl ⟨rfl, rfl⟩)
  rw [← filterPunctTable_eq] at e
  unfold readPunct
  simp only [e]
  cases hret : ret with
  | true =>
    obtain ⟨rfl, hl⟩ := h1 hret
    have hne : needle' ≠ [] := by
      rintro rfl
      have : ([] : List Char) ∉ symbols := by decide
      exact this hl.1
    exact .inr ⟨needle', rfl, by simpa using hl, by simpa using hap.symm, hne, hg', hfr⟩
  | false =>
    simp only [Bool.false_eq_true, if_false]
    rcases h2 hret with ⟨rfl, rfl, hl, rfl, hst⟩ | ⟨n, b, rfl, hn, rfl, hfresh, hl⟩
    · left
      refine ⟨by simp, by simp, ?_⟩
      intro q hq hqp
      have hq0 : q ≠ [] := by
        rintro rfl
        have : ([] : List Char) ∉ symbols := by decide
        exact this hq
      have : q ∈ starting [first] := by
        rw [mem_starting]
        refine ⟨hq, ?_⟩
        cases q with
        | nil => exact absurd rfl hq0
        | cons a q =>
          rw [List.cons_prefix_cons] at hqp
          obtain ⟨rfl, _⟩ := hqp
          simp [List.cons_prefix_cons]
      simp [hst] at this
    · right
      have hlen : 1 < (n ++ [b]).length := by
        have := List.length_pos_iff.2 hn
        simp; omega
      obtain ⟨hgb, hvb⟩ := hfresh.putBack
      rw [if_pos hlen]
      refine ⟨n, rfl, by simpa using hl, ?_, hn, ?_, ?_⟩
      · simp only [List.getLast?_append, List.getLast?_singleton, Option.some_or]
        rw [hvb]; simpa using hap.symm
      · simpa using hgb
      · simpa using hfr.trans (frame_putBack s' (some b))

end Verif.Lexer
