import Verif.Lexer.Spec
import Mathlib.Data.List.Basic
import Mathlib.Tactic.ByContra

/-!
# The invariant of the lexer state
-/

namespace Verif.Lexer

theorem size_eq_view (s : Lexer) : s.size = s.view.length := by
  simp [Lexer.size, Lexer.view]; omega

/-- line, column and `at_line_end` after reading `read` -/
def trackOf (read : List Char) : Nat × Nat × Bool :=
  match read.getLast? with
  | none => (0, 0, true)
  | some c => ((lineCol read.dropLast).line, (lineCol read.dropLast).col, c == '\n')

theorem trackOf_nil : trackOf [] = (0, 0, true) := rfl

theorem trackOf_snoc (r : List Char) (c : Char) :
    trackOf (r ++ [c]) = ((lineCol r).line, (lineCol r).col, c == '\n') := by
  simp [trackOf]

theorem lineCol_nil : lineCol [] = ⟨1, 1⟩ := rfl

theorem lineCol_snoc_nl (r : List Char) : lineCol (r ++ ['\n']) = ⟨(lineCol r).line + 1, 1⟩ := by
  simp [lineCol, List.count_append]; omega

theorem lineCol_snoc_ne (r : List Char) (c : Char) (h : c ≠ '\n') :
    lineCol (r ++ [c]) = ⟨(lineCol r).line, (lineCol r).col + 1⟩ := by
  simp [lineCol, List.count_append, h]; omega

/-- moving to the next line when at a line end gives the location before the next character -/
def bumped (t : Nat × Nat × Bool) : Nat × Nat × Bool :=
  if t.2.2 then (t.1 + 1, 0, false) else t

theorem bumped_trackOf (r : List Char) :
    bumped (trackOf r) = ((lineCol r).line, (lineCol r).col - 1, false) := by
  rcases List.eq_nil_or_concat r with rfl | ⟨r, c, rfl⟩
  · rfl
  · simp only [List.concat_eq_append]
    rw [trackOf_snoc]
    by_cases h : c = '\n'
    · subst h; rw [lineCol_snoc_nl]; rfl
    · rw [lineCol_snoc_ne _ _ h]; simp [bumped, h]

theorem lineCol_pos (r : List Char) : 1 ≤ (lineCol r).line ∧ 1 ≤ (lineCol r).col := by
  simp [lineCol]

/-- The terminators the lexer passes to `read_string`. -/
def StopOk (e : List Char) : Prop := e = ['"'] ∨ e = ['"', '}'] ∨ e = ['\n']

structure Good (hd bd : List Char) (s : Lexer) : Prop where
  fits : ∀ before after, bd = before ++ after →
    (lineCol before).line ≤ 4294967295 ∧ (lineCol before).col ≤ 65535
  split : ∃ read, s.prev = read.reverse ++ hd ∧ bd = read ++ s.rem ∧
    ((s.line, s.col, s.atLineEnd) = trackOf read ∨
      (s.rem = [] ∧ (s.line, s.col, s.atLineEnd) = bumped (trackOf read))) ∧
    (∀ c, s.nxt = some c → read.getLast? = some c ∧ (s.line, s.col, s.atLineEnd) = trackOf read)
  nopanic : s.panic = false
  interp : ∀ e d, (e, d) ∈ s.interp → StopOk e ∧ 1 ≤ d

/-- the state right after `next` returned `c` -/
structure Fresh (hd bd : List Char) (s : Lexer) (c : Char) : Prop where
  good : Good hd bd s
  nxt : s.nxt = none
  last : ∃ read, s.prev = (read ++ [c]).reverse ++ hd ∧ bd = read ++ c :: s.rem ∧
    (s.line, s.col, s.atLineEnd) = trackOf (read ++ [c])

theorem Fresh.loc {hd bd : List Char} {s : Lexer} {c : Char} (h : Fresh hd bd s c) :
    ∃ read, bd = read ++ c :: s.rem ∧ s.loc = lineCol read := by
  obtain ⟨read, _, hb, ht⟩ := h.last
  rw [trackOf_snoc] at ht
  simp only [Prod.mk.injEq] at ht
  exact ⟨read, hb, by simp [Lexer.loc, ht.1, ht.2.1]⟩

variable {hd bd : List Char} {s : Lexer}

theorem Good.err (h : Good hd bd s) (l : Loc) (e : Err) : Good hd bd (s.errAt l e) :=
  ⟨h.fits, h.split, h.nopanic, h.interp⟩

@[simp] theorem view_errAt (s : Lexer) (l : Loc) (e : Err) : (s.errAt l e).view = s.view := rfl
@[simp] theorem view_err (s : Lexer) (e : Err) : (s.err e).view = s.view := rfl

/-- nothing that the invariant mentions changes -/
theorem Good.congr (h : Good hd bd s) {s' : Lexer} (hp : s'.prev = s.prev) (hr : s'.rem = s.rem)
    (hl : s'.line = s.line) (hc : s'.col = s.col) (ha : s'.atLineEnd = s.atLineEnd)
    (hn : s'.nxt = s.nxt) (hi : s'.interp = s.interp) (hpa : s'.panic = s.panic) :
    Good hd bd s' :=
  ⟨h.fits, by rw [hp, hr, hl, hc, ha, hn]; exact h.split, by rw [hpa]; exact h.nopanic,
    by rw [hi]; exact h.interp⟩

/-- the parts of the state that reading characters does not touch -/
structure Frame (s s' : Lexer) : Prop where
  fin : s'.finalNewline = s.finalNewline
  int : s'.interp = s.interp
  errs : s'.errs = s.errs

theorem Frame.refl (s : Lexer) : Frame s s := ⟨rfl, rfl, rfl⟩

theorem Frame.trans {a b c : Lexer} (h : Frame a b) (h' : Frame b c) : Frame a c :=
  ⟨h'.fin.trans h.fin, h'.int.trans h.int, h'.errs.trans h.errs⟩

theorem frame_next (s : Lexer) : Frame s s.next.2 := by
  have hb : Frame s s.bumpLine := by
    unfold Lexer.bumpLine; split <;> exact ⟨rfl, rfl, rfl⟩
  have ht : Frame s.bumpLine s.trackNext.2 := by
    unfold Lexer.trackNext Lexer.trackRead; split <;> exact ⟨rfl, rfl, rfl⟩
  have h2 := hb.trans ht
  unfold Lexer.next
  split
  · exact ⟨rfl, rfl, rfl⟩
  · refine h2.trans ?_
    simp only
    split <;> split <;> first | exact ⟨rfl, rfl, rfl⟩ | (split <;> exact ⟨rfl, rfl, rfl⟩)

theorem Good.next_nil (h : Good hd bd s) (hv : s.view = []) :
    s.next.1 = none ∧ s.next.2.view = [] ∧ Good hd bd s.next.2 ∧ s.next.2.nxt = none ∧
      s.next.2.loc = ⟨(lineCol bd).line, (lineCol bd).col - 1⟩ := by
  obtain ⟨read, hp, hb, ht, hn⟩ := h.split
  have h1 : s.nxt = none := by
    cases hh : s.nxt <;> simp_all [Lexer.view]
  have h2 : s.rem = [] := by simpa [Lexer.view, h1] using hv
  have hread : bd = read := by simpa [h2] using hb
  have hf := (h.fits bd [] (by simp)).1
  have hbt : (s.bumpLine.line, s.bumpLine.col, s.bumpLine.atLineEnd) = bumped (trackOf read) := by
    have hb2 : ∀ t : Nat × Nat × Bool, bumped (bumped t) = bumped t := by
      intro t; unfold bumped; split <;> simp_all
    have : (s.bumpLine.line, s.bumpLine.col, s.bumpLine.atLineEnd) =
        bumped (s.line, s.col, s.atLineEnd) := by
      simp only [Lexer.bumpLine, bumped]; split <;> rfl
    rcases ht with ht | ⟨_, ht⟩
    · rw [this, ht]
    · rw [this, ht, hb2]
  have hpan : s.bumpLine.panic = false := by
    simp only [Lexer.bumpLine]
    split
    · rename_i hale
      have : bumped (s.line, s.col, s.atLineEnd) = (s.line + 1, 0, false) := by simp [bumped, hale]
      have hline : s.bumpLine.line = s.line + 1 := by simp [Lexer.bumpLine, hale]
      rw [bumped_trackOf] at hbt
      have : s.line + 1 = (lineCol read).line := by
        have := congrArg Prod.fst hbt; simp only at this; omega
      rw [← hread] at this
      simp [h.nopanic, lineLimit]; omega
    · exact h.nopanic
  have hbr : s.bumpLine.rem = [] := by simp only [Lexer.bumpLine]; split <;> simp [h2]
  have hbp : s.bumpLine.prev = s.prev := by simp only [Lexer.bumpLine]; split <;> rfl
  have hbi : s.bumpLine.interp = s.interp := by simp only [Lexer.bumpLine]; split <;> rfl
  have hbn : s.bumpLine.nxt = none := by simp only [Lexer.bumpLine]; split <;> simp [h1]
  have hbf : s.bumpLine.finalNewline = s.finalNewline := by
    simp only [Lexer.bumpLine]; split <;> rfl
  have htn : s.trackNext = (none, s.bumpLine) := by simp [Lexer.trackNext, Lexer.trackRead, hbr]
  have hnx : ∃ s', s.next = (none, s') ∧ (s' = s.bumpLine ∨
      s' = { s.bumpLine with atLineHead := true, directive := .none }) := by
    simp only [Lexer.next, h1, htn]
    split
    · exact ⟨_, rfl, .inr rfl⟩
    · exact ⟨_, rfl, .inl rfl⟩
  obtain ⟨s', e, hs'⟩ := hnx
  have hg : Good hd bd s.bumpLine :=
    ⟨h.fits, ⟨read, by rw [hbp]; exact hp, by rw [hbr]; simpa using hread,
      .inr ⟨hbr, hbt⟩, by rw [hbn]; simp⟩, hpan, by rw [hbi]; exact h.interp⟩
  have hloc : s.bumpLine.loc = ⟨(lineCol bd).line, (lineCol bd).col - 1⟩ := by
    rw [bumped_trackOf] at hbt
    simp only [Prod.mk.injEq] at hbt
    simp [Lexer.loc, hbt.1, hbt.2.1, hread]
  rw [e]
  rcases hs' with rfl | rfl
  · exact ⟨rfl, by simp [Lexer.view, hbn, hbr], hg, hbn, hloc⟩
  · exact ⟨rfl, by simp [Lexer.view, hbn, hbr], hg.congr rfl rfl rfl rfl rfl rfl rfl rfl, hbn,
      hloc⟩

theorem Good.next_cons (h : Good hd bd s) {c : Char} {r : List Char} (hv : s.view = c :: r) :
    s.next.1 = some c ∧ s.next.2.view = r ∧ Fresh hd bd s.next.2 c := by
  obtain ⟨read, hp, hb, ht, hn⟩ := h.split
  cases h1 : s.nxt with
  | some c' =>
    have hc : c' = c ∧ s.rem = r := by simpa [Lexer.view, h1] using hv
    obtain ⟨rfl, hr⟩ := hc
    obtain ⟨hl, ht'⟩ := hn _ h1
    have hnx : s.next = (some c', { s with nxt := none }) := by simp [Lexer.next, h1]
    rw [hnx]
    obtain ⟨r0, rfl⟩ : ∃ r0, read = r0 ++ [c'] := by
      rcases List.eq_nil_or_concat read with rfl | ⟨r0, x, rfl⟩
      · simp at hl
      · simp only [List.concat_eq_append, List.getLast?_append, List.getLast?_singleton,
          Option.some_or, Option.some.injEq] at hl
        exact ⟨r0, by simp [hl]⟩
    exact ⟨rfl, by simp [Lexer.view, hr], ⟨⟨h.fits, ⟨r0 ++ [c'], hp, hb, ht, by simp⟩, h.nopanic,
      h.interp⟩, rfl, ⟨r0, hp, by simpa using hb, ht'⟩⟩⟩
  | none =>
    have h2 : s.rem = c :: r := by simpa [Lexer.view, h1] using hv
    have ht' : (s.line, s.col, s.atLineEnd) = trackOf read := by
      rcases ht with ht | ⟨h0, _⟩
      · exact ht
      · simp [h0] at h2
    have hf := h.fits read (c :: r) (by rw [← h2]; exact hb)
    have hbt : (s.bumpLine.line, s.bumpLine.col, s.bumpLine.atLineEnd) = bumped (trackOf read) := by
      rw [← ht']
      simp only [Lexer.bumpLine, bumped]; split <;> rfl
    rw [bumped_trackOf] at hbt
    simp only [Prod.mk.injEq] at hbt
    obtain ⟨hbl, hbc, hba⟩ := hbt
    have hpan : s.bumpLine.panic = false := by
      by_cases hale : s.atLineEnd
      · have : s.bumpLine.line = s.line + 1 := by simp [Lexer.bumpLine, hale]
        simp only [Lexer.bumpLine, hale, if_true]
        simp [h.nopanic, lineLimit]; omega
      · simp [Lexer.bumpLine, hale, h.nopanic]
    have hbr : s.bumpLine.rem = c :: r := by simp only [Lexer.bumpLine]; split <;> simp [h2]
    have hbp : s.bumpLine.prev = s.prev := by simp only [Lexer.bumpLine]; split <;> rfl
    have hbi : s.bumpLine.interp = s.interp := by simp only [Lexer.bumpLine]; split <;> rfl
    have hbn : s.bumpLine.nxt = none := by simp only [Lexer.bumpLine]; split <;> simp [h1]
    have hbf : s.bumpLine.finalNewline = s.finalNewline := by
      simp only [Lexer.bumpLine]; split <;> rfl
    have hpos := lineCol_pos read
    let s1 : Lexer := { s.bumpLine with prev := c :: s.bumpLine.prev, rem := r, atLineEnd := s.bumpLine.atLineEnd || (c == '\n'), col := s.bumpLine.col + 1, panic := s.bumpLine.panic || decide (s.bumpLine.col ≥ colLimit) }
    have htn : s.trackNext = (some c, s1) := by
      simp [Lexer.trackNext, Lexer.trackRead, hbr, s1]
    have htr : (s1.line, s1.col, s1.atLineEnd) = trackOf (read ++ [c]) := by
      rw [trackOf_snoc]
      simp only [s1, Prod.mk.injEq, hbl, hbc, hba, Bool.false_or]
      exact ⟨trivial, by omega, trivial⟩
    have hpan1 : s1.panic = false := by
      simp [s1, hpan, hbc, colLimit]; omega
    have hnx : ∃ s', s.next = (some c, s') ∧ s'.prev = s1.prev ∧ s'.rem = s1.rem ∧
        s'.line = s1.line ∧ s'.col = s1.col ∧ s'.atLineEnd = s1.atLineEnd ∧ s'.nxt = s1.nxt ∧
        s'.interp = s1.interp ∧ s'.panic = s1.panic ∧ s'.finalNewline = s1.finalNewline := by
      simp only [Lexer.next, h1, htn]
      refine ⟨_, rfl, ?_⟩
      split <;> split <;> simp
    obtain ⟨s', e, e1, e2, e3, e4, e5, e6, e7, e8, e9⟩ := hnx
    rw [e]
    have hn' : s'.nxt = none := by rw [e6]; simpa [s1] using hbn
    have htr' : (s'.line, s'.col, s'.atLineEnd) = trackOf (read ++ [c]) := by rw [e3, e4, e5, htr]
    have hp' : s'.prev = (read ++ [c]).reverse ++ hd := by
      rw [e1]; simp [s1, hbp, hp]
    have hr' : s'.rem = r := by rw [e2]
    refine ⟨rfl, by simp [Lexer.view, hn', hr'], ⟨⟨h.fits, ⟨read ++ [c], hp', ?_, .inl htr', ?_⟩, ?_, ?_⟩, hn',
      ⟨read, hp', ?_, htr'⟩⟩⟩
    · rw [hr']; simpa [h2] using hb
    · rw [hn']; simp
    · rw [e8, hpan1]
    · rw [e7]; simp only [s1, hbi]; exact h.interp
    · rw [hr']; simpa [h2] using hb

/-- reading at the end of the input -/
theorem Good.eof (h : Good hd bd s) (hv : s.view = []) :
    ∃ s', s.next = (none, s') ∧ s'.view = [] ∧ Good hd bd s' ∧ s'.nxt = none ∧
      s'.loc = ⟨(lineCol bd).line, (lineCol bd).col - 1⟩ ∧ Frame s s' := by
  obtain ⟨h1, h2, h3, h4, h5⟩ := h.next_nil hv
  exact ⟨s.next.2, by rw [← h1], h2, h3, h4, h5, frame_next s⟩

/-- reading a character -/
theorem Good.read (h : Good hd bd s) {c : Char} {r : List Char} (hv : s.view = c :: r) :
    ∃ s', s.next = (some c, s') ∧ s'.view = r ∧ Fresh hd bd s' c ∧ Frame s s' := by
  obtain ⟨h1, h2, h3⟩ := h.next_cons hv
  exact ⟨s.next.2, by rw [← h1], h2, h3, frame_next s⟩

theorem frame_putBack (s : Lexer) (v : Option Char) : Frame s (s.putBack v) := ⟨rfl, rfl, rfl⟩

theorem Fresh.putBack {c : Char} (h : Fresh hd bd s c) :
    Good hd bd (s.putBack (some c)) ∧ (s.putBack (some c)).view = c :: s.view := by
  obtain ⟨read, hp, hb, ht⟩ := h.last
  refine ⟨⟨h.good.fits, ⟨read ++ [c], hp, by simpa [Lexer.putBack] using hb, .inl ht, ?_⟩, ?_, h.good.interp⟩, ?_⟩
  · intro c' hc'
    simp only [Lexer.putBack, Option.some.injEq] at hc'
    subst hc'; exact ⟨by simp, ht⟩
  · simp [Lexer.putBack, h.nxt, h.good.nopanic]
  · simp [Lexer.putBack, Lexer.view, h.nxt]

theorem Good.putBack_none (h : Good hd bd s) (hn : s.nxt = none) :
    s.putBack none = s := by
  have := h.nopanic
  cases s
  simp_all [Lexer.putBack]

theorem Good.new {text : List Char} (h : Fits text) :
    ∃ hd, Good hd (body text) (Lexer.new text) ∧ (Lexer.new text).view = body text ∧
      (Lexer.new text).interp = [] ∧ (Lexer.new text).nxt = none ∧
      (Lexer.new text).finalNewline = false := by
  unfold Lexer.new
  have hh := h
  unfold Fits body at h
  split
  · rename_i hb
    refine ⟨bom.reverse, ⟨hh, ⟨[], by simp, by simp [body, hb], .inl rfl, by simp⟩, rfl,
      by simp⟩, by simp [Lexer.view, body, hb], rfl, rfl, rfl⟩
  · rename_i hb
    refine ⟨[], ⟨hh, ⟨[], by simp, by simp [body, hb], .inl rfl, by simp⟩, rfl,
      by simp⟩, by simp [Lexer.view, body, hb], rfl, rfl, rfl⟩

end Verif.Lexer
