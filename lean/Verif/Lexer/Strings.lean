import Verif.Lexer.Base

/-!
# Strings, resources, identifiers, numbers as functions of the unread text
-/

namespace Verif.Lexer

variable {hd bd : List Char}

/-- what every reader guarantees about the state it leaves behind -/
structure Adv (hd bd : List Char) (s s' : Lexer) : Prop where
  good : Good hd bd s'
  view : s'.view <:+ s.view
  fin : s'.finalNewline = s.finalNewline
  errs : s.errs <:+ s'.errs

theorem Adv.refl {s : Lexer} (h : Good hd bd s) : Adv hd bd s s :=
  ⟨h, List.suffix_refl _, rfl, List.suffix_refl _⟩

theorem Adv.trans {a b c : Lexer} (h : Adv hd bd a b) (h' : Adv hd bd b c) : Adv hd bd a c :=
  ⟨h'.good, h'.view.trans h.view, h'.fin.trans h.fin, h.errs.trans h'.errs⟩

theorem Frame.adv {s s' : Lexer} (h : Frame s s') (hg : Good hd bd s') (hv : s'.view <:+ s.view) :
    Adv hd bd s s' := ⟨hg, hv, h.fin, by rw [h.errs]; exact List.suffix_refl _⟩

theorem Adv.err {s s' : Lexer} (h : Adv hd bd s s') (l : Loc) (e : Err) :
    Adv hd bd s (s'.errAt l e) :=
  ⟨h.good.err l e, h.view, h.fin, h.errs.trans (List.suffix_cons _ _)⟩

theorem Good.read_adv {s : Lexer} (h : Good hd bd s) {c : Char} {r : List Char}
    (hv : s.view = c :: r) :
    ∃ s', s.next = (some c, s') ∧ s'.view = r ∧ Fresh hd bd s' c ∧ Frame s s' ∧ Adv hd bd s s' := by
  obtain ⟨s', e, hv', hf, hfr⟩ := h.read hv
  exact ⟨s', e, hv', hf, hfr, hfr.adv hf.good (by rw [hv, hv']; exact List.suffix_cons _ _)⟩

theorem Good.eof_adv {s : Lexer} (h : Good hd bd s) (hv : s.view = []) :
    ∃ s', s.next = (none, s') ∧ s'.view = [] ∧ s'.nxt = none ∧ Frame s s' ∧ Adv hd bd s s' ∧
      s'.loc = ⟨(lineCol bd).line, (lineCol bd).col - 1⟩ := by
  obtain ⟨s', e, hv', hg, hn, hl, hfr⟩ := h.eof hv
  exact ⟨s', e, hv', hn, hfr, hfr.adv hg (by rw [hv, hv']; exact List.suffix_refl _), hl⟩

/-- reading a character and putting it back -/
theorem Fresh.putBack_adv {s s' : Lexer} {c : Char} {r : List Char} (hf : Fresh hd bd s' c)
    (hfr : Frame s s') (hv : s.view = c :: r) (hv' : s'.view = r) :
    Adv hd bd s (s'.putBack (some c)) ∧ (s'.putBack (some c)).view = s.view := by
  obtain ⟨h1, h2⟩ := hf.putBack
  have : (s'.putBack (some c)).view = s.view := by rw [h2, hv', hv]
  exact ⟨(hfr.trans (frame_putBack s' _)).adv h1 (by rw [this]; exact List.suffix_refl _), this⟩

/-! ## `skip_ws` -/

/-- `skip_ws` inside a line continuation: blanks, carriage returns and (at most `n - 1`) newlines -/
def skipCont : Nat → List Char → List Char
  | _, [] => []
  | n, c :: r =>
    if c = '\r' then skipCont n r
    else if c = ' ' ∨ c = '\t' then skipCont n r
    else if c = '\n' ∧ n = 2 then skipCont 1 r
    else c :: r

theorem skipCont_suffix (v : List Char) : ∀ n, skipCont n v <:+ v := by
  induction v with
  | nil => intro n; exact List.suffix_refl _
  | cons c r ih =>
    intro n
    rw [skipCont]
    split
    · exact (ih n).trans (List.suffix_cons _ _)
    · split
      · exact (ih n).trans (List.suffix_cons _ _)
      · split
        · exact (ih 1).trans (List.suffix_cons _ _)
        · exact List.suffix_refl _

theorem Adv.closeAllowed {s s' : Lexer} (h : Adv hd bd s s') (b : Bool) :
    Adv hd bd s { s' with closeAllowed := b } :=
  ⟨h.good.congr rfl rfl rfl rfl rfl rfl rfl rfl, h.view, h.fin, h.errs⟩

/-- the general shape of `skip_ws`: it returns the next character, which it has just read, or the end
of the input -/
theorem wsLoop_adv (fuel : Nat) : ∀ (s : Lexer) (sn : Nat), Good hd bd s → s.view.length < fuel →
    ∃ o s', wsLoop fuel s sn = (o, s') ∧ Adv hd bd s s' ∧ s'.interp = s.interp ∧ s'.errs = s.errs ∧
      ((o = none ∧ s'.view = [] ∧ s'.nxt = none ∧
          s'.loc = ⟨(lineCol bd).line, (lineCol bd).col - 1⟩) ∨
        (∃ c, o = some c ∧ Fresh hd bd s' c ∧ c :: s'.view <:+ s.view ∧ c ≠ '\r' ∧
          (0 < sn → c ≠ ' ' ∧ c ≠ '\t'))) := by
  induction fuel with
  | zero => intro s _ _ h; omega
  | succ fuel ih =>
    intro s sn hg hf
    unfold wsLoop
    cases hv : s.view with
    | nil =>
      obtain ⟨s', e, hv', hn, hfr, ha, hl⟩ := hg.eof_adv hv
      rw [e]
      exact ⟨none, s', rfl, ha, hfr.int, hfr.errs, .inl ⟨rfl, hv', hn, hl⟩⟩
    | cons c r =>
      obtain ⟨s', e, hv', hfresh, hfr, ha⟩ := hg.read_adv hv
      rw [e]
      have hlen : s'.view.length < fuel := by rw [hv] at hf; rw [hv']; simpa using hf
      have go : ∀ (s1 : Lexer) sn1, Adv hd bd s s1 → s1.view = s'.view → s1.interp = s'.interp →
          s1.errs = s'.errs → (0 < sn → 0 < sn1) →
          ∃ o s2, wsLoop fuel s1 sn1 = (o, s2) ∧ Adv hd bd s s2 ∧ s2.interp = s.interp ∧
            s2.errs = s.errs ∧ ((o = none ∧ s2.view = [] ∧ s2.nxt = none ∧
              s2.loc = ⟨(lineCol bd).line, (lineCol bd).col - 1⟩) ∨
            (∃ c', o = some c' ∧ Fresh hd bd s2 c' ∧ c' :: s2.view <:+ c :: r ∧ c' ≠ '\r' ∧
              (0 < sn → c' ≠ ' ' ∧ c' ≠ '\t'))) := by
        intro s1 sn1 ha1 hv1 hi1 he1 hsn
        obtain ⟨o, s2, e2, ha2, hi, he, hor⟩ := ih s1 sn1 ha1.good (by rw [hv1]; exact hlen)
        refine ⟨o, s2, e2, ha1.trans ha2, by rw [hi, hi1, hfr.int], by rw [he, he1, hfr.errs], ?_⟩
        rcases hor with h | ⟨c', h1, h2, h3, h4, h5⟩
        · exact .inl h
        · refine .inr ⟨c', h1, h2, ?_, h4, fun h => h5 (hsn h)⟩
          rw [hv1, hv'] at h3
          exact h3.trans (List.suffix_cons _ _)
      simp only
      split
      · exact go s' sn ha rfl rfl rfl id
      · rename_i hnr
        split
        · exact go _ sn (ha.closeAllowed false) rfl rfl rfl id
        · rename_i hnb
          split
          · exact go _ 1 (ha.closeAllowed true) rfl rfl rfl (fun _ => by omega)
          · refine ⟨some c, s', rfl, ha, hfr.int, hfr.errs, .inr ⟨c, rfl, hfresh, ?_, hnr, ?_⟩⟩
            · rw [hv']; exact List.suffix_refl _
            · intro hsn
              constructor
              · intro hc; exact hnb ⟨.inl hc, .inr hsn⟩
              · intro hc; exact hnb ⟨.inr hc, .inr hsn⟩

/-- the continuation form, exactly -/
theorem wsLoop_cont (fuel : Nat) : ∀ (s : Lexer) (sn : Nat), Good hd bd s → s.view.length < fuel →
    0 < sn →
    ∃ o s', wsLoop fuel s sn = (o, s') ∧ o.toList ++ s'.view = skipCont sn s.view := by
  induction fuel with
  | zero => intro s _ _ h; omega
  | succ fuel ih =>
    intro s sn hg hf hsn
    unfold wsLoop
    cases hv : s.view with
    | nil =>
      obtain ⟨s', e, hv', hn, hfr, ha, hl⟩ := hg.eof_adv hv
      rw [e]
      exact ⟨none, s', rfl, by simp [hv', skipCont]⟩
    | cons c r =>
      obtain ⟨s', e, hv', hfresh, hfr, ha⟩ := hg.read_adv hv
      rw [e]
      have hlen : s'.view.length < fuel := by rw [hv] at hf; rw [hv']; simpa using hf
      simp only [skipCont]
      split
      · obtain ⟨o, s2, e2, h2⟩ := ih s' sn ha.good hlen hsn
        exact ⟨o, s2, e2, by rw [h2, hv']⟩
      · by_cases hb : c = ' ' ∨ c = '\t'
        · rw [if_pos ⟨hb, .inr hsn⟩, if_pos hb]
          obtain ⟨o, s2, e2, h2⟩ := ih _ sn (ha.closeAllowed false).good hlen hsn
          exact ⟨o, s2, e2, by rw [h2]; rw [← hv']; rfl⟩
        · rw [if_neg (fun h => hb h.1), if_neg hb]
          split
          · obtain ⟨o, s2, e2, h2⟩ := ih _ 1 (ha.closeAllowed true).good hlen (by omega)
            exact ⟨o, s2, e2, by rw [h2]; rw [← hv']; rfl⟩
          · exact ⟨some c, s', rfl, by simp [hv']⟩

/-- `skip_ws(true)` followed by `put_back`, as in a continued string -/
theorem skipWs_putBack {s : Lexer} (hg : Good hd bd s) :
    Adv hd bd s ((skipWs s true).2.putBack (skipWs s true).1) ∧
    ((skipWs s true).2.putBack (skipWs s true).1).view = skipCont 2 s.view ∧
    ((skipWs s true).2.putBack (skipWs s true).1).errs = s.errs ∧
    ((skipWs s true).2.putBack (skipWs s true).1).interp = s.interp := by
  unfold skipWs
  simp only [if_true]
  obtain ⟨o, s', e, ha, hi, he, hor⟩ := wsLoop_adv (hd := hd) (bd := bd) (s.size + 1) s 2 hg
    (by rw [size_eq_view]; omega)
  obtain ⟨o', s'', e', hc⟩ := wsLoop_cont (hd := hd) (bd := bd) (s.size + 1) s 2 hg
    (by rw [size_eq_view]; omega) (by omega)
  rw [e] at e'
  obtain ⟨rfl, rfl⟩ := Prod.mk.inj e'
  rw [e]
  rcases hor with ⟨rfl, h1, h2, _⟩ | ⟨c, rfl, hfresh, hsuf, _⟩
  · simp only
    rw [ha.good.putBack_none h2]
    exact ⟨ha, by simpa using hc, he, hi⟩
  · obtain ⟨hg2, hv2⟩ := hfresh.putBack
    refine ⟨⟨hg2, by rw [hv2]; exact hsuf, ha.fin, ?_⟩, ?_, he, hi⟩
    · show s.errs <:+ s'.errs
      rw [he]; exact List.suffix_refl _
    · rw [hv2]; simpa using hc

/-! ## `read_string` -/

/-- `stringLoop` as a function of the unread text; `mode` is 0 in the string proper and the
`skip_newlines` counter (2 or 1) in a line continuation.  Result: contents (reversed), whether an
interpolation starts here, unread rest, whether the string is complete. -/
def strScan (stop : List Char) : Nat → Nat → Bool → List Char → List Char →
    List Char × Bool × List Char × Bool
  | _, _, _, buf, [] => (buf, false, [], false)
  | mode, idx, bs, buf, c :: r =>
    if 0 < mode ∧ c = '\r' then strScan stop mode idx bs buf r
    else if 0 < mode ∧ (c = ' ' ∨ c = '\t') then strScan stop mode idx bs buf r
    else if mode = 2 ∧ c = '\n' then strScan stop 1 idx bs buf r
    else if stop[idx]? = some c ∧ !bs then
      if idx + 1 = stop.length then (buf, false, r, true)
      else strScan stop 0 (idx + 1) bs buf r
    else if idx > 0 ∧ stop[idx - 1]? = some c ∧
        stop.take (idx - 1) = (stop.take idx).drop 1 ∧ !bs then
      strScan stop 0 idx bs ((stop.take 1).reverse ++ buf) r
    else
      let buf := (stop.take idx).reverse ++ buf
      if (c = '\r' ∨ c = '\n') ∧ bs then strScan stop 2 0 false buf r
      else if bs then strScan stop 0 0 false (c :: '\\' :: buf) r
      else if c = '[' then (buf, true, r, true)
      else if c = '\\' then strScan stop 0 0 true buf r
      else strScan stop 0 0 false (c :: buf) r

/-- one step of the scan outside a continuation -/
theorem strScan_cons (stop : List Char) (idx : Nat) (bs : Bool) (buf : List Char) (c : Char)
    (r : List Char) : strScan stop 0 idx bs buf (c :: r) =
          if stop[idx]? = some c ∧ !bs then
            if idx + 1 = stop.length then (buf, false, r, true)
            else strScan stop 0 (idx + 1) bs buf r
          else if idx > 0 ∧ stop[idx - 1]? = some c ∧
              stop.take (idx - 1) = (stop.take idx).drop 1 ∧ !bs then
            strScan stop 0 idx bs ((stop.take 1).reverse ++ buf) r
          else
            if (c = '\r' ∨ c = '\n') ∧ bs then strScan stop 2 0 false ((stop.take idx).reverse ++ buf) r
            else if bs then strScan stop 0 0 false (c :: '\\' :: ((stop.take idx).reverse ++ buf)) r
            else if c = '[' then (((stop.take idx).reverse ++ buf), true, r, true)
            else if c = '\\' then strScan stop 0 0 true ((stop.take idx).reverse ++ buf) r
            else strScan stop 0 0 false (c :: ((stop.take idx).reverse ++ buf)) r := by
  conv_lhs => rw [strScan]
  rw [if_neg (fun h => Nat.lt_irrefl 0 h.1), if_neg (fun h => Nat.lt_irrefl 0 h.1),
    if_neg (fun h => absurd h.1 (by decide))]

theorem strScan_skip (stop : List Char) (v : List Char) : ∀ (mode idx : Nat) (bs : Bool)
    (buf : List Char), 0 < mode → mode ≤ 2 →
    strScan stop mode idx bs buf v = strScan stop 0 idx bs buf (skipCont mode v) := by
  induction v with
  | nil => intros; simp [strScan, skipCont]
  | cons c r ih =>
    intro mode idx bs buf h h2
    rw [skipCont]
    by_cases hr : c = '\r'
    · rw [strScan, if_pos ⟨h, hr⟩, if_pos hr, ih _ _ _ _ h h2]
    · rw [if_neg hr]
      by_cases hb : c = ' ' ∨ c = '\t'
      · rw [strScan, if_neg (fun x => hr x.2), if_pos ⟨h, hb⟩, if_pos hb, ih _ _ _ _ h h2]
      · rw [if_neg hb]
        by_cases hn : c = '\n' ∧ mode = 2
        · rw [strScan, if_neg (fun x => hr x.2), if_neg (fun x => hb x.2), if_pos ⟨hn.2, hn.1⟩,
            if_pos hn, ih _ _ _ _ (by omega) (by omega)]
        · rw [if_neg hn]
          rw [strScan_cons]
          conv_lhs => rw [strScan]
          rw [if_neg (fun x => hr x.2), if_neg (fun x => hb x.2), if_neg (fun x => hn ⟨x.2, x.1⟩)]

theorem stringLoop_eq {stop : List Char} (hstop : StopOk stop) (start : Loc) (fuel : Nat) :
    ∀ (s : Lexer) (idx : Nat) (bs : Bool) (buf : List Char),
    Good hd bd s → s.view.length < fuel → idx < stop.length →
    ∃ s', stringLoop stop start fuel s idx bs buf =
        (((strScan stop 0 idx bs buf s.view).1, (strScan stop 0 idx bs buf s.view).2.1), s') ∧
      s'.view = (strScan stop 0 idx bs buf s.view).2.2.1 ∧ Adv hd bd s s' ∧
      s'.interp = (if (strScan stop 0 idx bs buf s.view).2.1 then (stop, 1) :: s.interp else s.interp) ∧
      s'.errs = (if (strScan stop 0 idx bs buf s.view).2.2.2 then s.errs
        else (start, .unterminatedString) :: s.errs) := by
  induction fuel with
  | zero => intro s _ _ _ _ h; omega
  | succ fuel ih =>
    intro s idx bs buf hg hf hidx
    unfold stringLoop
    cases hv : s.view with
    | nil =>
      obtain ⟨s', e, hv', hn, hfr, ha, hl⟩ := hg.eof_adv hv
      rw [e]
      exact ⟨_, rfl, by simpa [strScan] using hv', ha.err _ _, by simpa [strScan, Lexer.errAt] using hfr.int, by
        simp [strScan, Lexer.errAt, hfr.errs]⟩
    | cons c r =>
      obtain ⟨s', e, hv', hfresh, hfr, ha⟩ := hg.read_adv hv
      rw [e]
      have hlen : s'.view.length < fuel := by rw [hv] at hf; rw [hv']; simpa using hf
      have hpn : ({ s' with panic := s'.panic || decide (idx ≥ stop.length) } : Lexer) = s' := by
        have : decide (idx ≥ stop.length) = false := by simp; omega
        rw [this]; simp
      -- one more round from a state with the same frame
      have go : ∀ (s1 : Lexer) idx1 bs1 buf1, Adv hd bd s s1 → s1.view.length < fuel →
          s1.interp = s.interp → s1.errs = s.errs → idx1 < stop.length →
          strScan stop 0 idx bs buf (c :: r) = strScan stop 0 idx1 bs1 buf1 s1.view →
          ∃ s2, stringLoop stop start fuel s1 idx1 bs1 buf1 =
            (((strScan stop 0 idx bs buf (c :: r)).1, (strScan stop 0 idx bs buf (c :: r)).2.1), s2) ∧
          s2.view = (strScan stop 0 idx bs buf (c :: r)).2.2.1 ∧ Adv hd bd s s2 ∧
          s2.interp = (if (strScan stop 0 idx bs buf (c :: r)).2.1 then (stop, 1) :: s.interp
            else s.interp) ∧
          s2.errs = (if (strScan stop 0 idx bs buf (c :: r)).2.2.2 then s.errs
            else (start, .unterminatedString) :: s.errs) := by
        intro s1 idx1 bs1 buf1 h1 h2 h3 h4 h5 h6
        obtain ⟨s2, e2, hv2, ha2, hi2, he2⟩ := ih s1 idx1 bs1 buf1 h1.good h2 h5
        rw [h6]
        exact ⟨s2, e2, hv2, h1.trans ha2, by rw [hi2, h3], by rw [he2, h4]⟩
      have unf := strScan_cons stop idx bs buf c r
      simp only [hpn]
      by_cases h1 : stop[idx]? = some c ∧ !bs
      · rw [if_pos h1] at unf ⊢
        by_cases h2 : idx + 1 = stop.length
        · rw [if_pos h2] at unf ⊢
          rw [unf]
          exact ⟨s', rfl, hv', ha, by simpa using hfr.int, by simpa using hfr.errs⟩
        · rw [if_neg h2] at unf ⊢
          exact go s' _ _ _ ha hlen hfr.int hfr.errs (by omega) (by rw [unf, hv'])
      · rw [if_neg h1] at unf ⊢
        by_cases h2 : idx > 0 ∧ stop[idx - 1]? = some c ∧
            stop.take (idx - 1) = (stop.take idx).drop 1 ∧ !bs
        · rw [if_pos h2] at unf ⊢
          exact go s' _ _ _ ha hlen hfr.int hfr.errs hidx (by rw [unf, hv'])
        · rw [if_neg h2] at unf ⊢
          by_cases h3 : (c = '\r' ∨ c = '\n') ∧ bs
          · rw [if_pos h3] at unf ⊢
            obtain ⟨hs1, hs2, hs3, hs4⟩ := skipWs_putBack ha.good
            refine go _ _ _ _ (ha.trans hs1) ?_ (hs4.trans hfr.int) (hs3.trans hfr.errs) (by omega) ?_
            · rw [hs2]
              exact Nat.lt_of_le_of_lt (skipCont_suffix _ _).length_le hlen
            · rw [unf, hs2, hv', strScan_skip _ _ _ _ _ _ (by omega) (by omega)]
          · rw [if_neg h3] at unf ⊢
            by_cases h4 : bs = true
            · rw [if_pos h4] at unf ⊢
              exact go s' _ _ _ ha hlen hfr.int hfr.errs (by omega) (by rw [unf, hv'])
            · rw [if_neg h4] at unf ⊢
              by_cases h5 : c = '['
              · rw [if_pos h5] at unf ⊢
                rw [unf]
                refine ⟨_, rfl, hv', ⟨⟨ha.good.fits, ha.good.split, ?_, ?_⟩, ha.view,
                  ha.fin, ha.errs⟩, by simp [hfr.int], by simpa using hfr.errs⟩
                · simp only [ha.good.nopanic, Bool.false_or, decide_eq_false_iff_not]; omega
                intro e d hed
                simp only [List.mem_cons, Prod.mk.injEq] at hed
                rcases hed with ⟨rfl, rfl⟩ | h
                · exact ⟨hstop, Nat.le_refl 1⟩
                · exact ha.good.interp e d h
              · rw [if_neg h5] at unf ⊢
                by_cases h6 : c = '\\'
                · rw [if_pos h6] at unf ⊢
                  exact go s' _ _ _ ha hlen hfr.int hfr.errs (by omega) (by rw [unf, hv'])
                · rw [if_neg h6] at unf ⊢
                  exact go s' _ _ _ ha hlen hfr.int hfr.errs (by omega) (by rw [unf, hv'])

/-- the token made by `read_string` -/
def strTok (opened closed : Bool) (s : List Char) : Tok :=
  if opened then (if closed then .interpPart s else .interpBegin s)
  else if closed then .interpEnd s else .str s

theorem readString_eq {s : Lexer} {stop : List Char} (hg : Good hd bd s) (hstop : StopOk stop)
    (closed : Bool) :
    (readString s stop closed).1 =
      strTok (strScan stop 0 0 false [] s.view).2.1 closed (strScan stop 0 0 false [] s.view).1.reverse ∧
    (readString s stop closed).2.view = (strScan stop 0 0 false [] s.view).2.2.1 ∧
    Adv hd bd s (readString s stop closed).2 ∧
    (readString s stop closed).2.errs = (if (strScan stop 0 0 false [] s.view).2.2.2 then s.errs
        else (s.loc, .unterminatedString) :: s.errs) ∧
    (readString s stop closed).2.interp =
      (if (strScan stop 0 0 false [] s.view).2.1 then (stop, 1) :: s.interp else s.interp) := by
  have hl : 0 < stop.length := by
    rcases hstop with rfl | rfl | rfl <;> simp
  obtain ⟨s', e, hv, ha, hi, he⟩ := stringLoop_eq (hd := hd) (bd := bd) hstop s.loc (s.size + 1) s 0
    false [] hg (by rw [size_eq_view]; omega) hl
  simp only [readString, e]
  exact ⟨rfl, hv, ha, he, hi⟩

/-! ## `read_resource` -/

/-- contents (reversed), unread rest, whether complete -/
def resScan : Bool → List Char → List Char → List Char × List Char × Bool
  | _, buf, [] => (buf, [], false)
  | bs, buf, c :: r =>
    if bs then resScan false (c :: buf) r
    else if c = '\\' then resScan true buf r
    else if c = '\'' then (buf, r, true)
    else resScan false (c :: buf) r

theorem resourceLoop_eq (start : Loc) (fuel : Nat) : ∀ (s : Lexer) (bs : Bool) (buf : List Char),
    Good hd bd s → s.view.length < fuel →
    ∃ s', resourceLoop start fuel s bs buf = ((resScan bs buf s.view).1, s') ∧
      s'.view = (resScan bs buf s.view).2.1 ∧ Adv hd bd s s' ∧ s'.interp = s.interp ∧
      s'.errs = (if (resScan bs buf s.view).2.2 then s.errs
        else (start, .unterminatedResource) :: s.errs) := by
  induction fuel with
  | zero => intro s _ _ _ h; omega
  | succ fuel ih =>
    intro s bs buf hg hf
    unfold resourceLoop
    cases hv : s.view with
    | nil =>
      obtain ⟨s', e, hv', hn, hfr, ha, hl⟩ := hg.eof_adv hv
      rw [e]
      exact ⟨_, rfl, by simpa [resScan] using hv', ha.err _ _, hfr.int, by
        simp [resScan, Lexer.errAt, hfr.errs]⟩
    | cons c r =>
      obtain ⟨s', e, hv', hfresh, hfr, ha⟩ := hg.read_adv hv
      rw [e]
      have hlen : s'.view.length < fuel := by rw [hv] at hf; rw [hv']; simpa using hf
      simp only [resScan]
      have go : ∀ bs1 buf1, ∃ s2, resourceLoop start fuel s' bs1 buf1 = ((resScan bs1 buf1 r).1, s2) ∧
          s2.view = (resScan bs1 buf1 r).2.1 ∧ Adv hd bd s s2 ∧ s2.interp = s.interp ∧
          s2.errs = (if (resScan bs1 buf1 r).2.2 then s.errs
            else (start, .unterminatedResource) :: s.errs) := by
        intro bs1 buf1
        obtain ⟨s2, e2, hv2, ha2, hi2, he2⟩ := ih s' bs1 buf1 ha.good hlen
        rw [hv'] at e2 hv2 he2
        exact ⟨s2, e2, hv2, ha.trans ha2, by rw [hi2, hfr.int], by rw [he2, hfr.errs]⟩
      split
      · exact go _ _
      · split
        · exact go _ _
        · split
          · exact ⟨s', rfl, hv', ha, hfr.int, by simpa using hfr.errs⟩
          · exact go _ _

theorem readResource_eq {s : Lexer} (hg : Good hd bd s) :
    (readResource s).1 = (resScan false [] s.view).1.reverse ∧
    (readResource s).2.view = (resScan false [] s.view).2.1 ∧ Adv hd bd s (readResource s).2 ∧
    (readResource s).2.interp = s.interp ∧
    (readResource s).2.errs = (if (resScan false [] s.view).2.2 then s.errs
        else (s.loc, .unterminatedResource) :: s.errs) := by
  obtain ⟨s', e, hv, ha, hi, he⟩ := resourceLoop_eq (hd := hd) (bd := bd) s.loc (s.size + 1) s
    false [] hg (by rw [size_eq_view]; omega)
  simp only [readResource, e]
  exact ⟨trivial, hv, ha, hi, he⟩

/-! ## Raw strings -/

/-- contents (reversed), unread rest, whether complete -/
def rawScan (term : List Char) : List Char → List Char → List Char × List Char × Bool
  | buf, [] => (buf, [], false)
  | buf, c :: r =>
    if term.reverse.isPrefixOf (c :: buf) then ((c :: buf).drop term.length, r, true)
    else rawScan term (c :: buf) r

theorem rawLoop_eq (term : List Char) (start : Loc) (fuel : Nat) : ∀ (s : Lexer) (buf : List Char),
    Good hd bd s → s.view.length < fuel →
    ∃ s', rawLoop term start fuel s buf = ((rawScan term buf s.view).1, s') ∧
      s'.view = (rawScan term buf s.view).2.1 ∧ Adv hd bd s s' ∧ s'.interp = s.interp ∧
      s'.errs = (if (rawScan term buf s.view).2.2 then s.errs
        else (start, .unterminatedRaw) :: s.errs) := by
  induction fuel with
  | zero => intro s _ _ h; omega
  | succ fuel ih =>
    intro s buf hg hf
    unfold rawLoop
    cases hv : s.view with
    | nil =>
      obtain ⟨s', e, hv', hn, hfr, ha, hl⟩ := hg.eof_adv hv
      rw [e]
      exact ⟨_, rfl, by simpa [rawScan] using hv', ha.err _ _, hfr.int, by
        simp [rawScan, Lexer.errAt, hfr.errs]⟩
    | cons c r =>
      obtain ⟨s', e, hv', hfresh, hfr, ha⟩ := hg.read_adv hv
      rw [e]
      have hlen : s'.view.length < fuel := by rw [hv] at hf; rw [hv']; simpa using hf
      simp only [rawScan]
      split
      · exact ⟨s', rfl, hv', ha, hfr.int, by simpa using hfr.errs⟩
      · obtain ⟨s2, e2, hv2, ha2, hi2, he2⟩ := ih s' (c :: buf) ha.good hlen
        rw [hv'] at e2 hv2 he2
        exact ⟨s2, e2, hv2, ha.trans ha2, by rw [hi2, hfr.int], by rw [he2, hfr.errs]⟩

theorem readRawStringInner_eq {s : Lexer} (hg : Good hd bd s) (term : List Char) :
    (readRawStringInner s term).1 = .str (rawScan term [] s.view).1.reverse ∧
    (readRawStringInner s term).2.view = (rawScan term [] s.view).2.1 ∧
    Adv hd bd s (readRawStringInner s term).2 ∧ (readRawStringInner s term).2.interp = s.interp ∧
    (readRawStringInner s term).2.errs = (if (rawScan term [] s.view).2.2 then s.errs
        else (s.loc, .unterminatedRaw) :: s.errs) := by
  obtain ⟨s', e, hv, ha, hi, he⟩ := rawLoop_eq (hd := hd) (bd := bd) term s.loc (s.size + 1) s []
    hg (by rw [size_eq_view]; omega)
  simp only [readRawStringInner, e]
  exact ⟨trivial, hv, ha, hi, he⟩

theorem termLoop_adv (fuel : Nat) : ∀ (s : Lexer) (term : List Char), Good hd bd s →
    s.view.length < fuel →
    ∃ o s', termLoop fuel s term = (o, s') ∧ Adv hd bd s s' ∧ s'.interp = s.interp := by
  induction fuel with
  | zero => intro s _ _ h; omega
  | succ fuel ih =>
    intro s term hg hf
    unfold termLoop
    cases hv : s.view with
    | nil =>
      obtain ⟨s', e, hv', hn, hfr, ha, hl⟩ := hg.eof_adv hv
      rw [e]; exact ⟨none, s', rfl, ha, hfr.int⟩
    | cons c r =>
      obtain ⟨s', e, hv', hfresh, hfr, ha⟩ := hg.read_adv hv
      rw [e]
      have hlen : s'.view.length < fuel := by rw [hv] at hf; rw [hv']; simpa using hf
      simp only
      split
      · exact ⟨_, s', rfl, ha, hfr.int⟩
      · obtain ⟨o, s2, e2, ha2, hi2⟩ := ih s' (term ++ [c]) ha.good hlen
        exact ⟨o, s2, e2, ha.trans ha2, hi2.trans hfr.int⟩

theorem readRawString_adv {s : Lexer} (hg : Good hd bd s) :
    Adv hd bd s (readRawString s).2 ∧ (∃ t, (readRawString s).1 = .str t) ∧
      (readRawString s).2.interp = s.interp := by
  unfold readRawString
  cases hv : s.view with
  | nil =>
    obtain ⟨s', e, hv', hn, hfr, ha, hl⟩ := hg.eof_adv hv
    rw [e]; exact ⟨ha.err _ _, ⟨_, rfl⟩, hfr.int⟩
  | cons c r =>
    obtain ⟨s', e, hv', hfresh, hfr, ha⟩ := hg.read_adv hv
    rw [e]
    simp only
    split
    · exact ⟨ha.err _ _, ⟨_, rfl⟩, hfr.int⟩
    · split
      · obtain ⟨o, s2, e2, ha2, hi2⟩ := termLoop_adv (hd := hd) (bd := bd) (s'.size + 1) s' [] ha.good
          (by rw [size_eq_view]; omega)
        rw [e2]
        cases o with
        | none => exact ⟨(ha.trans ha2).err _ _, ⟨_, rfl⟩, hi2.trans hfr.int⟩
        | some term =>
          simp only
          split
          · exact ⟨(ha.trans ha2).err _ _, ⟨_, rfl⟩, hi2.trans hfr.int⟩
          · obtain ⟨h1, h2, h3, h4, h5⟩ := readRawStringInner_eq ha2.good term
            exact ⟨(ha.trans ha2).trans h3, ⟨_, h1⟩, h4.trans (hi2.trans hfr.int)⟩
      · split
        · cases hv2 : s'.view with
          | nil =>
            obtain ⟨s2, e2, hv2', hn2, hfr2, ha2, hl2⟩ := ha.good.eof_adv hv2
            rw [e2]
            simp only [reduceCtorEq, if_false]
            rw [ha2.good.putBack_none hn2]
            obtain ⟨h1, h2, h3, h4, h5⟩ := readRawStringInner_eq ha2.good ['{']
            exact ⟨(ha.trans ha2).trans h3, ⟨_, h1⟩, h4.trans (hfr2.int.trans hfr.int)⟩
          | cons c2 r2 =>
            obtain ⟨s2, e2, hv2', hfresh2, hfr2, ha2⟩ := ha.good.read_adv hv2
            rw [e2]
            simp only [Option.some.injEq]
            split
            · obtain ⟨h1, h2, h3, h4, h5⟩ := readRawStringInner_eq ha2.good ['"', '}']
              exact ⟨(ha.trans ha2).trans h3, ⟨_, h1⟩, h4.trans (hfr2.int.trans hfr.int)⟩
            · obtain ⟨ha3, _⟩ := hfresh2.putBack_adv hfr2 hv2 hv2'
              obtain ⟨h1, h2, h3, h4, h5⟩ := readRawStringInner_eq ha3.good ['{']
              exact ⟨(ha.trans ha3).trans h3, ⟨_, h1⟩, h4.trans (hfr2.int.trans hfr.int)⟩
        · obtain ⟨h1, h2, h3, h4, h5⟩ := readRawStringInner_eq ha.good [c]
          exact ⟨ha.trans h3, ⟨_, h1⟩, h4.trans hfr.int⟩

/-! ## Identifiers -/

/-- an identifier character -/
def identChar (c : Char) : Bool := isIdent c || isDigit c

theorem identLoop_eq (fuel : Nat) : ∀ (s : Lexer) (len : Nat), Good hd bd s →
    s.view.length < fuel →
    ∃ s', identLoop fuel s len =
        ((len + (s.view.takeWhile identChar).length,
          decide ((s.view.dropWhile identChar).head? = some ' ' ∨
            (s.view.dropWhile identChar).head? = some '\t')), s') ∧
      s'.view = s.view.dropWhile identChar ∧ Adv hd bd s s' ∧ s'.interp = s.interp ∧
      s'.errs = s.errs := by
  induction fuel with
  | zero => intro s _ _ h; omega
  | succ fuel ih =>
    intro s len hg hf
    unfold identLoop
    cases hv : s.view with
    | nil =>
      obtain ⟨s', e, hv', hn, hfr, ha, hl⟩ := hg.eof_adv hv
      rw [e]
      simp only
      rw [ha.good.putBack_none hn]
      exact ⟨s', by simp, by simpa using hv', ha, hfr.int, hfr.errs⟩
    | cons c r =>
      obtain ⟨s', e, hv', hfresh, hfr, ha⟩ := hg.read_adv hv
      rw [e]
      have hlen : s'.view.length < fuel := by rw [hv] at hf; rw [hv']; simpa using hf
      simp only
      by_cases hc : identChar c = true
      · have hc' : (isIdent c || isDigit c) = true := hc
        rw [if_pos hc']
        obtain ⟨s2, e2, hv2, ha2, hi2, he2⟩ := ih s' (len + 1) ha.good hlen
        rw [hv'] at e2 hv2
        refine ⟨s2, ?_, ?_, ha.trans ha2, hi2.trans hfr.int, he2.trans hfr.errs⟩
        · rw [e2]; simp [List.takeWhile_cons, List.dropWhile_cons, hc]; omega
        · rw [hv2]; simp [List.dropWhile_cons, hc]
      · have hc' : ¬(isIdent c || isDigit c) = true := hc
        rw [if_neg hc']
        obtain ⟨ha2, hv2⟩ := hfresh.putBack_adv hfr hv hv'
        refine ⟨_, ?_, ?_, ha2, hfr.int, hfr.errs⟩
        · simp only [List.takeWhile_cons, List.dropWhile_cons, hc, Bool.false_eq_true, if_false,
            List.length_nil, Nat.add_zero, List.head?_cons, Option.some.injEq, Prod.mk.injEq,
            and_true, true_and]
          rw [Bool.eq_iff_iff]; simp
        · rw [hv2, hv]; simp [List.dropWhile_cons, hc]

theorem readIdent_eq {s : Lexer} {c : Char} (hf : Fresh hd bd s c) :
    (readIdent s c).1 = (c :: s.view.takeWhile identChar,
      decide ((s.view.dropWhile identChar).head? = some ' ' ∨
        (s.view.dropWhile identChar).head? = some '\t')) ∧
    (readIdent s c).2.view = s.view.dropWhile identChar ∧ Adv hd bd s (readIdent s c).2 ∧
    (readIdent s c).2.interp = s.interp ∧ (readIdent s c).2.errs = s.errs := by
  obtain ⟨read, hp, hb, _⟩ := hf.last
  have hpn : ({ s with panic := s.panic || decide (s.prev.head? ≠ some c) } : Lexer) = s := by
    have : decide (s.prev.head? ≠ some c) = false := by simp [hp]
    rw [this]; simp
  obtain ⟨s', e, hv, ha, hi, he⟩ := identLoop_eq (hd := hd) (bd := bd) (s.size + 1) s 1 hf.good
    (by rw [size_eq_view]; omega)
  simp only [readIdent, hpn, e]
  refine ⟨?_, hv, ha, hi, he⟩
  -- the whole input does not change
  obtain ⟨read', hp', hb', _⟩ := ha.good.split
  have hin : s'.prev.reverse ++ s'.rem = hd.reverse ++ bd := by
    rw [hp', hb']; simp
  have hin0 : hd.reverse ++ bd = (hd.reverse ++ read) ++ (c :: s.view) := by
    have : s.view = s.rem := by simp [Lexer.view, hf.nxt]
    rw [hb, this]; simp
  rw [hin, hin0]
  have hlen : s.prev.length - 1 = (hd.reverse ++ read).length := by
    rw [hp]; simp; omega
  rw [hlen, List.drop_left]
  have : 1 + (s.view.takeWhile identChar).length = (s.view.takeWhile identChar).length + 1 := by omega
  rw [this, List.take_succ_cons]
  have htk : s.view.take (s.view.takeWhile identChar).length = s.view.takeWhile identChar := by
    exact (List.prefix_iff_eq_take.1 (List.takeWhile_prefix _)).symm
  rw [htk]

/-! ## Numbers -/

theorem infLoop_adv (k : Nat) : ∀ (s : Lexer) (buf got : List Char), Good hd bd s →
    ∃ o s', infLoop k s buf got = (o, s') ∧ Adv hd bd s s' ∧ s'.interp = s.interp ∧
      s'.errs = s.errs := by
  induction k with
  | zero => intro s buf got hg; exact ⟨_, s, rfl, .refl hg, rfl, rfl⟩
  | succ k ih =>
    intro s buf got hg
    unfold infLoop
    cases hv : s.view with
    | nil =>
      obtain ⟨s', e, hv', hn, hfr, ha, hl⟩ := hg.eof_adv hv
      rw [e]; exact ⟨_, s', rfl, ha, hfr.int, hfr.errs⟩
    | cons c r =>
      obtain ⟨s', e, hv', hfresh, hfr, ha⟩ := hg.read_adv hv
      rw [e]
      simp only
      split
      · obtain ⟨o, s2, e2, ha2, hi, he⟩ := ih s' buf (got ++ [c]) ha.good
        exact ⟨o, s2, e2, ha.trans ha2, hi.trans hfr.int, he.trans hfr.errs⟩
      · exact ⟨_, s', rfl, ha, hfr.int, hfr.errs⟩

theorem numLoop_adv (fuel : Nat) : ∀ (s : Lexer) (i x : Bool) (radix : Nat) (buf : List Char),
    Good hd bd s → s.view.length < fuel →
    ∃ o s', numLoop fuel s i x radix buf = (o, s') ∧ Adv hd bd s s' ∧ s'.interp = s.interp ∧
      s'.errs = s.errs := by
  induction fuel with
  | zero => intro s _ _ _ _ _ h; omega
  | succ fuel ih =>
    intro s i x radix buf hg hf
    unfold numLoop
    cases hv : s.view with
    | nil =>
      obtain ⟨s', e, hv', hn, hfr, ha, hl⟩ := hg.eof_adv hv
      rw [e]
      simp only
      rw [ha.good.putBack_none hn]
      exact ⟨_, s', rfl, ha, hfr.int, hfr.errs⟩
    | cons c r =>
      obtain ⟨s', e, hv', hfresh, hfr, ha⟩ := hg.read_adv hv
      rw [e]
      have hlen : s'.view.length < fuel := by rw [hv] at hf; rw [hv']; simpa using hf
      have go : ∀ i x radix buf, ∃ o s2, numLoop fuel s' i x radix buf = (o, s2) ∧
          Adv hd bd s s2 ∧ s2.interp = s.interp ∧ s2.errs = s.errs := by
        intro i x radix buf
        obtain ⟨o, s2, e2, ha2, hi, he⟩ := ih s' i x radix buf ha.good hlen
        exact ⟨o, s2, e2, ha.trans ha2, hi.trans hfr.int, he.trans hfr.errs⟩
      simp only
      split
      · exact go _ _ _ _
      · split
        · split
          · exact go _ _ _ _
          · exact go _ _ _ _
        · split
          · exact go _ _ _ _
          · split
            · obtain ⟨o, s2, e2, ha2, hi, he⟩ := infLoop_adv (hd := hd) (bd := bd) 3 s' buf [] ha.good
              rw [e2]
              simp only
              refine ⟨if o.1 then if o.2 = "INF".toList then (false, 10, "inf".toList)
                  else (false, 10, "NaN".toList) else (false, 10, buf ++ '#' :: o.2), s2, ?_,
                  ha.trans ha2, hi.trans hfr.int, he.trans hfr.errs⟩
              split
              · split <;> rfl
              · rfl
            · split
              · exact go _ _ _ _
              · obtain ⟨ha2, hv2⟩ := hfresh.putBack_adv hfr hv hv'
                exact ⟨_, _, rfl, ha2, hfr.int, hfr.errs⟩

theorem readNumberInner_adv {s : Lexer} (hg : Good hd bd s) (c : Char) :
    Adv hd bd s (readNumberInner s c).2 ∧ (readNumberInner s c).2.interp = s.interp ∧
      (readNumberInner s c).2.errs = s.errs := by
  unfold readNumberInner
  split
  · cases hv : s.view with
    | nil =>
      obtain ⟨s', e, hv', hn, hfr, ha, hl⟩ := hg.eof_adv hv
      rw [e]
      simp only [reduceCtorEq, if_false]
      rw [ha.good.putBack_none hn]
      obtain ⟨o, s2, e2, ha2, hi, he⟩ := numLoop_adv (hd := hd) (bd := bd) (s'.size + 1) s' true false
        8 [c] ha.good (by rw [size_eq_view]; omega)
      rw [e2]
      exact ⟨ha.trans ha2, hi.trans hfr.int, he.trans hfr.errs⟩
    | cons c2 r =>
      obtain ⟨s', e, hv', hfresh, hfr, ha⟩ := hg.read_adv hv
      rw [e]
      simp only
      split
      · obtain ⟨o, s2, e2, ha2, hi, he⟩ := numLoop_adv (hd := hd) (bd := bd) (s'.size + 1) s' true
          false 16 [c] ha.good (by rw [size_eq_view]; omega)
        rw [e2]
        exact ⟨ha.trans ha2, hi.trans hfr.int, he.trans hfr.errs⟩
      · obtain ⟨hap, hvp⟩ := hfresh.putBack_adv hfr hv hv'
        obtain ⟨o, s2, e2, ha2, hi, he⟩ := numLoop_adv (hd := hd) (bd := bd)
          ((s'.putBack (some c2)).size + 1) (s'.putBack (some c2)) true false 8 [c] hap.good
          (by rw [size_eq_view]; omega)
        rw [e2]
        exact ⟨hap.trans ha2, hi.trans hfr.int, he.trans hfr.errs⟩
  · obtain ⟨o, s2, e2, ha2, hi, he⟩ := numLoop_adv (hd := hd) (bd := bd) (s.size + 1) s true false
      10 [c] hg (by rw [size_eq_view]; omega)
    rw [e2]
    exact ⟨ha2, hi, he⟩

theorem readNumber_adv (fo : FloatOps) {s : Lexer} (hg : Good hd bd s) (c : Char) :
    Adv hd bd s (readNumber fo s c).2 ∧ (readNumber fo s c).2.interp = s.interp ∧
      ((∃ v, (readNumber fo s c).1 = .int v) ∨ ∃ v, (readNumber fo s c).1 = .float v) := by
  obtain ⟨ha, hi, _⟩ := readNumberInner_adv hg c
  unfold readNumber
  simp only
  split
  · split
    · exact ⟨ha, hi, .inl ⟨_, rfl⟩⟩
    · split
      · refine ⟨?_, ?_, .inr ⟨_, rfl⟩⟩
        · split
          · exact ha.err _ _
          · exact ha
        · split <;> exact hi
      · exact ⟨ha.err _ _, hi, .inl ⟨_, rfl⟩⟩
  · split
    · exact ⟨ha, hi, .inr ⟨_, rfl⟩⟩
    · exact ⟨ha.err _ _, hi, .inr ⟨_, rfl⟩⟩

end Verif.Lexer
