import Verif.Lexer.Punct
import Verif.Lexer.Comments
import Verif.Lexer.Strings

/-!
# The token stream: locations, order, end, absence of panics (C16, C17)
-/

namespace Verif.Lexer

variable {hd bd : List Char}

/-- The text `txt` at a token's location fits the token, and the token takes it up to `rest`. (The
contents of strings are the subject of C19.) -/
def TokenAt (t : Tok) (txt rest : List Char) : Prop :=
  match t with
  | .punct p => txt = p.lit ++ rest ∧ ((p.lit ≠ "in".toList ∧ LongestSymbol p.lit txt) ∨
      (p.lit = "in".toList ∧ txt.takeWhile identChar = "in".toList))
  | .ident n ws => txt = n ++ rest ∧ n = txt.takeWhile identChar ∧ n ≠ "in".toList ∧
      (∃ c, n.head? = some c ∧ isIdent c) ∧
      (ws = true ↔ rest.head? = some ' ' ∨ rest.head? = some '\t')
  | .str _ => True
  | .interpBegin _ => True
  | .interpPart _ => ∃ r, txt = ']' :: r
  | .interpEnd _ => ∃ r, txt = ']' :: r
  | .resource _ => ∃ r, txt = '\'' :: r
  | .int _ => ∃ c r, txt = c :: r ∧ isDigit c
  | .float _ => ∃ c r, txt = c :: r ∧ isDigit c
  | .doc .block tgt s => ∃ r, txt = "/*".toList ++ r ∧
      ((∃ inside, r = inside ++ "*/".toList ++ rest ∧ CommentRest (inside ++ "*/".toList) ∧
          blockDoc inside = some (.doc .block tgt s)) ∨
        (rest = [] ∧ ∀ p, p <+: r → ¬ CommentRest p))
  | .doc .line tgt s => ∃ r, txt = "//".toList ++ r ∧ rest = afterLine false r ∧
      lineDoc r = some (.doc .line tgt s)

theorem strScan_suffix (stop : List Char) (v : List Char) : ∀ (mode idx : Nat) (bs : Bool)
    (buf : List Char), (strScan stop mode idx bs buf v).2.2.1 <:+ v.tail := by
  induction v with
  | nil => intros; simp [strScan]
  | cons c r ih =>
    intro mode idx bs buf
    have go : ∀ m i b bu, (strScan stop m i b bu r).2.2.1 <:+ r := fun m i b bu =>
      (ih m i b bu).trans (List.tail_suffix r)
    simp only [List.tail_cons]
    rw [strScan]
    repeat' (first | exact go _ _ _ _ | exact List.suffix_refl _ | split)

/-- what `onPunct`, `onOther` and `step` do to the state, and what they emit -/
structure Emits (hd bd : List Char) (s : Lexer) (loc : Loc) (txt : List Char)
    (r : Step × Lexer) : Prop where
  adv : Adv hd bd s r.2
  out : (∃ t, r.1 = .emit loc t ∧ TokenAt t txt r.2.view) ∨ ∃ sn fi, r.1 = .cont sn fi

theorem good_interp {s : Lexer} (h : Good hd bd s) {st : List (List Char × Nat)}
    (hst : ∀ e d, (e, d) ∈ st → StopOk e ∧ 1 ≤ d) : Good hd bd { s with interp := st } :=
  ⟨h.fits, h.split, h.nopanic, hst⟩

theorem strTok_at (opened : Bool) (s txt rest : List Char) : TokenAt (strTok opened false s) txt rest := by
  cases opened <;> simp [strTok, TokenAt]

theorem onPunct_emits {s : Lexer} (hg : Good hd bd s) (loc : Loc) {p : Punct} (fi : Bool)
    {txt : List Char} (hp : LongestSymbol p.lit txt) (htxt : txt = p.lit ++ s.view) : Emits hd bd s loc txt (onPunct s loc p fi) := by
  have hnin : p.lit ≠ "in".toList := by
    intro h
    have := hp.1
    rw [h] at this
    exact absurd this (by decide +kernel)
  have hpt : TokenAt (.punct p) txt s.view := ⟨htxt, .inl ⟨hnin, hp⟩⟩
  have hdir : ∀ d, Adv hd bd s { s with directive := d } := fun d =>
    ⟨hg.congr rfl rfl rfl rfl rfl rfl rfl rfl, List.suffix_refl _, rfl, List.suffix_refl _⟩
  unfold onPunct
  split
  · exact ⟨hdir _, .inl ⟨_, rfl, hpt⟩⟩
  · split
    · rename_i _ hlit
      have hadv : Adv hd bd s (skipBlockComments s).2 := by
        rcases skipBlockComments_spec hg with ⟨i, rest, hv, _, _, hv2, hg2, hfr⟩ | ⟨_, hv2, he, hg2, hf, _⟩
        · exact hfr.adv hg2 (by rw [hv2, hv]; exact List.suffix_append _ _)
        · exact ⟨hg2, by rw [hv2]; exact List.nil_suffix, hf, by rw [he]; exact List.suffix_cons _ _⟩
      have htok : ∀ t, (skipBlockComments s).1 = some t → ∃ a b, t = .doc .block a b := by
        intro t ht
        have aux : ∀ (b : Bool) (o : Option DocTarget) (g : DocTarget → Tok),
            (if b = true then none else o.map g) = some t → ∃ a, t = g a := by
          intro b o g h
          cases b with
          | true => simp at h
          | false =>
            simp only [Bool.false_eq_true, if_false] at h
            obtain ⟨a, _, rfl⟩ := Option.map_eq_some_iff.1 h
            exact ⟨a, rfl⟩
        obtain ⟨a, h⟩ := aux _ _ _ ht
        exact ⟨_, _, h⟩
      simp only
      split
      · rename_i t ht
        obtain ⟨a, b, rfl⟩ := htok t ht
        refine ⟨hadv, .inl ⟨_, rfl, s.view, by rw [htxt, hlit], ?_⟩⟩
        rcases skipBlockComments_spec hg with ⟨i, rest, hv, hcr, ht2, hv2, _⟩ | ⟨hno, hv2, _⟩
        · exact .inl ⟨i, by rw [hv, hv2], hcr, by rw [← ht2]; exact ht⟩
        · exact .inr ⟨hv2, hno⟩
      · exact ⟨hadv, .inr ⟨_, _, rfl⟩⟩
    · split
      · rename_i _ _ hlit
        obtain ⟨h1, h2, h3, h4, h5, h6⟩ := skipLineComment_spec hg
        have hal : ∀ (v : List Char) b, afterLine b v <:+ v := by
          intro v
          induction v with
          | nil => intro b; exact List.suffix_refl _
          | cons c r ih =>
            intro b
            rw [afterLine]
            repeat' (first | exact (ih _).trans (List.suffix_cons _ _) | exact List.suffix_refl _ | split)
        have hadv : Adv hd bd s (skipLineComment s).2 := ⟨h3, by rw [h2]; exact hal _ _, h4, h6⟩
        have htok : ∀ t, lineDoc s.view = some t → ∃ a b, t = .doc .line a b := by
          intro t ht
          unfold lineDoc at ht
          split at ht <;> simp at ht <;> exact ⟨_, _, ht.symm⟩
        simp only
        split
        · rename_i t ht
          obtain ⟨a, b, rfl⟩ := htok t (h1 ▸ ht)
          exact ⟨hadv, .inl ⟨_, rfl, s.view, by rw [htxt, hlit], h2, by rw [← h1]; exact ht⟩⟩
        · exact ⟨hadv, .inr ⟨_, _, rfl⟩⟩
      · split
        · rename_i _ _ _ hlit
          obtain ⟨_, _, h3, _, _⟩ := readResource_eq hg
          refine ⟨h3, .inl ⟨_, rfl, ?_⟩⟩
          obtain ⟨r, hr⟩ := hp.2.1
          exact ⟨r, by rw [← hr, hlit]; rfl⟩
        · split
          · obtain ⟨h1, _, h3, _, _⟩ := readString_eq hg (stop := ['"']) (.inl rfl) false
            exact ⟨h3, .inl ⟨_, rfl, by rw [h1]; exact strTok_at _ _ _ _⟩⟩
          · split
            · obtain ⟨h1, _, h3, _, _⟩ := readString_eq hg (stop := ['"', '}']) (.inr (.inl rfl)) false
              exact ⟨h3, .inl ⟨_, rfl, by rw [h1]; exact strTok_at _ _ _ _⟩⟩
            · split
              · refine ⟨⟨good_interp hg ?_, List.suffix_refl _, rfl, List.suffix_refl _⟩,
                  .inl ⟨_, rfl, hpt⟩⟩
                have hi := hg.interp
                intro e d hed
                match hint : s.interp with
                | [] => simp [hint] at hed
                | (e0, d0) :: st =>
                  rw [hint] at hed hi
                  simp only [List.mem_cons, Prod.mk.injEq] at hed
                  rcases hed with ⟨rfl, rfl⟩ | h
                  · exact ⟨(hi e d0 (by simp)).1, by omega⟩
                  · exact hi e d (by simp [h])
              · split
                · rename_i hlit
                  have hrb : ∃ r, txt = ']' :: r := by
                    obtain ⟨r, hr⟩ := hp.2.1
                    exact ⟨r, by rw [← hr, hlit]; rfl⟩
                  split
                  · exact ⟨⟨hg.congr rfl rfl rfl rfl rfl rfl rfl rfl, List.suffix_refl _, rfl,
                      List.suffix_refl _⟩, .inl ⟨_, rfl, hpt⟩⟩
                  · rename_i e d st hint
                    have hi := hg.interp
                    rw [hint] at hi
                    have hd1 := hi e d (by simp)
                    have hpn : (s.panic || decide (d = 0)) = false := by
                      simp [hg.nopanic]; omega
                    simp only [hpn]
                    have hst : ∀ e d, (e, d) ∈ st → StopOk e ∧ 1 ≤ d :=
                      fun e d h => hi e d (by simp [h])
                    split
                    · have hg2 : Good hd bd { s with panic := false, interp := st } :=
                        ⟨hg.fits, hg.split, rfl, hst⟩
                      obtain ⟨h1, _, h3, _, _⟩ := readString_eq hg2 hd1.1 true
                      refine ⟨⟨h3.good, h3.view, h3.fin, h3.errs⟩, .inl ⟨_, rfl, ?_⟩⟩
                      rw [h1]
                      cases (strScan e 0 0 false [] _).2.1 <;> exact hrb
                    · rename_i hne
                      refine ⟨⟨⟨hg.fits, hg.split, rfl, ?_⟩, List.suffix_refl _, rfl,
                        List.suffix_refl _⟩, .inl ⟨_, rfl, hpt⟩⟩
                      intro e' d' hed
                      simp only [List.mem_cons, Prod.mk.injEq] at hed
                      rcases hed with ⟨rfl, rfl⟩ | h
                      · exact ⟨hd1.1, by omega⟩
                      · exact hst _ _ h
                · split
                  · exact ⟨⟨hg.congr rfl rfl rfl rfl rfl rfl rfl rfl, List.suffix_refl _, rfl,
                      List.suffix_refl _⟩, .inl ⟨_, rfl, hpt⟩⟩
                  · exact ⟨.refl hg, .inl ⟨_, rfl, hpt⟩⟩

theorem Adv.congr {s s' s'' : Lexer} (h : Adv hd bd s s') (hp : s''.prev = s'.prev)
    (hr : s''.rem = s'.rem) (hl : s''.line = s'.line) (hc : s''.col = s'.col)
    (ha : s''.atLineEnd = s'.atLineEnd) (hn : s''.nxt = s'.nxt) (hi : s''.interp = s'.interp)
    (hpa : s''.panic = s'.panic) (hf : s''.finalNewline = s'.finalNewline)
    (he : s''.errs = s'.errs) : Adv hd bd s s'' :=
  ⟨h.good.congr hp hr hl hc ha hn hi hpa, by rw [Lexer.view, hn, hr]; exact h.view,
    hf.trans h.fin, by rw [he]; exact h.errs⟩

theorem onOther_emits (fo : FloatOps) {s : Lexer} {c : Char} (hf : Fresh hd bd s c) (loc : Loc)
    (fi : Bool) : Emits hd bd s loc (c :: s.view) (onOther fo s loc c fi) := by
  have hg := hf.good
  unfold onOther
  split
  · rename_i hdig
    obtain ⟨h1, _, h2⟩ := readNumber_adv fo hg c
    refine ⟨h1, .inl ⟨_, rfl, ?_⟩⟩
    rcases h2 with ⟨v, h2⟩ | ⟨v, h2⟩ <;> (simp only [h2]; exact ⟨c, s.view, rfl, hdig⟩)
  · split
    · rename_i hid
      obtain ⟨h1, h2, h3, h4, h5⟩ := readIdent_eq hf
      have hic : identChar c = true := by simp [identChar, hid]
      have htw : (c :: s.view).takeWhile identChar = c :: s.view.takeWhile identChar := by
        simp [List.takeWhile_cons, hic]
      have hdw : (c :: s.view).dropWhile identChar = s.view.dropWhile identChar := by
        simp [List.dropWhile_cons, hic]
      have hdir : ∀ b : Bool, Adv hd bd s (if b then { (readIdent s c).2 with directive :=
          if (readIdent s c).1.1 = "warn".toList ∨ (readIdent s c).1.1 = "error".toList then
            .stringy else .ordinary } else (readIdent s c).2) := by
        intro b
        cases b
        · exact h3
        · exact h3.congr rfl rfl rfl rfl rfl rfl rfl rfl rfl rfl
      simp only
      split
      · rename_i hin
        refine ⟨?_, .inl ⟨_, rfl, ?_, .inr ⟨rfl, ?_⟩⟩⟩
        · simpa using hdir (decide ((readIdent s c).2.directive = .hash))
        · have hvv : ∀ b : Bool, (if b = true then { (readIdent s c).2 with directive :=
              if (readIdent s c).1.1 = "warn".toList ∨ (readIdent s c).1.1 = "error".toList then
              .stringy else .ordinary } else (readIdent s c).2).view = (readIdent s c).2.view := by
            intro b; cases b <;> rfl
          have := hvv (decide ((readIdent s c).2.directive = .hash))
          simp only [decide_eq_true_eq] at this
          rw [this, h2, ← hin, h1]
          simp [List.takeWhile_append_dropWhile]
        · rw [htw, ← hin, h1]
      · rename_i hnin
        refine ⟨?_, .inl ⟨_, rfl, ?_⟩⟩
        · have := (hdir (decide ((readIdent s c).2.directive = .hash)))
          exact (Adv.closeAllowed this true).congr (by simp) (by simp) (by simp) (by simp) (by simp)
            (by simp) (by simp) (by simp) (by simp) (by simp)
        · simp only [TokenAt]
          have hvv : ∀ b : Bool, ({ (if b = true then { (readIdent s c).2 with directive :=
              if (readIdent s c).1.1 = "warn".toList ∨ (readIdent s c).1.1 = "error".toList then
              .stringy else .ordinary } else (readIdent s c).2) with closeAllowed := true } : Lexer).view =
              (readIdent s c).2.view := by
            intro b; cases b <;> rfl
          have hvv := hvv (decide ((readIdent s c).2.directive = .hash))
          simp only [decide_eq_true_eq] at hvv
          rw [hvv, h2]
          refine ⟨?_, by rw [h1, htw], hnin, ⟨c, by rw [h1]; rfl, hid⟩, ?_⟩
          · rw [h1]; simp [List.takeWhile_append_dropWhile]
          · rw [h1]; simp
    · split
      · exact ⟨(Adv.refl hg).congr rfl rfl rfl rfl rfl rfl rfl rfl rfl rfl, .inr ⟨_, _, rfl⟩⟩
      · split
        · obtain ⟨h1, ⟨t, h2⟩, _⟩ := readRawString_adv hg
          exact ⟨h1, .inl ⟨_, rfl, by rw [h2]; trivial⟩⟩
        · refine ⟨?_, .inr ⟨_, _, rfl⟩⟩
          split
          · exact .refl hg
          · exact (Adv.refl hg).err _ _

theorem checkClose_adv {s : Lexer} (hg : Good hd bd s) (p : Punct) :
    Adv hd bd s (checkClose s p).2 ∧ (checkClose s p).2.view = s.view ∧
      (checkClose s p).1.lit = p.lit := by
  have hcl : p.closed.lit = p.lit := by
    unfold Punct.closed; split
    · rename_i h; rw [h]
    · rfl
  unfold checkClose
  split
  · cases hv : s.view with
    | nil =>
      obtain ⟨s', e, hv', hn, hfr, ha, hl⟩ := hg.eof_adv hv
      rw [e]
      simp only
      rw [ha.good.putBack_none hn]
      exact ⟨ha, hv', by split <;> simp [hcl]⟩
    | cons c r =>
      obtain ⟨s', e, hv', hfresh, hfr, ha⟩ := hg.read_adv hv
      rw [e]
      obtain ⟨h1, h2⟩ := hfresh.putBack_adv hfr hv hv'
      exact ⟨h1, h2.trans hv, by simp only; split <;> simp [hcl]⟩
  · exact ⟨.refl hg, rfl, rfl⟩

/-- one pass of the main loop after a character was read -/
theorem onFirst_emits (fo : FloatOps) {s : Lexer} {c : Char} (hf : Fresh hd bd s c) (fi : Bool) :
    Emits hd bd s s.loc (c :: s.view) (onFirst fo s c fi) := by
  have hg := hf.good
  unfold onFirst
  simp only
  split
  · -- the message of a `#warn` or `#error`
    have hf2 : Fresh hd bd { s with directive := .none } c :=
      ⟨hg.congr rfl rfl rfl rfl rfl rfl rfl rfl, hf.nxt, hf.last⟩
    obtain ⟨hg3, hv3⟩ := hf2.putBack
    obtain ⟨h1, h2, h3, _, _⟩ := readString_eq hg3 (stop := ['\n']) (.inr (.inr rfl)) false
    refine ⟨⟨h3.good, ?_, h3.fin, h3.errs⟩, .inl ⟨_, rfl, by rw [h1]; exact strTok_at _ _ _ _⟩⟩
    rw [h2, hv3]
    exact strScan_suffix _ _ _ _ _ _
  · rcases readPunct_spec hg c with ⟨h1, h2, _⟩ | ⟨p, h1, h2, h3, h4, h5, h6⟩
    · rw [h1, h2]
      exact onOther_emits fo hf _ fi
    · rw [h1]
      simp only
      have ha1 : Adv hd bd s (readPunct s c).2 := by
        refine h6.adv h5 ?_
        cases p with
        | nil => exact absurd rfl h4
        | cons x p =>
          simp only [List.cons_append, List.cons.injEq] at h3
          rw [h3.2]; exact List.suffix_append _ _
      obtain ⟨hc1, hc2, hc3⟩ := checkClose_adv h5 { lit := p }
      split
      · have := onPunct_emits hc1.good s.loc (p := (checkClose (readPunct s c).2 { lit := p }).1) fi
          (txt := c :: s.view) (by rw [hc3]; exact h2) (by rw [hc3, hc2]; exact h3)
        exact ⟨(ha1.trans hc1).trans this.adv, this.out⟩
      · have := onPunct_emits h5 s.loc (p := { lit := p }) fi (txt := c :: s.view) h2 h3
        exact ⟨ha1.trans this.adv, this.out⟩

/-- what a call of the iterator can return -/
structure TokenStep (bd : List Char) (s : Lexer) (l : Loc) (t : Tok) (s' : Lexer) : Prop where
  out : (∃ before after, bd = before ++ after ∧ l = lineCol before ∧ TokenAt t after s'.view ∧
      after.length ≤ s.view.length ∧ s'.view.length < after.length ∧
      s'.finalNewline = s.finalNewline) ∨
    (l = lineCol bd ∧ t = .punct { lit := ['\n'] } ∧ s.finalNewline = false ∧
      s'.finalNewline = true ∧ s'.view = [])

theorem step_spec (fo : FloatOps) {s : Lexer} (hg : Good hd bd s) (sn fi : Bool) :
    Good hd bd (step fo s sn fi).2 ∧ s.errs <:+ (step fo s sn fi).2.errs ∧
    ((∃ l t, (step fo s sn fi).1 = .emit l t ∧ TokenStep bd s l t (step fo s sn fi).2) ∨
     ((step fo s sn fi).1 = .done ∧ s.finalNewline = true) ∨
     (∃ sn' fi', (step fo s sn fi).1 = .cont sn' fi' ∧
        (step fo s sn fi).2.view.length < s.view.length ∧
        (step fo s sn fi).2.finalNewline = s.finalNewline)) := by
  unfold step
  obtain ⟨o, s1, e, ha, hi, he, hor⟩ := wsLoop_adv (hd := hd) (bd := bd) (s.size + 1) s
    (if sn then 2 else 0) hg (by rw [size_eq_view]; omega)
  have e' : skipWs s sn = (o, s1) := e
  rw [e']
  rcases hor with ⟨rfl, hv, hn, hl⟩ | ⟨c, rfl, hfresh, hsuf, _, _⟩
  · simp only
    unfold onEof
    split
    · rename_i hfin
      exact ⟨ha.good, ha.errs, .inr (.inl ⟨rfl, by rw [← ha.fin]; exact hfin⟩)⟩
    · rename_i hfin
      have hcol := (ha.good.fits bd [] (by simp)).2
      have hpos := lineCol_pos bd
      have hl2 : s1.col = (lineCol bd).col - 1 := congrArg Loc.col hl
      have hl1 : s1.line = (lineCol bd).line := congrArg Loc.line hl
      refine ⟨⟨ha.good.fits, ha.good.split, ?_, ha.good.interp⟩, ha.errs, .inl ⟨_, _, rfl, ⟨.inr ⟨?_, rfl, ?_, rfl, hv⟩⟩⟩⟩
      · have : ¬ s1.col ≥ colLimit := by rw [hl2]; simp only [colLimit]; omega
        simp [ha.good.nopanic, this]
      · rw [hl1, hl2]
        have : (lineCol bd).col - 1 + 1 = (lineCol bd).col := by omega
        rw [this]
      · rw [← ha.fin]; simpa using hfin
  · simp only
    have hem := onFirst_emits fo hfresh fi
    obtain ⟨read, hb, hloc⟩ := hfresh.loc
    have hvr : s1.view = s1.rem := by simp [Lexer.view, hfresh.nxt]
    have hlen := hsuf.length_le
    have hlen2 := hem.adv.view.length_le
    refine ⟨hem.adv.good, ha.errs.trans hem.adv.errs, ?_⟩
    rcases hem.out with ⟨t, h1, h2⟩ | ⟨sn', fi', h1⟩
    · refine .inl ⟨_, t, h1, ⟨.inl ⟨read, c :: s1.view, by rw [hvr]; exact hb, hloc, h2, hlen, ?_, ?_⟩⟩⟩
      · simp only [List.length_cons]; omega
      · rw [hem.adv.fin, ha.fin]
    · refine .inr (.inr ⟨sn', fi', h1, ?_, by rw [hem.adv.fin, ha.fin]⟩)
      simp only [List.length_cons] at hlen; omega

theorem tokenLoop_spec (fo : FloatOps) (fuel : Nat) : ∀ {s : Lexer} (sn fi : Bool),
    Good hd bd s → s.view.length < fuel →
    Good hd bd (tokenLoop fo fuel s sn fi).2 ∧ s.errs <:+ (tokenLoop fo fuel s sn fi).2.errs ∧
    ((∃ l t, (tokenLoop fo fuel s sn fi).1 = some (l, t) ∧
        TokenStep bd s l t (tokenLoop fo fuel s sn fi).2) ∨
     ((tokenLoop fo fuel s sn fi).1 = none ∧ s.finalNewline = true)) := by
  induction fuel with
  | zero => intro s _ _ _ h; omega
  | succ fuel ih =>
    intro s sn fi hg hf
    obtain ⟨h1, h2, h3⟩ := step_spec fo hg sn fi
    unfold tokenLoop
    rcases h3 with ⟨l, t, h3, h4⟩ | ⟨h3, h4⟩ | ⟨sn', fi', h3, h4, h5⟩
    · have e : step fo s sn fi = (.emit l t, (step fo s sn fi).2) := by rw [← h3]
      rw [e]
      exact ⟨h1, h2, .inl ⟨l, t, rfl, h4⟩⟩
    · have e : step fo s sn fi = (.done, (step fo s sn fi).2) := by rw [← h3]
      rw [e]
      exact ⟨h1, h2, .inr ⟨rfl, h4⟩⟩
    · have e : step fo s sn fi = (.cont sn' fi', (step fo s sn fi).2) := by rw [← h3]
      rw [e]
      simp only
      obtain ⟨g1, g2, g3⟩ := ih sn' fi' h1 (by omega)
      refine ⟨g1, h2.trans g2, ?_⟩
      rcases g3 with ⟨l, t, g3, ⟨g4⟩⟩ | ⟨g3, g4⟩
      · refine .inl ⟨l, t, g3, ⟨?_⟩⟩
        rcases g4 with ⟨b, a, x1, x2, x3, x4, x5, x6⟩ | ⟨x1, x2, x3, x4, x5⟩
        · exact .inl ⟨b, a, x1, x2, x3, by omega, x5, x6.trans h5⟩
        · exact .inr ⟨x1, x2, by rw [← h5]; exact x3, x4, x5⟩
      · exact .inr ⟨g3, by rw [← h5]; exact g4⟩

/-- source order of locations -/
def Loc.lt (a b : Loc) : Prop := a.line < b.line ∨ (a.line = b.line ∧ a.col < b.col)

theorem Loc.lt_trans {a b c : Loc} (h : a.lt b) (h' : b.lt c) : a.lt c := by
  unfold Loc.lt at *; omega

theorem lineCol_lt_snoc (r : List Char) (c : Char) : (lineCol r).lt (lineCol (r ++ [c])) := by
  unfold Loc.lt
  by_cases h : c = '\n'
  · subst h; rw [lineCol_snoc_nl]; left; simp
  · rw [lineCol_snoc_ne _ _ h]; right; simp

theorem lineCol_lt (m : List Char) : ∀ r : List Char, m ≠ [] → (lineCol r).lt (lineCol (r ++ m)) := by
  induction m with
  | nil => intro r h; exact absurd rfl h
  | cons c m ih =>
    intro r _
    have h1 := lineCol_lt_snoc r c
    cases m with
    | nil => exact h1
    | cons d m =>
      have := ih (r ++ [c]) (by simp)
      simp only [List.append_assoc, List.singleton_append] at this
      exact Loc.lt_trans h1 this

/-- two splits of a text: the one with the shorter rest is later -/
theorem lineCol_lt_of_split {b1 a1 b2 a2 : List Char} (h : b1 ++ a1 = b2 ++ a2)
    (hl : a2.length < a1.length) : (lineCol b1).lt (lineCol b2) := by
  have hlen : b1.length + a1.length = b2.length + a2.length := by
    simpa using congrArg List.length h
  have hp : b1 <+: b2 := by
    have h1 : b1 <+: b1 ++ a1 := List.prefix_append _ _
    have h2 : b2 <+: b1 ++ a1 := by rw [h]; exact List.prefix_append _ _
    exact List.prefix_of_prefix_length_le h1 h2 (by omega)
  obtain ⟨m, rfl⟩ := hp
  refine lineCol_lt m b1 ?_
  rintro rfl
  simp at hlen; omega

/-- The place of a token in the text: what is before it, the text from its start on, and the text
after it. -/
structure Span where
  before : List Char
  after : List Char
  rest : List Char

/-- The span is one of the given text, and the located token stands there. -/
def Span.Holds (bd : List Char) (x : Loc × Tok) (sp : Span) : Prop :=
  bd = sp.before ++ sp.after ∧ x.1 = lineCol sp.before ∧ TokenAt x.2 sp.after sp.rest ∧
    sp.rest.length < sp.after.length

theorem drain_spec (fo : FloatOps) (fuel : Nat) : ∀ {s : Lexer}, Good hd bd s →
    (s.finalNewline = true → s.view = []) →
    s.view.length + (if s.finalNewline then 0 else 1) < fuel →
    (drain fo fuel s).2.panic = false ∧
    (s.finalNewline = true → (drain fo fuel s).1 = []) ∧
    (s.finalNewline = false → ∃ toks spans,
      (drain fo fuel s).1 = toks ++ [(lineCol bd, .punct { lit := ['\n'] })] ∧
      List.Forall₂ (Span.Holds bd) toks spans ∧
      (∀ sp ∈ spans, sp.after.length ≤ s.view.length) ∧
      spans.Pairwise (fun a b => b.after.length ≤ a.rest.length)) := by
  induction fuel with
  | zero => intro s _ _ h; omega
  | succ fuel ih =>
    intro s hg hfv hf
    obtain ⟨h1, h2, h3⟩ := tokenLoop_spec (bd := bd) fo (s.size + 1) false false hg
      (by rw [size_eq_view]; omega)
    change Good hd bd (nextToken fo s).2 at h1
    change (∃ l t, (nextToken fo s).1 = some (l, t) ∧ TokenStep bd s l t (nextToken fo s).2) ∨
      ((nextToken fo s).1 = none ∧ s.finalNewline = true) at h3
    rcases h3 with ⟨l, t, h3, ⟨h4⟩⟩ | ⟨h3, h4⟩
    · have e : nextToken fo s = (some (l, t), (nextToken fo s).2) := by rw [← h3]
      have ed : drain fo (fuel + 1) s =
          ((l, t) :: (drain fo fuel (nextToken fo s).2).1, (drain fo fuel (nextToken fo s).2).2) := by
        rw [drain, e]
      rw [ed]
      generalize (nextToken fo s).2 = s' at *
      rcases h4 with ⟨b, a, x1, x2, x3, x4, x5, x6⟩ | ⟨rfl, rfl, x3, x4, x5⟩
      · obtain ⟨g1, g2, g3⟩ := ih h1 (by
          intro h
          have := hfv (x6 ▸ h)
          rw [this] at x4
          simp at x4; rw [x4] at x5; simp at x5) (by rw [x6]; omega)
        refine ⟨g1, ?_, ?_⟩
        · intro hfin
          -- a finished lexer has nothing left
          have := hfv hfin
          rw [this] at x4
          simp at x4; rw [x4] at x5; simp at x5
        · intro hfin
          obtain ⟨toks, spans, y1, y2, y3, y4⟩ := g3 (x6.trans hfin)
          refine ⟨(l, t) :: toks, ⟨b, a, s'.view⟩ :: spans, by simp [y1], ?_, ?_, ?_⟩
          · exact .cons ⟨x1, x2, x3, x5⟩ y2
          · intro sp hsp
            simp only [List.mem_cons] at hsp
            rcases hsp with rfl | hsp
            · exact x4
            · have := y3 sp hsp
              omega
          · exact List.pairwise_cons.2 ⟨y3, y4⟩
      · rw [x3] at hf
        obtain ⟨g1, g2, g3⟩ := ih h1 (fun _ => x5) (by rw [x4, x5]; simp at hf ⊢; omega)
        refine ⟨g1, by simp [x3], ?_⟩
        intro _
        rw [g2 x4]
        exact ⟨[], [], rfl, .nil, by simp, by simp⟩
    · have e : nextToken fo s = (none, (nextToken fo s).2) := by rw [← h3]
      have ed : drain fo (fuel + 1) s = ([], (nextToken fo s).2) := by rw [drain, e]
      rw [ed]
      exact ⟨h1.nopanic, fun _ => rfl, by simp [h4]⟩

/-- **C16, C17.** For every file within the documented size limits, the lexer runs to the end without
panicking or looping.  Its token stream ends in a newline token located just past the last character.
Every other token has a place in the text: it carries the line and column of that place, the text
there is the token's (punctuation is the longest symbol that fits, identifiers extend as far as
possible, block comments extend to their balanced end, line comments to the end of the line), and the
places of successive tokens do not overlap. -/
theorem lexer_tokens (fo : FloatOps) (text : List Char) (h : Fits text) :
    (lexAll fo text).2.panic = false ∧
    ∃ toks spans,
      (lexAll fo text).1 = toks ++ [(lineCol (body text), .punct { lit := ['\n'] })] ∧
      List.Forall₂ (Span.Holds (body text)) toks spans ∧
      spans.Pairwise (fun a b => b.after.length ≤ a.rest.length) := by
  obtain ⟨hd, hg, hv, hi, hn, hfin⟩ := Good.new h
  have hlen : (body text).length ≤ text.length := by
    unfold body; split <;> simp
  obtain ⟨h1, _, h3⟩ := drain_spec fo (text.length + 2) hg (by simp [hfin])
    (by rw [hv, hfin]; simp; omega)
  obtain ⟨toks, spans, h4, h5, _, h6⟩ := h3 hfin
  exact ⟨h1, toks, spans, h4, h5, h6⟩

/-- Token locations strictly increase. -/
theorem lexer_locations_sorted (fo : FloatOps) (text : List Char) (h : Fits text) :
    (lexAll fo text).1.Pairwise (fun a b => a.1.lt b.1) := by
  obtain ⟨_, toks, spans, h4, h5, h6⟩ := lexer_tokens fo text h
  rw [h4]
  generalize body text = bd at *
  clear h4
  induction h5 with
  | nil => simp
  | @cons x sp toks spans hx hrest ih =>
    rw [List.pairwise_cons] at h6
    rw [List.cons_append, List.pairwise_cons]
    refine ⟨?_, ih h6.2⟩
    intro y hy
    obtain ⟨x1, x2, x3, x4⟩ := hx
    rw [List.mem_append] at hy
    rcases hy with hy | hy
    · have : ∀ {toks : List (Loc × Tok)} {spans : List Span},
          List.Forall₂ (Span.Holds bd) toks spans → y ∈ toks →
          ∃ sp' ∈ spans, Span.Holds bd y sp' := by
        intro toks spans hf
        induction hf with
        | nil => simp
        | @cons a b l1 l2 hab _ ih2 =>
          intro hmem
          simp only [List.mem_cons] at hmem
          rcases hmem with rfl | hmem
          · exact ⟨b, by simp, hab⟩
          · obtain ⟨sp', m1, m2⟩ := ih2 hmem
            exact ⟨sp', by simp [m1], m2⟩
      obtain ⟨sp', m1, z1, z2, z3, z4⟩ := this hrest hy
      have := h6.1 sp' m1
      rw [x2, z2]
      exact lineCol_lt_of_split (x1.symm.trans z1) (by omega)
    · simp only [List.mem_singleton] at hy
      subst hy
      rw [x2]
      exact lineCol_lt_of_split (a1 := sp.after) (a2 := []) (by rw [← x1]; simp)
        (by simp only [List.length_nil]; omega)

theorem count_le_length (l : List Char) : l.count '\n' ≤ l.length := List.count_le_length

/-- every file of fewer than 65535 bytes is within the limits -/
theorem fits_of_short {text : List Char} (h : text.length < 65535) : Fits text := by
  intro before after hb
  have hl : before.length ≤ text.length := by
    have h1 : (body text).length ≤ text.length := by unfold body; split <;> simp
    have h2 := congrArg List.length hb
    simp at h2; omega
  have h1 := count_le_length before
  have h2 : (before.reverse.takeWhile (· ≠ '\n')).length ≤ before.length := by
    have := (List.takeWhile_prefix (p := fun c => decide (c ≠ '\n')) (l := before.reverse)).length_le
    simpa using this
  simp only [lineCol]
  omega

/-- a float implementation for examples -/
def noFloats : FloatOps := ⟨fun _ => none, fun _ => []⟩

/-- The hypotheses are met by real programs, and the conclusion is not vacuous. -/
example : Fits "a /* x /* y */ z */ <<= 1\n\tb".toList := fits_of_short (by decide)

example : (lexAll noFloats "a /* x /* y */ z */ <<= 1\n\tb".toList).1 =
    [(⟨1, 1⟩, .ident ['a'] true), (⟨1, 21⟩, .punct ⟨"<<=".toList, false⟩), (⟨1, 25⟩, .int 1),
     (⟨1, 26⟩, .punct ⟨['\n'], false⟩), (⟨2, 1⟩, .punct ⟨['\t'], false⟩),
     (⟨2, 2⟩, .ident ['b'] false), (⟨2, 3⟩, .punct ⟨['\n'], false⟩)] := by decide +kernel

end Verif.Lexer
