import Verif.Preproc.MacroSpec

namespace Verif.Preproc

open Verif.Context (Location)
open Verif.Lexer (Tok Punct DocTarget CommentKind)

/-! ## Reading tokens off the stack -/

/-- reading the tokens `ts` turns the stack into another -/
inductive Reads : List Include → List Tok → List Include → Prop
  | nil {st : List Include} : Reads st [] st
  | cons {st st1 st2 : List Include} {l : Location} {t : Tok} {ts : List Tok} :
      stackNext st = some (⟨l, t⟩, st1) → Reads st1 ts st2 → Reads st (t :: ts) st2

theorem Reads.append {st st' : List Include} {a b : List Tok} (h : Reads st (a ++ b) st') :
    ∃ st1, Reads st a st1 ∧ Reads st1 b st' := by
  induction a generalizing st with
  | nil => exact ⟨st, .nil, h⟩
  | cons t ts ih =>
    cases h with
    | cons h1 h2 =>
      obtain ⟨st1, h3, h4⟩ := ih h2
      exact ⟨st1, .cons h1 h3, h4⟩

/-- the number of tokens on a stack -/
def ssize (st : List Include) : Nat := (st.map Include.size).sum

theorem stackNext_size {st st' : List Include} {t : LTok} (h : stackNext st = some (t, st')) :
    ssize st = ssize st' + 1 := by
  induction st with
  | nil => simp [stackNext] at h
  | cons i st ih =>
    cases i with
    | file p ts =>
      cases ts with
      | nil =>
        rw [stackNext] at h
        have := ih h
        simpa [ssize, Include.size] using this
      | cons x xs =>
        simp only [stackNext, Option.some.injEq, Prod.mk.injEq] at h
        obtain ⟨-, rfl⟩ := h
        simp [ssize, Include.size]; omega
    | expansion p ts =>
      cases ts with
      | nil =>
        rw [stackNext] at h
        have := ih h
        simpa [ssize, Include.size] using this
      | cons x xs =>
        simp only [stackNext, Option.some.injEq, Prod.mk.injEq] at h
        obtain ⟨-, rfl⟩ := h
        simp [ssize, Include.size]; omega

theorem Reads.size {st st' : List Include} {ts : List Tok} (h : Reads st ts st') :
    ssize st = ssize st' + ts.length := by
  induction h with
  | nil => rfl
  | cons h1 _ ih =>
    rw [stackNext_size h1, ih, List.length_cons]; omega

namespace PP

theorem withNext_eq {s : PP} {l : Location} {t : Tok} {st' : List Include}
    (h : stackNext s.stack = some (⟨l, t⟩, st')) (k : Location → Tok → PP → Res) :
    s.withNext k = k l t { s with stack := st' } := by
  simp [withNext, innerNext, h]

/-! ## Arguments -/

theorem readArgs_inner {a : List Tok} (ha : Inner a) :
    ∀ (m p : Nat) (s : PP) (st' : List Include) (args : List (List Tok)) (arg : List Tok)
      (k : List (List Tok) → PP → Res), Reads s.stack a st' →
      readArgs (a.length + m) s (p + 1) args arg k =
        readArgs m { s with stack := st' } (p + 1) args (arg ++ a) k := by
  induction ha with
  | nil =>
    intro m p s st' args arg k h
    cases h
    simp
  | @tok t ts h1 h2 _ ih =>
    intro m p s st' args arg k h
    cases h with
    | cons h3 h4 =>
      rw [List.length_cons, show ts.length + 1 + m = (ts.length + m) + 1 by omega, readArgs,
        withNext_eq h3]
      rw [if_neg h1, if_neg h2, if_neg (by simp), ih m p _ st' args _ k h4]
      simp
  | @group a ts _ _ ih1 ih2 =>
    intro m p s st' args arg k h
    rw [List.cons_append] at h
    cases h with
    | cons h3 h4 =>
      obtain ⟨st1, h5, h6⟩ := h4.append
      cases h6 with
      | cons h7 h8 =>
        have hl : (lparen :: a ++ rparen :: ts).length + m = (a.length + ((ts.length + m) + 1)) + 1 := by
          simp; omega
        rw [hl, readArgs, withNext_eq h3]
        rw [if_pos rfl, ih1 _ (p + 1) _ _ args _ k h5, readArgs, withNext_eq h7]
        rw [if_neg (by decide), if_pos rfl, if_neg (by simp), Nat.add_sub_cancel,
          ih2 m p _ st' args _ k h8]
        simp

theorem readArgs_arg {a : List Tok} (ha : Arg a) :
    ∀ (m : Nat) (s : PP) (st' : List Include) (args : List (List Tok)) (arg : List Tok)
      (k : List (List Tok) → PP → Res), Reads s.stack a st' →
      readArgs (a.length + m) s 0 args arg k =
        readArgs m { s with stack := st' } 0 args (arg ++ a) k := by
  induction ha with
  | nil =>
    intro m s st' args arg k h
    cases h
    simp
  | @tok t ts h1 h2 h2' _ ih =>
    intro m s st' args arg k h
    cases h with
    | cons h3 h4 =>
      rw [List.length_cons, show ts.length + 1 + m = (ts.length + m) + 1 by omega, readArgs,
        withNext_eq h3]
      rw [if_neg h1, if_neg h2, if_neg (by simp [h2']), ih m _ st' args _ k h4]
      simp
  | @group a ts hin _ ih2 =>
    intro m s st' args arg k h
    rw [List.cons_append] at h
    cases h with
    | cons h3 h4 =>
      obtain ⟨st1, h5, h6⟩ := h4.append
      cases h6 with
      | cons h7 h8 =>
        have hl : (lparen :: a ++ rparen :: ts).length + m = (a.length + ((ts.length + m) + 1)) + 1 := by
          simp; omega
        rw [hl, readArgs, withNext_eq h3]
        rw [if_pos rfl, readArgs_inner hin _ 0 _ _ args _ k h5, readArgs, withNext_eq h7]
        rw [if_neg (by decide), if_pos rfl, if_neg (by simp), Nat.add_sub_cancel,
          ih2 m _ st' args _ k h8]
        simp

/-- all arguments of a call -/
theorem readArgs_args (l : List (List Tok)) (hl : l ≠ []) (ha : ∀ a ∈ l, Arg a) :
    ∀ (m : Nat) (s : PP) (st' : List Include) (args : List (List Tok))
      (k : List (List Tok) → PP → Res), Reads s.stack (List.intercalate [comma] l ++ [rparen]) st' →
      readArgs ((List.intercalate [comma] l).length + 1 + m) s 0 args [] k =
        k (args ++ l) { s with stack := st' } := by
  induction l with
  | nil => exact absurd rfl hl
  | cons a l ih =>
    intro m s st' args k h
    cases l with
    | nil =>
      have hi : List.intercalate [comma] [a] = a := by simp [List.intercalate]
      rw [hi] at h ⊢
      obtain ⟨st1, h1, h2⟩ := h.append
      cases h2 with
      | cons h3 h4 =>
        cases h4
        rw [show a.length + 1 + m = a.length + (m + 1) by omega,
          readArgs_arg (ha a (by simp)) _ _ _ _ _ _ h1, readArgs, withNext_eq h3]
        rw [if_neg (by decide), if_pos rfl, if_pos rfl]
        simp
    | cons b l =>
      have hi : List.intercalate [comma] (a :: b :: l) =
          a ++ comma :: List.intercalate [comma] (b :: l) := by
        simp [List.intercalate]
      rw [hi, List.append_assoc] at h
      obtain ⟨st1, h1, h2⟩ := h.append
      cases h2 with
      | cons h3 h4 =>
        rw [hi]
        rw [show (a ++ comma :: List.intercalate [comma] (b :: l)).length + 1 + m =
            a.length + (((List.intercalate [comma] (b :: l)).length + 1 + m) + 1) by simp; omega,
          readArgs_arg (ha a (by simp)) _ _ _ _ _ _ h1, readArgs, withNext_eq h3]
        rw [if_neg (by decide), if_neg (by decide), if_pos (by simp),
          ih (by simp) (fun x hx => ha x (List.mem_cons_of_mem _ hx)) m _ st' _ k h4]
        simp

theorem fixVariadic_of_bind {ps : List Name} {v : Bool} {args bnd : List (List Tok)}
    (h : Bind ps v args bnd) : fixVariadic ps v args = bnd ∧ bnd.length = ps.length := by
  cases h with
  | fixed h => exact ⟨by simp [fixVariadic], h⟩
  | @rest ps p args more h hm =>
    have hm1 : 0 < more.length := List.length_pos_iff.2 hm
    refine ⟨?_, by simp [h]⟩
    unfold fixVariadic
    rw [if_pos rfl]
    split
    · rename_i hlt
      simp only [List.length_append, List.length_singleton, Nat.add_sub_cancel]
      rw [← h, List.take_left', List.drop_left'] <;> rfl
    · rename_i hlt
      simp only [List.length_append, List.length_singleton] at hlt
      have h1 : more.length = 1 := by omega
      obtain ⟨x, rfl⟩ := List.length_eq_one_iff.1 h1
      rw [if_neg (by simp [h])]
      simp [List.intercalate]
  | missing h =>
    refine ⟨?_, by simp [h]⟩
    unfold fixVariadic
    rw [if_pos rfl, if_neg (by simp [h]), if_pos (by simp [h])]

theorem argOf_eq {ps : List Name} {args : List (List Tok)} (h : args.length = ps.length) (n : Name) :
    argOf ps args n = bound ps args n := by
  induction ps generalizing args with
  | nil => simp [argOf, bound, List.idxOf?]
  | cons p ps ih =>
    cases args with
    | nil => simp at h
    | cons a args =>
      have h' : args.length = ps.length := by simpa using h
      have := ih h'
      unfold argOf bound at this ⊢
      rw [List.zip_cons_cons, List.lookup_cons, List.idxOf?_cons]
      by_cases hpn : p = n
      · subst hpn; simp
      · have h1 : (p == n) = false := by simp [hpn]
        have h2 : (n == p) = false := by simp [Ne.symm hpn]
        rw [h1, h2]
        simp only [Bool.false_eq_true, if_false]
        rw [← this]
        cases ps.idxOf? n <;> simp

/-! ## Bodies -/

variable {env : Env} {ps : List Name} {args : List (List Tok)}

theorem paste_tok (h : args.length = ps.length) {t : Tok} (h1 : t ≠ hash) (h2 : t ≠ tokenPaste)
    (rest out : List Tok) :
    paste env ps args (t :: rest) out = paste env ps args rest (out ++ rep (bound ps args) t) := by
  cases rest with
  | nil =>
    cases t with
    | ident n ws =>
      simp only [paste, argOf_eq h, rep]
      cases bound ps args n <;> rfl
    | _ => simp [h1, h2, rep, paste]
  | cons u rest =>
    cases t with
    | ident n ws =>
      simp only [paste, argOf_eq h, rep]
      cases bound ps args n <;> rfl
    | _ => simp [h1, h2, rep, paste]

theorem pasteStep_glue (h : args.length = ps.length) {l l' : List Tok} {t : Tok} (hl : l ≠ [])
    (hg : Glue (bound ps args) l t l') (out : List Tok) :
    pasteStep ps args (out ++ l) (some t) = out ++ l' := by
  have hlast : (out ++ l).getLast? = l.getLast? := by
    rw [List.getLast?_append]
    cases hx : l.getLast? with
    | none => simp at hx; exact absurd hx hl
    | some x => simp
  unfold pasteStep
  rw [hlast]
  cases hg with
  | name hb =>
    simp only [List.getLast?_append, List.getLast?_singleton, Option.some_or, argOf_eq h, hb]
    rw [← List.append_assoc, List.dropLast_concat]
    simp
  | nameArg hb =>
    simp only [List.getLast?_append, List.getLast?_singleton, Option.some_or, argOf_eq h, hb]
    rw [← List.append_assoc, List.dropLast_concat]
    simp
  | intArg hb =>
    simp only [List.getLast?_append, List.getLast?_singleton, Option.some_or, argOf_eq h, hb]
    rw [← List.append_assoc, List.dropLast_concat]
    simp
  | afterOther hn =>
    cases hx : l.getLast? with
    | none => simp at hx; exact absurd hx hl
    | some x =>
      have hni : ∀ n w, x ≠ .ident n w := by
        rintro n w rfl
        obtain ⟨l0, rfl⟩ := List.getLast?_eq_some_iff.1 hx
        exact hn _ _ _ rfl
      have h3 : (∀ (first : Name) (ws1 : Bool), some x = some (.ident first ws1) → False) := by
        intro n w hxe
        exact hni n w (Option.some.inj hxe)
      cases t with
      | ident n ws =>
        simp only [argOf_eq h, rep]
        cases x with
        | ident a b => exact absurd rfl (hni a b)
        | _ => cases bound ps args n <;> simp
      | _ => cases x with
        | ident a b => exact absurd rfl (hni a b)
        | _ => simp [rep]
  | beforeOther hn =>
    cases t with
    | ident n ws => exact absurd rfl (hn n ws)
    | _ => simp [rep]
  | @beforeArg _ a p wp hb hn1 hn2 =>
    cases hx : l.getLast? with
    | none => simp at hx; exact absurd hx hl
    | some x =>
      cases x with
      | ident x wx =>
        obtain ⟨l0, rfl⟩ := List.getLast?_eq_some_iff.1 hx
        simp only [argOf_eq h, hb]
        rw [← List.append_assoc, List.dropLast_concat]
        cases a with
        | nil => simp
        | cons y r =>
          cases y with
          | ident y wy => exact absurd rfl (hn1 y wy r)
          | int v => exact absurd rfl (hn2 v r)
          | _ => simp
      | _ => simp [argOf_eq h, hb]

theorem paste_paste (t : Tok) (rest out : List Tok) : paste env ps args (tokenPaste :: t :: rest) out =
    paste env ps args rest (pasteStep ps args out (some t)) := by
  cases t <;> simp [paste, tokenPaste]

theorem paste_word (h : args.length = ps.length) {w l : List Tok} (hw : Word (bound ps args) w l) :
    ∀ (rest out : List Tok), paste env ps args (w ++ rest) out = paste env ps args rest (out ++ l) := by
  induction hw with
  | one h1 h2 => intro rest out; exact paste_tok h h1 h2 rest out
  | @glue ts l l' t _ hl h1 h2 hg ih =>
    intro rest out
    rw [List.append_assoc, ih, List.cons_append, List.cons_append, List.nil_append, paste_paste,
      pasteStep_glue h hl hg]

theorem stringify_eq {display : Tok → List Char} {env : Env} (he : env.display = display) {a : List Tok}
    (hd : ∀ t ∈ a, display t ≠ []) : stringify env a = List.intercalate [' '] (a.map display) := by
  subst he
  unfold stringify
  have key : ∀ (l : List Tok) (str : List Char), (∀ t ∈ l, env.display t ≠ []) → str ≠ [] →
      l.foldl (fun str t => (if str.isEmpty then str else str ++ [' ']) ++ env.display t) str =
        List.intercalate [' '] (str :: l.map env.display) := by
    intro l
    induction l with
    | nil => intro str _ _; simp [List.intercalate]
    | cons t l ih =>
      intro str hl hs
      rw [List.foldl_cons]
      have h1 : str.isEmpty = false := by
        cases str with
        | nil => exact absurd rfl hs
        | cons => rfl
      rw [h1]
      simp only [Bool.false_eq_true, if_false]
      rw [ih _ (fun x hx => hl x (List.mem_cons_of_mem _ hx)) (by simp)]
      cases l with
      | nil => simp [List.intercalate]
      | cons u l => simp [List.intercalate]
  cases a with
  | nil => simp [List.intercalate]
  | cons t a =>
    rw [List.foldl_cons]
    simp only [List.isEmpty_nil, if_true, List.nil_append]
    rw [key a _ (fun x hx => hd x (List.mem_cons_of_mem _ hx)) (hd t (by simp)), List.map_cons]

theorem paste_body (h : args.length = ps.length) {su body : List Tok}
    (hb : Body env.display (bound ps args) su body) :
    ∀ (out : List Tok), paste env ps args su out = some (out ++ body) := by
  induction hb with
  | nil => intro out; simp [paste]
  | word hw _ ih =>
    intro out
    rw [paste_word h hw, ih, List.append_assoc]
  | @text p ws a ts o ha hd _ ih =>
    intro out
    rw [paste]
    · rw [if_neg (by decide), if_pos rfl]
      simp only [argOf_eq h, ha]
      rw [ih, stringify_eq rfl hd]
      simp
    all_goals simp [hash]

/-! ## Steps -/

/-- the whole call -/
theorem callMacro_eq {s : PP} {n : Name} {su body : List Tok} {v : Bool} {as bnd : List (List Tok)}
    {st' : List Include} (hne : as ≠ []) (has : ∀ a ∈ as, Arg a) (hb : Bind ps v as bnd)
    (hbody : Body env.display (bound ps bnd) su body)
    (hr : Reads s.stack (lparen :: (List.intercalate [comma] as ++ [rparen])) st') :
    s.callMacro env n ps su v = .ok ({ s with stack := st' }.expand body) := by
  cases hr with
  | @cons _ st1 _ l t ts h1 h2 =>
    unfold callMacro
    rw [withNext_eq h1]
    simp only
    rw [if_pos trivial]
    have hsz := h2.size
    obtain ⟨m, hm⟩ : ∃ m, ({ s with stack := st1 } : PP).size + 1 =
        (List.intercalate [comma] as).length + 1 + m := by
      refine ⟨ssize st' + 1, ?_⟩
      change ssize st1 + 1 = _
      rw [hsz, List.length_append, List.length_singleton]; omega
    rw [hm, readArgs_args as hne has m _ st' [] _ h2]
    obtain ⟨h3, h4⟩ := fixVariadic_of_bind hb
    simp only [List.nil_append, h3]
    rw [if_neg (by simp [h4]), paste_body h4 hbody]
    simp

/-- the use of a macro -/
def onUse (env : Env) (s : PP) (n : Name) : Define → Res
  | .constant su => .ok (s.expand su)
  | .function ps su v => s.callMacro env n ps su v

/-- the step of a macro name outside conditions -/
theorem realNext_name {s : PP} {n : Name} {ws : Bool} {ld : Location} {d : Define}
    (h1 : n ≠ "__FILE__".toList) (h2 : n ≠ "__LINE__".toList) (hd : s.isDisabled = false)
    (hdoc : s.docsIn = []) (hout : s.output = []) (hg : s.defines.get n = some (ld, d))
    (hl : s.stack.length ≤ 32) (m : Nat) :
    s.realNext env m (.ident n ws) false = onUse env s n d := by
  have hfl : s.flushDocs = s := by
    unfold flushDocs
    rw [hdoc, List.append_nil, ← hdoc]
  unfold realNext realNextWith
  have hh : (Tok.ident n ws) ≠ hash := by simp [hash]
  simp only [hd, if_neg hh, Bool.and_false, Bool.false_eq_true, if_false, onIdent, if_neg h1, if_neg h2, hfl]
  have had : s.afterDefined = false := by rw [afterDefined_eq, hout]; rfl
  rw [had, hg]
  simp only [Bool.false_eq_true, if_false]
  rw [if_neg (by simp only [MAX_RECURSION_DEPTH]; omega)]
  cases d <;> rfl

/-- reading from one include -/
inductive Feed : Include → List LTok → Include → Prop
  | file {p : Path} {ts rest : List LTok} : Feed (.file p (ts ++ rest)) ts (.file p rest)
  | exp {l : Location} {us rest : List Tok} :
      Feed (.expansion l (us ++ rest)) (us.map (LTok.mk l)) (.expansion l rest)

theorem Feed.nil {i j : Include} (h : Feed i [] j) : i = j := by
  generalize hz : ([] : List LTok) = z at h
  cases h with
  | file => subst hz; rfl
  | @exp l us rest =>
    have : us = [] := by simpa using hz.symm
    subst this; rfl

theorem Feed.cons {i j : Include} {t : LTok} {ts : List LTok} (h : Feed i (t :: ts) j)
    (st : List Include) :
    ∃ i', stackNext (i :: st) = some (t, i' :: st) ∧ Feed i' ts j ∧
      topFile (i' :: st) = topFile (i :: st) := by
  generalize hz : t :: ts = z at h
  cases h with
  | @file p _ rest =>
    subst hz
    exact ⟨.file p (ts ++ rest), rfl, .file, rfl⟩
  | @exp l us rest =>
    cases us with
    | nil => simp at hz
    | cons u us =>
      simp only [List.map_cons, List.cons.injEq] at hz
      obtain ⟨rfl, rfl⟩ := hz
      exact ⟨.expansion l (us ++ rest), rfl, .exp, rfl⟩

theorem Feed.split {i j : Include} {a b : List LTok} (h : Feed i (a ++ b) j) (st : List Include) :
    ∃ i', Reads (i :: st) (a.map LTok.tok) (i' :: st) ∧ Feed i' b j ∧
      topFile (i' :: st) = topFile (i :: st) := by
  induction a generalizing i with
  | nil => exact ⟨i, .nil, h, rfl⟩
  | cons t a ih =>
    obtain ⟨i1, h1, h2, h3⟩ := Feed.cons h st
    obtain ⟨i2, h4, h5, h6⟩ := ih h2
    exact ⟨i2, .cons h1 h4, h5, h6.trans h3⟩

/-- a step of a macro name that pushes an expansion -/
theorem push_step {s : PP} {l : Location} {n : Name} {ws : Bool} {ld : Location} {d : Define}
    {st' : List Include} {out : List LTok} {st2 : List Include}
    (h1 : n ≠ "__FILE__".toList) (h2 : n ≠ "__LINE__".toList) (hd : s.isDisabled = false)
    (hdoc : s.docsIn = []) (hs : stackNext s.stack = some (⟨l, .ident n ws⟩, st'))
    (hg : s.defines.get n = some (ld, d)) (hl : st'.length ≤ 32)
    (hres : onUse env ({ s with stack := st', lastLoc := l, output := [] } : PP) n d =
      (.ok { s with stack := st2, lastLoc := l, output := out } : Res)) :
    ∃ s', Micro env false s s' ∧ s'.lastLoc = l ∧ s'.stack = st2 ∧ Moved s st2 ⟨s.output ++ out, []⟩ s' := by
  have hin : s.innerNext = some (l, .ident n ws, { s with stack := st' }) := by
    simp [innerNext, hs]
  have hr := realNext_name (env := env) (ws := ws) (m := 0) (d := d) (ld := ld)
    (s := { s with stack := st', lastLoc := l, output := [] }) h1 h2 hd hdoc rfl hg hl
  rw [hres] at hr
  refine ⟨_, ⟨l, .ident n ws, _, 0, _, hin, by simp, hr, rfl⟩, rfl, rfl, rfl, s.errs, ?_⟩
  simp [hdoc]

theorem macroOf_none {defs : DefineMap} {n : Name} {ws c : Bool} {out : List LTok}
    (h : defs.get n = none) : macroOf defs c out (.ident n ws) = none := by
  unfold macroOf
  simp only [h]
  split_ifs <;> rfl

/-- expansion of a text, as steps -/
theorem expands_steps {defs : DefineMap} {file : List Char} {d : Nat} {ts out : List LTok}
    (h : Expands env defs file d ts out) :
    ∀ (s : PP) (i j : Include) (st : List Include), Feed i ts j → d = 32 - st.length →
      s.defines = defs → s.isDisabled = false → s.docsIn = [] →
      (topFile (i :: st)).elim [] env.pathText = file →
      stackNext s.stack = stackNext (i :: st) →
      ∃ s', Micros env false s s' ∧ Moved s (j :: st) ⟨s.output ++ out, []⟩ s' := by
  induction h with
  | nil =>
    intro s i j st hf _ _ _ hdoc _ hs
    have := hf.nil
    subst this
    exact ⟨s, .refl s, hs, s.errs, by rw [List.append_nil, ← hdoc]⟩
  | @plain d t ts out hp _ ih =>
    intro s i j st hf hd hdf hdis hdoc hfile hs
    obtain ⟨i', h1, h2, h3⟩ := hf.cons st
    have hG : Ordinary s.defines (· = t.tok) :=
      { hash := fun h => hp.hash h.symm
        doc := fun k g x h => hp.doc k g x h.symm
        ibegin := fun x h => hp.ibegin x h.symm
        iend := fun x h => hp.iend x h.symm
        fn := fun n ws h l ps su v hg => by
          rw [hdf, hp.name n ws h.symm] at hg; cases hg
        sub := fun n ws h l su hg => by
          rw [hdf, hp.name n ws h.symm] at hg; cases hg }
    have hm : macroOf s.defines false (s.output ++ s.docsIn) t.tok = none := by
      cases ht : t.tok with
      | ident n ws =>
        exact macroOf_none (by rw [hdf]; exact hp.name n ws ht)
      | _ => rfl
    obtain ⟨s0, hstep, hl0, hst0, hmv⟩ := leaf_step (env := env) (st := i :: st) (l := t.loc) hG
      (by simp) rfl (.inr hdis) (fun _ => hdoc) (hs.trans h1) h3 (.inl hm)
    rw [hfile, hdoc] at hmv
    have hput : Emit.put ⟨s.output, []⟩ (leaf file ⟨t.loc, t.tok⟩) = ⟨s.output ++ [leaf file t], []⟩ := by
      unfold Emit.put; split <;> simp
    rw [hput] at hmv
    obtain ⟨s', h4, h5⟩ := ih s0 i' j st h2 hd (hmv.defines.trans hdf) (hmv.isDisabled.trans hdis)
      hmv.docsIn (h3 ▸ hfile) hmv.stack
    rw [hmv.output] at h5
    refine ⟨s', .cons hstep h4, ?_⟩
    have := hmv.trans h5
    simpa using this
  | @object d l ld n ws su ts o out hn1 hn2 hg _ _ ih1 ih2 =>
    intro s i j st hf hd hdf hdis hdoc hfile hs
    obtain ⟨i', h1, h2, h3⟩ := hf.cons st
    obtain ⟨s0, hstep, hl0, hst0, hmv⟩ := push_step (env := env) (s := s) (ld := ld)
      (d := .constant su) (out := []) (st2 := .expansion l su :: i' :: st) hn1 hn2 hdis hdoc (hs.trans h1)
      (by rw [hdf]; exact hg) (by simp; omega) rfl
    obtain ⟨s1, h4, h5⟩ := ih1 s0 (.expansion l su) (.expansion l []) (i' :: st)
      (by have := Feed.exp (l := l) (us := su) (rest := []); rwa [List.append_nil] at this)
      (by simp; omega) (hmv.defines.trans hdf) (hmv.isDisabled.trans hdis) hmv.docsIn
      (by change (topFile (i' :: st)).elim _ _ = _; rw [h3]; exact hfile) hmv.stack
    have hmv1 := hmv.trans h5
    rw [hmv.output] at hmv1
    obtain ⟨s', h6, h7⟩ := ih2 s1 i' j st h2 hd (hmv1.defines.trans hdf) (hmv1.isDisabled.trans hdis)
      hmv1.docsIn (h3 ▸ hfile) (by rw [hmv1.stack]; rfl)
    refine ⟨s', .cons hstep (h4.trans h6), ?_⟩
    have := hmv1.trans h7
    rw [hmv1.output] at this
    simpa using this
  | @call d l ld lp lr n ws v ps su body as args bnd ts o out hn1 hn2 hg hne hargs has hbind hbody _ _ ih1 ih2 =>
    intro s i j st hf hd hdf hdis hdoc hfile hs
    obtain ⟨i', h1, h2, h3⟩ := hf.cons st
    rw [show (⟨lp, lparen⟩ :: (as ++ ⟨lr, rparen⟩ :: ts) : List LTok) =
      (⟨lp, lparen⟩ :: (as ++ [⟨lr, rparen⟩])) ++ ts by simp] at h2
    obtain ⟨i2, hr, hf2, h3'⟩ := Feed.split h2 st
    have hr' : Reads (i' :: st) (lparen :: (List.intercalate [comma] args ++ [rparen])) (i2 :: st) := by
      rw [← has]; simpa using hr
    have hcall := callMacro_eq (env := env) (n := n)
      (s := { s with stack := i' :: st, lastLoc := l, output := [] }) hne hargs hbind hbody hr'
    obtain ⟨s0, hstep, hl0, hst0, hmv⟩ := push_step (env := env) (s := s) (ld := ld)
      (d := .function ps su v) (out := []) (st2 := .expansion l body :: i2 :: st) hn1 hn2 hdis hdoc
      (hs.trans h1) (by rw [hdf]; exact hg) (by simp; omega) hcall
    have htop : topFile (i2 :: st) = topFile (i :: st) := h3'.trans h3
    obtain ⟨s1, h4, h5⟩ := ih1 s0 (.expansion l body) (.expansion l []) (i2 :: st)
      (by have := Feed.exp (l := l) (us := body) (rest := []); rwa [List.append_nil] at this)
      (by simp; omega) (hmv.defines.trans hdf) (hmv.isDisabled.trans hdis) hmv.docsIn
      (by change (topFile (i2 :: st)).elim _ _ = _; rw [htop]; exact hfile) hmv.stack
    have hmv1 := hmv.trans h5
    rw [hmv.output] at hmv1
    obtain ⟨s', h6, h7⟩ := ih2 s1 i2 j st hf2 hd (hmv1.defines.trans hdf) (hmv1.isDisabled.trans hdis)
      hmv1.docsIn (htop ▸ hfile) (by rw [hmv1.stack]; rfl)
    refine ⟨s', .cons hstep (h4.trans h6), ?_⟩
    have := hmv1.trans h7
    rw [hmv1.output] at this
    simpa using this
  | @bare d l ld lu n ws v ps su u ts out hn1 hn2 hg hu hub hue _ ih =>
    intro s i j st hf hd hdf hdis hdoc hfile hs
    obtain ⟨i', h1, h2, h3⟩ := hf.cons st
    obtain ⟨i2, h4, h5, h6⟩ := h2.cons st
    have hcall : ({ s with stack := i' :: st, lastLoc := l, output := [] } : PP).callMacro env n ps su v =
        .ok { s with stack := i2 :: st, lastLoc := l,
                     output := [⟨l, .ident n false⟩, ⟨l, u⟩] } := by
      unfold callMacro
      rw [withNext_eq h4]
      simp only
      rw [if_neg hu]
      cases u with
      | interpBegin x => exact absurd rfl (hub x)
      | interpEnd x => exact absurd rfl (hue x)
      | _ => rfl
    obtain ⟨s0, hstep, hl0, hst0, hmv⟩ := push_step (env := env) (s := s) (ld := ld)
      (d := .function ps su v) hn1 hn2 hdis hdoc (hs.trans h1) (by rw [hdf]; exact hg) (by simp; omega) hcall
    have htop : topFile (i2 :: st) = topFile (i :: st) := h6.trans h3
    obtain ⟨s', h7, h8⟩ := ih s0 i2 j st h5 hd (hmv.defines.trans hdf) (hmv.isDisabled.trans hdis)
      hmv.docsIn (htop ▸ hfile) hmv.stack
    refine ⟨s', .cons hstep h7, ?_⟩
    have := hmv.trans h8
    rw [hmv.output] at this
    simpa using this

end PP

end Verif.Preproc
