import Verif.Preproc.Model

/-!
# Invariants of the preprocessor

`Closed env I` lists the primitive changes the preprocessor makes to its state; an invariant closed
under them holds throughout (`run_closed`).
-/

namespace Verif.Preproc

open Verif.Context (Location)
open Verif.Lexer (Tok Punct DocTarget CommentKind)

namespace PP

/-- the property holds in the resulting state, also if the fuel ran out -/
def Post (I : PP → Prop) : Res → Prop
  | .ok s => I s
  | .error s => I s

/-- the same for `evaluate` -/
def PostB (I : PP → Prop) : Except PP (Bool × PP) → Prop
  | .ok (_, s) => I s
  | .error s => I s

/-- the part of the state that invariants are about -/
def core (s : PP) := (s.stack, s.incLocs, s.multi, s.ifdefs, s.defines)

/-- closure under the primitive changes -/
structure Closed (env : Env) (I : PP → Prop) : Prop where
  frame : ∀ {s s'}, I s → s'.core = s.core → I s'
  next : ∀ {s l t s'}, I s → s.innerNext = some (l, t, s') → I s'
  drained : ∀ {s}, I s → s.innerNext = none → I s.drained
  define : ∀ {s} n v, I s → I { s with defines := (s.defines.insert n v).2 }
  undef : ∀ {s} n, I s → I { s with defines := (s.defines.remove n).2 }
  pop : ∀ {s i s'}, I s → s.popIfdef = some (i, s') → I s'
  pushIfdef : ∀ {s} i, I s → I (s.pushIfdef i)
  multi : ∀ {s} f, I s → I { s with multi := f :: s.multi }
  inclNew : ∀ {s} p toks, I s → s.stack ≠ [] → env.fileId p ∉ s.incLocs →
    env.openFile p = some toks →
    I { s with stack := .file p toks :: s.stack, incLocs := env.fileId p :: s.incLocs }
  inclMulti : ∀ {s} p toks, I s → s.stack ≠ [] → env.fileId p ∈ s.multi →
    env.openFile p = some toks → I { s with stack := .file p toks :: s.stack }
  expand : ∀ {s} l toks, I s → s.stack ≠ [] → s.stack.length ≤ MAX_RECURSION_DEPTH →
    I { s with stack := .expansion l toks :: s.stack }

theorem innerNext_eq {s : PP} {l t s'} (h : s.innerNext = some (l, t, s')) :
    ∃ st, stackNext s.stack = some (⟨l, t⟩, st) ∧ s' = { s with stack := st } := by
  unfold innerNext at h
  rw [Option.map_eq_some_iff] at h
  obtain ⟨r, hr, he⟩ := h
  simp only [Prod.mk.injEq] at he
  exact ⟨r.2, by rw [hr, ← he.1, ← he.2.1], he.2.2.symm⟩

theorem stackNext_length {st : List Include} {t st'} (h : stackNext st = some (t, st')) :
    st' ≠ [] ∧ st'.length ≤ st.length := by
  induction st with
  | nil => simp [stackNext] at h
  | cons x st ih =>
    cases x with
    | file p ts =>
      cases ts with
      | nil =>
        simp only [stackNext] at h
        have := ih h
        exact ⟨this.1, by simp; omega⟩
      | cons t ts =>
        simp only [stackNext, Option.some.injEq, Prod.mk.injEq] at h
        rw [← h.2]; simp
    | expansion l ts =>
      cases ts with
      | nil =>
        simp only [stackNext] at h
        have := ih h
        exact ⟨this.1, by simp; omega⟩
      | cons t ts =>
        simp only [stackNext, Option.some.injEq, Prod.mk.injEq] at h
        rw [← h.2]; simp

theorem innerNext_stack {s : PP} {l t s'} (h : s.innerNext = some (l, t, s')) :
    s'.stack ≠ [] ∧ s'.stack.length ≤ s.stack.length := by
  obtain ⟨st, h1, rfl⟩ := innerNext_eq h
  exact stackNext_length h1

variable {env : Env} {I : PP → Prop}

theorem Post.withNext {s : PP} {k} (J : PP → Prop) (hd : s.innerNext = none → J (s.drained.err .eof))
    (hk : ∀ l t s', s.innerNext = some (l, t, s') → Post J (k l t s')) : Post J (s.withNext k) := by
  unfold PP.withNext
  cases h : s.innerNext with
  | none => exact hd h
  | some r => obtain ⟨l, t, s'⟩ := r; exact hk l t s' h

theorem Closed.err (c : Closed env I) {s : PP} (h : I s) (e : Err) : I (s.err e) :=
  c.frame h rfl

theorem Closed.push (c : Closed env I) {s : PP} (h : I s) (t : Tok) : I (s.push t) :=
  c.frame h rfl

theorem Closed.eof (c : Closed env I) {s : PP} (h : I s) (hn : s.innerNext = none) :
    I (s.drained.err .eof) := c.frame (c.drained h hn) rfl

theorem Closed.skipLine (c : Closed env I) (n : Nat) : ∀ (s : PP) k, I s →
    (∀ s', I s' → Post I (k s')) → Post I (s.skipLine n k) := by
  induction n with
  | zero => intro s k h _; exact c.frame h rfl
  | succ n ih =>
    intro s k h hk
    refine Post.withNext I (c.eof h) fun l t s' hn => ?_
    split
    · exact hk _ (c.next h hn)
    · exact ih _ _ (c.next h hn) hk

theorem Closed.readParams (c : Closed env I) (n : Nat) : ∀ (s : PP) ps k, I s →
    (∀ ps v s', I s' → Post I (k ps v s')) → Post I (s.readParams n ps k) := by
  induction n with
  | zero => intro s ps k h _; exact c.frame h rfl
  | succ n ih =>
    intro s ps k h hk
    have hcont : ∀ (s' : PP) (params : List Name) (variadic : Bool), I s' →
        Post I (s'.withNext fun _ t s =>
          if t = comma then
            (if variadic then .ok (s.err .variadicNotLast) else PP.readParams n s params k)
          else if t = rparen then k params variadic s
          else if t = ellipsis then
            s.withNext fun _ t s => if t = rparen then k params true s else .ok (s.err .variadicNotLast)
          else .ok (s.err .malformedParams)) := by
      intro s' params variadic h
      refine Post.withNext I (c.eof h) fun l t s2 hn => ?_
      have h2 := c.next h hn
      split
      · split
        · exact c.err h2 _
        · exact ih _ _ _ h2 hk
      · split
        · exact hk _ _ _ h2
        · split
          · refine Post.withNext I (c.eof h2) fun l t s3 hn => ?_
            have h3 := c.next h2 hn
            split
            · exact hk _ _ _ h3
            · exact c.err h3 _
          · exact c.err h2 _
    refine Post.withNext I (c.eof h) fun l t s' hn => ?_
    have h' := c.next h hn
    simp only
    split
    · exact hcont _ _ _ h'
    · split
      · exact hcont _ _ _ h'
      · exact c.err h' _

theorem Closed.docHint (c : Closed env I) {s : PP} (h : I s) (t : DocTarget) : I (s.docHint t) := by
  cases t
  · exact c.err h _
  · exact h

theorem Closed.readSubst (c : Closed env I) (n : Nat) : ∀ (s : PP) ts k, I s →
    (∀ ts s', I s' → Post I (k ts s')) → Post I (s.readSubst n ts k) := by
  induction n with
  | zero => intro s ts k h _; exact c.frame h rfl
  | succ n ih =>
    intro s ts k h hk
    refine Post.withNext I (c.eof h) fun l t s' hn => ?_
    have h' := c.next h hn
    split
    · exact hk _ _ h'
    · split
      · exact ih _ _ _ (c.docHint h' _) hk
      · exact ih _ _ _ h' hk

theorem Closed.readArgs (c : Closed env I) (J : PP → Prop)
    (hJ : ∀ {s l t s'}, J s → s.innerNext = some (l, t, s') → J s') (n : Nat) :
    ∀ (s : PP) ps args arg k, I s → J s → (∀ args s', I s' → J s' → Post I (k args s')) →
    Post I (s.readArgs n ps args arg k) := by
  induction n with
  | zero => intro s ps args arg k h _ _; exact c.frame h rfl
  | succ n ih =>
    intro s ps args arg k h hj hk
    refine Post.withNext I (c.eof h) fun l t s' hn => ?_
    have h' := c.next h hn
    have hj' := hJ hj hn
    split
    · exact ih _ _ _ _ _ h' hj' hk
    · split
      · split
        · exact hk _ _ h' hj'
        · exact ih _ _ _ _ _ h' hj' hk
      · split
        · exact ih _ _ _ _ _ h' hj' hk
        · exact ih _ _ _ _ _ h' hj' hk

theorem Closed.finishDefine (c : Closed env I) {s : PP} (h : I s) (name : Name) (l : Location)
    (d : Define) : I (s.finishDefine env name l d) := by
  unfold PP.finishDefine
  apply c.push
  have hd := c.define name (l, d) h
  split
  · split
    · split
      · exact c.err hd _
      · exact hd
    · exact hd
  · exact h

theorem Closed.doDefine (c : Closed env I) {s : PP} (h : I s) : Post I (s.doDefine env) := by
  unfold PP.doDefine
  have h0 : I { s with docsIn := [] } := c.frame h rfl
  refine Post.withNext I (c.eof h0) fun l t s1 hn => ?_
  have h1 := c.next h0 hn
  cases t with
  | ident name ws =>
    refine Post.withNext I (c.eof h1) fun l2 t s2 hn2 => ?_
    have h2 := c.next h1 hn2
    have key : ∀ (s3 : PP) ts, I s3 → Post I (s3.readSubst (s2.size + 1) ts fun subst s =>
        .ok (s.finishDefine env name l (mkDefine [] subst false))) := fun s3 ts h3 =>
      c.readSubst _ _ _ _ h3 fun ts s' h' => c.finishDefine h' _ _ _
    split
    · exact c.readParams _ _ _ _ h2 fun ps v s' h' =>
        c.readSubst _ _ _ _ h' fun ts s' h' => c.finishDefine h' _ _ _
    · split
      · exact c.finishDefine h2 _ _ _
      · split
        · exact key _ _ (c.docHint h2 _)
        · exact key _ _ h2
  | _ => exact c.err h1 _

theorem Closed.doUndef (c : Closed env I) {s : PP} (h : I s) : Post I s.doUndef := by
  unfold PP.doUndef
  refine Post.withNext I (c.eof h) fun l t s1 hn => ?_
  have h1 := c.next h hn
  cases t with
  | ident name ws =>
    refine Post.withNext I (c.eof h1) fun l2 t s2 hn2 => ?_
    have h2 := c.next h1 hn2
    split
    · apply c.push
      split
      · exact c.frame (c.undef name h2) rfl
      · exact c.err h2 _
    · exact c.err h2 _
  | _ => exact c.err h1 _

theorem Closed.doIfdef (c : Closed env I) {s : PP} (h : I s) (want : Bool) :
    Post I (s.doIfdef env want) := by
  unfold PP.doIfdef
  refine Post.withNext I (c.eof h) fun l t s1 hn => ?_
  have h1 := c.next h hn
  cases t with
  | ident name ws =>
    refine Post.withNext I (c.eof h1) fun l2 t s2 hn2 => ?_
    have h2 := c.next h1 hn2
    split
    · exact c.push (c.pushIfdef _ h2) _
    · exact c.err h2 _
  | _ => exact c.err h1 _

theorem Closed.doInclude (c : Closed env I) {s : PP} (h : I s) (hs : s.stack ≠ []) (path : List Char) :
    I (s.doInclude env path) := by
  unfold PP.doInclude
  split
  · exact c.err h _
  · exact c.err h _
  · exact c.frame h rfl
  · exact c.frame h rfl
  · exact c.frame h rfl
  · unfold PP.includeFile
    split
    · exact c.err h _
    · rename_i toks ho
      simp only
      split
      · split
        · rename_i h2
          exact c.frame (c.inclMulti _ toks h hs h2 ho) rfl
        · exact c.err h _
      · rename_i h2
        exact c.frame (c.inclNew _ toks h hs h2 ho) rfl

theorem Closed.readInclude (c : Closed env I) {s : PP} (h : I s) : Post I (s.readInclude env) := by
  unfold PP.readInclude
  refine Post.withNext I (c.eof h) fun l t s2 hn => ?_
  have h2 := c.next h hn
  cases t with
  | str path =>
    refine Post.withNext I (c.eof h2) fun l t s3 hn3 => ?_
    have h3 := c.next h2 hn3
    split
    · exact c.doInclude h3 (innerNext_stack hn3).1 _
    · exact c.err h3 _
  | _ => exact c.err h2 _

theorem Closed.readMessage (c : Closed env I) {s : PP} (h : I s) (e : Err) :
    Post I (s.readMessage e) := by
  unfold PP.readMessage
  refine Post.withNext I (c.eof h) fun l t s2 hn => ?_
  have h2 := c.next h hn
  cases t with
  | str path => exact c.push (c.err h2 _) _
  | _ => exact c.err h2 _

theorem Closed.readPragma (c : Closed env I) {s : PP} (h : I s) : Post I s.readPragma := by
  unfold PP.readPragma
  refine Post.withNext I (c.eof h) fun l t s2 hn => ?_
  have h2 := c.next h hn
  cases t with
  | ident text ws =>
    dsimp only
    split
    · exact c.push (c.multi _ h2) _
    · exact c.push h2 _
  | _ => exact c.err h2 _

theorem Closed.onDirective (c : Closed env I) {ev : PP → Except PP (Bool × PP)}
    (hev : ∀ s, I s → PostB I (ev s)) {s : PP} (h : I s) (disabled : Bool) (d : Dir) :
    Post I (s.onDirective env ev disabled d) := by
  unfold PP.onDirective
  cases d
  · dsimp only
    split
    · exact c.err h _
    · rename_i hp; exact c.push (c.pop h hp) _
  · dsimp only
    split
    · exact c.err h _
    · rename_i hp; exact c.push (c.pushIfdef _ (c.pop h hp)) _
  · exact c.doIfdef h _
  · exact c.doIfdef h _
  · dsimp only
    have := hev s h
    split
    · rename_i e he; rw [he] at this; exact this
    · rename_i b s2 he; rw [he] at this
      exact c.push (c.pushIfdef _ this) _
  · dsimp only
    split
    · exact c.err h _
    · rename_i last s2 hp
      have h2 := c.pop h hp
      have := hev s2 h2
      split
      · rename_i e he; rw [he] at this; exact this
      · rename_i b s2 he; rw [he] at this
        exact c.push (c.pushIfdef _ this) _
  · dsimp only
    split
    · exact c.push h _
    · exact c.readInclude h
  · dsimp only
    split
    · exact c.skipLine _ _ _ h fun s' h' => c.push h' _
    · exact c.doDefine h
  · dsimp only
    split
    · exact c.push h _
    · exact c.doUndef h
  · dsimp only
    split
    · exact c.push h _
    · exact c.readMessage h _
  · dsimp only
    split
    · exact c.push h _
    · exact c.readMessage h _
  · dsimp only
    split
    · exact c.push h _
    · exact c.readPragma h
  · exact c.err h _

theorem Closed.directive (c : Closed env I) {ev : PP → Except PP (Bool × PP)}
    (hev : ∀ s, I s → PostB I (ev s)) {s : PP} (h : I s) (disabled : Bool) :
    Post I (s.directive env ev disabled) := by
  unfold PP.directive
  refine Post.withNext I (c.eof h) fun l t s1 hn => ?_
  have h1 := c.next h hn
  cases t with
  | ident ident ws => exact c.onDirective hev h1 _ _
  | _ => exact c.err h1 _

theorem Closed.flushDocs (c : Closed env I) {s : PP} (h : I s) : I s.flushDocs := c.frame h rfl

theorem Closed.countInterp (c : Closed env I) {s : PP} (h : I s) (t : Tok) : I (s.countInterp t) := by
  unfold PP.countInterp
  split
  · exact c.frame h rfl
  · exact c.frame h rfl
  · exact h

theorem Closed.emitSelf (c : Closed env I) {s : PP} (h : I s) (t : Tok) : I (s.emitSelf t) := by
  unfold PP.emitSelf
  split
  · exact c.push h _
  · exact c.push (c.flushDocs h) _

theorem Closed.callMacro (c : Closed env I) {s : PP} (h : I s)
    (hl : s.stack.length ≤ MAX_RECURSION_DEPTH) (ident params subst variadic) :
    Post I (s.callMacro env ident params subst variadic) := by
  unfold PP.callMacro
  refine Post.withNext I (c.eof h) fun l t s1 hn => ?_
  have h1 := c.next h hn
  have hl1 := innerNext_stack hn
  split
  · refine c.readArgs (fun s => s.stack ≠ [] ∧ s.stack.length ≤ MAX_RECURSION_DEPTH) ?_ _ _ _ _ _ _ h1
      ⟨hl1.1, le_trans hl1.2 hl⟩ ?_
    · intro s l t s' hj hn
      have := innerNext_stack hn
      exact ⟨this.1, le_trans this.2 hj.2⟩
    · intro args s' h' hj'
      simp only
      split
      · exact c.err h' _
      · split
        · exact c.err h' _
        · exact c.expand _ _ h' hj'.1 hj'.2
  · exact c.push (c.countInterp (c.push h1 _) _) _

theorem Closed.onIdent (c : Closed env I) {s : PP} (h : I s) (hs : s.stack ≠ []) (ident ws) :
    Post I (s.onIdent env ident ws) := by
  unfold PP.onIdent
  have hf := c.flushDocs h
  simp only
  split
  · split
    · exact c.push hf _
    · exact c.push hf _
  · split
    · exact c.push hf _
    · split
      · exact c.push hf _
      · split
        · exact c.emitSelf hf _
        · split
          · exact c.emitSelf (c.err hf _) _
          · rename_i hlen
            have hlen' : s.flushDocs.stack.length ≤ MAX_RECURSION_DEPTH := by omega
            split
            · exact c.expand _ _ hf hs hlen'
            · exact c.callMacro hf hlen' _ _ _ _

theorem Closed.realNextWith (c : Closed env I) {ev : PP → Except PP (Bool × PP)}
    (hev : ∀ s, I s → PostB I (ev s)) {s : PP} (h : I s) (hs : s.stack ≠ []) (t : Tok) (ic : Bool) :
    Post I (s.realNextWith env ev t ic) := by
  unfold PP.realNextWith
  simp only
  split
  · exact c.directive hev h _
  · split
    · exact h
    · split
      · exact c.onIdent h hs _ _
      · exact c.frame h rfl
      · exact c.emitSelf (c.countInterp h _) _

theorem Closed.evaluateOf (c : Closed env I) {pump : PP → Res} (hp : ∀ s, I s → Post I (pump s))
    (s : PP) (h : I s) : PostB I (evaluateOf env pump s) := by
  unfold PP.evaluateOf
  have := hp s h
  split
  · rename_i he; rw [he] at this; exact this
  · rename_i s2 he
    rw [he] at this
    have h2 : I s2 := this
    split
    · exact c.frame h2 rfl
    · split
      · exact c.frame h2 rfl
      · exact c.frame h2 rfl

theorem Closed.pump (c : Closed env I) (n : Nat) : ∀ s, I s → Post I (PP.pump env n s) := by
  induction n with
  | zero => intro s h; exact h
  | succ n ih =>
    intro s h
    unfold PP.pump
    split
    · rename_i hn; exact c.drained h hn
    · rename_i l t s1 hn
      have h1 : I { s1 with lastLoc := l } := c.frame (c.next h hn) rfl
      simp only
      split
      · exact h1
      · have := c.realNextWith (c.evaluateOf ih) h1 (innerNext_stack hn).1 t true
        split
        · rename_i he; rw [he] at this; exact this
        · rename_i s2 he; rw [he] at this; exact ih _ this

theorem Closed.realNext (c : Closed env I) (n : Nat) {s : PP} (h : I s) (hs : s.stack ≠ []) (t : Tok)
    (ic : Bool) : Post I (s.realNext env n t ic) :=
  c.realNextWith (c.evaluateOf (c.pump n)) h hs t ic

theorem Closed.run (c : Closed env I) (n : Nat) : ∀ s, I s →
    match PP.run env n s with
    | .error s' => I s'
    | .ok r => ∃ s', I s' ∧ r.2 = s'.closeIfdefs := by
  induction n with
  | zero => intro s h; exact h
  | succ n ih =>
    intro s h
    have h0 : I { s with output := [] } := c.frame h rfl
    unfold PP.run
    split
    · rename_i e he
      split at he
      · exact absurd he (by simp)
      · rename_i l t s1 hn
        have h1 : I { s1 with lastLoc := l } := c.frame (c.next h0 hn) rfl
        have h2 := c.realNext n h1 (innerNext_stack hn).1 t false
        split at he
        · rename_i he2; rw [he2] at h2
          simp only [Except.error.injEq] at he
          rw [← he]; exact h2
        · rename_i s2 he2; rw [he2] at h2
          have h3 := ih s2 h2
          split at he
          · rename_i he3; rw [he3] at h3
            simp only [Except.error.injEq] at he
            rw [← he]; exact h3
          · exact absurd he (by simp)
    · rename_i r he
      split at he
      · rename_i hn
        simp only [Except.ok.injEq] at he
        exact ⟨_, c.drained h0 hn, by rw [← he]⟩
      · rename_i l t s1 hn
        have h1 : I { s1 with lastLoc := l } := c.frame (c.next h0 hn) rfl
        have h2 := c.realNext n h1 (innerNext_stack hn).1 t false
        split at he
        · exact absurd he (by simp)
        · rename_i s2 he2; rw [he2] at h2
          have h3 := ih s2 h2
          split at he
          · exact absurd he (by simp)
          · rename_i r2 he3; rw [he3] at h3
            simp only [Except.ok.injEq] at he
            rw [← he]; exact h3

end PP

end Verif.Preproc
