import Verif.Preproc.Terminate

/-!
# C22: enough fuel exists
-/

namespace Verif.Preproc

open Verif.Context (Location)
open Verif.Lexer (Tok Punct DocTarget CommentKind)

namespace PP

variable {env : Env}

/-- the fuel did not run out -/
def IsOk (r : Res) : Prop := ∃ s, r = .ok s

theorem isOk_withNext {s : PP} {k} (hk : ∀ l t s', IsOk (k l t s')) : IsOk (s.withNext k) := by
  unfold withNext
  split
  · exact ⟨_, rfl⟩
  · exact hk _ _ _

theorem isOk_skipLine (n : Nat) : ∀ (s : PP) k, (∀ s', IsOk (k s')) → IsOk (s.skipLine n k) := by
  induction n with
  | zero => intro s k _; exact ⟨_, rfl⟩
  | succ n ih =>
    intro s k hk
    refine isOk_withNext fun l t s' => ?_
    split
    · exact hk _
    · exact ih _ _ hk

theorem isOk_readParams (n : Nat) : ∀ (s : PP) ps k, (∀ ps v s', IsOk (k ps v s')) →
    IsOk (s.readParams n ps k) := by
  induction n with
  | zero => intro s ps k _; exact ⟨_, rfl⟩
  | succ n ih =>
    intro s ps k hk
    have hcont : ∀ (s' : PP) (params : List Name) (variadic : Bool),
        IsOk (s'.withNext fun _ t s =>
          if t = comma then
            (if variadic then .ok (s.err .variadicNotLast) else PP.readParams n s params k)
          else if t = rparen then k params variadic s
          else if t = ellipsis then
            s.withNext fun _ t s => if t = rparen then k params true s else .ok (s.err .variadicNotLast)
          else .ok (s.err .malformedParams)) := by
      intro s' params variadic
      refine isOk_withNext fun l t s2 => ?_
      split
      · split
        · exact ⟨_, rfl⟩
        · exact ih _ _ _ hk
      · split
        · exact hk _ _ _
        · split
          · refine isOk_withNext fun l t s3 => ?_
            split
            · exact hk _ _ _
            · exact ⟨_, rfl⟩
          · exact ⟨_, rfl⟩
    refine isOk_withNext fun l t s' => ?_
    simp only
    split
    · exact hcont _ _ _
    · split
      · exact hcont _ _ _
      · exact ⟨_, rfl⟩

theorem isOk_readSubst (n : Nat) : ∀ (s : PP) ts k, (∀ ts s', IsOk (k ts s')) →
    IsOk (s.readSubst n ts k) := by
  induction n with
  | zero => intro s ts k _; exact ⟨_, rfl⟩
  | succ n ih =>
    intro s ts k hk
    refine isOk_withNext fun l t s' => ?_
    split
    · exact hk _ _
    · split
      · exact ih _ _ _ hk
      · exact ih _ _ _ hk

theorem isOk_readArgs (n : Nat) : ∀ (s : PP) ps args arg k, (∀ args s', IsOk (k args s')) →
    IsOk (s.readArgs n ps args arg k) := by
  induction n with
  | zero => intro s ps args arg k _; exact ⟨_, rfl⟩
  | succ n ih =>
    intro s ps args arg k hk
    refine isOk_withNext fun l t s' => ?_
    split
    · exact ih _ _ _ _ _ hk
    · split
      · split
        · exact hk _ _
        · exact ih _ _ _ _ _ hk
      · split
        · exact ih _ _ _ _ _ hk
        · exact ih _ _ _ _ _ hk

theorem isOk_doDefine (s : PP) : IsOk (s.doDefine env) := by
  unfold PP.doDefine
  refine isOk_withNext fun l t s1 => ?_
  cases t with
  | ident name ws =>
    refine isOk_withNext fun l2 t s2 => ?_
    split
    · exact isOk_readParams _ _ _ _ fun ps v s' => isOk_readSubst _ _ _ _ fun ts s' => ⟨_, rfl⟩
    · split
      · exact ⟨_, rfl⟩
      · split
        · exact isOk_readSubst _ _ _ _ fun ts s' => ⟨_, rfl⟩
        · exact isOk_readSubst _ _ _ _ fun ts s' => ⟨_, rfl⟩
  | _ => exact ⟨_, rfl⟩

theorem isOk_doUndef (s : PP) : IsOk s.doUndef := by
  unfold PP.doUndef
  refine isOk_withNext fun l t s1 => ?_
  cases t with
  | ident name ws =>
    refine isOk_withNext fun l2 t s2 => ?_
    split
    · exact ⟨_, rfl⟩
    · exact ⟨_, rfl⟩
  | _ => exact ⟨_, rfl⟩

theorem isOk_doIfdef (s : PP) (w : Bool) : IsOk (s.doIfdef env w) := by
  unfold PP.doIfdef
  refine isOk_withNext fun l t s1 => ?_
  cases t with
  | ident name ws =>
    refine isOk_withNext fun l2 t s2 => ?_
    split
    · exact ⟨_, rfl⟩
    · exact ⟨_, rfl⟩
  | _ => exact ⟨_, rfl⟩

theorem isOk_readInclude (s : PP) : IsOk (s.readInclude env) := by
  unfold PP.readInclude
  refine isOk_withNext fun l t s1 => ?_
  cases t with
  | str path =>
    refine isOk_withNext fun l2 t s2 => ?_
    split
    · exact ⟨_, rfl⟩
    · exact ⟨_, rfl⟩
  | _ => exact ⟨_, rfl⟩

theorem isOk_readMessage (s : PP) (e : Err) : IsOk (s.readMessage e) := by
  unfold PP.readMessage
  refine isOk_withNext fun l t s1 => ?_
  cases t <;> exact ⟨_, rfl⟩

theorem isOk_readPragma (s : PP) : IsOk s.readPragma := by
  unfold PP.readPragma
  refine isOk_withNext fun l t s1 => ?_
  cases t with
  | ident text ws =>
    dsimp only
    split
    · exact ⟨_, rfl⟩
    · exact ⟨_, rfl⟩
  | _ => exact ⟨_, rfl⟩

theorem isOk_callMacro (s : PP) (i ps su v) : IsOk (s.callMacro env i ps su v) := by
  unfold PP.callMacro
  refine isOk_withNext fun l t s1 => ?_
  split
  · refine isOk_readArgs _ _ _ _ _ _ fun args s' => ?_
    simp only
    split
    · exact ⟨_, rfl⟩
    · split
      · exact ⟨_, rfl⟩
      · exact ⟨_, rfl⟩
  · exact ⟨_, rfl⟩

theorem isOk_onIdent (s : PP) (i ws) : IsOk (s.onIdent env i ws) := by
  unfold PP.onIdent
  simp only
  split
  · split <;> exact ⟨_, rfl⟩
  · split
    · exact ⟨_, rfl⟩
    · split
      · exact ⟨_, rfl⟩
      · split
        · exact ⟨_, rfl⟩
        · split
          · exact ⟨_, rfl⟩
          · split
            · exact ⟨_, rfl⟩
            · exact isOk_callMacro _ _ _ _ _

/-- `f` finishes without evaluating a condition, or evaluates one, in a state reached by primitive
changes, and finishes -/
def Shape (env : Env) (s : PP) (f : (PP → Except PP (Bool × PP)) → Res) : Prop :=
  (∃ r, ∀ ev, f ev = .ok r) ∨
  (∃ (s2 : PP) (g : Bool → PP → PP), (∀ ev, f ev = match ev s2 with
      | .error e => .error e
      | .ok (b, s3) => .ok (g b s3)) ∧ ∀ I, Closed env I → I s → I s2)

theorem Shape.ofOk {s : PP} {r : Res} (h : IsOk r) : Shape env s fun _ => r := by
  obtain ⟨x, hx⟩ := h
  exact .inl ⟨x, fun _ => hx⟩

theorem onDirective_shape (s : PP) (disabled : Bool) (d : Dir) :
    Shape env s fun ev => s.onDirective env ev disabled d := by
  cases d
  · refine .ofOk ?_
    split <;> exact ⟨_, rfl⟩
  · refine .ofOk ?_
    split <;> exact ⟨_, rfl⟩
  · exact .ofOk (isOk_doIfdef _ _)
  · exact .ofOk (isOk_doIfdef _ _)
  · exact .inr ⟨s, fun b s => (s.pushIfdef (Ifdef.new s.lastLoc b)).push newline, fun ev => rfl,
      fun I _ h => h⟩
  · cases hp : s.popIfdef with
    | none =>
      refine .inl ⟨s.err .unmatchedElif, fun ev => ?_⟩
      simp only [onDirective, hp]
    | some r =>
      obtain ⟨last, s1⟩ := r
      refine .inr ⟨s1, fun b s => (s.pushIfdef (last.elseIf s.lastLoc b)).push newline, fun ev => ?_,
        fun I c h => c.pop h hp⟩
      simp only [onDirective, hp]
      cases ev s1 <;> rfl
  · refine .ofOk ?_
    show IsOk (if disabled = true then _ else _)
    split
    · exact ⟨_, rfl⟩
    · exact isOk_readInclude _
  · refine .ofOk ?_
    show IsOk (if disabled = true then _ else _)
    split
    · exact isOk_skipLine _ _ _ fun s' => ⟨_, rfl⟩
    · exact isOk_doDefine _
  · refine .ofOk ?_
    show IsOk (if disabled = true then _ else _)
    split
    · exact ⟨_, rfl⟩
    · exact isOk_doUndef _
  · refine .ofOk ?_
    show IsOk (if disabled = true then _ else _)
    split
    · exact ⟨_, rfl⟩
    · exact isOk_readMessage _ _
  · refine .ofOk ?_
    show IsOk (if disabled = true then _ else _)
    split
    · exact ⟨_, rfl⟩
    · exact isOk_readMessage _ _
  · refine .ofOk ?_
    show IsOk (if disabled = true then _ else _)
    split
    · exact ⟨_, rfl⟩
    · exact isOk_readPragma _
  · exact .ofOk ⟨_, rfl⟩

theorem realNextWith_shape (s : PP) (t : Tok) (ic : Bool) :
    Shape env s fun ev => s.realNextWith env ev t ic := by
  unfold realNextWith
  simp only
  by_cases h : t = hash
  · simp only [h, if_true]
    unfold directive withNext
    cases hn : s.innerNext with
    | none => exact .inl ⟨_, fun _ => rfl⟩
    | some r =>
      obtain ⟨l, t, s1⟩ := r
      cases t with
      | ident name ws =>
        rcases onDirective_shape (env := env) s1 (!ic && s.isDisabled) (dirOf name) with
          h | ⟨s2, g, h1, h2⟩
        · exact .inl h
        · exact .inr ⟨s2, g, h1, fun I c h => h2 I c (c.next h hn)⟩
      | _ => exact .inl ⟨_, fun _ => rfl⟩
  · simp only [h, if_false]
    refine .ofOk ?_
    split
    · exact ⟨_, rfl⟩
    · split
      · exact isOk_onIdent _ _ _
      · exact ⟨_, rfl⟩
      · exact ⟨_, rfl⟩

/-! ## More fuel changes nothing -/

theorem realNextWith_mono {ev ev' : PP → Except PP (Bool × PP)}
    (h : ∀ s r, ev s = .ok r → ev' s = .ok r) {s : PP} {t ic s'}
    (hr : s.realNextWith env ev t ic = .ok s') : s.realNextWith env ev' t ic = .ok s' := by
  rcases realNextWith_shape (env := env) s t ic with ⟨r, hs⟩ | ⟨s2, g, hs, _⟩
  · beta_reduce at hs; rw [hs] at hr ⊢; exact hr
  · beta_reduce at hs; rw [hs] at hr ⊢
    cases he : ev s2 with
    | error e => rw [he] at hr; simp at hr
    | ok r => rw [he] at hr; rw [h _ _ he]; exact hr

theorem evaluateOf_mono {p p' : PP → Res} (h : ∀ s r, p s = .ok r → p' s = .ok r) {s : PP} {r}
    (hr : evaluateOf env p s = .ok r) : evaluateOf env p' s = .ok r := by
  unfold evaluateOf at *
  cases he : p s with
  | error e => rw [he] at hr; simp at hr
  | ok s2 => rw [he] at hr; rw [h _ _ he]; exact hr

theorem pump_succ (n : Nat) : ∀ {s s' : PP}, pump env n s = .ok s' → pump env (n + 1) s = .ok s' := by
  induction n with
  | zero => intro s s' h; simp [pump] at h
  | succ n ih =>
    intro s s' h
    unfold pump at h ⊢
    cases hn : s.innerNext with
    | none => rw [hn] at h; exact h
    | some r =>
      obtain ⟨l, t, s1⟩ := r
      rw [hn] at h
      simp only at h ⊢
      by_cases ht : t = newline
      · rw [if_pos ht] at h ⊢; exact h
      · rw [if_neg ht] at h ⊢
        cases hr : realNextWith env (evaluateOf env (pump env n)) { s1 with lastLoc := l } t true with
        | error e => rw [hr] at h; simp at h
        | ok s2 =>
          rw [hr] at h
          rw [realNextWith_mono (ev' := evaluateOf env (pump env (n + 1)))
            (fun s r hs => evaluateOf_mono (fun s r => ih) hs) hr]
          exact ih h

theorem pump_mono {n m : Nat} (hnm : n ≤ m) {s s' : PP} (h : pump env n s = .ok s') :
    pump env m s = .ok s' := by
  induction hnm with
  | refl => exact h
  | step _ ih => exact pump_succ _ ih

theorem realNext_mono {n m : Nat} (hnm : n ≤ m) {s : PP} {t ic s'} (h : s.realNext env n t ic = .ok s') :
    s.realNext env m t ic = .ok s' :=
  realNextWith_mono (fun _ _ hs => evaluateOf_mono (fun _ _ => pump_mono hnm) hs) h

theorem run_succ (n : Nat) : ∀ {s : PP} {r}, run env n s = .ok r → run env (n + 1) s = .ok r := by
  induction n with
  | zero => intro s r h; simp [run] at h
  | succ n ih =>
    intro s r h
    unfold run at h ⊢
    cases hn : ({ s with output := [] } : PP).innerNext with
    | none => rw [hn] at h; exact h
    | some x =>
      obtain ⟨l, t, s1⟩ := x
      rw [hn] at h
      simp only at h ⊢
      cases hr : realNext env n { s1 with lastLoc := l } t false with
      | error e => rw [hr] at h; simp at h
      | ok s2 =>
        rw [hr] at h
        rw [realNext_mono (Nat.le_succ n) hr]
        simp only at h ⊢
        cases hr2 : run env n s2 with
        | error e => rw [hr2] at h; simp at h
        | ok r2 => rw [hr2] at h; rw [ih hr2]; exact h

theorem run_mono {n m : Nat} (hnm : n ≤ m) {s : PP} {r} (h : run env n s = .ok r) :
    run env m s = .ok r := by
  induction hnm with
  | refl => exact h
  | step _ ih => exact run_succ _ ih

/-! ## Enough fuel exists -/

/-- it ends, or `#pragma multiple` has been executed when the fuel runs out -/
def Ends (r : Res) : Prop := (∃ s, r = .ok s) ∨ ∃ s, r = .error s ∧ s.multi ≠ []

/-- the combined relation used in the induction -/
theorem weakBounded_closed (a : PP) : Closed env (fun s => Weak a s ∧ Bounded s) where
  frame := fun h hc => ⟨(weak_closed (env := env) a).frame h.1 hc, (bounded_closed (env := env)).frame h.2 hc⟩
  next := fun h hc => ⟨(weak_closed (env := env) a).next h.1 hc, (bounded_closed (env := env)).next h.2 hc⟩
  drained := fun h hc =>
    ⟨(weak_closed (env := env) a).drained h.1 hc, (bounded_closed (env := env)).drained h.2 hc⟩
  define := fun n v h =>
    ⟨(weak_closed (env := env) a).define n v h.1, (bounded_closed (env := env)).define n v h.2⟩
  undef := fun n h => ⟨(weak_closed (env := env) a).undef n h.1, (bounded_closed (env := env)).undef n h.2⟩
  pop := fun h hc => ⟨(weak_closed (env := env) a).pop h.1 hc, (bounded_closed (env := env)).pop h.2 hc⟩
  pushIfdef := fun i h =>
    ⟨(weak_closed (env := env) a).pushIfdef i h.1, (bounded_closed (env := env)).pushIfdef i h.2⟩
  multi := fun f h => ⟨(weak_closed (env := env) a).multi f h.1, (bounded_closed (env := env)).multi f h.2⟩
  inclNew := fun p ts h h1 h2 h3 =>
    ⟨(weak_closed (env := env) a).inclNew p ts h.1 h1 h2 h3, bounded_closed.inclNew p ts h.2 h1 h2 h3⟩
  inclMulti := fun p ts h h1 h2 h3 =>
    ⟨(weak_closed (env := env) a).inclMulti p ts h.1 h1 h2 h3, bounded_closed.inclMulti p ts h.2 h1 h2 h3⟩
  expand := fun l ts h h1 h2 =>
    ⟨(weak_closed (env := env) a).expand l ts h.1 h1 h2, (bounded_closed (env := env)).expand l ts h.2 h1 h2⟩

theorem multi_closed : Closed env (fun s => s.multi ≠ []) where
  frame := by
    intro s s' h hc
    have h3 : s'.multi = s.multi := congrArg (·.2.2.1) hc
    rwa [h3]
  next := by
    intro s l t s' h hn
    obtain ⟨st, _, rfl⟩ := innerNext_eq hn
    exact h
  drained := fun h _ => h
  define := fun _ _ h => h
  undef := fun _ h => h
  pop := by
    intro s i s' h hp
    unfold popIfdef at hp
    split at hp
    · simp at hp
    · simp only [Option.some.injEq, Prod.mk.injEq] at hp
      rw [← hp.2]; exact h
  pushIfdef := fun _ h => h
  multi := fun _ _ => by simp
  inclNew := fun _ _ h _ _ _ => h
  inclMulti := fun _ _ h _ _ _ => h
  expand := fun _ _ h _ _ => h

theorem realNext_ends (a : PP) (ha : Weak a a ∧ Bounded a) (t : Tok) (ic : Bool)
    (hp : ∀ s, Weak a s ∧ Bounded s → ∀ N, ∃ n, N ≤ n ∧ Ends (pump env n s)) (N : Nat) :
    ∃ n, N ≤ n ∧ Ends (a.realNext env n t ic) := by
  rcases realNextWith_shape (env := env) a t ic with ⟨r, hs⟩ | ⟨s2, g, hs, hc⟩
  · exact ⟨N, Nat.le_refl _, .inl ⟨r, hs _⟩⟩
  · obtain ⟨n, hN, hn⟩ := hp s2 (hc _ (weakBounded_closed a) ha) N
    refine ⟨n, hN, ?_⟩
    unfold realNext
    beta_reduce at hs
    rw [hs]
    rcases hn with ⟨s3, he⟩ | ⟨s3, he, hm⟩
    · left
      unfold evaluateOf
      rw [he]
      simp only
      split
      · rename_i x hx
        split at hx
        · simp at hx
        · split at hx <;> simp at hx
      · exact ⟨_, rfl⟩
    · right
      refine ⟨s3, ?_, hm⟩
      unfold evaluateOf
      rw [he]

theorem pump_multi {s : PP} (hm : s.multi ≠ []) (n : Nat) : Ends (pump env n s) := by
  have := (multi_closed (env := env)).pump n s hm
  cases h : pump env n s with
  | ok s' => exact .inl ⟨s', rfl⟩
  | error s' => rw [h] at this; exact .inr ⟨s', rfl, this⟩

theorem pump_nil {s : PP} (h : s.innerNext = none) (N : Nat) :
    ∃ n, N ≤ n ∧ Ends (pump env n s) := by
  refine ⟨N + 1, Nat.le_succ _, .inl ⟨s.drained, ?_⟩⟩
  unfold pump
  rw [h]

theorem pump_ends (s : PP) : Bounded s → ∀ N, ∃ n, N ≤ n ∧ Ends (pump env n s) := by
  induction s using smaller_wf.induction with
  | _ s ih =>
    intro hb N
    cases hn : s.innerNext with
    | none => exact pump_nil hn N
    | some r =>
      obtain ⟨l, t, s1⟩ := r
      have hb1 : Bounded { s1 with lastLoc := l } :=
        (bounded_closed (env := env)).frame ((bounded_closed (env := env)).next hb hn) rfl
      by_cases ht : t = newline
      · refine ⟨N + 1, Nat.le_succ _, .inl ⟨{ s1 with lastLoc := l }, ?_⟩⟩
        unfold pump
        rw [hn]
        simp only [if_pos ht]
      · -- everything below `s1` ends
        have below : ∀ s2, Weak { s1 with lastLoc := l } s2 ∧ Bounded s2 →
            ∀ N, ∃ n, N ≤ n ∧ Ends (pump env n s2) := by
          rintro s2 ⟨hw, hb2⟩ N
          by_cases hm2 : s2.multi = []
          · by_cases hne : s2.stack = []
            · exact pump_nil (innerNext_nil hne) N
            · exact ih s2 (smaller_of hn hw hb2 hm2 hne) hb2 N
          · exact ⟨N, Nat.le_refl _, pump_multi hm2 N⟩
        have ha : Weak { s1 with lastLoc := l } { s1 with lastLoc := l } ∧
            Bounded { s1 with lastLoc := l } := ⟨.inr (.inr ⟨rfl, .refl _⟩), hb1⟩
        obtain ⟨n1, hN, hn1⟩ := realNext_ends _ ha t true below N
        have hpost := (weakBounded_closed (env := env) { s1 with lastLoc := l }).realNext n1 ha
          (innerNext_stack hn).1 t true
        rcases hn1 with ⟨s2, he⟩ | ⟨s2, he, hm2⟩
        · rw [he] at hpost
          obtain ⟨n2, hn12, hn2⟩ := below s2 hpost n1
          have he' := realNext_mono hn12 he
          refine ⟨n2 + 1, by omega, ?_⟩
          unfold pump
          rw [hn]
          simp only [if_neg ht]
          unfold realNext at he'
          rw [he']
          exact hn2
        · refine ⟨n1 + 1, by omega, .inr ⟨s2, ?_, hm2⟩⟩
          unfold pump
          rw [hn]
          simp only [if_neg ht]
          unfold realNext at he
          rw [he]

/-- the same for the whole run -/
def EndsRun (r : Except PP (List LTok × PP)) : Prop :=
  (∃ x, r = .ok x) ∨ ∃ s, r = .error s ∧ s.multi ≠ []

theorem run_multi {s : PP} (hm : s.multi ≠ []) (n : Nat) : EndsRun (run env n s) := by
  have := (multi_closed (env := env)).run n s hm
  cases h : run env n s with
  | ok s' => exact .inl ⟨s', rfl⟩
  | error s' => rw [h] at this; exact .inr ⟨s', rfl, this⟩

theorem run_nil {s : PP} (h : ({ s with output := [] } : PP).innerNext = none) (N : Nat) :
    ∃ n, N ≤ n ∧ EndsRun (run env n s) := by
  refine ⟨N + 1, Nat.le_succ _, .inl ⟨(s.output, ({ s with output := [] } : PP).drained.closeIfdefs), ?_⟩⟩
  unfold run
  rw [h]

theorem run_ends (s : PP) : Bounded s → ∀ N, ∃ n, N ≤ n ∧ EndsRun (run env n s) := by
  induction s using smaller_wf.induction with
  | _ s ih =>
    intro hb N
    cases hn : ({ s with output := [] } : PP).innerNext with
    | none => exact run_nil hn N
    | some r =>
      obtain ⟨l, t, s1⟩ := r
      have hb0 : Bounded { s with output := [] } := (bounded_closed (env := env)).frame hb rfl
      have hb1 : Bounded { s1 with lastLoc := l } :=
        (bounded_closed (env := env)).frame ((bounded_closed (env := env)).next hb0 hn) rfl
      have ha : Weak { s1 with lastLoc := l } { s1 with lastLoc := l } ∧
          Bounded { s1 with lastLoc := l } := ⟨.inr (.inr ⟨rfl, .refl _⟩), hb1⟩
      obtain ⟨n1, hN, hn1⟩ := realNext_ends (env := env) _ ha t false (fun s2 h2 => pump_ends s2 h2.2) N
      have hpost := (weakBounded_closed (env := env) { s1 with lastLoc := l }).realNext n1 ha
        (innerNext_stack hn).1 t false
      rcases hn1 with ⟨s2, he⟩ | ⟨s2, he, hm2⟩
      · rw [he] at hpost
        have hE : ∃ n, n1 ≤ n ∧ EndsRun (run env n s2) := by
          by_cases hm2 : s2.multi = []
          · by_cases hne : s2.stack = []
            · exact run_nil (innerNext_nil hne) n1
            · have hs : Smaller s2 { s with output := [] } := smaller_of hn hpost.1 hpost.2 hm2 hne
              exact ih s2 hs hpost.2 n1
          · exact ⟨n1, Nat.le_refl _, run_multi hm2 n1⟩
        obtain ⟨n2, hn12, hn2⟩ := hE
        have he' := realNext_mono hn12 he
        refine ⟨n2 + 1, by omega, ?_⟩
        unfold run
        rw [hn]
        simp only [he']
        rcases hn2 with ⟨x, hx⟩ | ⟨x, hx, hm⟩
        · exact .inl ⟨_, by rw [hx]⟩
        · exact .inr ⟨x, by rw [hx], hm⟩
      · refine ⟨n1 + 1, by omega, .inr ⟨s2, ?_, hm2⟩⟩
        unfold run
        rw [hn]
        simp only [he]

end PP

/-- **C22, termination.** Preprocessing of any environment ends after finitely many tokens, whatever
macros and includes it contains (recursive ones too), unless a `#pragma multiple` is executed. -/
theorem preprocessing_terminates (env : Env) (builtins : DefineMap) (toks : List LTok) :
    ∃ n, (∃ out, (PP.init env builtins toks).run env n = .ok out) ∨
      ∃ s, (PP.init env builtins toks).run env n = .error s ∧ s.multi ≠ [] := by
  obtain ⟨n, _, h⟩ := PP.run_ends (env := env) (PP.init env builtins toks)
    ⟨trivial, List.nodup_nil, fun _ => by simp [PP.init, fileCount]⟩ 0
  exact ⟨n, h⟩

end Verif.Preproc
