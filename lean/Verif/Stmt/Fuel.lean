import Verif.Stmt.Spec
import Verif.Decl.Fuel

/-!
# The recursion ends
-/

namespace Verif.Stmt

open Verif.Objtree (Ident)
open Verif.Decl (Tok kw VarTy InTy Init treePath varSuffix inputSpec inputType)

variable {A B E : Type}

/-! ## More fuel does not change a result -/

/-- the same, or out of fuel -/
def R.Le (a b : R A) : Prop := a = .fuel ∨ a = b

theorem R.Le.refl (a : R A) : a.Le a := .inr rfl

theorem R.Le.pre {a b : R A} (h : a.Le b) (ds : List Diag) : (a.pre ds).Le (b.pre ds) := by
  rcases h with rfl | rfl
  · exact .inl rfl
  · exact .refl _

theorem R.Le.need {a b : R A} {k k' : A → List Tok → R B} (h : a.Le b) (hk : ∀ x ts, (k x ts).Le (k' x ts)) :
    (a.need k).Le (b.need k') := by
  rcases h with rfl | rfl
  · exact .inl rfl
  · cases a <;> first | exact .refl _ | exact (hk _ _).pre _

theorem R.Le.lead {a b : R A} {k k' : A → List Tok → R B} (h : a.Le b) (hk : ∀ x ts, (k x ts).Le (k' x ts)) :
    (a.lead k).Le (b.lead k') := by
  rcases h with rfl | rfl
  · exact .inl rfl
  · cases a <;> first | exact .refl _ | exact (hk _ _).pre _

theorem R.Le.maybe {a b : R A} {k k' : Option A → List Tok → R B} (h : a.Le b) (ts : List Tok)
    (hk : ∀ x ts, (k x ts).Le (k' x ts)) : (a.maybe ts k).Le (b.maybe ts k') := by
  rcases h with rfl | rfl
  · exact .inl rfl
  · cases a with
    | ok x r ds => exact (hk _ _).pre _
    | nothing => exact hk _ _
    | err => exact .refl _
    | fuel => exact .refl _

theorem mono_succ (X : ExprP E) (f : Nat) :
    (∀ ts, (block X f ts).Le (block X (f + 1) ts)) ∧ (∀ ts, (items X f ts).Le (items X (f + 1) ts))
      ∧ (∀ ts, (stmt X f ts).Le (stmt X (f + 1) ts)) ∧ (∀ ts, (elses X f ts).Le (elses X (f + 1) ts))
      ∧ (∀ ts, (cases X f ts).Le (cases X (f + 1) ts)) := by
  induction f with
  | zero =>
    refine ⟨fun _ => .inl ?_, fun _ => .inl ?_, fun _ => .inl ?_, fun _ => .inl ?_, fun _ => .inl ?_⟩
    · rw [block]
    · rw [items]
    · rw [stmt]
    · rw [elses]
    · rw [cases]
  | succ f ih =>
    obtain ⟨hb, hi, hs, he, hc⟩ := ih
    refine ⟨fun ts => ?_, fun ts => ?_, fun ts => ?_, fun ts => ?_, fun ts => ?_⟩
    · rw [block, block]
      refine (R.Le.refl _).maybe _ fun c ts => ?_
      rcases c with _ | _
      · refine (R.Le.refl _).maybe _ fun c ts => ?_
        rcases c with _ | _
        · exact (hs _).need fun _ _ => .refl _
        · exact .refl _
      · exact hi _
    · rw [items, items]
      refine (R.Le.refl _).maybe _ fun c ts => ?_
      rcases c with _ | _
      · refine (R.Le.refl _).maybe _ fun c ts => ?_
        rcases c with _ | _
        · exact (hs _).need fun _ _ => (hi _).need fun _ _ => .refl _
        · exact hi _
      · exact .refl _
    · rw [stmt, stmt]
      rcases Kw.first ts with _ | ⟨k, r⟩
      · refine (R.Le.refl _).lead fun s ts => ?_
        cases s with
        | expr e =>
          cases hx : X.ident e
          · simp only [hx]; exact .refl _
          · simp only [hx]
            refine (R.Le.refl _).maybe _ fun c ts => ?_
            rcases c with _ | _
            · exact .refl _
            · exact (hb _).need fun _ _ => .refl _
        | _ => exact .refl _
      · cases k
        · exact (R.Le.refl _).need fun _ _ => (hb _).need fun _ _ => (he _).need fun _ _ => .refl _
        · exact (R.Le.refl _).need fun _ _ => (hb _).need fun _ _ => .refl _
        · exact (hb _).need fun _ _ => .refl _
        · exact (R.Le.refl _).need fun _ _ => (hb _).need fun _ _ => .refl _
        · exact (R.Le.refl _).need fun _ _ => (hb _).need fun _ _ => .refl _
        · exact (R.Le.refl _).need fun _ _ => (R.Le.refl _).need fun _ _ => (hc _).need fun _ _ => .refl _
        · exact (hb _).need fun _ _ => (R.Le.refl _).need fun _ _ => (R.Le.refl _).need fun _ _ =>
            (hb _).need fun _ _ => .refl _
        all_goals exact .refl _
    · rw [elses, elses]
      refine (R.Le.refl _).maybe _ fun c ts => ?_
      rcases c with _ | _
      · exact .refl _
      · refine (R.Le.refl _).maybe _ fun c ts => ?_
        rcases c with _ | _
        · exact (hb _).need fun _ _ => .refl _
        · exact (R.Le.refl _).need fun _ _ => (hb _).need fun _ _ => (he _).need fun _ _ => .refl _
    · rw [cases, cases]
      refine (R.Le.refl _).maybe _ fun c ts => ?_
      rcases c with _ | _
      · refine (R.Le.refl _).maybe _ fun c ts => ?_
        rcases c with _ | _
        · refine (R.Le.refl _).maybe _ fun c ts => ?_
          rcases c with _ | _
          · exact .refl _
          · exact hc _
        · exact (hb _).need fun _ _ => .refl _
      · exact (R.Le.refl _).need fun _ _ => (hb _).need fun _ _ => (hc _).need fun _ _ => .refl _

theorem block_mono (X : ExprP E) (ts : List Tok) (n f : Nat) (h : n ≤ f) (hn : block X n ts ≠ .fuel) :
    block X f ts = block X n ts := by
  induction f with
  | zero => rw [Nat.le_zero.1 h]
  | succ f ih =>
    rcases Nat.lt_or_ge f n with hf | hf
    · rw [show f + 1 = n from by omega]
    · have := ih hf
      rcases (mono_succ X f).1 ts with hx | hx
      · rw [hx] at this; exact absurd this.symm hn
      · rw [← hx, this]

/-! ## The fuel is enough -/

/-- ends, and less than `n` tokens are left -/
def R.Fin (n : Nat) : R A → Prop
  | .ok _ rest _ => rest.length < n
  | .nothing => True
  | .err => True
  | .fuel => False

theorem R.Fin.mono {a : R A} {n m : Nat} (h : a.Fin n) (hm : n ≤ m) : a.Fin m := by
  cases a with
  | ok x r ds => exact Nat.lt_of_lt_of_le h hm
  | fuel => exact h
  | _ => trivial

theorem R.Fin.pre {a : R A} {n : Nat} (h : a.Fin n) (ds : List Diag) : (a.pre ds).Fin n := by
  cases a <;> exact h

theorem R.Fin.need {a : R A} {k : A → List Tok → R B} {n m : Nat} (h : a.Fin n)
    (hk : ∀ x ts, ts.length < n → (k x ts).Fin m) : (a.need k).Fin m := by
  cases a with
  | ok x r ds => exact (hk _ _ h).pre _
  | fuel => exact h
  | _ => trivial

theorem R.Fin.lead {a : R A} {k : A → List Tok → R B} {n m : Nat} (h : a.Fin n)
    (hk : ∀ x ts, ts.length < n → (k x ts).Fin m) : (a.lead k).Fin m := by
  cases a with
  | ok x r ds => exact (hk _ _ h).pre _
  | fuel => exact h
  | _ => trivial

theorem R.Fin.maybe {a : R A} {k : Option A → List Tok → R B} {n m : Nat} {ts : List Tok} (h : a.Fin n)
    (h0 : (k none ts).Fin m) (hk : ∀ x ts, ts.length < n → (k (some x) ts).Fin m) : (a.maybe ts k).Fin m := by
  cases a with
  | ok x r ds => exact (hk _ _ h).pre _
  | nothing => exact h0
  | err => trivial
  | fuel => exact h

theorem R.Fin.ok {a : A} {rest : List Tok} {ds : List Diag} {n : Nat} (h : rest.length < n) : (R.ok a rest ds).Fin n := h

theorem exact_fin (t : Tok) (ts : List Tok) : (exact t ts).Fin ts.length := by
  cases ts with
  | nil => trivial
  | cons t' r =>
    rw [exact]
    split
    · exact Nat.lt_succ_self _
    · trivial

theorem word_fin (s : String) (ts : List Tok) : (word s ts).Fin ts.length := exact_fin _ _

theorem ident_fin (ts : List Tok) : (ident ts).Fin ts.length := by
  unfold ident
  split
  · exact Nat.lt_succ_self _
  · trivial

theorem ex_fin (X : ExprP E) (ts : List Tok) : (X.ex ts).Fin ts.length := by
  unfold ExprP.ex
  split
  · trivial
  · trivial
  · rename_i h
    exact X.expr_takes _ _ _ h

theorem terminator_fin (ts : List Tok) : (terminator ts).Fin (ts.length + 1) := by
  unfold terminator Decl.terminator
  split
  · trivial
  · rename_i h
    split at h <;> cases h
    · show _ < _; simp; omega
    · exact Nat.lt_succ_self _

theorem skipSemis_le (ts : List Tok) : (skipSemis ts).length ≤ ts.length := by
  induction ts using skipSemis.induct with
  | case1 r ih => rw [skipSemis]; simp; omega
  | case2 ts h => rw [skipSemis.eq_2 _ h]; exact Nat.le_refl _

theorem inTy_fin (ts : List Tok) : (inTy ts).Fin ts.length := by
  unfold inTy
  split
  · trivial
  · trivial
  · rename_i t r ds h
    show r.length < _
    unfold inputType at h
    split at h
    · cases h; simp; omega
    · cases h
    · split at h
      · cases h
      · rename_i hl
        cases h
        have := Decl.inputLoop_le _ _ _ _ _ (Nat.le_refl _) hl
        simp; omega
    · cases h

theorem separated_fin {p : List Tok → R A} (hp : ∀ ts, (p ts).Fin ts.length) (f : Nat) : ∀ (l : Bool) (ts : List Tok),
    ts.length < f → (separated p f l ts).Fin ts.length := by
  induction f with
  | zero => intro _ _ h; omega
  | succ f ih =>
    intro l ts hf
    rw [separated]
    refine (exact_fin _ _).maybe ?_ (fun _ ts' h => .ok h)
    refine (exact_fin _ _).maybe ?_ (fun _ ts' h => ?_)
    · simp only
      split
      · trivial
      · refine (hp _).need fun a ts1 h1 => ?_
        exact (ih _ _ (by omega)).need fun _ ts2 h2 => .ok (by omega)
    · simp only
      split
      · exact (ih _ _ (by omega)).mono (by omega)
      · trivial

theorem part_fin {r : Option (A × List Tok × List Decl.Diag)} {n : Nat}
    (h : ∀ a rest ds, r = some (a, rest, ds) → rest.length < n) : (part r).Fin n := by
  unfold part
  split
  · trivial
  · exact h _ _ _ rfl

theorem varValue_fin (X : ExprP E) (suf : List (Option E)) (ts : List Tok) : (varValue X suf ts).Fin (ts.length + 1) := by
  unfold varValue
  refine (exact_fin _ _).maybe (.ok (Nat.lt_succ_self _)) fun _ ts1 h1 => ?_
  exact (ex_fin X _).need fun _ ts2 h2 => .ok (by omega)

theorem varSpec_fin (X : ExprP E) (b : Bool) (ts : List Tok) : (varSpec X b ts).Fin (ts.length + 1) := by
  unfold varSpec
  split
  · exact .ok (Nat.lt_succ_self _)
  · split
    · trivial
    · rename_i h
      have := Decl.inputSpec_le h
      exact .ok (by omega)

theorem varOne_fin (X : ExprP E) (b : Bool) (ts : List Tok) : (varOne X b ts).Fin ts.length := by
  unfold varOne
  refine R.Fin.need (n := ts.length) (part_fin fun a rest ds h => ?_) fun path ts1 h1 => ?_
  · obtain ⟨⟨a', p', r', d'⟩, hp, he⟩ := Option.map_eq_some_iff.1 h
    cases he
    exact Decl.treePath_lt hp
  · split
    · trivial
    · refine R.Fin.need (n := ts1.length + 1) (part_fin fun a rest ds h => ?_) fun suf ts2 h2 => ?_
      · obtain ⟨⟨es, r'⟩, hp, he⟩ := Option.map_eq_some_iff.1 h
        cases he
        exact Nat.lt_succ_of_le (Decl.varSuffix_le _ _ _ _ (Nat.le_refl _) hp)
      · refine R.Fin.pre ?_ _
        refine (varValue_fin X suf ts2).need fun _ ts3 h3 => ?_
        exact (varSpec_fin X b ts3).need fun _ ts4 h4 => .ok (by omega)

theorem varLoop_fin (X : ExprP E) (b : Bool) (f : Nat) : ∀ ts : List Tok, ts.length < f →
    (varLoop X b f ts).Fin ts.length := by
  induction f with
  | zero => intro _ h; omega
  | succ f ih =>
    intro ts hf
    rw [varLoop]
    refine (varOne_fin X b ts).need fun v ts1 h1 => ?_
    split
    · exact .ok h1
    · refine (exact_fin _ _).maybe (.ok h1) fun _ ts2 h2 => ?_
      exact (ih _ (by omega)).need fun _ ts3 h3 => .ok (by omega)

theorem SKw.first_lt {ts r : List Tok} {k : SKw} (h : SKw.first ts = some (k, r)) : r.length < ts.length := by
  unfold SKw.first at h
  split at h
  · obtain ⟨k', _, he⟩ := Option.map_eq_some_iff.1 h
    cases he
    exact Nat.lt_succ_self _
  · cases h

theorem Kw.first_lt {ts r : List Tok} {k : Kw} (h : Kw.first ts = some (k, r)) : r.length < ts.length := by
  unfold Kw.first at h
  split at h
  · obtain ⟨k', _, he⟩ := Option.map_eq_some_iff.1 h
    cases he
    exact Nat.lt_succ_self _
  · cases h

theorem simple_fin (X : ExprP E) (b : Bool) (ts : List Tok) : (simple X b ts).Fin ts.length := by
  unfold simple
  split
  · rename_i r h
    have := SKw.first_lt h
    refine (varLoop_fin X b _ r (Nat.lt_succ_self _)).need fun vs ts1 h1 => ?_
    split
    · exact .ok (by omega)
    · exact .ok (by omega)
  · rename_i r h
    have := SKw.first_lt h
    exact (ex_fin X r).maybe (.ok (by omega)) fun _ ts1 h1 => .ok (by omega)
  · rename_i r h
    have := SKw.first_lt h
    refine (exact_fin _ _).need fun _ ts1 h1 => ?_
    refine (ex_fin X _).maybe ?_ fun _ ts2 h2 => ?_
    · exact (exact_fin _ _).need fun _ ts3 h3 => .ok (by omega)
    · exact (exact_fin _ _).need fun _ ts3 h3 => .ok (by omega)
  · rename_i r h
    have := SKw.first_lt h
    exact (ex_fin X r).need fun _ ts1 h1 => .ok (by omega)
  · rename_i r h
    have := SKw.first_lt h
    exact (ident_fin r).need fun _ ts1 h1 => .ok (by omega)
  · exact (ex_fin X _).lead fun _ ts1 h1 => .ok (by omega)

/-! ### Heads -/

theorem forRange_fin (X : ExprP E) (ty : Option VarTy) (n : Ident) (a : Init E) (b : E) (ts : List Tok) :
    (forRange X ty n a b ts).Fin ts.length := by
  unfold forRange
  refine (word_fin _ _).maybe ((exact_fin _ _).need fun _ ts1 h1 => .ok (by omega)) fun _ ts1 h1 => ?_
  exact (ex_fin X _).need fun _ ts2 h2 => (exact_fin _ _).need fun _ ts3 h3 => .ok (by omega)

theorem forSemi_fin (X : ExprP E) (i : Option (Simple E)) (ts : List Tok) : (forSemi X i ts).Fin ts.length := by
  unfold forSemi
  have key : ∀ (test : Option E) (ts1 : List Tok), ts1.length ≤ ts.length →
      (((exact .semi ts1).maybe ts1 fun c ts => match c with
      | some () =>
        (simple X false ts).maybe ts fun inc ts => (exact .rparen ts).need fun _ ts => .ok (.loop i test inc) ts []
      | none => (exact .rparen ts).need fun _ ts => .ok (.loop i test none) ts []) : R (ForHead E)).Fin ts.length := by
    intro test ts1 h1
    refine (exact_fin _ _).maybe ((exact_fin _ _).need fun _ ts2 h2 => .ok (by omega)) fun _ ts2 h2 => ?_
    refine (simple_fin X _ _).maybe ?_ fun _ ts3 h3 => ?_
    · exact (exact_fin _ _).need fun _ ts3 h3 => .ok (by omega)
    · exact (exact_fin _ _).need fun _ ts4 h4 => .ok (by omega)
  exact (ex_fin X _).maybe (key _ _ (Nat.le_refl _)) fun _ ts1 h1 => key _ _ (by omega)

theorem forTwo_fin (X : ExprP E) (i : Option (Simple E)) (k : Option InTy) (test : Option E) (ts : List Tok) :
    (forTwo X i k test ts).Fin ts.length := by
  unfold forTwo
  split
  · split
    · exact (exact_fin _ _).need fun _ ts1 h1 => .ok (by omega)
    · trivial
  · exact (exact_fin _ _).need fun _ ts1 h1 => .ok (by omega)

theorem forComma_fin (X : ExprP E) (i : Option (Simple E)) (k : Option InTy) (ts : List Tok) :
    (forComma X i k ts).Fin ts.length := by
  unfold forComma
  have key : ∀ (test : Option E) (ts1 : List Tok), ts1.length ≤ ts.length →
      (((exact .comma ts1).maybe ts1 fun c ts => match c with
      | some () =>
        (simple X false ts).maybe ts fun inc ts =>
          match inc with
          | some inc => (exact .rparen ts).need fun _ ts => .ok (.loop i test (some inc)) ts []
          | none => forTwo X i k test ts
      | none => forTwo X i k test ts) : R (ForHead E)).Fin ts.length := by
    intro test ts1 h1
    refine (exact_fin _ _).maybe ((forTwo_fin X i k test ts1).mono h1) fun _ ts2 h2 => ?_
    refine (simple_fin X _ _).maybe ((forTwo_fin X i k test ts2).mono (by omega)) fun _ ts3 h3 => ?_
    exact (exact_fin _ _).need fun _ ts4 h4 => .ok (by omega)
  exact (ex_fin X _).maybe (key _ _ (Nat.le_refl _)) fun _ ts1 h1 => key _ _ (by omega)

theorem forList_fin (X : ExprP E) (ty : Option VarTy) (n : Ident) (ts : List Tok) : (forList X ty n ts).Fin ts.length := by
  unfold forList
  have key : ∀ (input : Option InTy) (ts1 : List Tok), ts1.length ≤ ts.length →
      (((exact .in_ ts1).maybe ts1 fun c ts => match c with
        | some () =>
          (X.ex ts).need fun e ts =>
            (word "to" ts).maybe ts fun c ts =>
              match c with
              | some () => (X.ex ts).need fun e' ts => forRange X ty n (.expr e) e' ts
              | none => (exact .rparen ts).need fun _ ts => .ok (.list ty n input (some e)) ts []
        | none => (exact .rparen ts).need fun _ ts => .ok (.list ty n input none) ts []) : R (ForHead E)).Fin ts.length := by
    intro input ts1 h1
    refine (exact_fin _ _).maybe ((exact_fin _ _).need fun _ ts2 h2 => .ok (by omega)) fun _ ts2 h2 => ?_
    refine (ex_fin X _).need fun _ ts3 h3 => ?_
    refine (word_fin _ _).maybe ((exact_fin _ _).need fun _ ts4 h4 => .ok (by omega)) fun _ ts4 h4 => ?_
    exact (ex_fin X _).need fun _ ts5 h5 => (forRange_fin X _ _ _ _ _).mono (by omega)
  refine (word_fin _ _).maybe (key _ _ (Nat.le_refl _)) fun _ ts1 h1 => ?_
  exact (inTy_fin _).need fun _ ts2 h2 => key _ _ (by omega)

theorem forOne_fin (X : ExprP E) (i : Simple E) (ts : List Tok) : (forOne X i ts).Fin ts.length := by
  unfold forOne
  split
  · split
    · exact forList_fin X _ _ _
    · exact (word_fin _ _).need fun _ ts1 h1 => (ex_fin X _).need fun _ ts2 h2 => (forRange_fin X _ _ _ _ _).mono (by omega)
  · split
    · split
      · trivial
      · exact (word_fin _ _).need fun _ ts1 h1 => (ex_fin X _).need fun _ ts2 h2 =>
          (forRange_fin X _ _ _ _ _).mono (by omega)
    · split
      · split
        · trivial
        · split
          · exact forRange_fin X _ _ _ _ _
          · exact (exact_fin _ _).need fun _ ts1 h1 => .ok (by omega)
      · split
        · trivial
        · exact forList_fin X _ _ _
  · trivial

theorem forRest_fin (X : ExprP E) (i : Option (Simple E)) (k : Option InTy) (ts : List Tok) :
    (forRest X i k ts).Fin ts.length := by
  unfold forRest
  refine (exact_fin _ _).maybe ?_ fun _ ts1 h1 => (forSemi_fin X _ _).mono (by omega)
  refine (exact_fin _ _).maybe ?_ fun _ ts1 h1 => (forComma_fin X _ _ _).mono (by omega)
  simp only
  split
  · exact forOne_fin X _ _
  · exact (exact_fin _ _).need fun _ ts1 h1 => .ok (by omega)

theorem forHead_fin (X : ExprP E) (ts : List Tok) : (forHead X ts).Fin ts.length := by
  unfold forHead
  refine (exact_fin _ _).need fun _ ts1 h1 => ?_
  have key : ∀ (i : Option (Simple E)) (ts2 : List Tok), ts2.length ≤ ts1.length →
      (((word "as" ts2).maybe ts2 fun c ts => match c with
        | some () => (inTy ts).need fun t ts => forRest X i (some t) ts
        | none => forRest X i none ts) : R (ForHead E)).Fin ts.length := by
    intro i ts2 h2
    refine (word_fin _ _).maybe ((forRest_fin X _ _ _).mono (by omega)) fun _ ts3 h3 => ?_
    exact (inTy_fin _).need fun _ ts4 h4 => (forRest_fin X _ _ _).mono (by omega)
  exact (simple_fin X _ _).maybe (key _ _ (Nat.le_refl _)) fun _ ts2 h2 => key _ _ (by omega)

theorem paren_fin (X : ExprP E) (ts : List Tok) : (paren X ts).Fin ts.length := by
  unfold paren
  exact (exact_fin _ _).need fun _ ts1 h1 => (ex_fin X _).need fun _ ts2 h2 => (exact_fin _ _).need fun _ ts3 h3 =>
    .ok (by omega)

theorem case_fin (X : ExprP E) (ts : List Tok) : (case X ts).Fin ts.length := by
  unfold case
  refine (ex_fin X _).need fun _ ts1 h1 => ?_
  exact (word_fin _ _).maybe (.ok (by omega)) fun _ ts2 h2 => (ex_fin X _).need fun _ ts3 h3 => .ok (by omega)

theorem catchParam_fin (ts : List Tok) : (catchParam ts).Fin ts.length := by
  unfold catchParam
  split
  · trivial
  · rename_i h
    exact Decl.treePath_lt h

theorem catchParams_fin (ts : List Tok) : (catchParams ts).Fin (ts.length + 1) := by
  unfold catchParams
  refine (exact_fin _ _).maybe (.ok (by omega)) fun _ ts1 h1 => ?_
  exact (separated_fin catchParam_fin _ _ _ (Nat.lt_succ_self _)).mono (by omega)

theorem delay_fin (X : ExprP E) (ts : List Tok) : (delay X ts).Fin (ts.length + 1) := by
  unfold delay
  refine (exact_fin _ _).maybe (.ok (by omega)) fun _ ts1 h1 => ?_
  refine (ex_fin X _).maybe ?_ fun _ ts2 h2 => ?_
  · exact (exact_fin _ _).need fun _ ts3 h3 => .ok (by omega)
  · exact (exact_fin _ _).need fun _ ts3 h3 => .ok (by omega)

theorem setMode_fin (ts : List Tok) : (setMode ts).Fin ts.length := by
  unfold setMode
  refine (exact_fin _ _).maybe ?_ fun _ ts1 h1 => .ok (by omega)
  exact (exact_fin _ _).need fun _ ts1 h1 => .ok (by omega)

theorem caseHead_fin (X : ExprP E) (ts : List Tok) : (caseHead X ts).Fin ts.length := by
  unfold caseHead
  refine (exact_fin _ _).need fun _ ts1 h1 => ?_
  exact (separated_fin (case_fin X) _ _ _ (Nat.lt_succ_self _)).need fun _ ts2 h2 => .ok (by omega)

/-- nothing is left out for want of fuel -/
theorem enough (X : ExprP E) (f : Nat) :
    (∀ ts, 2 * ts.length + 2 ≤ f → (block X f ts).Fin (ts.length + 1))
      ∧ (∀ ts, 2 * ts.length + 2 ≤ f → (items X f ts).Fin ts.length)
      ∧ (∀ ts, 2 * ts.length + 1 ≤ f → (stmt X f ts).Fin ts.length)
      ∧ (∀ ts, 2 * ts.length + 1 ≤ f → (elses X f ts).Fin (ts.length + 1))
      ∧ (∀ ts, 2 * ts.length + 1 ≤ f → (cases X f ts).Fin (ts.length + 1)) := by
  induction f with
  | zero => exact ⟨fun _ h => by omega, fun _ h => by omega, fun _ h => by omega, fun _ h => by omega, fun _ h => by omega⟩
  | succ f ih =>
    obtain ⟨hb, hi, hs, he, hc⟩ := ih
    refine ⟨fun ts hf => ?_, fun ts hf => ?_, fun ts hf => ?_, fun ts hf => ?_, fun ts hf => ?_⟩
    · rw [block]
      refine (exact_fin _ _).maybe ?_ fun _ ts1 h1 => (hi _ (by omega)).mono (by omega)
      refine (terminator_fin _).maybe ?_ fun _ ts1 h1 => .ok h1
      exact (hs _ (by omega)).need fun _ ts1 h1 => .ok (by omega)
    · rw [items]
      refine (exact_fin _ _).maybe ?_ fun _ ts1 h1 => .ok h1
      refine (exact_fin _ _).maybe ?_ fun _ ts1 h1 => (hi _ (by omega)).mono (by omega)
      exact (hs _ (by omega)).need fun _ ts1 h1 => (hi _ (by omega)).need fun _ ts2 h2 => .ok (by omega)
    · rw [stmt]
      split
      all_goals first
        | (rename_i r h
           have hr := Kw.first_lt h)
        | skip
      · exact (paren_fin X _).need fun _ ts1 h1 => (hb _ (by omega)).need fun _ ts2 h2 =>
          (he _ (by omega)).need fun _ ts3 h3 => .ok (by omega)
      · exact (paren_fin X _).need fun _ ts1 h1 => (hb _ (by omega)).need fun _ ts2 h2 => .ok (by omega)
      · refine (hb _ (by omega)).need fun _ ts1 h1 => ?_
        have := skipSemis_le ts1
        exact (word_fin _ _).need fun _ ts2 h2 => (paren_fin X _).need fun _ ts3 h3 =>
          (terminator_fin _).need fun _ ts4 h4 => .ok (by omega)
      · exact (forHead_fin X _).need fun _ ts1 h1 => (hb _ (by omega)).need fun _ ts2 h2 => .ok (by omega)
      · exact (delay_fin X _).need fun _ ts1 h1 => (hb _ (by omega)).need fun _ ts2 h2 => .ok (by omega)
      · exact (paren_fin X _).need fun _ ts1 h1 => (exact_fin _ _).need fun _ ts2 h2 =>
          (hc _ (by omega)).need fun _ ts3 h3 => (exact_fin _ _).need fun _ ts4 h4 => .ok (by omega)
      · refine (hb _ (by omega)).need fun _ ts1 h1 => ?_
        have := skipSemis_le ts1
        exact (word_fin _ _).need fun _ ts2 h2 => (catchParams_fin _).need fun _ ts3 h3 =>
          (hb _ (by omega)).need fun _ ts4 h4 => .ok (by omega)
      · exact (ident_fin _).need fun _ ts1 h1 => (setMode_fin _).need fun _ ts2 h2 => (ex_fin X _).need fun _ ts3 h3 =>
          (terminator_fin _).need fun _ ts4 h4 => .ok (by omega)
      · exact (ident_fin _).maybe ((terminator_fin _).need fun _ ts2 h2 => .ok (by omega)) fun _ ts1 h1 =>
          (terminator_fin _).need fun _ ts2 h2 => .ok (by omega)
      · exact (ident_fin _).maybe ((terminator_fin _).need fun _ ts2 h2 => .ok (by omega)) fun _ ts1 h1 =>
          (terminator_fin _).need fun _ ts2 h2 => .ok (by omega)
      · exact (ex_fin X _).need fun _ ts1 h1 => (terminator_fin _).need fun _ ts2 h2 => .ok (by omega)
      · refine (simple_fin X _ _).lead fun s ts1 h1 => ?_
        have plain : ((terminator ts1).need fun _ ts => (.ok (.simple s) ts [] : R (Stmt E))).Fin ts.length :=
          (terminator_fin _).need fun _ ts2 h2 => .ok (by omega)
        simp only
        split
        · split
          · refine (exact_fin _ _).maybe plain fun _ ts2 h2 => ?_
            exact (hb _ (by omega)).need fun _ ts3 h3 => .ok (by omega)
          · exact plain
        · exact plain
    · rw [elses]
      have := skipSemis_le ts
      refine (word_fin _ _).maybe (.ok (by omega)) fun _ ts1 h1 => ?_
      refine (word_fin _ _).maybe ?_ fun _ ts2 h2 => ?_
      · exact (hb _ (by omega)).need fun _ ts2 h2 => .ok (by omega)
      · exact (paren_fin X _).need fun _ ts3 h3 => (hb _ (by omega)).need fun _ ts4 h4 =>
          (he _ (by omega)).need fun _ ts5 h5 => .ok (by omega)
    · rw [cases]
      refine (word_fin _ _).maybe ?_ fun _ ts1 h1 => ?_
      · refine (word_fin _ _).maybe ?_ fun _ ts1 h1 => ?_
        · refine (exact_fin _ _).maybe (.ok (by omega)) fun _ ts1 h1 => (hc _ (by omega)).mono (by omega)
        · exact (hb _ (by omega)).need fun _ ts2 h2 => .ok (by omega)
      · exact (caseHead_fin X _).need fun _ ts2 h2 => (hb _ (by omega)).need fun _ ts3 h3 =>
          (hc _ (by omega)).need fun _ ts4 h4 => .ok (by omega)

end Verif.Stmt
