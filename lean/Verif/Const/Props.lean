import Verif.Const.Complete

/-!
# Properties of constant evaluation (C36)
-/

namespace Verif.Const

variable {lib : Lib} {env : Env}

/-! ## Termination -/

theorem idle_le (s : State) : idle env s ≤ env.vars.length := by
  unfold idle
  exact le_trans List.countP_le_length (by simp)

/-- **C36** evaluation ends, from any state: evaluations are nested no deeper than there are variables -/
theorem evaluation_terminates (lib : Lib) (env : Env) (k : Key) (must : Bool) (s : State) (n : Nat)
    (hn : env.vars.length ≤ n) : ∃ r s', lookupVar lib env n k must s = some (r, s') := by
  obtain ⟨r, s', h, _⟩ := lookupVar_total (lib := lib) n k must s (le_trans (idle_le s) hn)
  exact ⟨r, s', h⟩

/-- **C36** … and the bound on nesting has no influence on the outcome -/
theorem evaluation_bound_irrelevant (lib : Lib) (env : Env) (k : Key) (must : Bool) (s : State) (n m : Nat)
    (hn : env.vars.length ≤ n) (hm : env.vars.length ≤ m) :
    lookupVar lib env n k must s = lookupVar lib env m k must s := by
  obtain ⟨r, s', h⟩ := evaluation_terminates lib env k must s n hn
  obtain ⟨r2, s2, h2⟩ := evaluation_terminates lib env k must s m hm
  rcases Nat.le_total n m with hle | hle
  · rw [h, lookupVar_mono n m hle k must s _ h]
  · rw [h2, lookupVar_mono m n hle k must s _ h2]

/-- evaluation of a variable (`constant_ident_lookup`) -/
def evalVar (lib : Lib) (env : Env) (k : Key) (must : Bool) (s : State) : Except Err Found × State :=
  match lookupVar lib env env.vars.length k must s with
  | some x => x
  | none => (.error .other, s)

theorem evalVar_eq (k : Key) (must : Bool) (s : State) :
    lookupVar lib env env.vars.length k must s = some (evalVar lib env k must s) := by
  obtain ⟨r, s', h⟩ := evaluation_terminates lib env k must s _ (le_refl _)
  unfold evalVar
  rw [h]

/-- the states that can arise: any variables have been evaluated in any order -/
inductive Reachable (lib : Lib) (env : Env) : State → Prop where
  | start : Reachable lib env (State.init env)
  | step {s : State} (k : Key) (must : Bool) : Reachable lib env s → Reachable lib env (evalVar lib env k must s).2

theorem Reachable.tidy {s : State} (h : Reachable lib env s) : Tidy lib env s := by
  induction h with
  | start => exact Tidy.init
  | step k must _ ih => exact lookupVar_tidy _ k must _ _ _ ih (evalVar_eq k must _)

/-! ## Soundness -/

/-- **C36** whatever was evaluated before, a constant that comes out is the value of the variable -/
theorem evaluated_is_value {s : State} (hs : Reachable lib env s) (k : Key) (must : Bool) (c : Cst)
    (h : (evalVar lib env k must s).1 = .ok (.found c)) : Value lib env k c :=
  (lookupVar_sound _ k must s _ _ hs.tidy.sound (evalVar_eq k must s)).2.1 c h

/-- **C36** the constants on record are the values of their variables -/
theorem recorded_is_value {s : State} (hs : Reachable lib env s) (k : Key) (c : Cst) (hd : env.decl k.1 k.2 ≠ none)
    (h : s.done k = some c) : Value lib env k c := hs.tidy.sound.value k c h hd

/-- the value of a variable is unique -/
theorem value_unique {k : Key} {c c' : Cst} (h : Value lib env k c) (h' : Value lib env k c') : c = c' := h.unique h'

/-- **C36** two evaluations of the same variable, at any two times, never give different constants -/
theorem evaluation_deterministic {s s' : State} (hs : Reachable lib env s) (hs' : Reachable lib env s') (k : Key)
    (must must' : Bool) (c c' : Cst) (h : (evalVar lib env k must s).1 = .ok (.found c))
    (h' : (evalVar lib env k must' s').1 = .ok (.found c')) : c = c' :=
  (evaluated_is_value hs k must c h).unique (evaluated_is_value hs' k must' c' h')

/-! ## Cycles -/

/-- what a lookup of a variable that exists gives: a constant or an error -/
theorem evalVar_cases {s : State} (hs : Reachable lib env s) (k : Key) (must : Bool) (hd : env.decl k.1 k.2 ≠ none)
    (hv : env.var k ≠ none) :
    (∃ c, (evalVar lib env k must s).1 = .ok (.found c)) ∨ ∃ e, (evalVar lib env k must s).1 = .error e := by
  obtain ⟨_, _, hu, hn⟩ := lookupVar_sound _ k must s _ _ hs.tidy.sound (evalVar_eq (lib := lib) k must s)
  cases hr : (evalVar lib env k must s).1 with
  | error e => exact Or.inr ⟨e, rfl⟩
  | ok f =>
    cases f with
    | found c => exact Or.inl ⟨c, rfl⟩
    | undeclared => exact absurd (hu.1 hr) hd
    | next => exact absurd (hn.1 hr).2 hv

theorem refers_exists {k k' : Key} (h : Relation.TransGen (RefersTo lib env) k k') :
    env.decl k.1 k.2 ≠ none ∧ env.var k ≠ none := by
  have : ∃ k1, RefersTo lib env k k1 := by
    induction h using Relation.TransGen.head_induction_on with
    | single h => exact ⟨_, h⟩
    | head h _ _ => exact ⟨_, h⟩
  obtain ⟨_, d, v, e, hd, hv, _⟩ := this
  exact ⟨by rw [hd]; simp, by rw [hv]; simp⟩

/-- **C36** a variable whose definition refers to itself through any chain of variables is an error, whatever was
evaluated before -/
theorem cycle_is_error {s : State} (hs : Reachable lib env s) (k : Key) (must : Bool)
    (h : Relation.TransGen (RefersTo lib env) k k) : ∃ e, (evalVar lib env k must s).1 = .error e := by
  obtain ⟨hd, hv⟩ := refers_exists h
  rcases evalVar_cases hs k must hd hv with ⟨c, hc⟩ | he
  · exact absurd (evaluated_is_value hs k must c hc) (cycle_no_value h c)
  · exact he

/-- **C36** … and so is a variable whose definition leads to such a cycle -/
theorem leads_to_cycle_is_error {s : State} (hs : Reachable lib env s) (k k' : Key) (must : Bool)
    (h : Relation.TransGen (RefersTo lib env) k k') (hc : Relation.TransGen (RefersTo lib env) k' k') :
    ∃ e, (evalVar lib env k must s).1 = .error e := by
  obtain ⟨hd, hv⟩ := refers_exists h
  rcases evalVar_cases hs k must hd hv with ⟨c, hcc⟩ | he
  · exact absurd (evaluated_is_value hs k must c hcc) (reaches_cycle_no_value h hc c)
  · exact he

/-! ## Completeness -/

/-- **C36** a variable with a value gets it, whatever was evaluated before and whatever errors there were -/
theorem value_is_found {s : State} (hs : Reachable lib env s) (k : Key) (c : Cst) (h : StrictValue lib env k c) :
    (evalVar lib env k false s).1 = .ok (.found c) := by
  obtain ⟨n, hn⟩ := h
  exact (lookupVar_hits n _ k c false s _ _ hn (fun h => by cases h) hs.tidy.sound (hs.tidy.below n)
    (evalVar_eq k false s)).1

theorem valueAt_strict (h : ∀ k, env.decl k.1 k.2 ≠ none → env.var k ≠ none → constOk env k = true) (n : Nat) (k : Key) :
    valueAt true lib env n k = valueAt false lib env n k := by
  induction n generalizing k with
  | zero => rfl
  | succ n ih =>
    cases hd : env.decl k.1 k.2 with
    | none => simp only [valueAt, hd]
    | some d =>
      cases hv : env.var k with
      | none => simp only [valueAt, hd, hv]
      | some v =>
        cases hcc : v.const with
        | some c => simp only [valueAt, hd, hv, hcc]
        | none =>
          cases he : v.expr with
          | none => simp only [valueAt, hd, hv, hcc, he]
          | some e =>
            rw [valueAt_succ hd hv hcc he, valueAt_succ hd hv hcc he]
            have : seen true lib env n = seen false lib env n := by
              funext t name must
              unfold seen
              cases hk : resolve env t name with
              | none => rfl
              | some k' =>
                obtain ⟨h1, h2, _⟩ := resolveIn_spec hk
                simp [h k' h1 h2, ih k']
            rw [this]

/-- **C36** when every variable may be read everywhere (for example, all are `const`), the outcome does not depend
on what was evaluated before: the value if there is one, an error if there is none -/
theorem outcome_is_fixed (hall : ∀ k, env.decl k.1 k.2 ≠ none → env.var k ≠ none → constOk env k = true)
    {s : State} (hs : Reachable lib env s) (k : Key) (hd : env.decl k.1 k.2 ≠ none) (hv : env.var k ≠ none) :
    (∀ c, (evalVar lib env k false s).1 = .ok (.found c) ↔ Value lib env k c) ∧
      ((∃ e, (evalVar lib env k false s).1 = .error e) ↔ ∀ c, ¬ Value lib env k c) := by
  have h1 : ∀ c, (evalVar lib env k false s).1 = .ok (.found c) ↔ Value lib env k c := by
    intro c
    refine ⟨evaluated_is_value hs k false c, fun h => value_is_found hs k c ?_⟩
    obtain ⟨n, hn⟩ := h
    exact ⟨n, by rw [valueAt_strict hall]; exact hn⟩
  refine ⟨h1, ?_⟩
  constructor
  · rintro ⟨e, he⟩ c hc
    rw [(h1 c).2 hc] at he
    cases he
  · intro hno
    rcases evalVar_cases hs k false hd hv with ⟨c, hc⟩ | he
    · exact absurd ((h1 c).1 hc) (hno c)
    · exact he

/-! ## Memoisation -/

/-- constants stay on record -/
def Keeps (s s' : State) : Prop := ∀ k, s.done k ≠ none → s'.done k ≠ none

theorem Keeps.refl (s : State) : Keeps s s := fun _ h => h
theorem Keeps.trans {a b c : State} (h : Keeps a b) (h' : Keeps b c) : Keeps a c := fun k hk => h' k (h k hk)
theorem Keeps.setDone (s : State) (k : Key) (c : Cst) : Keeps s (s.setDone k c) := by
  intro k' h
  simp only [State.setDone]
  by_cases hk : k' = k
  · rw [if_pos hk]; simp
  · rw [if_neg hk]; exact h

theorem run_keeps {α : Type} {rec : Nat → Ident → Bool → Look Cst}
    (h : ∀ t n m s r s', rec t n m s = some (r, s') → Keeps s s') (p : Comp α) (s : State) (r : Except Err α)
    (s' : State) (hr : run rec p s = some (r, s')) : Keeps s s' := by
  induction p generalizing s with
  | ret a =>
    simp only [run, Option.some.injEq, Prod.mk.injEq] at hr
    obtain ⟨_, rfl⟩ := hr
    exact Keeps.refl s
  | err e =>
    simp only [run, Option.some.injEq, Prod.mk.injEq] at hr
    obtain ⟨_, rfl⟩ := hr
    exact Keeps.refl s
  | look t n m f ih =>
    simp only [run] at hr
    cases hq : rec t n m s with
    | none => rw [hq] at hr; cases hr
    | some q =>
      obtain ⟨r1, s1⟩ := q
      rw [hq] at hr
      cases r1 with
      | error e =>
        simp only [Option.some.injEq, Prod.mk.injEq] at hr
        obtain ⟨_, rfl⟩ := hr
        exact h _ _ _ _ _ _ hq
      | ok c => exact (h _ _ _ _ _ _ hq).trans (ih c s1 hr)

theorem identLookup_keeps {rec : Nat → Ident → Bool → Look Cst}
    (h : ∀ t n m s r s', rec t n m s = some (r, s') → Keeps s s') (k : Key) (must : Bool) (s : State)
    (r : Except Err Found) (s' : State) (hr : identLookup rec lib env k must s = some (r, s')) :
    Keeps s s' ∧ ∀ c, r = .ok (.found c) → s'.done k = some c := by
  have same : ∀ x : Except Err Found, (∀ c, x ≠ .ok (.found c)) → some (x, s) = some (r, s') →
      Keeps s s' ∧ ∀ c, r = .ok (.found c) → s'.done k = some c := by
    intro x hx he
    simp only [Option.some.injEq, Prod.mk.injEq] at he
    obtain ⟨rfl, rfl⟩ := he
    exact ⟨Keeps.refl s, fun c hc => absurd hc (hx c)⟩
  unfold identLookup at hr
  cases hd : env.decl k.1 k.2 with
  | none => rw [hd] at hr; exact same _ (fun c => by simp) hr
  | some d =>
    rw [hd] at hr
    simp only at hr
    cases hv : env.var k with
    | none => rw [hv] at hr; exact same _ (fun c => by simp) hr
    | some v =>
      rw [hv] at hr
      simp only at hr
      cases hdone : s.done k with
      | some c =>
        rw [hdone] at hr
        simp only [Option.some.injEq, Prod.mk.injEq] at hr
        obtain ⟨rfl, rfl⟩ := hr
        refine ⟨Keeps.refl s, fun c' hc' => ?_⟩
        cases hc'
        exact hdone
      | none =>
        rw [hdone] at hr
        simp only at hr
        cases he : v.expr with
        | none =>
          rw [he] at hr
          simp only [Option.some.injEq, Prod.mk.injEq] at hr
          obtain ⟨rfl, rfl⟩ := hr
          refine ⟨Keeps.setDone _ _ _, fun c' hc' => ?_⟩
          cases hc'
          simp [State.setDone]
        | some e =>
          rw [he] at hr
          simp only at hr
          split_ifs at hr
          · exact same _ (fun c => by simp) hr
          · exact same _ (fun c => by simp) hr
          · exact same _ (fun c => by simp) hr
          · unfold evaluate at hr
            cases hrun : run rec (defComp lib env k d e) (s.setBusy k true) with
            | none => rw [hrun] at hr; cases hr
            | some q =>
              obtain ⟨r1, s1⟩ := q
              rw [hrun] at hr
              have hk : Keeps s s1 := run_keeps h _ (s.setBusy k true) _ _ hrun
              cases r1 with
              | error err =>
                simp only [Option.some.injEq, Prod.mk.injEq] at hr
                obtain ⟨rfl, rfl⟩ := hr
                exact ⟨hk, fun c hc => by cases hc⟩
              | ok c =>
                simp only [Option.some.injEq, Prod.mk.injEq] at hr
                obtain ⟨rfl, rfl⟩ := hr
                refine ⟨hk.trans (Keeps.setDone s1 k c), fun c' hc' => ?_⟩
                cases hc'
                simp [State.setDone, State.setBusy]

theorem climb_keeps {at_ : Key → Bool → Look Found} (h : ∀ k m s r s', at_ k m s = some (r, s') → Keeps s s')
    (name : Ident) (must : Bool) (l : List Nat) (s : State) (r : Except Err Cst) (s' : State)
    (hr : climb at_ name must l s = some (r, s')) : Keeps s s' := by
  induction l generalizing s with
  | nil =>
    simp only [climb, Option.some.injEq, Prod.mk.injEq] at hr
    obtain ⟨_, rfl⟩ := hr
    exact Keeps.refl s
  | cons t ts ih =>
    unfold climb at hr
    cases hq : at_ (t, name) must s with
    | none => rw [hq] at hr; cases hr
    | some q =>
      obtain ⟨r1, s1⟩ := q
      rw [hq] at hr
      have h1 := h _ _ _ _ _ hq
      cases r1 with
      | error e =>
        simp only [Option.some.injEq, Prod.mk.injEq] at hr
        obtain ⟨_, rfl⟩ := hr
        exact h1
      | ok f =>
        cases f with
        | found c =>
          simp only [Option.some.injEq, Prod.mk.injEq] at hr
          obtain ⟨_, rfl⟩ := hr
          exact h1
        | undeclared =>
          simp only [Option.some.injEq, Prod.mk.injEq] at hr
          obtain ⟨_, rfl⟩ := hr
          exact h1
        | next => exact h1.trans (ih s1 hr)

theorem recLookup_keeps (n : Nat) (t : Nat) (name : Ident) (must : Bool) (s : State) (r : Except Err Cst) (s' : State)
    (hr : recLookup lib env n t name must s = some (r, s')) : Keeps s s' := by
  induction n generalizing t name must s r s' with
  | zero => cases hr
  | succ n ih =>
    exact climb_keeps (fun k m s r s' hr => (identLookup_keeps (fun t nm m s r s' hr => ih t nm m s r s' hr) k m s r s' hr).1)
      name must _ s r s' hr

theorem lookupVar_keeps (n : Nat) (k : Key) (must : Bool) (s : State) (r : Except Err Found) (s' : State)
    (hr : lookupVar lib env n k must s = some (r, s')) :
    Keeps s s' ∧ ∀ c, r = .ok (.found c) → s'.done k = some c :=
  identLookup_keeps (fun t nm m s r s' hr => recLookup_keeps n t nm m s r s' hr) k must s r s' hr

/-- later evaluations -/
inductive Later (lib : Lib) (env : Env) (s : State) : State → Prop where
  | refl : Later lib env s s
  | step {s' : State} (k : Key) (must : Bool) : Later lib env s s' → Later lib env s (evalVar lib env k must s').2

theorem Later.keeps {s s' : State} (h : Later lib env s s') : Keeps s s' := by
  induction h with
  | refl => exact Keeps.refl s
  | step k must _ ih => exact ih.trans (lookupVar_keeps _ k must _ _ _ (evalVar_eq k must _)).1

theorem Later.reachable {s s' : State} (h : Later lib env s s') (hs : Reachable lib env s) : Reachable lib env s' := by
  induction h with
  | refl => exact hs
  | step k must _ ih => exact .step k must ih

/-- **C36** once a variable has been evaluated, the constant is on record, and every later lookup finds the same
constant and changes nothing -/
theorem evaluation_memoised {s s' : State} (hs : Reachable lib env s) (k : Key) (must must' : Bool) (c : Cst)
    (h : (evalVar lib env k must s).1 = .ok (.found c)) (hl : Later lib env (evalVar lib env k must s).2 s') :
    s'.done k = some c ∧ evalVar lib env k must' s' = (.ok (.found c), s') := by
  have hval := evaluated_is_value hs k must c h
  have h1 := (lookupVar_keeps _ k must s _ _ (evalVar_eq (lib := lib) k must s)).2 c h
  have h2 : s'.done k ≠ none := hl.keeps k (fun hx => by rw [show (evalVar lib env k must s).2.done k = some c from h1] at hx; cases hx)
  have hr' : Reachable lib env s' := hl.reachable (.step k must hs)
  have hdv : env.decl k.1 k.2 ≠ none ∧ env.var k ≠ none := by
    obtain ⟨n, hn⟩ := hval
    cases n with
    | zero => cases hn
    | succ n =>
      constructor
      · intro hd; simp [valueAt, hd] at hn
      · intro hv
        cases hd : env.decl k.1 k.2 <;> simp [valueAt, hd, hv] at hn
  cases hd' : s'.done k with
  | none => exact absurd hd' h2
  | some c' =>
    have : c' = c := (recorded_is_value hr' k c' hdv.1 hd').unique hval
    subst this
    refine ⟨rfl, ?_⟩
    have := evalVar_eq (lib := lib) (env := env) k must' s'
    rw [← Option.some.injEq, ← this]
    unfold lookupVar identLookup
    cases hd : env.decl k.1 k.2 with
    | none => exact absurd hd hdv.1
    | some d =>
      cases hv : env.var k with
      | none => exact absurd hv hdv.2
      | some v => simp only [hd']

/-! ## `evaluate_all` -/

theorem evaluateAllFrom_spec (lib : Lib) (env : Env) (ks : List Key) (s : State) (hs : Reachable lib env s) :
    ∃ errs s', evaluateAllFrom lib env env.vars.length ks s = some (errs, s') ∧ Later lib env s s' ∧
      (∀ k ∈ ks, env.included k = true → ∀ c, StrictValue lib env k c → s'.done k = some c) ∧
      (∀ k e, (k, e) ∈ errs → k ∈ ks ∧ env.included k = true ∧ ∀ c, ¬ StrictValue lib env k c) ∧
      (∀ k ∈ ks, env.included k = true → (∀ c, ¬ Value lib env k c) → ∃ e, (k, e) ∈ errs) := by
  induction ks generalizing s with
  | nil => exact ⟨[], s, rfl, .refl, by simp, by simp, by simp⟩
  | cons k ks ih =>
    have later_trans : ∀ {a b c : State}, Later lib env a b → Later lib env b c → Later lib env a c := by
      intro a b c h1 h2
      induction h2 with
      | refl => exact h1
      | step k m _ ih => exact .step k m ih
    by_cases hi : env.included k = true
    · obtain ⟨errs, s', he, hl, h1, h2, h3⟩ := ih _ (.step k false hs)
      unfold evaluateAllFrom
      rw [if_pos hi, evalVar_eq]
      simp only [he]
      have hl' : Later lib env s s' := later_trans (.step k false .refl) hl
      have hdone : ∀ c, StrictValue lib env k c → s'.done k = some c := fun c hc =>
        (evaluation_memoised hs k false false c (value_is_found hs k c hc) hl).1
      have hno : (∀ c, (evalVar lib env k false s).1 ≠ .ok (.found c)) → ∀ c, ¬ StrictValue lib env k c :=
        fun h c hc => h c (value_is_found hs k c hc)
      have common : ∀ e, (∀ c, (evalVar lib env k false s).1 ≠ .ok (.found c)) →
          (∀ k' ∈ k :: ks, env.included k' = true → ∀ c, StrictValue lib env k' c → s'.done k' = some c) ∧
          (∀ k' e', (k', e') ∈ (k, e) :: errs → k' ∈ k :: ks ∧ env.included k' = true ∧ ∀ c, ¬ StrictValue lib env k' c) ∧
          (∀ k' ∈ k :: ks, env.included k' = true → (∀ c, ¬ Value lib env k' c) → ∃ e', (k', e') ∈ (k, e) :: errs) := by
        intro e hne
        refine ⟨?_, ?_, ?_⟩
        · intro k' hk' hin c hc
          rcases List.mem_cons.1 hk' with rfl | hk'
          · exact hdone c hc
          · exact h1 k' hk' hin c hc
        · intro k' e' hm
          rcases List.mem_cons.1 hm with hm | hm
          · cases hm
            exact ⟨by simp, hi, hno hne⟩
          · obtain ⟨a, b, c⟩ := h2 k' e' hm
            exact ⟨List.mem_cons_of_mem _ a, b, c⟩
        · intro k' hk' hin hv
          rcases List.mem_cons.1 hk' with rfl | hk'
          · exact ⟨e, by simp⟩
          · obtain ⟨e', he'⟩ := h3 k' hk' hin hv
            exact ⟨e', List.mem_cons_of_mem _ he'⟩
      cases hr : (evalVar lib env k false s).1 with
      | error e =>
        obtain ⟨a, b, c⟩ := common e (by rw [hr]; simp)
        exact ⟨_, s', rfl, hl', a, b, c⟩
      | ok f =>
        cases f with
        | next =>
          obtain ⟨a, b, c⟩ := common (.unknownVar k.2) (by rw [hr]; simp)
          exact ⟨_, s', rfl, hl', a, b, c⟩
        | undeclared =>
          obtain ⟨a, b, c⟩ := common (.unknownVar k.2) (by rw [hr]; simp)
          exact ⟨_, s', rfl, hl', a, b, c⟩
        | found c0 =>
          refine ⟨errs, s', rfl, hl', ?_, ?_, ?_⟩
          · intro k' hk' hin c hc
            rcases List.mem_cons.1 hk' with rfl | hk'
            · exact hdone c hc
            · exact h1 k' hk' hin c hc
          · intro k' e' hm
            obtain ⟨a, b, c⟩ := h2 k' e' hm
            exact ⟨List.mem_cons_of_mem _ a, b, c⟩
          · intro k' hk' hin hv
            rcases List.mem_cons.1 hk' with rfl | hk'
            · exact absurd (evaluated_is_value hs k' false c0 hr) (hv c0)
            · exact h3 k' hk' hin hv
    · obtain ⟨errs, s', he, hl, h1, h2, h3⟩ := ih s hs
      unfold evaluateAllFrom
      rw [if_neg hi]
      refine ⟨errs, s', he, hl, ?_, ?_, ?_⟩
      · intro k' hk' hin
        rcases List.mem_cons.1 hk' with rfl | hk'
        · exact absurd hin hi
        · exact h1 k' hk' hin
      · intro k' e' hm
        obtain ⟨a, b, c⟩ := h2 k' e' hm
        exact ⟨List.mem_cons_of_mem _ a, b, c⟩
      · intro k' hk' hin
        rcases List.mem_cons.1 hk' with rfl | hk'
        · exact absurd hin hi
        · exact h3 k' hk' hin

/-- **C36** evaluating all variables ends; every variable that is taken in and has a value has it on record, every
constant on record is a value, and the variables reported are such that none with a value is among them and all
without any value are -/
theorem evaluate_all_correct (lib : Lib) (env : Env) :
    ∃ errs s, evaluateAll lib env env.vars.length = some (errs, s) ∧
      (∀ k ∈ env.vars.map (·.1), env.included k = true → ∀ c, StrictValue lib env k c → s.done k = some c) ∧
      (∀ k c, env.decl k.1 k.2 ≠ none → s.done k = some c → Value lib env k c) ∧
      (∀ k e, (k, e) ∈ errs → ∀ c, ¬ StrictValue lib env k c) ∧
      (∀ k ∈ env.vars.map (·.1), env.included k = true → (∀ c, ¬ Value lib env k c) → ∃ e, (k, e) ∈ errs) := by
  obtain ⟨errs, s, h, hl, h1, h2, h3⟩ := evaluateAllFrom_spec lib env (env.vars.map (·.1)) _ .start
  exact ⟨errs, s, h, h1, fun k c hd hc => recorded_is_value (hl.reachable .start) k c hd hc, fun k e hm => (h2 k e hm).2.2, h3⟩

/-! ## Examples, and what the order of evaluation can change -/

namespace Demo

def lib0 : Lib :=
  { powf := fun a _ => a
    sin := id
    cos := id
    asin := id
    acos := id
    colour := fun _ _ _ _ => (0, 0, 0) }

def plain : Decl := ⟨false, false, false, []⟩
def var (e : Expr) : Var := ⟨some e, none, some plain⟩
def ref (name : String) : Expr := .base (.ident name.toList) []
def num (i : Int) : Expr := .base (.int i) []

/-- `a = b + 1`, `b = 2` on one type, and `b = 40` on its subtype; `x = y`, `y = x` -/
def env0 : Env :=
  { vars :=
      [((1, "a".toList), var (.binary .add (ref "b") (num 1))),
       ((1, "b".toList), var (num 2)),
       ((2, "b".toList), ⟨some (num 40), none, none⟩),
       ((2, "c".toList), var (.binary .mul (ref "a") (ref "b"))),
       ((1, "x".toList), var (ref "y")),
       ((1, "y".toList), var (ref "x")),
       ((1, "z".toList), var (.ternary (.base (.string ['t']) []) (ref "x") (num 0)))]
    parent := fun t => if t = 2 then some 1 else if t = 1 then some 0 else none
    depth := 2
    path := fun _ => []
    find := fun _ => none
    navigate := fun _ _ => none
    getProc := fun _ _ => none }

theorem value_a : valueAt true lib0 env0 2 (1, "a".toList) = some (.float (F32.ofInt 3)) := by
  have h : valueAt true lib0 env0 2 (1, "a".toList) = some (.float (F32.add (F32.ofInt 2) (F32.ofInt 1))) := rfl
  rw [h, F32.add_ofInt 2 1 (by norm_num) (by norm_num)]
  rfl
-- `a` is inherited: it is evaluated where it is defined
example : valueAt true lib0 env0 3 (2, "c".toList) =
    some (.float (F32.mul (F32.add (F32.ofInt 2) (F32.ofInt 1)) (F32.ofInt 40))) := by rfl

theorem x_y : RefersTo lib0 env0 (1, "x".toList) (1, "y".toList) :=
  ⟨plain, var (ref "y"), ref "y", rfl, rfl, rfl, rfl, .here rfl⟩
theorem y_x : RefersTo lib0 env0 (1, "y".toList) (1, "x".toList) :=
  ⟨plain, var (ref "x"), ref "x", rfl, rfl, rfl, rfl, .here rfl⟩
theorem cycle_x : Relation.TransGen (RefersTo lib0 env0) (1, "x".toList) (1, "x".toList) := .tail (.single x_y) y_x

example : ∃ e, (evalVar lib0 env0 (1, "x".toList) false (State.init env0)).1 = .error e :=
  cycle_is_error .start _ _ cycle_x
example : (evalVar lib0 env0 (1, "x".toList) false (State.init env0)).1 = .error (.recursive "x".toList) := by rfl
theorem z_x : RefersTo lib0 env0 (1, "z".toList) (1, "x".toList) :=
  ⟨plain, var (.ternary (.base (.string ['t']) []) (ref "x") (num 0)), _, rfl, rfl, rfl, rfl, .here rfl⟩
example : ∃ e, (evalVar lib0 env0 (1, "z".toList) false (State.init env0)).1 = .error e :=
  leads_to_cycle_is_error .start _ _ _ (.single z_x) cycle_x
example : (evalVar lib0 env0 (1, "a".toList) false (evalVar lib0 env0 (1, "x".toList) false (State.init env0)).2).1 =
    .ok (.found (.float (F32.ofInt 3))) :=
  value_is_found (.step _ _ .start) _ _ ⟨2, value_a⟩
example : env0.included (1, "a".toList) = true := by rfl

/-- `f = GLOB.N`, where `GLOB` is a `null` of type `/g`, and `N = 5` on `/g` is not `const` -/
def glob : Env :=
  { vars :=
      [((0, "GLOB".toList), ⟨none, none, some ⟨false, false, false, ["g".toList]⟩⟩),
       ((1, "f".toList), var (.base (.ident "GLOB".toList) [.field "N".toList])),
       ((2, "N".toList), var (num 5))]
    parent := fun t => if t = 0 then none else some 0
    depth := 2
    path := fun _ => []
    find := fun p => if p = "/g".toList then some 2 else none
    navigate := fun _ _ => none
    getProc := fun _ _ => none }

/-- **disagreement** a variable that is not `const` may not be read through a typed `null`, unless it happens to
have been evaluated already: the result depends on the order of evaluation -/
theorem order_matters_for_non_const :
    (evalVar lib0 glob (1, "f".toList) false (State.init glob)).1 = .error (.notConst "N".toList) ∧
      (evalVar lib0 glob (1, "f".toList) false (evalVar lib0 glob (2, "N".toList) false (State.init glob)).2).1 =
        .ok (.found (.float (F32.ofInt 5))) := ⟨rfl, rfl⟩

/-- **disagreement** after such an error the variable is reported as recursive, although there is no cycle -/
theorem error_leaves_mark :
    (evalVar lib0 glob (1, "f".toList) false (evalVar lib0 glob (1, "f".toList) false (State.init glob)).2).1 =
      .error (.recursive "f".toList) := rfl

/-- **disagreement** both sides of `&&` and `||` are evaluated: `0 && x` with an unknown `x` is an error -/
theorem and_is_not_lazy (s : State) :
    run (recLookup lib0 env0 5) (evalExpr (treeCtx lib0 env0 1) none (.binary .and (num 0) (ref "nope"))) s =
      some (.error (.unknownVar "nope".toList), s) := rfl

end Demo

end Verif.Const
