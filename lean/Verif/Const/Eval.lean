import Verif.Const.Spec
import Mathlib.Logic.Relation
import Mathlib.Data.List.Basic

/-!
# Evaluation of variables: termination, and agreement with the specification
-/

namespace Verif.Const

variable {lib : Lib} {env : Env}

/-! ## Termination -/

/-- a variable that may still be evaluated -/
def idleKey (s : State) (k : Key) : Bool := (s.done k).isNone && !s.busy k

/-- how many variables may still be evaluated -/
def idle (env : Env) (s : State) : Nat := (env.vars.map (·.1)).countP (idleKey s)

/-- nothing becomes idle -/
def Settles (s s' : State) : Prop := ∀ k, idleKey s' k = true → idleKey s k = true

theorem Settles.refl (s : State) : Settles s s := fun _ h => h

theorem Settles.trans {a b c : State} (h : Settles a b) (h' : Settles b c) : Settles a c := fun k hk => h k (h' k hk)

theorem Settles.idle {s s' : State} (h : Settles s s') : idle env s' ≤ idle env s :=
  List.countP_mono_left fun k _ hk => h k hk

theorem countP_lt {α : Type} (p q : α → Bool) (l : List α) (hpq : ∀ x, p x = true → q x = true) (x : α)
    (hx : x ∈ l) (hq : q x = true) (hp : p x = false) : l.countP p < l.countP q := by
  induction l with
  | nil => cases hx
  | cons a t ih =>
    have hle : t.countP p ≤ t.countP q := List.countP_mono_left fun y _ hy => hpq y hy
    rcases List.mem_cons.1 hx with rfl | hx
    · rw [List.countP_cons_of_pos hq, List.countP_cons_of_neg (by simp [hp])]
      omega
    · have := ih hx
      by_cases ha : q a = true
      · rw [List.countP_cons_of_pos ha]
        by_cases hb : p a = true
        · rw [List.countP_cons_of_pos hb]; omega
        · rw [List.countP_cons_of_neg hb]; omega
      · rw [List.countP_cons_of_neg ha, List.countP_cons_of_neg (fun hb => ha (hpq a hb))]
        exact this

theorem var_mem {k : Key} {v : Var} (h : env.var k = some v) : k ∈ env.vars.map (·.1) := by
  unfold Env.var at h
  rw [Option.map_eq_some_iff] at h
  obtain ⟨p, hp, _⟩ := h
  have h1 := List.find?_some hp
  have h2 := List.mem_of_find?_eq_some hp
  rw [List.mem_map]
  exact ⟨p, h2, of_decide_eq_true h1⟩

theorem setBusy_settles (s : State) (k : Key) : Settles s (s.setBusy k true) := by
  intro k' h
  unfold idleKey State.setBusy at *
  simp only [Bool.and_eq_true, Bool.not_eq_true'] at *
  by_cases hk : k' = k
  · simp [hk] at h
  · simpa [hk] using h

theorem setBusy_idle {s : State} {k : Key} {v : Var} (hv : env.var k = some v) (hd : s.done k = none)
    (hb : s.busy k = false) : idle env (s.setBusy k true) < idle env s := by
  refine countP_lt _ _ _ (setBusy_settles s k) k (var_mem hv) ?_ ?_
  · simp [idleKey, hd, hb]
  · simp [idleKey, State.setBusy]

theorem setDone_settles (s : State) (k : Key) (c : Cst) : Settles s (s.setDone k c) := by
  intro k' h
  unfold idleKey State.setDone at *
  simp only [Bool.and_eq_true, Bool.not_eq_true'] at *
  by_cases hk : k' = k
  · simp [hk] at h
  · simpa [hk] using h

theorem finish_settles (s : State) (k : Key) (c : Cst) : Settles s ((s.setDone k c).setBusy k false) := by
  intro k' h
  unfold idleKey State.setDone State.setBusy at *
  simp only [Bool.and_eq_true, Bool.not_eq_true'] at *
  by_cases hk : k' = k
  · simp [hk] at h
  · simpa [hk] using h

/-- a lookup that answers whenever at most `B` variables are idle -/
def Total {α : Type} (env : Env) (B : Nat) (f : Look α) : Prop :=
  ∀ s, idle env s ≤ B → ∃ r s', f s = some (r, s') ∧ Settles s s'

theorem run_total {α : Type} {B : Nat} {rec : Nat → Ident → Bool → Look Cst}
    (h : ∀ t n m, Total env B (rec t n m)) (c : Comp α) : Total env B (run rec c) := by
  induction c with
  | ret a => intro s _; exact ⟨_, _, rfl, Settles.refl s⟩
  | err e => intro s _; exact ⟨_, _, rfl, Settles.refl s⟩
  | look t n m k ih =>
    intro s hs
    obtain ⟨r, s', hr, hm⟩ := h t n m s hs
    cases r with
    | error e => exact ⟨.error e, s', by simp only [run, hr], hm⟩
    | ok c =>
      obtain ⟨r2, s2, hr2, hm2⟩ := ih c s' (le_trans hm.idle hs)
      exact ⟨r2, s2, by simp only [run, hr, hr2], hm.trans hm2⟩

theorem identLookup_total {B : Nat} {rec : Nat → Ident → Bool → Look Cst}
    (h : ∀ t n m s, idle env s < B → ∃ r s', rec t n m s = some (r, s') ∧ Settles s s') (k : Key) (must : Bool) :
    Total env B (identLookup rec lib env k must) := by
  intro s hs
  unfold identLookup
  cases hd : env.decl k.1 k.2 with
  | none => exact ⟨_, _, rfl, Settles.refl s⟩
  | some d =>
    cases hv : env.var k with
    | none => exact ⟨_, _, rfl, Settles.refl s⟩
    | some v =>
      cases hdone : s.done k with
      | some c => exact ⟨.ok (.found c), s, by simp only [hdone], Settles.refl s⟩
      | none =>
        cases he : v.expr with
        | none =>
          exact ⟨_, _, by simp only [hdone, he]; rfl, setDone_settles s k _⟩
        | some e =>
          simp only [hdone, he]
          by_cases hb : s.busy k = true
          · rw [if_pos hb]; exact ⟨_, _, rfl, Settles.refl s⟩
          · rw [if_neg hb]
            by_cases hev : (!d.evaluable) = true
            · rw [if_pos hev]; exact ⟨_, _, rfl, Settles.refl s⟩
            · rw [if_neg hev]
              by_cases hm : (!d.isConst && must) = true
              · rw [if_pos hm]; exact ⟨_, _, rfl, Settles.refl s⟩
              · rw [if_neg hm]
                have hlt := setBusy_idle (env := env) hv hdone (by simpa using hb)
                cases B with
                | zero => omega
                | succ B =>
                  have h' : ∀ t n m, Total env B (rec t n m) := fun t n m s hs => h t n m s (by omega)
                  obtain ⟨r, s', hr, hset⟩ := run_total h' (defComp lib env k d e) (s.setBusy k true) (by omega)
                  unfold evaluate
                  rw [hr]
                  have h0 := (setBusy_settles s k).trans hset
                  cases r with
                  | error err => exact ⟨_, _, rfl, h0⟩
                  | ok c => exact ⟨_, _, rfl, h0.trans (finish_settles s' k c)⟩

theorem climb_total {B : Nat} {at_ : Key → Bool → Look Found} (h : ∀ k m, Total env B (at_ k m)) (name : Ident)
    (must : Bool) (l : List Nat) : Total env B (climb at_ name must l) := by
  induction l with
  | nil => intro s _; exact ⟨_, _, rfl, Settles.refl s⟩
  | cons t ts ih =>
    intro s hs
    obtain ⟨r, s', hr, hset⟩ := h (t, name) must s hs
    unfold climb
    rw [hr]
    cases r with
    | error e => exact ⟨_, _, rfl, hset⟩
    | ok f =>
      cases f with
      | found c => exact ⟨_, _, rfl, hset⟩
      | undeclared => exact ⟨_, _, rfl, hset⟩
      | next =>
        obtain ⟨r2, s2, hr2, hset2⟩ := ih s' (le_trans hset.idle hs)
        exact ⟨r2, s2, hr2, hset.trans hset2⟩

theorem recLookup_total (n : Nat) (t : Nat) (name : Ident) (must : Bool) (s : State) (hs : idle env s < n) :
    ∃ r s', recLookup lib env n t name must s = some (r, s') ∧ Settles s s' := by
  induction n generalizing t name must s with
  | zero => omega
  | succ n ih =>
    exact climb_total (B := n) (fun k m => identLookup_total (fun t n m s hs => ih t n m s hs) k m) name must _ s (by omega)

theorem lookupVar_total (n : Nat) (k : Key) (must : Bool) (s : State) (hs : idle env s ≤ n) :
    ∃ r s', lookupVar lib env n k must s = some (r, s') ∧ Settles s s' :=
  identLookup_total (fun t name m s hs => recLookup_total n t name m s hs) k must s hs

/-! ## Fuel does not change answers -/

theorem run_mono {α : Type} {rec rec' : Nat → Ident → Bool → Look Cst}
    (h : ∀ t n m s x, rec t n m s = some x → rec' t n m s = some x) (c : Comp α) (s : State)
    (x : Except Err α × State) (hx : run rec c s = some x) : run rec' c s = some x := by
  induction c generalizing s with
  | ret a => exact hx
  | err e => exact hx
  | look t n m k ih =>
    simp only [run] at hx ⊢
    cases hr : rec t n m s with
    | none => rw [hr] at hx; cases hx
    | some p =>
      rw [hr] at hx
      rw [h _ _ _ _ _ hr]
      obtain ⟨r, s'⟩ := p
      cases r with
      | error e => exact hx
      | ok c => exact ih c s' hx

theorem identLookup_mono {rec rec' : Nat → Ident → Bool → Look Cst}
    (h : ∀ t n m s x, rec t n m s = some x → rec' t n m s = some x) (k : Key) (must : Bool) (s : State)
    (x : Except Err Found × State) (hx : identLookup rec lib env k must s = some x) :
    identLookup rec' lib env k must s = some x := by
  unfold identLookup at hx ⊢
  cases hd : env.decl k.1 k.2 with
  | none => rw [hd] at hx; exact hx
  | some d =>
    rw [hd] at hx
    cases hv : env.var k with
    | none => rw [hv] at hx; exact hx
    | some v =>
      rw [hv] at hx
      simp only at hx ⊢
      cases hdone : s.done k with
      | some c => rw [hdone] at hx; exact hx
      | none =>
        rw [hdone] at hx
        simp only at hx ⊢
        cases he : v.expr with
        | none => rw [he] at hx; exact hx
        | some e =>
          rw [he] at hx
          simp only at hx ⊢
          split_ifs at hx ⊢
          · exact hx
          · exact hx
          · exact hx
          · unfold evaluate at hx ⊢
            cases hr : run rec (defComp lib env k d e) (s.setBusy k true) with
            | none => rw [hr] at hx; cases hx
            | some p => rw [hr] at hx; rw [run_mono h _ _ _ hr]; exact hx

theorem climb_mono {at_ at' : Key → Bool → Look Found} (h : ∀ k m s x, at_ k m s = some x → at' k m s = some x)
    (name : Ident) (must : Bool) (l : List Nat) (s : State) (x : Except Err Cst × State)
    (hx : climb at_ name must l s = some x) : climb at' name must l s = some x := by
  induction l generalizing s with
  | nil => exact hx
  | cons t ts ih =>
    unfold climb at hx ⊢
    cases hr : at_ (t, name) must s with
    | none => rw [hr] at hx; cases hx
    | some p =>
      rw [hr] at hx
      rw [h _ _ _ _ hr]
      obtain ⟨r, s'⟩ := p
      cases r with
      | error e => exact hx
      | ok f =>
        cases f with
        | found c => exact hx
        | undeclared => exact hx
        | next => exact ih s' hx

theorem recLookup_mono (n m : Nat) (hnm : n ≤ m) (t : Nat) (name : Ident) (must : Bool) (s : State)
    (x : Except Err Cst × State) (hx : recLookup lib env n t name must s = some x) :
    recLookup lib env m t name must s = some x := by
  induction n generalizing m t name must s x with
  | zero => cases hx
  | succ n ih =>
    cases m with
    | zero => omega
    | succ m =>
      exact climb_mono (fun k mu s x hk => identLookup_mono (fun t nm mm s x h => ih m (by omega) t nm mm s x h) k mu s x hk)
        name must _ s x hx

theorem lookupVar_mono (n m : Nat) (hnm : n ≤ m) (k : Key) (must : Bool) (s : State) (x : Except Err Found × State)
    (hx : lookupVar lib env n k must s = some x) : lookupVar lib env m k must s = some x :=
  identLookup_mono (fun t nm mm s x h => recLookup_mono n m hnm t nm mm s x h) k must s x hx

/-! ## The specification is a function -/

theorem value_mono {α : Type} {f g : Nat → Ident → Bool → Option Cst} (h : ∀ t n m c, f t n m = some c → g t n m = some c)
    (p : Comp α) (a : α) (hp : p.value f = some a) : p.value g = some a := by
  induction p with
  | ret b => exact hp
  | err e => cases hp
  | look t n m k ih =>
    simp only [Comp.value, Option.bind_eq_some_iff] at hp ⊢
    obtain ⟨c, hc, hk⟩ := hp
    exact ⟨c, h _ _ _ _ hc, ih c hk⟩

/-- the variables as the specification at a depth sees them -/
def seen (strict : Bool) (lib : Lib) (env : Env) (n : Nat) (t : Nat) (name : Ident) (must : Bool) : Option Cst :=
  (resolve env t name).bind fun k' =>
    if strict && must && !constOk env k' then none else valueAt strict lib env n k'

theorem seen_mono {s1 s2 : Bool} {n m : Nat} (hs : s2 = true → s1 = true)
    (h : ∀ k c, valueAt s1 lib env n k = some c → valueAt s2 lib env m k = some c) (t : Nat) (name : Ident) (must : Bool)
    (c : Cst) (hc : seen s1 lib env n t name must = some c) : seen s2 lib env m t name must = some c := by
  unfold seen at hc ⊢
  rw [Option.bind_eq_some_iff] at hc ⊢
  obtain ⟨k', hk, hv⟩ := hc
  refine ⟨k', hk, ?_⟩
  by_cases hb : (s1 && must && !constOk env k') = true
  · rw [if_pos hb] at hv; cases hv
  · rw [if_neg hb] at hv
    have : ¬ (s2 && must && !constOk env k') = true := by
      intro hc
      apply hb
      simp only [Bool.and_eq_true] at hc ⊢
      exact ⟨⟨hs hc.1.1, hc.1.2⟩, hc.2⟩
    rw [if_neg this]
    exact h _ _ hv

theorem valueAt_succ {strict : Bool} {n : Nat} {k : Key} {d : Decl} {v : Var} {e : Expr} (hd : env.decl k.1 k.2 = some d)
    (hv : env.var k = some v) (hc : v.const = none) (he : v.expr = some e) :
    valueAt strict lib env (n + 1) k =
      if d.evaluable then (defComp lib env k d e).value (seen strict lib env n) else none := by
  simp only [valueAt, hd, hv, hc, he]
  rfl

theorem valueAt_gen {s1 s2 : Bool} (hs : s2 = true → s1 = true) (n m : Nat) (h : n ≤ m) (k : Key) (c : Cst)
    (hc : valueAt s1 lib env n k = some c) : valueAt s2 lib env m k = some c := by
  induction n generalizing m k c with
  | zero => cases hc
  | succ n ih =>
    cases m with
    | zero => omega
    | succ m =>
      cases hd : env.decl k.1 k.2 with
      | none => simp [valueAt, hd] at hc
      | some d =>
        cases hv : env.var k with
        | none => simp [valueAt, hd, hv] at hc
        | some v =>
          cases hcc : v.const with
          | some c0 =>
            simp only [valueAt, hd, hv, hcc] at hc ⊢
            exact hc
          | none =>
            cases he : v.expr with
            | none =>
              simp only [valueAt, hd, hv, hcc, he] at hc ⊢
              exact hc
            | some e =>
              rw [valueAt_succ hd hv hcc he] at hc ⊢
              split_ifs at hc ⊢
              exact value_mono (seen_mono hs fun k c hk => ih m (by omega) k c hk) _ _ hc

theorem valueAt_mono {strict : Bool} (n m : Nat) (h : n ≤ m) (k : Key) (c : Cst)
    (hc : valueAt strict lib env n k = some c) : valueAt strict lib env m k = some c :=
  valueAt_gen (fun h => h) n m h k c hc

theorem StrictValue.value {k : Key} {c : Cst} (h : StrictValue lib env k c) : Value lib env k c := by
  obtain ⟨n, hn⟩ := h
  exact ⟨n, valueAt_gen (fun h => absurd h (by simp)) n n (le_refl n) k c hn⟩

theorem Value.unique {k : Key} {c c' : Cst} (h : Value lib env k c) (h' : Value lib env k c') : c = c' := by
  obtain ⟨n, hn⟩ := h
  obtain ⟨m, hm⟩ := h'
  have h1 := valueAt_mono n (max n m) (le_max_left _ _) k c hn
  have h2 := valueAt_mono m (max n m) (le_max_right _ _) k c' hm
  rw [h1] at h2
  exact Option.some.inj h2

/-! ## Soundness -/

/-- every constant on record is the value of its variable, and the constants given from the start are on
record -/
structure Sound (lib : Lib) (env : Env) (s : State) : Prop where
  value : ∀ k c, s.done k = some c → env.decl k.1 k.2 ≠ none → Value lib env k c
  given : ∀ k v, env.var k = some v → v.const ≠ none → s.done k ≠ none

theorem Sound.init : Sound lib env (State.init env) := by
  constructor
  · intro k c hc hd
    simp only [State.init, Option.bind_eq_some_iff] at hc
    obtain ⟨v, hv, hc⟩ := hc
    cases hdd : env.decl k.1 k.2 with
    | none => exact absurd hdd hd
    | some d => exact ⟨1, by simp only [valueAt, hdd, hv, hc]⟩
  · intro k v hv hc
    simpa [State.init, hv] using hc

theorem Sound.setBusy {s : State} (h : Sound lib env s) (k : Key) (b : Bool) : Sound lib env (s.setBusy k b) :=
  ⟨h.value, h.given⟩

theorem Sound.setDone {s : State} (h : Sound lib env s) {k : Key} {c : Cst} (hv : Value lib env k c) :
    Sound lib env (s.setDone k c) := by
  constructor
  · intro k' c' hc hd
    simp only [State.setDone] at hc
    by_cases hk : k' = k
    · rw [if_pos hk] at hc
      cases hc
      rw [hk]
      exact hv
    · rw [if_neg hk] at hc
      exact h.value k' c' hc hd
  · intro k' v hv' hc
    simp only [State.setDone]
    by_cases hk : k' = k
    · rw [if_pos hk]; simp
    · rw [if_neg hk]; exact h.given k' v hv' hc

/-- the value of a name on a type -/
def NameValue (lib : Lib) (env : Env) (t : Nat) (name : Ident) (c : Cst) : Prop :=
  ∃ k, resolve env t name = some k ∧ Value lib env k c

theorem run_sound {rec : Nat → Ident → Bool → Look Cst}
    (h : ∀ t n m s r s', Sound lib env s → rec t n m s = some (r, s') →
      Sound lib env s' ∧ ∀ c, r = .ok c → NameValue lib env t n c)
    (p : Comp Cst) (s : State) (r : Except Err Cst) (s' : State) (hs : Sound lib env s) (hr : run rec p s = some (r, s')) :
    Sound lib env s' ∧ ∀ c, r = .ok c → ∃ n, p.value (seen false lib env n) = some c := by
  induction p generalizing s with
  | ret a =>
    simp only [run, Option.some.injEq, Prod.mk.injEq] at hr
    obtain ⟨rfl, rfl⟩ := hr
    refine ⟨hs, fun c hc => ⟨0, ?_⟩⟩
    cases hc
    rfl
  | err e =>
    simp only [run, Option.some.injEq, Prod.mk.injEq] at hr
    obtain ⟨rfl, rfl⟩ := hr
    exact ⟨hs, fun c hc => by cases hc⟩
  | look t n m f ih =>
    simp only [run] at hr
    cases hrec : rec t n m s with
    | none => rw [hrec] at hr; cases hr
    | some q =>
      obtain ⟨r1, s1⟩ := q
      rw [hrec] at hr
      obtain ⟨hs1, hv⟩ := h _ _ _ _ _ _ hs hrec
      cases r1 with
      | error e =>
        simp only [Option.some.injEq, Prod.mk.injEq] at hr
        obtain ⟨rfl, rfl⟩ := hr
        exact ⟨hs1, fun c hc => by cases hc⟩
      | ok c1 =>
        simp only at hr
        obtain ⟨hs2, hval⟩ := ih c1 s1 hs1 hr
        refine ⟨hs2, fun c hc => ?_⟩
        obtain ⟨n2, hn2⟩ := hval c hc
        obtain ⟨k, hk, n1, hn1⟩ := hv c1 rfl
        refine ⟨max n1 n2, ?_⟩
        simp only [Comp.value, Option.bind_eq_some_iff]
        refine ⟨c1, ?_, ?_⟩
        · unfold seen
          rw [hk]
          simp only [Option.bind_some, Bool.false_and, Bool.false_eq_true, if_false]
          exact valueAt_mono n1 _ (le_max_left _ _) k c1 hn1
        · exact value_mono (seen_mono (fun h => h) fun k c hk => valueAt_mono n2 _ (le_max_right _ _) k c hk) _ _ hn2

theorem identLookup_sound {rec : Nat → Ident → Bool → Look Cst}
    (h : ∀ t n m s r s', Sound lib env s → rec t n m s = some (r, s') →
      Sound lib env s' ∧ ∀ c, r = .ok c → NameValue lib env t n c)
    (k : Key) (must : Bool) (s : State) (r : Except Err Found) (s' : State) (hs : Sound lib env s)
    (hr : identLookup rec lib env k must s = some (r, s')) :
    Sound lib env s' ∧ (∀ c, r = .ok (.found c) → Value lib env k c) ∧
      (r = .ok .undeclared ↔ env.decl k.1 k.2 = none) ∧
      (r = .ok .next ↔ env.decl k.1 k.2 ≠ none ∧ env.var k = none) := by
  unfold identLookup at hr
  cases hd : env.decl k.1 k.2 with
  | none =>
    rw [hd] at hr
    simp only [Option.some.injEq, Prod.mk.injEq] at hr
    obtain ⟨rfl, rfl⟩ := hr
    simpa using hs
  | some d =>
    rw [hd] at hr
    simp only at hr
    cases hv : env.var k with
    | none =>
      rw [hv] at hr
      simp only [Option.some.injEq, Prod.mk.injEq] at hr
      obtain ⟨rfl, rfl⟩ := hr
      simpa using hs
    | some v =>
      rw [hv] at hr
      simp only at hr
      cases hdone : s.done k with
      | some c =>
        rw [hdone] at hr
        simp only [Option.some.injEq, Prod.mk.injEq] at hr
        obtain ⟨rfl, rfl⟩ := hr
        refine ⟨hs, fun c' hc' => ?_, by simp, by simp⟩
        cases hc'
        exact hs.value k c hdone (by rw [hd]; simp)
      | none =>
        rw [hdone] at hr
        simp only at hr
        have hconst : v.const = none := by
          by_contra hc
          exact hs.given k v hv hc hdone
        cases he : v.expr with
        | none =>
          rw [he] at hr
          simp only [Option.some.injEq, Prod.mk.injEq] at hr
          obtain ⟨rfl, rfl⟩ := hr
          have hval : Value lib env k (.null (some d.typePath)) := ⟨1, by simp only [valueAt, hd, hv, hconst, he]⟩
          refine ⟨hs.setDone hval, fun c' hc' => ?_, by simp, by simp⟩
          cases hc'
          exact hval
        | some e =>
          rw [he] at hr
          simp only at hr
          have herr : ∀ err : Err, some (Except.error err, s) = some (r, s') → Sound lib env s' ∧
              (∀ c, r = .ok (.found c) → Value lib env k c) ∧ (r = .ok .undeclared ↔ some d = none) ∧
                (r = .ok .next ↔ some d ≠ none ∧ some v = none) := by
            intro err h
            simp only [Option.some.injEq, Prod.mk.injEq] at h
            obtain ⟨rfl, rfl⟩ := h
            exact ⟨hs, fun c hc => (by cases hc), by simp, by simp⟩
          split_ifs at hr with h1 h2 h3
          · exact herr _ hr
          · exact herr _ hr
          · exact herr _ hr
          · unfold evaluate at hr
            cases hrun : run rec (defComp lib env k d e) (s.setBusy k true) with
            | none => rw [hrun] at hr; cases hr
            | some q =>
              obtain ⟨r1, s1⟩ := q
              rw [hrun] at hr
              obtain ⟨hs1, hval⟩ := run_sound h _ _ _ _ (hs.setBusy k true) hrun
              cases r1 with
              | error err =>
                simp only [Option.some.injEq, Prod.mk.injEq] at hr
                obtain ⟨rfl, rfl⟩ := hr
                exact ⟨hs1, fun c hc => (by cases hc), by simp, by simp⟩
              | ok c =>
                simp only [Option.some.injEq, Prod.mk.injEq] at hr
                obtain ⟨rfl, rfl⟩ := hr
                obtain ⟨n, hn⟩ := hval c rfl
                have hv' : Value lib env k c := by
                  refine ⟨n + 1, ?_⟩
                  rw [valueAt_succ hd hv hconst he, if_pos (by simpa using h2)]
                  exact hn
                refine ⟨(hs1.setDone hv').setBusy k false, fun c' hc' => ?_, by simp, by simp⟩
                cases hc'
                exact hv'

theorem climb_sound {at_ : Key → Bool → Look Found}
    (h : ∀ k m s r s', Sound lib env s → at_ k m s = some (r, s') →
      Sound lib env s' ∧ (∀ c, r = .ok (.found c) → Value lib env k c) ∧
        (r = .ok .undeclared ↔ env.decl k.1 k.2 = none) ∧ (r = .ok .next ↔ env.decl k.1 k.2 ≠ none ∧ env.var k = none))
    (name : Ident) (must : Bool) (l : List Nat) (s : State) (r : Except Err Cst) (s' : State) (hs : Sound lib env s)
    (hr : climb at_ name must l s = some (r, s')) :
    Sound lib env s' ∧ ∀ c, r = .ok c → ∃ k, resolveIn env name l = some k ∧ Value lib env k c := by
  induction l generalizing s with
  | nil =>
    simp only [climb, Option.some.injEq, Prod.mk.injEq] at hr
    obtain ⟨rfl, rfl⟩ := hr
    exact ⟨hs, fun c hc => by cases hc⟩
  | cons t ts ih =>
    unfold climb at hr
    cases hat : at_ (t, name) must s with
    | none => rw [hat] at hr; cases hr
    | some q =>
      obtain ⟨r1, s1⟩ := q
      rw [hat] at hr
      obtain ⟨hs1, hf, hu, hn⟩ := h _ _ _ _ _ hs hat
      cases r1 with
      | error e =>
        simp only [Option.some.injEq, Prod.mk.injEq] at hr
        obtain ⟨rfl, rfl⟩ := hr
        exact ⟨hs1, fun c hc => by cases hc⟩
      | ok f =>
        cases f with
        | undeclared =>
          simp only [Option.some.injEq, Prod.mk.injEq] at hr
          obtain ⟨rfl, rfl⟩ := hr
          exact ⟨hs1, fun c hc => by cases hc⟩
        | found c1 =>
          simp only [Option.some.injEq, Prod.mk.injEq] at hr
          obtain ⟨rfl, rfl⟩ := hr
          refine ⟨hs1, fun c hc => ?_⟩
          cases hc
          refine ⟨(t, name), ?_, hf _ rfl⟩
          have hd : env.decl t name ≠ none := fun hd => by
            have := hu.2 hd
            simp at this
          have hv : env.var (t, name) ≠ none := fun hv => by
            have := hn.2 ⟨hd, hv⟩
            simp at this
          unfold resolveIn
          rw [if_neg (by simpa [Option.isNone_iff_eq_none] using hd), if_pos (by simpa [Option.isSome_iff_ne_none] using hv)]
        | next =>
          simp only at hr
          obtain ⟨hs2, hval⟩ := ih s1 hs1 hr
          refine ⟨hs2, fun c hc => ?_⟩
          obtain ⟨k, hk, hkv⟩ := hval c hc
          obtain ⟨hd, hv⟩ := hn.1 rfl
          refine ⟨k, ?_, hkv⟩
          unfold resolveIn
          rw [if_neg (by simpa [Option.isNone_iff_eq_none] using hd), if_neg (by rw [hv]; simp)]
          exact hk

theorem recLookup_sound (n : Nat) (t : Nat) (name : Ident) (must : Bool) (s : State) (r : Except Err Cst) (s' : State)
    (hs : Sound lib env s) (hr : recLookup lib env n t name must s = some (r, s')) :
    Sound lib env s' ∧ ∀ c, r = .ok c → NameValue lib env t name c := by
  induction n generalizing t name must s r s' with
  | zero => cases hr
  | succ n ih =>
    exact climb_sound (fun k m s r s' hs hr => identLookup_sound (fun t nm m s r s' hs hr => ih t nm m s r s' hs hr) k m s r s' hs hr)
      name must _ s r s' hs hr

theorem lookupVar_sound (n : Nat) (k : Key) (must : Bool) (s : State) (r : Except Err Found) (s' : State)
    (hs : Sound lib env s) (hr : lookupVar lib env n k must s = some (r, s')) :
    Sound lib env s' ∧ (∀ c, r = .ok (.found c) → Value lib env k c) ∧
      (r = .ok .undeclared ↔ env.decl k.1 k.2 = none) ∧
      (r = .ok .next ↔ env.decl k.1 k.2 ≠ none ∧ env.var k = none) :=
  identLookup_sound (fun t nm m s r s' hs hr => recLookup_sound n t nm m s r s' hs hr) k must s r s' hs hr

/-! ## Cycles have no value -/

theorem asks_value {p : Comp Cst} {k : Key} (h : Asks lib env p k) (n : Nat) (c : Cst)
    (hp : p.value (seen false lib env n) = some c) : ∃ c', valueAt false lib env n k = some c' := by
  induction h with
  | here hr =>
    simp only [Comp.value, Option.bind_eq_some_iff, seen, hr, Option.some.injEq] at hp
    obtain ⟨a, ⟨k', rfl, ha⟩, _⟩ := hp
    exact ⟨a, by simpa using ha⟩
  | later hr hv _ ih =>
    simp only [Comp.value, Option.bind_eq_some_iff] at hp
    obtain ⟨a, ha, hk⟩ := hp
    simp only [seen, Option.bind_eq_some_iff, hr, Option.some.injEq] at ha
    obtain ⟨k', rfl, ha⟩ := ha
    have : a = _ := Value.unique ⟨n, by simpa using ha⟩ hv
    subst this
    exact ih hk

theorem refers_value {k k' : Key} (h : RefersTo lib env k k') (n : Nat) (c : Cst)
    (hc : valueAt false lib env (n + 1) k = some c) : ∃ c', valueAt false lib env n k' = some c' := by
  obtain ⟨d, v, e, hd, hv, hcc, he, ha⟩ := h
  rw [valueAt_succ hd hv hcc he] at hc
  split_ifs at hc
  exact asks_value ha n c hc

theorem refersPlus_value {k k' : Key} (h : Relation.TransGen (RefersTo lib env) k k') (n : Nat) (c : Cst)
    (hc : valueAt false lib env (n + 1) k = some c) : ∃ c', valueAt false lib env n k' = some c' := by
  induction h using Relation.TransGen.head_induction_on generalizing n c with
  | single h => exact refers_value h n c hc
  | head h _ ih =>
    obtain ⟨c1, hc1⟩ := refers_value h n c hc
    exact ih n c1 (valueAt_mono n (n + 1) (by omega) _ _ hc1)

theorem cycle_no_value {k : Key} (h : Relation.TransGen (RefersTo lib env) k k) (c : Cst) : ¬ Value lib env k c := by
  rintro ⟨n, hn⟩
  induction n generalizing c with
  | zero => cases hn
  | succ n ih =>
    obtain ⟨c', hc'⟩ := refersPlus_value h n c hn
    exact ih c' hc'

/-- a variable that leads to a cycle has no value either -/
theorem reaches_cycle_no_value {k k' : Key} (h : Relation.TransGen (RefersTo lib env) k k')
    (hc : Relation.TransGen (RefersTo lib env) k' k') (c : Cst) : ¬ Value lib env k c := by
  rintro ⟨n, hn⟩
  cases n with
  | zero => cases hn
  | succ n =>
    obtain ⟨c', hc'⟩ := refersPlus_value h n c hn
    exact cycle_no_value hc c' ⟨n, hc'⟩

end Verif.Const
