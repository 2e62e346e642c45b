import Verif.Const.Eval

/-!
# Evaluation of variables: a variable that has a value gets it, whatever was evaluated before
-/

namespace Verif.Const

variable {lib : Lib} {env : Env}

/-- no busy variable has a strict value at depth `h` -/
def BusyBelow (lib : Lib) (env : Env) (h : Nat) (s : State) : Prop :=
  ∀ k, s.busy k = true → valueAt true lib env h k = none

theorem BusyBelow.le {h h' : Nat} {s : State} (hb : BusyBelow lib env h s) (hle : h' ≤ h) : BusyBelow lib env h' s := by
  intro k hk
  cases hv : valueAt true lib env h' k with
  | none => rfl
  | some c =>
    have := valueAt_mono h' h hle k c hv
    rw [hb k hk] at this
    cases this

theorem resolveIn_spec {name : Ident} {l : List Nat} {k : Key} (h : resolveIn env name l = some k) :
    env.decl k.1 k.2 ≠ none ∧ env.var k ≠ none ∧ k.2 = name := by
  induction l with
  | nil => cases h
  | cons t ts ih =>
    unfold resolveIn at h
    split_ifs at h with h1 h2
    · cases h
      exact ⟨by simpa [Option.isNone_iff_eq_none] using h1, by simpa [Option.isSome_iff_ne_none] using h2, rfl⟩
    · exact ih h

/-- what a lookup does for a variable with a strict value at depth `h` -/
def Hits (lib : Lib) (env : Env) (h : Nat) (at_ : Key → Bool → Look Found) : Prop :=
  ∀ k c must s r s', valueAt true lib env h k = some c → (must = true → constOk env k = true) → Sound lib env s →
    BusyBelow lib env h s → at_ k must s = some (r, s') →
      r = .ok (.found c) ∧ s'.busy = s.busy ∧ Sound lib env s'

theorem climb_hits {h : Nat} {at_ : Key → Bool → Look Found} (hat : Hits lib env h at_)
    (hmiss : ∀ k must s r s', env.decl k.1 k.2 ≠ none → env.var k = none → at_ k must s = some (r, s') →
      r = .ok .next ∧ s' = s)
    (name : Ident) (must : Bool) (l : List Nat) (k : Key) (c : Cst) (s : State) (r : Except Err Cst) (s' : State)
    (hk : resolveIn env name l = some k) (hc : valueAt true lib env h k = some c)
    (hm : must = true → constOk env k = true) (hs : Sound lib env s) (hb : BusyBelow lib env h s)
    (hr : climb at_ name must l s = some (r, s')) : r = .ok c ∧ s'.busy = s.busy ∧ Sound lib env s' := by
  induction l with
  | nil => cases hk
  | cons t ts ih =>
    unfold climb at hr
    unfold resolveIn at hk
    cases hq : at_ (t, name) must s with
    | none => rw [hq] at hr; cases hr
    | some q =>
      obtain ⟨r1, s1⟩ := q
      rw [hq] at hr
      split_ifs at hk with h1 h2
      · cases hk
        obtain ⟨rfl, hb1, hs1⟩ := hat _ _ _ _ _ _ hc hm hs hb hq
        simp only [Option.some.injEq, Prod.mk.injEq] at hr
        obtain ⟨rfl, rfl⟩ := hr
        exact ⟨rfl, hb1, hs1⟩
      · obtain ⟨rfl, rfl⟩ := hmiss _ _ _ _ _ (by simpa [Option.isNone_iff_eq_none] using h1) (by simpa using h2) hq
        exact ih hk hr

theorem run_hits {h : Nat} {rec : Nat → Ident → Bool → Look Cst}
    (hrec : ∀ t name must k c s r s', resolve env t name = some k → valueAt true lib env h k = some c →
      (must = true → constOk env k = true) → Sound lib env s → BusyBelow lib env h s →
        rec t name must s = some (r, s') → r = .ok c ∧ s'.busy = s.busy ∧ Sound lib env s')
    (p : Comp Cst) (c : Cst) (s : State) (r : Except Err Cst) (s' : State)
    (hp : p.value (seen true lib env h) = some c) (hs : Sound lib env s) (hb : BusyBelow lib env h s)
    (hr : run rec p s = some (r, s')) : r = .ok c ∧ s'.busy = s.busy ∧ Sound lib env s' := by
  induction p generalizing s with
  | ret a =>
    simp only [run, Option.some.injEq, Prod.mk.injEq] at hr
    simp only [Comp.value, Option.some.injEq] at hp
    obtain ⟨rfl, rfl⟩ := hr
    subst hp
    exact ⟨rfl, rfl, hs⟩
  | err e => cases hp
  | look t n m f ih =>
    simp only [Comp.value, Option.bind_eq_some_iff] at hp
    obtain ⟨c1, hc1, hf⟩ := hp
    simp only [seen, Option.bind_eq_some_iff] at hc1
    obtain ⟨k, hk, hc1⟩ := hc1
    by_cases hm : (true && m && !constOk env k) = true
    · rw [if_pos hm] at hc1; cases hc1
    · rw [if_neg hm] at hc1
      simp only [run] at hr
      cases hq : rec t n m s with
      | none => rw [hq] at hr; cases hr
      | some q =>
        obtain ⟨r1, s1⟩ := q
        rw [hq] at hr
        obtain ⟨rfl, hb1, hs1⟩ := hrec _ _ _ _ _ _ _ _ hk hc1 (by
          intro hmt
          simpa [hmt] using hm) hs hb hq
        simp only at hr
        obtain ⟨h1, h2, h3⟩ := ih c1 s1 hf hs1 (fun k hk => hb k (by rw [← hb1]; exact hk)) hr
        exact ⟨h1, h2.trans hb1, h3⟩

theorem identLookup_miss {rec : Nat → Ident → Bool → Look Cst} (k : Key) (must : Bool) (s : State)
    (r : Except Err Found) (s' : State) (hd : env.decl k.1 k.2 ≠ none) (hv : env.var k = none)
    (h : identLookup rec lib env k must s = some (r, s')) : r = .ok .next ∧ s' = s := by
  unfold identLookup at h
  cases hdd : env.decl k.1 k.2 with
  | none => exact absurd hdd hd
  | some d =>
    rw [hdd, hv] at h
    simp only [Option.some.injEq, Prod.mk.injEq] at h
    exact ⟨h.1.symm, h.2.symm⟩

/-- the least depth at which a variable has a value -/
theorem least_depth (h : Nat) (k : Key) (c : Cst) (hc : valueAt true lib env h k = some c) :
    ∃ m, m + 1 ≤ h ∧ valueAt true lib env (m + 1) k = some c ∧ valueAt true lib env m k = none := by
  induction h with
  | zero => cases hc
  | succ h ih =>
    cases hv : valueAt true lib env h k with
    | none => exact ⟨h, le_refl _, hc, hv⟩
    | some c' =>
      have := valueAt_mono h (h + 1) (by omega) k c' hv
      rw [hc] at this
      cases this
      obtain ⟨m, h1, h2, h3⟩ := ih hv
      exact ⟨m, by omega, h2, h3⟩

theorem setBusy_restore (s s' : State) (k : Key) (c : Cst) (hb : s.busy k = false)
    (h : s'.busy = (s.setBusy k true).busy) : ((s'.setDone k c).setBusy k false).busy = s.busy := by
  funext k'
  have := congrFun h k'
  simp only [State.setBusy, State.setDone] at this ⊢
  by_cases hk : k' = k
  · rw [if_pos hk, hk, hb]
  · rw [if_neg hk] at this ⊢
    exact this

theorem lookupVar_hits (h : Nat) : ∀ n, Hits lib env h (lookupVar lib env n) := by
  induction h using Nat.strongRecOn with
  | _ h ih =>
    intro n k c must s r s' hc hm hs hb hr
    obtain ⟨m, hmh, hcm, hnone⟩ := least_depth h k c hc
    have hfin : Value lib env k c := StrictValue.value ⟨h, hc⟩
    have hr0 := hr
    unfold lookupVar identLookup at hr
    cases hd : env.decl k.1 k.2 with
    | none => simp [valueAt, hd] at hcm
    | some d =>
      cases hv : env.var k with
      | none => simp [valueAt, hd, hv] at hcm
      | some v =>
        rw [hd, hv] at hr
        simp only at hr
        cases hdone : s.done k with
        | some c' =>
          rw [hdone] at hr
          simp only [Option.some.injEq, Prod.mk.injEq] at hr
          obtain ⟨rfl, rfl⟩ := hr
          have : c' = c := (hs.value k c' hdone (by rw [hd]; simp)).unique hfin
          subst this
          exact ⟨rfl, rfl, hs⟩
        | none =>
          rw [hdone] at hr
          simp only at hr
          have hconst : v.const = none := by
            by_contra hcc
            exact hs.given k v hv hcc hdone
          cases he : v.expr with
          | none =>
            rw [he] at hr
            simp only [Option.some.injEq, Prod.mk.injEq] at hr
            obtain ⟨rfl, rfl⟩ := hr
            simp only [valueAt, hd, hv, hconst, he, Option.some.injEq] at hcm
            subst hcm
            exact ⟨rfl, rfl, hs.setDone hfin⟩
          | some e =>
            rw [he] at hr
            simp only at hr
            have hbusy : s.busy k = false := by
              cases hbk : s.busy k with
              | false => rfl
              | true =>
                have := hb k hbk
                rw [hc] at this
                cases this
            rw [valueAt_succ hd hv hconst he] at hcm
            split_ifs at hcm with hev
            rw [if_neg (by rw [hbusy]; simp), if_neg (by simp [hev])] at hr
            have hcst : ¬ (!d.isConst && must) = true := by
              intro hx
              simp only [Bool.and_eq_true, Bool.not_eq_true'] at hx
              have := hm hx.2
              simp [constOk, hd, hv, hconst, he, hx.1] at this
            rw [if_neg hcst] at hr
            unfold evaluate at hr
            have hrec : ∀ t name must k c s r s', resolve env t name = some k → valueAt true lib env m k = some c →
                (must = true → constOk env k = true) → Sound lib env s → BusyBelow lib env m s →
                  recLookup lib env n t name must s = some (r, s') → r = .ok c ∧ s'.busy = s.busy ∧ Sound lib env s' := by
              intro t name must k c s r s' hk hc hm hs hb hr
              cases n with
              | zero => cases hr
              | succ n =>
                exact climb_hits (ih m (by omega) n) (fun k must s r s' => identLookup_miss k must s r s') name must _ k c s r s'
                  hk hc hm hs hb hr
            cases hrun : run (recLookup lib env n) (defComp lib env k d e) (s.setBusy k true) with
            | none => rw [hrun] at hr; cases hr
            | some q =>
              obtain ⟨r1, s1⟩ := q
              rw [hrun] at hr
              have hbb : BusyBelow lib env m (s.setBusy k true) := by
                intro k' hk'
                by_cases hkk : k' = k
                · rw [hkk]; exact hnone
                · simp only [State.setBusy, if_neg hkk] at hk'
                  exact (hb.le (by omega)) k' hk'
              obtain ⟨rfl, hb1, hs1⟩ := run_hits hrec _ c _ _ _ hcm (hs.setBusy k true) hbb hrun
              simp only [Option.some.injEq, Prod.mk.injEq] at hr
              obtain ⟨rfl, rfl⟩ := hr
              exact ⟨rfl, setBusy_restore s s1 k c hbusy hb1, (hs1.setDone hfin).setBusy k false⟩

/-! ## Any order -/

/-- between evaluations: the constants on record are right, and the variables left marked have no strict value -/
structure Tidy (lib : Lib) (env : Env) (s : State) : Prop where
  sound : Sound lib env s
  busy : ∀ k, s.busy k = true → ∀ c, ¬ StrictValue lib env k c

theorem Tidy.init : Tidy lib env (State.init env) := ⟨Sound.init, fun _ h => by simp [State.init] at h⟩

theorem Tidy.below {s : State} (h : Tidy lib env s) (n : Nat) : BusyBelow lib env n s := by
  intro k hk
  cases hv : valueAt true lib env n k with
  | none => rfl
  | some c => exact absurd ⟨n, hv⟩ (h.busy k hk c)

theorem run_tidy {rec : Nat → Ident → Bool → Look Cst}
    (hrec : ∀ t name must s r s', Tidy lib env s → rec t name must s = some (r, s') → Tidy lib env s')
    (p : Comp Cst) (s : State) (r : Except Err Cst) (s' : State) (hs : Tidy lib env s) (hr : run rec p s = some (r, s')) :
    Tidy lib env s' := by
  induction p generalizing s with
  | ret a =>
    simp only [run, Option.some.injEq, Prod.mk.injEq] at hr
    obtain ⟨_, rfl⟩ := hr
    exact hs
  | err e =>
    simp only [run, Option.some.injEq, Prod.mk.injEq] at hr
    obtain ⟨_, rfl⟩ := hr
    exact hs
  | look t n m f ih =>
    simp only [run] at hr
    cases hq : rec t n m s with
    | none => rw [hq] at hr; cases hr
    | some q =>
      obtain ⟨r1, s1⟩ := q
      rw [hq] at hr
      have h1 := hrec _ _ _ _ _ _ hs hq
      cases r1 with
      | error e =>
        simp only [Option.some.injEq, Prod.mk.injEq] at hr
        obtain ⟨_, rfl⟩ := hr
        exact h1
      | ok c => exact ih c s1 h1 hr

theorem climb_tidy {at_ : Key → Bool → Look Found}
    (hat : ∀ k must s r s', Tidy lib env s → at_ k must s = some (r, s') → Tidy lib env s')
    (name : Ident) (must : Bool) (l : List Nat) (s : State) (r : Except Err Cst) (s' : State)
    (hs : Tidy lib env s) (hr : climb at_ name must l s = some (r, s')) : Tidy lib env s' := by
  induction l generalizing s with
  | nil =>
    simp only [climb, Option.some.injEq, Prod.mk.injEq] at hr
    obtain ⟨_, rfl⟩ := hr
    exact hs
  | cons t ts ih =>
    unfold climb at hr
    cases hq : at_ (t, name) must s with
    | none => rw [hq] at hr; cases hr
    | some q =>
      obtain ⟨r1, s1⟩ := q
      rw [hq] at hr
      have h1 := hat _ _ _ _ _ hs hq
      cases r1 with
      | error e =>
        simp only [Option.some.injEq, Prod.mk.injEq] at hr
        obtain ⟨_, rfl⟩ := hr
        exact h1
      | ok f =>
        cases f with
        | found c =>
          simp only [Option.some.injEq, Prod.mk.injEq] at hr
          obtain ⟨_, rfl⟩ := hr
          exact h1
        | undeclared =>
          simp only [Option.some.injEq, Prod.mk.injEq] at hr
          obtain ⟨_, rfl⟩ := hr
          exact h1
        | next => exact ih s1 h1 hr

theorem identLookup_tidy {rec : Nat → Ident → Bool → Look Cst} {n : Nat} (hn : rec = recLookup lib env n)
    (hrec : ∀ t name must s r s', Tidy lib env s → rec t name must s = some (r, s') → Tidy lib env s')
    (k : Key) (must : Bool) (s : State) (r : Except Err Found) (s' : State) (hs : Tidy lib env s)
    (hr : identLookup rec lib env k must s = some (r, s')) : Tidy lib env s' := by
  by_cases hsv : (∃ c, StrictValue lib env k c) ∧ (must = true → constOk env k = true)
  · obtain ⟨⟨c, h, hc⟩, hm⟩ := hsv
    subst hn
    obtain ⟨_, h2, h3⟩ := lookupVar_hits h n k c must s r s' hc hm hs.sound (hs.below h) hr
    exact ⟨h3, fun k' hk' => hs.busy k' (by rw [← h2]; exact hk')⟩
  · have hsound : Sound lib env s' := by
      subst hn
      exact (lookupVar_sound n k must s r s' hs.sound hr).1
    unfold identLookup at hr
    cases hd : env.decl k.1 k.2 with
    | none =>
      rw [hd] at hr
      simp only [Option.some.injEq, Prod.mk.injEq] at hr
      obtain ⟨_, rfl⟩ := hr
      exact hs
    | some d =>
      rw [hd] at hr
      simp only at hr
      cases hv : env.var k with
      | none =>
        rw [hv] at hr
        simp only [Option.some.injEq, Prod.mk.injEq] at hr
        obtain ⟨_, rfl⟩ := hr
        exact hs
      | some v =>
        rw [hv] at hr
        simp only at hr
        cases hdone : s.done k with
        | some c =>
          rw [hdone] at hr
          simp only [Option.some.injEq, Prod.mk.injEq] at hr
          obtain ⟨_, rfl⟩ := hr
          exact hs
        | none =>
          rw [hdone] at hr
          simp only at hr
          cases he : v.expr with
          | none =>
            rw [he] at hr
            simp only [Option.some.injEq, Prod.mk.injEq] at hr
            obtain ⟨_, rfl⟩ := hr
            exact ⟨hsound, hs.busy⟩
          | some e =>
            rw [he] at hr
            simp only at hr
            split_ifs at hr with h1 h2 h3
            · simp only [Option.some.injEq, Prod.mk.injEq] at hr
              obtain ⟨_, rfl⟩ := hr
              exact hs
            · simp only [Option.some.injEq, Prod.mk.injEq] at hr
              obtain ⟨_, rfl⟩ := hr
              exact hs
            · simp only [Option.some.injEq, Prod.mk.injEq] at hr
              obtain ⟨_, rfl⟩ := hr
              exact hs
            · have hno : ∀ c, ¬ StrictValue lib env k c := by
                intro c hc
                apply hsv
                refine ⟨⟨c, hc⟩, fun hm => ?_⟩
                simp only [hm, Bool.and_true, Bool.not_eq_true', Bool.not_eq_false] at h3
                simp [constOk, hd, hv, h3]
              have h0 : Tidy lib env (s.setBusy k true) := by
                refine ⟨hs.sound.setBusy k true, fun k' hk' => ?_⟩
                by_cases hkk : k' = k
                · rw [hkk]; exact hno
                · simp only [State.setBusy, if_neg hkk] at hk'
                  exact hs.busy k' hk'
              unfold evaluate at hr
              cases hrun : run rec (defComp lib env k d e) (s.setBusy k true) with
              | none => rw [hrun] at hr; cases hr
              | some q =>
                obtain ⟨r1, s1⟩ := q
                rw [hrun] at hr
                have h1 := run_tidy hrec _ _ _ _ h0 hrun
                cases r1 with
                | error err =>
                  simp only [Option.some.injEq, Prod.mk.injEq] at hr
                  obtain ⟨_, rfl⟩ := hr
                  exact h1
                | ok c =>
                  simp only [Option.some.injEq, Prod.mk.injEq] at hr
                  obtain ⟨_, rfl⟩ := hr
                  refine ⟨hsound, fun k' hk' => ?_⟩
                  simp only [State.setBusy, State.setDone] at hk'
                  by_cases hkk : k' = k
                  · simp [hkk] at hk'
                  · rw [if_neg hkk] at hk'
                    exact h1.busy k' hk'

theorem recLookup_tidy (n : Nat) (t : Nat) (name : Ident) (must : Bool) (s : State) (r : Except Err Cst) (s' : State)
    (hs : Tidy lib env s) (hr : recLookup lib env n t name must s = some (r, s')) : Tidy lib env s' := by
  induction n generalizing t name must s r s' with
  | zero => cases hr
  | succ n ih =>
    exact climb_tidy (fun k m s r s' hs hr => identLookup_tidy rfl (fun t nm m s r s' hs hr => ih t nm m s r s' hs hr) k m s r s' hs hr)
      name must _ s r s' hs hr

theorem lookupVar_tidy (n : Nat) (k : Key) (must : Bool) (s : State) (r : Except Err Found) (s' : State)
    (hs : Tidy lib env s) (hr : lookupVar lib env n k must s = some (r, s')) : Tidy lib env s' :=
  identLookup_tidy rfl (fun t nm m s r s' hs hr => recLookup_tidy n t nm m s r s' hs hr) k must s r s' hs hr

end Verif.Const
