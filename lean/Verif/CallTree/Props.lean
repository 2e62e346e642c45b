import Verif.CallTree.Lemmas
import Verif.CallTree.PureLemmas

/-!
# C56, C57, C58: the call-tree checks
-/

namespace Verif.CallTree

open Relation

variable {P T N L : Type} [DecidableEq P] [DecidableEq T] [Fintype P]

/-! ## C56: `SpacemanDMM_should_not_sleep` -/

/-- **C56, what is reported is true.**  A report that `root` leads to the sleeping
proc `p` is about a proc with the directive; `root` does wait for `p`, through
exactly the calls listed; `p` does sleep, and is neither detached, exempt nor
checked for itself. -/
theorem sleep_report_true (g : Program P T N L) (roots : List P) {root p : P} {st : List (P × L)}
    {k : Kind} (h : Report.via root p st k ∈ sleepReports g roots) :
    root ∈ roots ∧ (∃ f, f.proc = p ∧ Waits g root f st) ∧ g.sleeps p = true ∧
      g.waitfor p = false ∧ g.exempt p = false ∧ g.mustNot p = false := by
  obtain ⟨W, hw⟩ := checkSleep_ok g roots ∅
  rcases hw.sound _ h with ⟨r, hr, h, -⟩ | ⟨r, hr, -, rfl, h1, h2, h3, -⟩
  · cases h
  · simp only [Program.Stops, not_or, Bool.not_eq_true] at h2
    exact ⟨hr, h1, h3, h2⟩

/-- **C56, a report of built-ins is true.** -/
theorem builtin_report_true (g : Program P T N L) (roots : List P) {root : P}
    (h : Report.builtin root ∈ sleepReports g roots) : root ∈ roots ∧ g.sleeps root = true := by
  obtain ⟨W, hw⟩ := checkSleep_ok g roots ∅
  rcases hw.sound _ h with ⟨r, hr, h, hs, -⟩ | ⟨r, hr, -, h⟩
  · cases h; exact ⟨hr, hs⟩
  · exact h.elim

/-- **C56, the wording.**  The message speaks of an override exactly when the
sleeping proc is on another type than the proc called last, and says that it is on
the type of the directive exactly when it is. -/
theorem sleep_report_wording (g : Program P T N L) (roots : List P) {root p : P} {st : List (P × L)}
    {k : Kind} (h : Report.via root p st k ∈ sleepReports g roots) :
    ∃ last l, st.getLast? = some (last, l) ∧
      (k = .blocking ↔ g.ty p = g.ty last) ∧
      (k = .overrideOnSame ↔ g.ty p ≠ g.ty last ∧ g.ty p = g.ty root) ∧
      (k = .overrideChild ↔ g.ty p ≠ g.ty last ∧ g.ty p ≠ g.ty root) := by
  obtain ⟨W, hw⟩ := checkSleep_ok g roots ∅
  rcases hw.sound _ h with ⟨r, hr, h, -⟩ | ⟨r, hr, -, rfl, -, -, -, last, l, h1, rfl⟩
  · cases h
  · refine ⟨last, l, h1, ?_⟩
    unfold kindOf
    by_cases h2 : g.ty p = g.ty root <;> by_cases h3 : g.ty p = g.ty last <;>
      simp [h2, h3] <;> (try rw [h2] at h3) <;> simp [h3]

/-- **C56, no proc is blamed twice**, in whatever way it is reached. -/
theorem sleeper_reported_once (g : Program P T N L) (roots : List P) :
    ((sleepReports g roots).map Report.proc).Nodup := by
  obtain ⟨W, hw⟩ := checkSleep_ok g roots ∅
  exact hw.once

/-- `root` is not waited for by another proc with the directive. -/
def Outermost (g : Program P T N L) (roots : List P) (root : P) : Prop :=
  root ∈ roots ∧ ∀ r ∈ roots, r ≠ root → ∀ f path, Waits g r f path → f.proc ≠ root

/-- **C56, nothing written is missed.**  If a proc with the directive, that no other
such proc waits for, reaches a sleeping proc through calls as they are written, that
proc is reported.  (`roots` is the list of procs with the directive.) -/
theorem written_calls_reported (g : Program P T N L) (roots : List P)
    (hroots : ∀ r ∈ roots, g.mustNot r = true) {root p : P} (ho : Outermost g roots root)
    (hc : Calls g root p) (hs : g.sleeps p = true) (hn : ¬ g.Stops p) :
    ∃ r ∈ roots, ∃ st k, Report.via r p st k ∈ sleepReports g roots := by
  obtain ⟨W, hw⟩ := checkSleep_ok g roots ∅
  have hent : ∀ e ∈ g.calls root, e.newContext = false → e.proc ∈ W := by
    rcases hw.explored root (hw.done _ ho.1) (by simp) with ⟨-, -, h⟩ | ⟨r, hr, hne, f, path, h1, h2, -⟩
    · exact h
    · exact absurd h1 (ho.2 r hr hne f path h2)
  have hp : p ∈ W := by
    clear hs hn
    induction hc with
    | start he hne => exact hent _ he hne
    | call _ hst hsl he hne ih =>
      rcases hw.explored _ ih (by simp) with ⟨-, -, h⟩ | ⟨r, hr, -, f, path, -, -, h3, -⟩
      · exact h _ he hne
      · exact (h3 hst hsl).1 _ he hne
  rcases hw.explored p hp (by simp) with ⟨h, -⟩ | ⟨r, hr, -, f, path, -, -, -, h4⟩
  · exact absurd (.inr (.inr (hroots p h))) hn
  · obtain ⟨st, k, h⟩ := h4 hn hs
    exact ⟨r, hr, st, k, h⟩

/-- **C56, the proc's own sleeping is not missed**, under the same condition. -/
theorem own_sleep_reported (g : Program P T N L) (roots : List P) {root : P}
    (ho : Outermost g roots root) (hs : g.sleeps root = true) :
    Report.builtin root ∈ sleepReports g roots := by
  obtain ⟨W, hw⟩ := checkSleep_ok g roots ∅
  rcases hw.explored root (hw.done _ ho.1) (by simp) with ⟨-, h, -⟩ | ⟨r, hr, hne, f, path, h1, h2, -⟩
  · exact h hs
  · exact absurd h1 (ho.2 r hr hne f path h2)

/-- Whenever the same proc is waited for in two ways, both can be dispatched to the
same overrides. -/
def DispatchedAlike (g : Program P T N L) (roots : List P) : Prop :=
  ∀ r ∈ roots, ∀ r' ∈ roots, ∀ f f' path path', Waits g r f path → Waits g r' f' path' →
    f.proc = f'.proc → ∀ q, g.Dispatches f q → g.Dispatches f' q

/-- **C56, nothing is missed at all**, overrides included, in a program in which a
proc is always called in the same way. -/
theorem all_sleepers_reported (g : Program P T N L) (roots : List P)
    (hroots : ∀ r ∈ roots, g.mustNot r = true) (hd : DispatchedAlike g roots)
    {root : P} (ho : Outermost g roots root) {f : Frame P T} {path : List (P × L)}
    (hc : Waits g root f path) (hs : g.sleeps f.proc = true) (hn : ¬ g.Stops f.proc) :
    ∃ r ∈ roots, ∃ st k, Report.via r f.proc st k ∈ sleepReports g roots := by
  obtain ⟨W, hw⟩ := checkSleep_ok g roots ∅
  have hent : ∀ e ∈ g.calls root, e.newContext = false → e.proc ∈ W := by
    rcases hw.explored root (hw.done _ ho.1) (by simp) with ⟨-, -, h⟩ | ⟨r, hr, hne, f, path, h1, h2, -⟩
    · exact h
    · exact absurd h1 (ho.2 r hr hne f path h2)
  have hp : f.proc ∈ W := by
    clear hs hn
    induction hc with
    | start he hne => exact hent _ he hne
    | call _ hst hsl he hne ih =>
      rcases hw.explored _ ih (by simp) with ⟨-, -, h⟩ | ⟨r, hr, -, f, path, -, -, h3, -⟩
      · exact h _ he hne
      · exact (h3 hst hsl).1 _ he hne
    | dispatch h0 hst hsl hq ih =>
      rcases hw.explored _ ih (by simp) with ⟨h, -⟩ | ⟨r, hr, -, f', path', h1, h2, h3, -⟩
      · exact absurd (.inr (.inr (hroots _ h))) hst
      · exact (h3 hst hsl).2 _ (hd root ho.1 r hr _ f' _ path' h0 h2 h1.symm _ hq)
  rcases hw.explored _ hp (by simp) with ⟨h, -⟩ | ⟨r, hr, -, f, path, -, -, -, h4⟩
  · exact absurd (.inr (.inr (hroots _ h))) hn
  · obtain ⟨st, k, h⟩ := h4 hn hs
    exact ⟨r, hr, st, k, h⟩

/-- **C56, disagreement.**  "Skip A->B->C chains when a B->C chain would be detected"
(lib.rs:816) does not keep its promise: if the first proc with the directive calls
another one, no report at all is ever made for the directive of the second. -/
theorem called_root_never_checked (g : Program P T N L) (a b : P) (rest : List P) (hab : a ≠ b)
    {e : Edge P T L} (he : e ∈ g.calls a) (hn : e.newContext = false) (heb : e.proc = b) :
    ∀ x ∈ sleepReports g (a :: rest), x.root ≠ b := by
  intro x hx hxb
  unfold sleepReports at hx
  rw [checkSleep, if_neg (by simp)] at hx
  have hw := walk_ok g a (insert a ∅) (pushCalls g a (g.ty a) []) QueueOk.start
  generalize walk g a (insert a ∅) (pushCalls g a (g.ty a) []) = w at hw hx
  have hb : b ∈ w.1 := heb ▸ hw.done _ (mem_pushCalls.2 ⟨e, he, rfl⟩) hn
  rcases List.mem_append.1 hx with hx | hx
  · rcases List.mem_append.1 hx with hx | hx
    · split at hx
      · simp only [List.mem_singleton] at hx
        subst hx; exact hab hxb
      · simp at hx
    · have := hw.sound x hx
      cases x with
      | builtin _ => exact this
      | via r p st k => exact hab (this.1.symm.trans hxb)
  · obtain ⟨W, h⟩ := checkSleep_ok g rest w.1
    rcases h.sound x hx with ⟨r, -, rfl, -, hr⟩ | ⟨r, -, hr, h⟩
    · exact hr (by rw [show r = b from hxb]; exact hb)
    · cases x with
      | builtin _ => exact h
      | via r' p st k =>
        have : r' = r := h.1
        subst this
        exact hr (by rw [show r' = b from hxb]; exact hb)

/-! ### Cases -/

section Cases

/-- An edge of the examples: a call on the caller's own object. -/
def call (p : Fin 4) (l : Nat) (exact : Bool := false) : Edge (Fin 4) (Fin 3) Nat where
  proc := p
  loc := l
  newContext := false
  src := 0
  exact := exact
  inheritReceiver := true

/-- `/a/bar` (0) must not sleep; it calls `/a/foo` (1), which has the override `/a/b/foo`
(2); `/a/foo` calls `/a/baz` (3).  Types: root 0, `/a` 1, `/a/b` 2. -/
def sample (exactFirst : Bool) : Program (Fin 4) (Fin 3) (Fin 3) Nat where
  calls p := if p = 0 then (if exactFirst then [call 1 10 true, call 1 11] else [call 1 10])
    else if p = 1 then [call 3 12] else []
  ty p := if p = 2 then 2 else 1
  name p := if p = 0 then 0 else if p = 3 then 2 else 1
  rootTy := 0
  below t := if t = 1 then [1, 2] else [t]
  own t n := if n = 1 then (if t = 1 then some 1 else if t = 2 then some 2 else none) else none
  sleeps p := p = 2
  waitfor _ := false
  exempt _ := false
  mustNot p := p = 0

/-- The override is found, with the call that leads to it. -/
example : sleepReports (sample false) [0] = [.via 0 2 [(1, 10)] .overrideChild] := by
  simp +decide [sleepReports, checkSleep, walk, pushCalls, pushOverrides, sample, call, kindOf]

/-- The conditions of `all_sleepers_reported` and `written_calls_reported` can be met:
here. -/
example : DispatchedAlike (sample false) [0] ∧ Outermost (sample false) [0] 0 ∧
    Waits (sample false) 0 ⟨2, 2, true⟩ [(1, 10)] ∧ Calls (sample false) 0 3 := by
  have key : ∀ f path, Waits (sample false) 0 f path →
      f = ⟨1, 1, false⟩ ∨ f = ⟨2, 2, true⟩ ∨ f = ⟨3, 1, false⟩ := by
    intro f path h
    induction h with
    | start he _ =>
      simp [sample] at he
      subst he; simp [call, Edge.on, sample]
    | call _ _ _ he _ ih =>
      rcases ih with rfl | rfl | rfl
      · simp [sample] at he
        subst he; simp [call, Edge.on]
      · simp [sample] at he
      · simp [sample] at he
    | dispatch _ _ _ hq ih =>
      rcases ih with rfl | rfl | rfl
      · obtain ⟨h0, -, -, t, ht, hq⟩ := hq
        simp [sample] at ht hq h0
        rcases ht with rfl | rfl
        · simp at hq; exact absurd hq.symm h0
        · simp at hq; subst hq; simp [sample]
      · obtain ⟨-, h, -⟩ := hq; simp at h
      · obtain ⟨-, -, -, t, ht, hq⟩ := hq
        simp [sample] at hq
  have h1 : Waits (sample false) 0 ⟨1, 1, false⟩ [(1, 10)] :=
    Waits.start (e := call 1 10) (by simp [sample]) rfl
  refine ⟨?_, ⟨by simp, by simp⟩, ?_, ?_⟩
  · intro r hr r' hr' f f' path path' h h' he
    simp only [List.mem_singleton] at hr hr'
    subst hr; subst hr'
    have : f = f' := by
      rcases key _ _ h with rfl | rfl | rfl <;> rcases key _ _ h' with rfl | rfl | rfl <;>
        simp at he ⊢
    subst this
    exact fun _ h => h
  · refine Waits.dispatch (f := ⟨1, 1, false⟩) (q := 2) h1 ?_ ?_ ⟨by decide, rfl, by decide, 2, ?_, ?_⟩
    · simp [Program.Stops, sample]
    · simp [sample]
    · simp [sample]
    · simp +decide [sample]
  · refine Calls.call (e := call 3 12) (Calls.start (e := call 1 10) ?_ rfl) ?_ ?_ ?_ rfl
    · simp [sample]
    · simp [Program.Stops, sample, call]
    · simp [sample, call]
    · simp [sample, call]

/-- **C56, disagreement.**  A proc that is first called exactly (as by `..()`) and then
virtually is not looked at a second time: `bar` waits for the sleeping override all the
same, and nothing is reported. -/
theorem exact_call_hides_override :
    Waits (sample true) 0 ⟨2, 2, true⟩ [(1, 11)] ∧ (sample true).sleeps 2 = true ∧
      ¬ (sample true).Stops 2 ∧ sleepReports (sample true) [0] = [] := by
  refine ⟨?_, by simp [sample], by simp [Program.Stops, sample], ?_⟩
  · refine Waits.dispatch (f := ⟨1, 1, false⟩) (q := 2)
      (Waits.start (e := call 1 11) (by simp [sample]) rfl) ?_ ?_
      ⟨by decide, rfl, by decide, 2, ?_, ?_⟩
    · simp [Program.Stops, sample]
    · simp [sample]
    · simp [sample]
    · simp +decide [sample]
  · simp +decide [sleepReports, checkSleep, walk, pushCalls, pushOverrides, sample, call]

/-- Two procs with the directive, 0 calling 1, and 1 sleeping. -/
def pair : Program (Fin 2) (Fin 1) (Fin 2) Nat where
  calls p := if p = 0 then [{ proc := 1
                              loc := 5
                              newContext := false
                              src := 0
                              exact := false
                              inheritReceiver := true }] else []
  ty _ := 0
  name p := p
  rootTy := 0
  below t := [t]
  own _ _ := none
  sleeps p := p = 1
  waitfor _ := false
  exempt _ := false
  mustNot _ := true

/-- **C56, disagreement**, the instance: a proc that says it must not sleep, sleeps, and
is not reported, because another one calls it; without that one it would be. -/
theorem sleeping_root_missed :
    sleepReports pair [0, 1] = [] ∧ sleepReports pair [1] = [.builtin 1] := by
  constructor <;> simp +decide [sleepReports, checkSleep, walk, pushCalls, pair]

end Cases

/-! ## C57: `SpacemanDMM_should_be_pure` -/

omit [DecidableEq T] in
theorem mem_pureReports (g : Program P T N L) (i : PureInfo P T L) (roots : List P)
    (x : Impurity P L) : x ∈ pureReports g i roots ↔ ∃ r ∈ roots,
      (i.impure r = true ∧ x = .direct r) ∨
      x ∈ walkPure g i r ∅ ((g.calls r).map fun e => (e.proc, [(e.proc, e.loc)])) := by
  simp only [pureReports, List.mem_flatMap, List.mem_append]
  constructor
  · rintro ⟨r, hr, h⟩
    refine ⟨r, hr, h.imp_left fun h => ?_⟩
    split at h
    · exact ⟨by assumption, by simpa using h⟩
    · simp at h
  · rintro ⟨r, hr, h⟩
    refine ⟨r, hr, h.imp_left ?_⟩
    rintro ⟨hi, rfl⟩
    rw [if_pos hi]
    exact List.mem_singleton.2 rfl

omit [DecidableEq T] in
/-- **C57, own impurities.**  A proc with the directive is reported as impure itself
exactly when it is. -/
theorem impure_itself_iff (g : Program P T N L) (i : PureInfo P T L) (roots : List P) (root : P) :
    Impurity.direct root ∈ pureReports g i roots ↔ root ∈ roots ∧ i.impure root = true := by
  rw [mem_pureReports]
  constructor
  · rintro ⟨r, hr, ⟨h, he⟩ | h⟩
    · cases he; exact ⟨hr, h⟩
    · obtain ⟨p, st, -, hx⟩ := (walkPure_iff g i r).1 _ h
      rcases mem_impurities.1 hx with ⟨-, h⟩ | ⟨-, c, -, h, -⟩ <;> cases h
  · rintro ⟨hr, h⟩
    exact ⟨root, hr, .inl ⟨h, rfl⟩⟩

omit [DecidableEq T] in
/-- **C57, callees.**  For every proc with the directive, the impure procs reported are
exactly those it reaches through any number of calls. -/
theorem impure_callee_iff (g : Program P T N L) (i : PureInfo P T L) (roots : List P) (root p : P) :
    (∃ st, Impurity.via root p st ∈ pureReports g i roots) ↔
      root ∈ roots ∧ TransGen g.CallsAny root p ∧ i.impure p = true := by
  constructor
  · rintro ⟨st, h⟩
    obtain ⟨r, hr, ⟨-, he⟩ | h⟩ := (mem_pureReports ..).1 h
    · cases he
    · obtain ⟨p', st', h1, hx⟩ := (walkPure_iff g i r).1 _ h
      rcases mem_impurities.1 hx with ⟨h2, h⟩ | ⟨-, c, -, h, -⟩
      · cases h; exact ⟨hr, h1.1.transGen, h2⟩
      · cases h
  · rintro ⟨hr, ht, hi⟩
    obtain ⟨st, h⟩ := (walkPure_iff g i root).2 p ht
    exact ⟨st, (mem_pureReports ..).2 ⟨root, hr, .inr (h _ (mem_impurities.2 (.inl ⟨hi, rfl⟩)))⟩⟩

omit [DecidableEq T] in
/-- **C57, overrides.**  The impure overrides reported are those of the pure procs that
are reached, except that, for a proc called on an object of the directive's own type,
overrides on types not below it are left out. -/
theorem impure_override_iff (g : Program P T N L) (i : PureInfo P T L) (roots : List P)
    (root p c : P) :
    (∃ st, Impurity.override root p c st ∈ pureReports g i roots) ↔
      root ∈ roots ∧ TransGen g.CallsAny root p ∧ i.impure p = false ∧ c ∈ i.overrides p ∧
        (i.sub (g.ty root) (g.ty p) = true → i.sub (g.ty c) (g.ty root) = true) := by
  constructor
  · rintro ⟨st, h⟩
    obtain ⟨r, hr, ⟨-, he⟩ | h⟩ := (mem_pureReports ..).1 h
    · cases he
    · obtain ⟨p', st', h1, hx⟩ := (walkPure_iff g i r).1 _ h
      rcases mem_impurities.1 hx with ⟨-, h⟩ | ⟨h2, c, hc, h, h3⟩
      · cases h
      · cases h
        refine ⟨hr, h1.1.transGen, h2, hc, fun h4 => ?_⟩
        cases h5 : i.sub (g.ty c) (g.ty root)
        · exact absurd ⟨h4, h5⟩ h3
        · rfl
  · rintro ⟨hr, ht, hi, hc, hs⟩
    obtain ⟨st, h⟩ := (walkPure_iff g i root).2 p ht
    refine ⟨st, (mem_pureReports ..).2 ⟨root, hr, .inr (h _ (mem_impurities.2 (.inr
      ⟨hi, c, hc, rfl, ?_⟩)))⟩⟩
    rintro ⟨h1, h2⟩
    rw [hs h1] at h2; cases h2

omit [DecidableEq P] [Fintype P] [DecidableEq T] in
/-- **C57, which overrides are known.**  After all procs have been looked at, the impure
overrides recorded for a proc are the impure procs that override it, at any distance, other
than `New`; so the operations of a reported override can always be looked up. -/
theorem impure_overrides_known [DecidableEq P] (h : Parents P) (isNew impure : P → Bool)
    (procs : List P) (p c : P) :
    c ∈ propagateAll h isNew impure procs p ↔
      c ∈ procs ∧ isNew c = false ∧ impure c = true ∧ Ancestor h.parent c p := by
  rw [propagateAll_eq]
  simp [mem_above]

omit [DecidableEq T] in
/-- **C57, one report for each.**  For one directive, nothing is reported twice. -/
theorem impurity_reported_once (g : Program P T N L) (i : PureInfo P T L) (h : Parents P)
    (isNew : P → Bool) (procs : List P) (hp : procs.Nodup) (root : P)
    (hi : i.overrides = propagateAll h isNew i.impure procs) :
    ((pureReports g i [root]).map Impurity.key).Nodup := by
  have hw := (walkPure_once g i root (fun p => by rw [hi, propagateAll_eq]; exact hp.filter _) ∅
    ((g.calls root).map fun e => (e.proc, [(e.proc, e.loc)]))).1
  simp only [pureReports, List.flatMap_cons, List.flatMap_nil, List.append_nil, List.map_append]
  rw [List.nodup_append]
  refine ⟨by split <;> simp, hw, ?_⟩
  rintro a ha b hb rfl
  obtain ⟨y, hy, hyk⟩ := List.mem_map.1 hb
  obtain ⟨p, st, -, hx⟩ := (walkPure_iff g i root).1 _ hy
  obtain ⟨x, hx', rfl⟩ := List.mem_map.1 ha
  split at hx'
  · simp only [List.mem_singleton] at hx'
    subst hx'
    rcases mem_impurities.1 hx with ⟨-, rfl⟩ | ⟨-, c, -, rfl, -⟩ <;> simp [Impurity.key] at hyk
  · simp at hx'

omit [DecidableEq T] in
/-- **C57, the chain of calls shown.**  The procs on the stack of a report are a chain of
calls from the proc with the directive to the impure one, and the first step is shown where
it is made. -/
theorem impure_stack_true (g : Program P T N L) (i : PureInfo P T L) (roots : List P) {root p : P}
    {st : List (P × L)}
    (h : Impurity.via root p st ∈ pureReports g i roots ∨
      ∃ c, Impurity.override root p c st ∈ pureReports g i roots) :
    Trail g root (st.map Prod.fst) p ∧ ∃ e ∈ g.calls root, st.head? = some (e.proc, e.loc) := by
  have main : ∀ x ∈ pureReports g i roots,
      (x = .via root p st ∨ ∃ c, x = .override root p c st) → EntryOk g i root (p, st) := by
    intro x hx hk
    obtain ⟨r, hr, ⟨-, he⟩ | h⟩ := (mem_pureReports ..).1 hx
    · subst he; rcases hk with hk | ⟨c, hk⟩ <;> cases hk
    · obtain ⟨p', st', h1, hx⟩ := (walkPure_iff g i r).1 _ h
      rcases mem_impurities.1 hx with ⟨-, rfl⟩ | ⟨-, c, -, rfl, -⟩
      · rcases hk with hk | ⟨c, hk⟩ <;> cases hk
        exact h1
      · rcases hk with hk | ⟨c, hk⟩ <;> cases hk
        exact h1
  have : EntryOk g i root (p, st) := by
    rcases h with h | ⟨c, h⟩
    · exact main _ h (.inl rfl)
    · exact main _ h (.inr ⟨c, rfl⟩)
  obtain ⟨h1, e, he, rest, h2, -⟩ := this
  exact ⟨h1, e, he, by simp only at h2; rw [h2]; rfl⟩

omit [DecidableEq T] in
/-- **C57, disagreement.**  Every later step of the stack is shown at the place where the
directive is set, not where the call is made (lib.rs:949 passes `*location`). -/
theorem impure_stack_later_steps (g : Program P T N L) (i : PureInfo P T L) (roots : List P)
    {root p : P} {st : List (P × L)} (h : Impurity.via root p st ∈ pureReports g i roots) :
    ∀ y ∈ st.tail, y.2 = i.setAt root := by
  obtain ⟨r, hr, ⟨-, he⟩ | h⟩ := (mem_pureReports ..).1 h
  · cases he
  · obtain ⟨p', st', h1, hx⟩ := (walkPure_iff g i r).1 _ h
    rcases mem_impurities.1 hx with ⟨-, h⟩ | ⟨-, c, -, h, -⟩
    · cases h
      obtain ⟨-, e, he, rest, h2, h3⟩ := h1
      simp only at h2
      rw [h2]; exact h3
    · cases h

section Cases

/-- In the sample program: `/a/baz` (3) and `/a/b/foo` (2) are impure. -/
def impureSample : PureInfo (Fin 4) (Fin 3) Nat where
  impure p := p = 3 ∨ p = 2
  overrides p := if p = 1 then [2] else []
  sub a b := a = b ∨ b = 0 ∨ (a = 2 ∧ b = 1)
  setAt _ := 99

/-- Both are reported; the second step of the stack has the wrong place (12 is where the
call is). -/
example : pureReports (sample false) impureSample [0] =
    [.override 0 1 2 [(1, 10)], .via 0 3 [(1, 10), (3, 99)]] := by
  simp +decide [pureReports, walkPure, pushPure, impurities, sample, call, impureSample]

end Cases

/-! ## C58: directives -/

omit [Fintype P] [DecidableEq T] in
/-- **C58, setting a directive.**  The first setting is kept; it is refused on a global proc
if the directive does not allow it, and when it would switch off what cannot be. -/
theorem directive_insert (d : Directive P L) (global : P → Bool) (p : P) (b : Bool) (l : L) :
    (∀ d', d.insert global p b l = .ok d' →
      d'.set p = some (b, l) ∧ (∀ x, x ≠ p → d'.set x = d.set x) ∧ d.set p = none ∧
      (b = true ∨ d.canBeDisabled = true) ∧ (global p = false ∨ d.canBeGlobal = true)) ∧
    ((∃ e, d.insert global p b l = .error e) ↔
      (global p = true ∧ d.canBeGlobal = false) ∨ (b = false ∧ d.canBeDisabled = false) ∨
        ∃ v, d.set p = some v) := by
  unfold Directive.insert
  cases hg : global p <;> cases hcg : d.canBeGlobal <;> cases b <;> cases hcd : d.canBeDisabled <;>
    cases hs : d.set p <;> simp [hs] <;>
    (try (intro x hx hx'; exact absurd hx' hx))

omit [DecidableEq P] [Fintype P] [DecidableEq T] in
/-- **C58, looking a directive up** finds what is set on the proc or on the nearest proc it
overrides. -/
theorem directive_lookup (d : Directive P L) (h : Parents P) (p : P) (v : Bool × L) :
    (∃ a, d.selfOrParent h p = some (a, v)) ↔ Resolves d.set h.parent p v :=
  selfOrParent_resolves.symm

omit [Fintype P] [DecidableEq T] in
/-- **C58, inheritance.**  For a directive that cannot be switched off and may stand on global
procs (`should_not_sleep`, `should_be_pure`): after all procs with a body have been visited, *in
any order*, a proc carries the directive exactly when it is set on it, or it has a body and
the directive is set on a proc it overrides; with the place of the nearest. -/
theorem directive_inherited (d : Directive P L) (h : Parents P) (global : P → Bool)
    (procs : List P) (hd : d.canBeDisabled = false) (hg : d.canBeGlobal = true)
    (hon : ∀ p v, d.set p = some v → v.1 = true) (p : P) (v : Bool × L) :
    (d.inherit h global procs).set p = some v ↔
      d.set p = some v ∨ (p ∈ procs ∧ Resolves d.set h.parent p v) :=
  inherit_eq h global procs d ⟨hd, hg, hon⟩ p v

omit [Fintype P] [DecidableEq T] in
/-- **C58, the order of the visit does not matter.** -/
theorem directive_order_irrelevant (d : Directive P L) (h : Parents P) (global : P → Bool)
    (ps qs : List P) (hd : d.canBeDisabled = false) (hg : d.canBeGlobal = true)
    (hon : ∀ p v, d.set p = some v → v.1 = true) (hpq : ∀ p, p ∈ ps ↔ p ∈ qs) (p : P) :
    (d.inherit h global ps).set p = (d.inherit h global qs).set p := by
  apply Option.ext
  intro v
  change _ = some v ↔ _ = some v
  rw [directive_inherited d h global ps hd hg hon, directive_inherited d h global qs hd hg hon, hpq]

section Cases

/-- 2 overrides 1 overrides 0. -/
def chain3 : Parents (Fin 3) where
  parent p := if p = 2 then some 1 else if p = 1 then some 0 else none
  depth p := p.val
  lower := by decide

/-- Set on 0 only. -/
def onFirst : Directive (Fin 3) Nat where
  set p := if p = 0 then some (true, 7) else none
  canBeDisabled := false
  canBeGlobal := true

/-- Visiting the grandchild before the child gives it the directive, too. -/
example : (onFirst.inherit chain3 (fun _ => false) [2, 1]).set 2 = some (true, 7) := by
  rw [directive_inherited onFirst chain3 _ _ rfl rfl (by decide)]
  exact .inr ⟨by decide, .up rfl rfl (.up rfl rfl (.here rfl))⟩

/-- A proc without a body does not get it. -/
example : (onFirst.inherit chain3 (fun _ => false) [2]).set 1 = none := by
  cases h : (onFirst.inherit chain3 (fun _ => false) [2]).set 1 with
  | none => rfl
  | some v =>
    rw [directive_inherited onFirst chain3 _ _ rfl rfl (by decide)] at h
    rcases h with h | ⟨h, -⟩
    · cases h
    · exact absurd h (by decide)

example : 2 ∈ propagateAll chain3 (fun _ => false) (fun p => p = 2) [0, 1, 2] 0 := by
  rw [impure_overrides_known]
  exact ⟨by decide, rfl, rfl, .up rfl (.one rfl)⟩

end Cases

end Verif.CallTree
