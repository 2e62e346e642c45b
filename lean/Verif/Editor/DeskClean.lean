import Verif.Editor.DeskSaved

/-!
# No changes are lost unnoticed (C108)
-/

set_option linter.unusedSectionVars false

namespace Verif.Editor.Desk

open Verif.Editor

variable {P D T E A : Type} [DecidableEq P]

/-- the last time the map `u` was saved (not as a copy) -/
def lastSave (ws : List (Write P D T)) (u : Nat) : Option (Write P D T) :=
  (ws.filter fun w => w.uid == u && !w.copy).getLast?

/-- `a` is what was last saved of the map `u`, or what was loaded (or created) -/
def Reference (R : T → A → Prop) (o : Ops D T E) (ws : List (Write P D T)) (u : Nat) (base : D) (a : A) : Prop :=
  match lastSave ws u with
  | some w => R w.doc a
  | none => ∃ e, R (o.prepare e base) a

/-- the history of a map, also while it is being refreshed -/
def MapState.full : MapState P D T E → Option (D × History T E)
  | .active base h => some (base, h)
  | .refreshing base h _ => some (base, h)
  | _ => none

/-- what holds of each map -/
structure TabInv (R : T → A → Prop) (o : Ops D T E) (ws : List (Write P D T)) (t : Tab P D T E) : Prop where
  early : t.state.full = none → ∀ w ∈ ws, w.uid ≠ t.uid
  hist : ∀ base h, t.state.full = some (base, h) → ∃ s pth, Rep R h s pth ∧ Reference R o ws t.uid base (s.value s.clean)

structure Inv (R : T → A → Prop) (o : Ops D T E) (d : Desk P D T E) : Prop where
  ok : d.Ok
  past : ∀ w ∈ d.writes, w.uid < d.uid
  tabs : ∀ t ∈ d.tabs, TabInv R o d.writes t

/-! ### the histories -/

theorem lastSave_other {ws : List (Write P D T)} {u : Nat} {w : Write P D T} (h : w.uid ≠ u ∨ w.copy = true) :
    lastSave (ws ++ [w]) u = lastSave ws u := by
  unfold lastSave
  have : (w.uid == u && !w.copy) = false := by
    rcases h with h | h
    · simp [h]
    · simp [h]
  rw [List.filter_append, List.filter_cons, this]
  simp

theorem lastSave_same {ws : List (Write P D T)} {u : Nat} {w : Write P D T} (h : w.uid = u) (hc : w.copy = false) :
    lastSave (ws ++ [w]) u = some w := by
  unfold lastSave
  rw [List.filter_append, List.filter_cons]
  simp [h, hc]

variable {R : T → A → Prop} {o : Ops D T E}

theorem TabInv.other {ws : List (Write P D T)} {t : Tab P D T E} (h : TabInv R o ws t) {w : Write P D T}
    (hw : w.uid ≠ t.uid) : TabInv R o (ws ++ [w]) t where
  early := by
    intro hs w' hw'
    simp only [List.mem_append, List.mem_singleton] at hw'
    rcases hw' with h' | rfl
    · exact h.early hs w' h'
    · exact hw
  hist := by
    intro base hi hs
    obtain ⟨s, pth, hr, href⟩ := h.hist base hi hs
    refine ⟨s, pth, hr, ?_⟩
    unfold Reference at *
    rw [lastSave_other (.inl hw)]
    exact href

theorem TabInv.copy {ws : List (Write P D T)} {t : Tab P D T E} (h : TabInv R o ws t) {w : Write P D T}
    (hc : w.copy = true) (hs : t.state.full ≠ none) : TabInv R o (ws ++ [w]) t where
  early := fun e => absurd e hs
  hist := by
    intro base hi hs
    obtain ⟨s, pth, hr, href⟩ := h.hist base hi hs
    refine ⟨s, pth, hr, ?_⟩
    unfold Reference at *
    rw [lastSave_other (.inr hc)]
    exact href

theorem TabInv.save {ws : List (Write P D T)} {t t' : Tab P D T E} (h : TabInv R o ws t) {w : Write P D T}
    (hc : w.copy = false) {base : D} {hi : History T E} (hs : t.state = .active base hi) (hd : w.doc = hi.current)
    (hu : w.uid = t.uid) (hu' : t'.uid = t.uid) (hs' : t'.state = .active base hi.markClean) :
    TabInv R o (ws ++ [w]) t' where
  early := by intro e; rw [hs'] at e; cases e
  hist := by
    intro base' hi' e
    rw [hs'] at e
    simp only [MapState.full, Option.some.injEq, Prod.mk.injEq] at e
    obtain ⟨rfl, rfl⟩ := e
    obtain ⟨s, pth, hr, _⟩ := h.hist base hi (by rw [hs]; rfl)
    refine ⟨_, pth, rep_clean hr, ?_⟩
    unfold Reference
    rw [lastSave_same (hu.trans hu'.symm) hc]
    simp only
    rw [hd]
    exact hr.val

/-- the same map with another state of equal standing -/
theorem TabInv.keep {ws : List (Write P D T)} {t t' : Tab P D T E} (h : TabInv R o ws t) (hu : t'.uid = t.uid)
    (hs : t'.state.full = t.state.full) : TabInv R o ws t' where
  early := by rw [hs, hu]; exact h.early
  hist := by rw [hs, hu]; exact h.hist

theorem step_clean {s s' : Snapshots A} {pth : Nat → List Nat} {h : History T E} (r : Rep R h s pth)
    {a : Action T E} (hs : Snapshots.Step R s a s') (hne : a ≠ .markClean) :
    ∃ pth', Rep R (h.act a) s' pth' ∧ s'.value s'.clean = s.value s.clean := by
  obtain ⟨pth', r'⟩ := rep_step r hs
  refine ⟨pth', r', ?_⟩
  cases hs with
  | edit env f b hf =>
    simp only
    rw [if_neg]
    intro e
    have h1 := r'.clean
    have h2 := r'.cur
    simp only [History.act, History.edit] at h1 h2
    have h3 := r.clean.1
    have h4 := r'.inj h.cleanIdx h.nodes (by simp only [History.act, History.edit]; omega)
      (by simp only [History.act, History.edit]; omega) (by rw [← h1.2, ← h2]; exact e)
    omega
  | undo env => rfl
  | redo env => rfl
  | markClean => exact absurd rfl hne
  | replace f hf => rfl

/-- an action on an active map -/
theorem TabInv.act {ws : List (Write P D T)} {t : Tab P D T E} (h : TabInv R o ws t) (a : Action T E)
    (hne : a ≠ .markClean)
    (ha : ∀ base hi s pth, t.state = .active base hi → Rep R hi s pth → ∃ s', Snapshots.Step R s a s') :
    TabInv R o ws (Tab.onHist (fun h => h.act a) t) := by
  unfold Tab.onHist
  split
  · next base hi hs =>
    refine ⟨fun e => by simp [MapState.full] at e, ?_⟩
    intro base' hi' e
    simp only [MapState.full, Option.some.injEq, Prod.mk.injEq] at e
    obtain ⟨rfl, rfl⟩ := e
    obtain ⟨s, pth, hr, href⟩ := h.hist base hi (by rw [hs]; rfl)
    obtain ⟨s', hst⟩ := ha base hi s pth hs hr
    obtain ⟨pth', hr', hv⟩ := step_clean hr hst hne
    exact ⟨s', pth', hr', by rw [hv]; exact href⟩
  · exact h

theorem TabInv.newEnv {ws : List (Write P D T)} {t : Tab P D T E} (h : TabInv R o ws t) (e : E) :
    TabInv R o ws (t.newEnv e) := by
  refine h.keep (newEnv_uid e t) ?_
  unfold Tab.newEnv
  cases hs : t.state <;> simp [MapState.full, hs]

theorem TabInv.poll {ws : List (Write P D T)} {t : Tab P D T E} (h : TabInv R o ws t)
    (hprep : ∀ e base, ∃ a, R (o.prepare e base) a) (hre : ∀ e x a, R x a → R (o.refresh e x) a)
    (env read ready) : TabInv R o ws (t.poll o env read ready) := by
  unfold Tab.poll
  split
  · next file hs =>
    split
    · exact h.keep rfl (by rw [hs]; rfl)
    · exact h.keep rfl (by rw [hs])
  · next base hs =>
    split
    · exact h.keep rfl (by rw [hs]; rfl)
    · exact h
  · next base e hs =>
    split
    · refine ⟨fun e => by simp [MapState.full] at e, ?_⟩
      intro base' hi' e'
      simp only [MapState.full, Option.some.injEq, Prod.mk.injEq] at e'
      obtain ⟨rfl, rfl⟩ := e'
      obtain ⟨a, ha⟩ := hprep e base
      refine ⟨Snapshots.new a, _, rep_new ha, ?_⟩
      unfold Reference
      have : lastSave ws t.uid = none := by
        unfold lastSave
        rw [List.getLast?_eq_none_iff, List.filter_eq_nil_iff]
        intro w hw
        have := h.early (by rw [hs]; rfl) w hw
        simp [this]
      simp only
      rw [this]
      exact ⟨e, ha⟩
    · exact h
  · next base hi e hs =>
    split
    · refine ⟨fun e => by simp [MapState.full] at e, ?_⟩
      intro base' hi' e'
      simp only [MapState.full, Option.some.injEq, Prod.mk.injEq] at e'
      obtain ⟨rfl, rfl⟩ := e'
      obtain ⟨s, pth, hr, href⟩ := h.hist base hi (by rw [hs]; rfl)
      obtain ⟨pth', hr', hv⟩ := step_clean hr (Snapshots.Step.replace s (o.refresh e) fun x hx => hre e x _ hx) nofun
      exact ⟨s, pth', hr', href⟩
    · exact h
  · exact h

/-! ### the whole -/

theorem Inv.add {d : Desk P D T E} (hi : Inv R o d) (t : Tab P D T E) (ht : t.uid = d.uid)
    (hist : ∀ base h, t.state.full = some (base, h) → ∃ e a, h = History.new (o.prepare e base) ∧ R (o.prepare e base) a) :
    Inv R o { d with cur := d.tabs.length, tabs := d.tabs ++ [t], uid := d.uid + 1 } where
  ok := add_ok hi.ok t ht
  past := fun w hw => by have := hi.past w hw; simp only; omega
  tabs := by
    intro t' ht'
    simp only [List.mem_append, List.mem_singleton] at ht'
    rcases ht' with h | rfl
    · exact hi.tabs t' h
    · refine ⟨fun _ w hw => by have := hi.past w hw; omega, ?_⟩
      intro base h hs
      obtain ⟨e, a, rfl, ha⟩ := hist base h hs
      refine ⟨_, _, rep_new ha, ?_⟩
      unfold Reference
      have : lastSave d.writes t'.uid = none := by
        unfold lastSave
        rw [List.getLast?_eq_none_iff, List.filter_eq_nil_iff]
        intro w hw
        have := hi.past w hw
        have : w.uid ≠ t'.uid := by omega
        simp [this]
      simp only
      rw [this]
      exact ⟨e, ha⟩

theorem Inv.sameTabs {d d' : Desk P D T E} (hi : Inv R o d) (ho : d'.Ok) (ht : d'.tabs = d.tabs) (hu : d'.uid = d.uid)
    (hw : d'.writes = d.writes) : Inv R o d' where
  ok := ho
  past := by rw [hw, hu]; exact hi.past
  tabs := by rw [hw, ht]; exact hi.tabs

/-- one map is written -/
theorem Inv.write {d d' : Desk P D T E} (hi : Inv R o d) (ho : d'.Ok) {t : Tab P D T E} (ht : t ∈ d.tabs) {base : D}
    {h : History T E} (hs : t.state = .active base h) {w : Write P D T} (hu : w.uid = t.uid) (hd : w.doc = h.current)
    (hw : d'.writes = d.writes ++ [w]) (huid : d'.uid = d.uid)
    (htabs : ∀ x' ∈ d'.tabs, ∃ x ∈ d.tabs, x'.uid = x.uid ∧ (x.uid ≠ t.uid → x' = x) ∧
      (x.uid = t.uid → if w.copy then x' = x else x'.state = .active base h.markClean)) : Inv R o d' where
  ok := ho
  past := by
    intro w' hw'
    rw [hw, List.mem_append, List.mem_singleton] at hw'
    rw [huid]
    rcases hw' with h' | rfl
    · exact hi.past w' h'
    · rw [hu]; exact hi.ok.fresh t ht
  tabs := by
    intro x' hx'
    obtain ⟨x, hx, e, h1, h2⟩ := htabs x' hx'
    rw [hw]
    by_cases hxt : x.uid = t.uid
    · have hxx := uid_unique hi.ok.nodup hx ht hxt
      subst hxx
      have h2 := h2 rfl
      cases hc : w.copy with
      | true =>
        rw [hc] at h2
        simp only [if_true] at h2
        subst h2
        exact (hi.tabs x' hx).copy hc (by rw [hs]; nofun)
      | false =>
        rw [hc] at h2
        simp only [Bool.false_eq_true, if_false] at h2
        exact (hi.tabs x hx).save hc hs hd hu e h2
    · rw [h1 hxt]
      exact (hi.tabs x hx).other (by rw [hu]; exact fun e => hxt e.symm)

theorem Inv.saveMap {d : Desk P D T E} (hi : Inv R o d) (ok : P → Bool) (ho : (d.saveMap o ok).Ok) :
    Inv R o (d.saveMap o ok) := by
  unfold Desk.saveMap at *
  split
  · exact hi
  · next t ht =>
    rw [ht] at ho
    simp only at ho
    split
    · exact hi
    · next base h hh =>
      rw [hh] at ho
      simp only at ho
      split
      · next hp => exact hi.sameTabs (by rw [hp] at ho; exact ho) rfl rfl rfl
      · next p hp =>
        rw [hp] at ho
        have hs := hist_some hh
        refine hi.write ho (List.mem_of_getElem? ht) hs (w := ⟨t.uid, p, h.current, o.save h.current base, false, ok p⟩)
          rfl rfl rfl rfl ?_
        intro x' hx'
        simp only at hx'
        rw [modify_eq_map hi.ok.nodup ht] at hx'
        obtain ⟨x, hx, rfl⟩ := List.mem_map.1 hx'
        refine ⟨x, hx, ?_, ?_, ?_⟩
        · split
          · exact onHist_uid _ _
          · rfl
        · intro hne; rw [if_neg hne]
        · intro e
          rw [if_pos e, uid_unique hi.ok.nodup hx (List.mem_of_getElem? ht) e]
          unfold Tab.onHist
          rw [hs]
          rfl

/-- selecting does not matter -/
theorem Inv.select {d : Desk P D T E} (hi : Inv R o d) (c : Nat) (hc : c < d.tabs.length ∨ (d.tabs = [] ∧ c = 0)) :
    Inv R o { d with cur := c } :=
  hi.sameTabs ⟨hc, hi.ok.nodup, hi.ok.fresh⟩ rfl rfl rfl

theorem Inv.saveFrom (ok : P → Bool) (n : Nat) {d : Desk P D T E} (k : Nat) (hk : k + n = d.tabs.length)
    (hi : Inv R o d) : Inv R o { Desk.saveFrom o ok { d with cur := k } n with cur := d.cur } := by
  induction n generalizing d k with
  | zero => exact hi.sameTabs hi.ok rfl rfl rfl
  | succ n ih =>
    have h1 : Inv R o { d with cur := k } := hi.select k (.inl (by omega))
    have h2 := h1.saveMap ok ((saveMap_same o ok { d with cur := k }).1.ok h1.ok
      ((saveMap_same o ok { d with cur := k }).1.sel h1.ok (saveMap_same o ok { d with cur := k }).2))
    have hl := ((saveMap_same o ok { d with cur := k }).1).length
    have hl : (Desk.saveMap o ok { d with cur := k }).tabs.length = d.tabs.length := hl
    have h3 : Inv R o { Desk.saveMap o ok { d with cur := k } with cur := d.cur } := by
      refine h2.select d.cur ?_
      rw [hl]
      rcases hi.ok.sel with h | ⟨h, _⟩
      · exact .inl h
      · rw [h] at hk; simp at hk
    exact ih (d := { Desk.saveMap o ok { d with cur := k } with cur := d.cur }) (k + 1)
      (by simp only [hl]; omega) h3

theorem Inv.loadMap {d : Desk P D T E} (hi : Inv R o d) (p : P) : Inv R o (d.loadMap p) := by
  have ho := loadMap_ok hi.ok p
  unfold Desk.loadMap at *
  split
  · next i hix => rw [hix] at ho; exact hi.sameTabs ho rfl rfl rfl
  · exact hi.add _ rfl (by intro _ _ h; cases h)

theorem Inv.command {d : Desk P D T E} (hi : Inv R o d) (ok : P → Bool) (c : Command P) :
    Inv R o (d.command o ok c) := by
  have ho := command_ok o ok hi.ok c
  cases c with
  | dialogError m =>
    simp only [Desk.command] at *
    split
    · exact hi.sameTabs ⟨hi.ok.sel, hi.ok.nodup, hi.ok.fresh⟩ rfl rfl rfl
    · exact hi
  | openEnvironment p => exact hi.sameTabs ho rfl rfl rfl
  | openMap ps =>
    simp only [Desk.command] at *
    clear ho
    induction ps generalizing d with
    | nil => exact hi
    | cons p ps ih => exact ih (hi.loadMap p)
  | saveMap uid p copy =>
    obtain ⟨new, et, hn⟩ := command_tabs o ok hi.ok (.saveMap uid p copy)
    have hnew : new = [] := by
      cases new with
      | nil => rfl
      | cons x l => obtain ⟨_, _, h, _⟩ := hn x List.mem_cons_self; cases h
    subst hnew
    rw [List.append_nil] at et
    have key : ∀ d' : Desk P D T E, d' = d.command o ok (.saveMap uid p copy) → ∀ t ∈ d.tabs, ∀ base h,
        t.state = .active base h → t.uid = uid → d'.uid = d.uid →
        d'.writes = d.writes ++ [⟨t.uid, p, h.current, o.save h.current base, copy, ok p⟩] → Inv R o d' := by
      intro d' e t ht base h hs hu huid hw
      refine hi.write (e ▸ ho) ht hs (w := ⟨t.uid, p, h.current, o.save h.current base, copy, ok p⟩) rfl rfl hw huid ?_
      intro x' hx'
      rw [e, et] at hx'
      obtain ⟨x, hx, rfl⟩ := List.mem_map.1 hx'
      refine ⟨x, hx, ?_, ?_, ?_⟩
      · unfold Tab.onCommand Tab.savedAs
        split
        · split
          · split <;> rfl
          · rfl
        · rfl
      · intro hne
        unfold Tab.onCommand
        split
        · next u' p' he =>
          injection he with e1
          rw [if_neg]
          rw [← e1, ← hu]
          exact hne
        · rfl
      · intro hxe
        have hxx := uid_unique hi.ok.nodup hx ht hxe
        subst hxx
        cases copy with
        | true => rfl
        | false =>
          simp only [Tab.onCommand, hu, if_true, Tab.savedAs, hs, Bool.false_eq_true, if_false]
    generalize hd' : d.command o ok (.saveMap uid p copy) = d' at *
    have hd2 := hd'
    simp only [Desk.command] at hd2
    split at hd2
    · exact hd2 ▸ hi
    · next i hix =>
      split at hd2
      · exact hd2 ▸ hi
      · next t ht =>
        have hu : t.uid = uid := by
          obtain ⟨hlt, h1, _⟩ := List.findIdx?_eq_some_iff_getElem.1 hix
          rw [List.getElem?_eq_getElem hlt] at ht
          injection ht with ht
          rw [ht] at h1
          simpa using h1
        split at hd2
        · exact hd2 ▸ hi
        · next base h hh =>
          refine key d' rfl t (List.mem_of_getElem? ht) base h (hist_some hh) hu ?_ ?_
          · rw [← hd2]; split <;> rfl
          · rw [← hd2]; split <;> rfl

theorem Inv.commands (ok : P → Bool) (cs : List (Command P)) {d : Desk P D T E} (hi : Inv R o d) :
    Inv R o (cs.foldl (Desk.command o ok) d) := by
  induction cs generalizing d with
  | nil => exact hi
  | cons c cs ih => exact ih (hi.command ok c)

theorem Inv.envArrives {d : Desk P D T E} (hi : Inv R o d) (er : EnvResult E) : Inv R o (d.envArrives er) := by
  cases er with
  | empty => exact hi
  | failed =>
    simp only [Desk.envArrives]
    split
    · exact hi
    · exact hi.sameTabs ⟨hi.ok.sel, hi.ok.nodup, hi.ok.fresh⟩ rfl rfl rfl
  | done e =>
    have hsm := envArrives_same d (.done e)
    have ho := hsm.1.ok hi.ok (hsm.1.sel hi.ok hsm.2)
    simp only [Desk.envArrives] at *
    split
    · exact hi
    · next hl =>
      rw [hl] at ho
      refine ⟨ho, hi.past, ?_⟩
      intro t' ht'
      obtain ⟨t, ht, rfl⟩ := List.mem_map.1 ht'
      exact (hi.tabs t ht).newEnv e

/-- an edit can be undone: in the state `d`, if `ev` is an edit of a map that stands for `a`, it leads to
something and back -/
def Fine (R : T → A → Prop) (d : Desk P D T E) : Event P D T E → Prop
  | .edit f => ∀ t base h a, d.tabs[d.cur]? = some t → t.state = .active base h → R h.current a →
      ∃ b, Reversible R f a b
  | _ => True

theorem Inv.step {d : Desk P D T E} (hi : Inv R o d) (hprep : ∀ e base, ∃ a, R (o.prepare e base) a)
    (hre : ∀ e x a, R x a → R (o.refresh e x) a) (ev : Event P D T E) (hf : Fine R d ev) : Inv R o (d.step o ev) := by
  have ho := step_ok o hi.ok ev
  have act : ∀ (e : E) (a : E → Action T E), (∀ e, a e ≠ .markClean) →
      (∀ t base h s pth, d.tabs[d.cur]? = some t → t.state = .active base h → Rep R h s pth →
        ∃ s', Snapshots.Step R s (a e) s') →
      Inv R o { d with tabs := d.tabs.modify d.cur (Tab.onHist fun h => h.act (a e)) } := by
    intro e a hne hst
    have hsame : Same d { d with tabs := d.tabs.modify d.cur (Tab.onHist fun h => h.act (a e)) } :=
      ⟨map_uid_modify _ _ _ (onHist_uid _), rfl⟩
    refine ⟨hsame.ok hi.ok (hsame.sel hi.ok rfl), hi.past, ?_⟩
    intro t' ht'
    rcases mem_modify ht' with h | ⟨t, ht, rfl⟩
    · exact hi.tabs t' h
    · exact (hi.tabs t (List.mem_of_getElem? ht)).act (a e) (hne e) fun base h s pth hs hr => hst t base h s pth ht hs hr
  cases ev with
  | send c =>
    simp only [Desk.step] at *
    split
    · exact hi
    · exact hi.sameTabs ⟨hi.ok.sel, hi.ok.nodup, hi.ok.fresh⟩ rfl rfl rfl
  | create base =>
    simp only [Desk.step, Desk.create] at *
    split
    · exact hi
    · next e he =>
      refine hi.add _ rfl ?_
      intro b h e'
      simp only [MapState.full, Option.some.injEq, Prod.mk.injEq] at e'
      obtain ⟨rfl, rfl⟩ := e'
      obtain ⟨a, ha⟩ := hprep e base
      exact ⟨e, a, rfl, ha⟩
  | close =>
    refine ⟨ho, ?_, ?_⟩
    · simp only [Desk.step, Desk.close]
      split
      · exact hi.past
      · split <;> exact hi.past
    · simp only [Desk.step, Desk.close]
      split
      · exact fun t ht => hi.tabs t ((List.eraseIdx_sublist _ _).mem ht)
      · split
        · exact fun t ht => hi.tabs t ((List.eraseIdx_sublist _ _).mem ht)
        · exact hi.tabs
  | tab f =>
    simp only [Desk.step, Desk.tabBetween] at *
    split
    · exact hi
    · next h => rw [if_neg h] at ho; exact hi.sameTabs ho rfl rfl rfl
  | click i z =>
    refine ⟨ho, ?_, ?_⟩
    · simp only [Desk.step, Desk.click]
      split
      · exact hi.past
      · split <;> exact hi.past
    · simp only [Desk.step, Desk.click]
      split
      · exact hi.tabs
      · split
        · exact hi.tabs
        · intro t' ht'
          rcases mem_modify ht' with h | ⟨t, ht, rfl⟩
          · exact hi.tabs t' h
          · exact (hi.tabs t (List.mem_of_getElem? ht)).keep rfl rfl
  | save ok => exact hi.saveMap ok ho
  | saveAs copy =>
    simp only [Desk.step, Desk.saveMapAs] at *
    split
    · exact hi
    · split
      · exact hi
      · exact hi.sameTabs ⟨hi.ok.sel, hi.ok.nodup, hi.ok.fresh⟩ rfl rfl rfl
  | saveAll ok => exact Inv.saveFrom ok d.tabs.length 0 (by omega) hi
  | answer k p =>
    simp only [Desk.step] at *
    split
    · exact hi
    · exact hi.sameTabs ⟨hi.ok.sel, hi.ok.nodup, hi.ok.fresh⟩ rfl rfl rfl
  | edit f =>
    simp only [Desk.step, Desk.act] at *
    split
    · exact hi
    · next e he =>
      refine act e (fun e => .edit e f) (fun _ => nofun) ?_
      intro t base h s pth ht hs hr
      obtain ⟨b, hb⟩ := hf t base h _ ht hs hr.val
      exact ⟨_, .edit s e f b hb⟩
  | undo =>
    simp only [Desk.step, Desk.act] at *
    split
    · exact hi
    · next e he =>
      exact act e (fun e => .undo e) (fun _ => nofun) (fun _ _ _ s _ _ _ _ => ⟨_, .undo s e⟩)
  | redo =>
    simp only [Desk.step, Desk.act] at *
    split
    · exact hi
    · next e he =>
      exact act e (fun e => .redo e) (fun _ => nofun) (fun _ _ _ s _ _ _ _ => ⟨_, .redo s e⟩)
  | run ok er read ready =>
    have h0 : Inv R o { d with queue := [] } := hi.sameTabs ⟨hi.ok.sel, hi.ok.nodup, hi.ok.fresh⟩ rfl rfl rfl
    have h1 := (h0.commands ok d.queue).envArrives er
    refine ⟨ho, h1.past, ?_⟩
    intro t' ht'
    simp only [Desk.step, Desk.run] at ht'
    obtain ⟨t, ht, rfl⟩ := List.mem_map.1 ht'
    exact (h1.tabs t ht).poll hprep hre _ _ _

theorem inv_after (hprep : ∀ e base, ∃ a, R (o.prepare e base) a) (hre : ∀ e x a, R x a → R (o.refresh e x) a)
    (evs : List (Event P D T E)) (hf : ∀ pre ev post, evs = pre ++ ev :: post → Fine R (after o pre) ev) :
    Inv R o (after o evs) := by
  induction evs using List.reverseRecOn with
  | nil => exact ⟨new_ok, (fun _ h => by cases h), (fun _ h => by cases h)⟩
  | append_singleton evs e ih =>
    rw [after_snoc]
    refine (ih fun pre ev post h => hf pre ev (post ++ [e]) (by rw [h]; simp)).step hprep hre e ?_
    exact hf evs e [] rfl

/-- **C108.** No change is lost unnoticed: whatever happens, a map that has a file and no star in its
title is, as far as the document is concerned, what was last saved of it (not as a copy), or what was
loaded if it was not saved yet.  Undoing back to the saved state counts; refreshing after the environment
was loaded again does not.  The hypotheses are about the functions on maps (C46–C48): edits can be undone
and refreshing keeps what a map stands for. -/
theorem clean_means_saved (hprep : ∀ e base, ∃ a, R (o.prepare e base) a)
    (hre : ∀ e x a, R x a → R (o.refresh e x) a) (evs : List (Event P D T E))
    (hf : ∀ pre ev post, evs = pre ++ ev :: post → Fine R (after o pre) ev)
    (t : Tab P D T E) (ht : t ∈ (after o evs).tabs) (base : D) (h : History T E) (hs : t.state = .active base h)
    (p : P) (hp : t.path = some p) (hstar : t.star = false) :
    ∃ a, R h.current a ∧
      match ((after o evs).writes.filter fun w => w.uid == t.uid && !w.copy).getLast? with
      | some w => R w.doc a
      | none => ∃ e, R (o.prepare e base) a := by
  have hd : h.isDirty = false := by
    unfold Tab.star at hstar
    rw [hp] at hstar
    simp only [Tab.dirty, hs, MapState.hist] at hstar
    exact hstar
  obtain ⟨s, pth, hr, href⟩ := ((inv_after hprep hre evs hf).tabs t ht).hist base h (by rw [hs]; rfl)
  refine ⟨s.value s.cur, hr.val, ?_⟩
  have : s.cur = s.clean := by
    unfold History.isDirty at hd
    have hd : h.cleanIdx = h.idx := by simpa using hd
    rw [hr.cur, hr.clean.2, hd]
  rw [this]
  exact href

end Verif.Editor.Desk
