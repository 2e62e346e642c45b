import Verif.Editor.DeskModel
import Verif.Editor.HistoryProps
import Mathlib.Data.List.Induction

/-!
# Theorems about the open maps of the editor (C108)
-/

set_option linter.unusedSectionVars false

namespace Verif.Editor.Desk

open Verif.Editor

variable {P D T E A : Type} [DecidableEq P]

/-! ## Selection and identity -/

/-- a map is selected whenever one is open; no two open maps have the same number -/
structure Desk.Ok (d : Desk P D T E) : Prop where
  sel : d.cur < d.tabs.length ∨ (d.tabs = [] ∧ d.cur = 0)
  nodup : (d.tabs.map Tab.uid).Nodup
  fresh : ∀ t ∈ d.tabs, t.uid < d.uid

theorem map_uid_modify (l : List (Tab P D T E)) (i : Nat) (f : Tab P D T E → Tab P D T E)
    (hf : ∀ t, (f t).uid = t.uid) : (l.modify i f).map Tab.uid = l.map Tab.uid := by
  induction l generalizing i with
  | nil => cases i <;> rfl
  | cons a l ih => cases i with
    | zero => simp [hf]
    | succ i => simp [ih]

theorem onHist_uid (f : History T E → History T E) (t : Tab P D T E) : (Tab.onHist f t).uid = t.uid := by
  unfold Tab.onHist; split <;> rfl

theorem newEnv_uid (e : E) (t : Tab P D T E) : (Tab.newEnv e t).uid = t.uid := by
  unfold Tab.newEnv; split <;> rfl

theorem poll_uid (o : Ops D T E) (env read ready) (t : Tab P D T E) : (t.poll o env read ready).uid = t.uid := by
  unfold Tab.poll
  split
  · split <;> rfl
  · split <;> rfl
  · split <;> rfl
  · split <;> rfl
  · rfl

/-- `d'` has the same maps, in the same order, as `d` -/
def Same (d d' : Desk P D T E) : Prop := d'.tabs.map Tab.uid = d.tabs.map Tab.uid ∧ d'.uid = d.uid

theorem Same.length {d d' : Desk P D T E} (h : Same d d') : d'.tabs.length = d.tabs.length := by
  have := congrArg List.length h.1
  simpa using this

theorem Same.ok {d d' : Desk P D T E} (h : Same d d') (ho : d.Ok)
    (hs : d'.cur < d'.tabs.length ∨ (d'.tabs = [] ∧ d'.cur = 0)) : d'.Ok where
  sel := hs
  nodup := by rw [h.1]; exact ho.nodup
  fresh := by
    intro t ht
    have : t.uid ∈ d'.tabs.map Tab.uid := List.mem_map.2 ⟨t, ht, rfl⟩
    rw [h.1] at this
    obtain ⟨t', ht', e⟩ := List.mem_map.1 this
    rw [← e, h.2]
    exact ho.fresh t' ht'

theorem Same.sel {d d' : Desk P D T E} (h : Same d d') (ho : d.Ok) (hc : d'.cur = d.cur) :
    d'.cur < d'.tabs.length ∨ (d'.tabs = [] ∧ d'.cur = 0) := by
  rw [h.length, hc]
  rcases ho.sel with h1 | ⟨h1, h2⟩
  · exact .inl h1
  · refine .inr ⟨?_, h2⟩
    have := h.length
    rw [h1] at this
    exact List.length_eq_zero_iff.1 this

theorem saveMap_same (o : Ops D T E) (ok : P → Bool) (d : Desk P D T E) :
    Same d (d.saveMap o ok) ∧ (d.saveMap o ok).cur = d.cur := by
  unfold Desk.saveMap
  split
  · exact ⟨⟨rfl, rfl⟩, rfl⟩
  · split
    · exact ⟨⟨rfl, rfl⟩, rfl⟩
    · split
      · exact ⟨⟨rfl, rfl⟩, rfl⟩
      · exact ⟨⟨map_uid_modify _ _ _ (onHist_uid _), rfl⟩, rfl⟩

theorem saveFrom_same (o : Ops D T E) (ok : P → Bool) (n : Nat) (d : Desk P D T E) :
    Same d (d.saveFrom o ok n) := by
  induction n generalizing d with
  | zero => exact ⟨rfl, rfl⟩
  | succ n ih =>
    obtain ⟨h1, h2⟩ := ih { d.saveMap o ok with cur := d.cur + 1 }
    obtain ⟨⟨h3, h4⟩, _⟩ := saveMap_same o ok d
    exact ⟨h1.trans h3, h2.trans h4⟩

theorem saveMapAs_same (d : Desk P D T E) (copy : Bool) :
    Same d (d.saveMapAs copy) ∧ (d.saveMapAs copy).cur = d.cur := by
  unfold Desk.saveMapAs
  split
  · exact ⟨⟨rfl, rfl⟩, rfl⟩
  · split <;> exact ⟨⟨rfl, rfl⟩, rfl⟩

theorem add_ok {d : Desk P D T E} (ho : d.Ok) (t : Tab P D T E) (ht : t.uid = d.uid) :
    ({ d with cur := d.tabs.length, tabs := d.tabs ++ [t], uid := d.uid + 1 } : Desk P D T E).Ok where
  sel := .inl (by simp)
  nodup := by
    simp only [List.map_append, List.map_cons, List.map_nil, List.nodup_append, List.nodup_cons, List.mem_singleton]
    refine ⟨ho.nodup, by simp, ?_⟩
    rintro a ha b rfl e
    obtain ⟨t', ht', e'⟩ := List.mem_map.1 ha
    have := ho.fresh t' ht'
    omega
  fresh := by
    intro t' ht'
    simp only [List.mem_append, List.mem_singleton] at ht'
    rcases ht' with h | rfl
    · have := ho.fresh t' h; simp only; omega
    · simp only; omega

theorem loadMap_ok {d : Desk P D T E} (ho : d.Ok) (p : P) : (d.loadMap p).Ok := by
  unfold Desk.loadMap
  split
  · next i hi =>
    obtain ⟨h, _⟩ := List.findIdx?_eq_some_iff_getElem.1 hi
    exact ⟨.inl h, ho.nodup, ho.fresh⟩
  · exact add_ok ho _ rfl

theorem command_ok (o : Ops D T E) (ok : P → Bool) {d : Desk P D T E} (ho : d.Ok) (c : Command P) :
    (d.command o ok c).Ok := by
  cases c with
  | dialogError m =>
    simp only [Desk.command]
    split
    · exact ⟨ho.sel, ho.nodup, ho.fresh⟩
    · exact ho
  | openEnvironment p => exact ⟨ho.sel, ho.nodup, ho.fresh⟩
  | openMap ps =>
    simp only [Desk.command]
    induction ps generalizing d with
    | nil => exact ho
    | cons p ps ih => exact ih (loadMap_ok ho p)
  | saveMap uid p copy =>
    simp only [Desk.command]
    split
    · exact ho
    · split
      · exact ho
      · split
        · exact ho
        · split
          · exact ⟨ho.sel, ho.nodup, ho.fresh⟩
          · refine Same.ok (d := d) ⟨map_uid_modify _ _ _ fun t => onHist_uid _ _, rfl⟩ ho ?_
            exact Same.sel (d := d) ⟨map_uid_modify _ _ _ fun t => onHist_uid _ _, rfl⟩ ho rfl

theorem commands_ok (o : Ops D T E) (ok : P → Bool) (cs : List (Command P)) {d : Desk P D T E} (ho : d.Ok) :
    (cs.foldl (Desk.command o ok) d).Ok := by
  induction cs generalizing d with
  | nil => exact ho
  | cons c cs ih => exact ih (command_ok o ok ho c)

theorem envArrives_same (d : Desk P D T E) (er : EnvResult E) :
    Same d (d.envArrives er) ∧ (d.envArrives er).cur = d.cur := by
  cases er with
  | empty => exact ⟨⟨rfl, rfl⟩, rfl⟩
  | failed => simp only [Desk.envArrives]; split <;> exact ⟨⟨rfl, rfl⟩, rfl⟩
  | done e =>
    simp only [Desk.envArrives]
    split
    · exact ⟨⟨rfl, rfl⟩, rfl⟩
    · refine ⟨⟨?_, rfl⟩, rfl⟩
      simp only [List.map_map]
      exact List.map_congr_left fun t _ => newEnv_uid e t

theorem run_ok (o : Ops D T E) (ok : P → Bool) (er : EnvResult E) (read ready) {d : Desk P D T E} (ho : d.Ok) :
    (d.run o ok er read ready).Ok := by
  have h1 : (d.queue.foldl (Desk.command o ok) { d with queue := [] }).Ok :=
    commands_ok o ok _ ⟨ho.sel, ho.nodup, ho.fresh⟩
  obtain ⟨h2, h3⟩ := envArrives_same (d.queue.foldl (Desk.command o ok) { d with queue := [] }) er
  have h4 := h2.ok h1 (h2.sel h1 h3)
  have h5 : Same ((d.queue.foldl (Desk.command o ok) { d with queue := [] }).envArrives er)
      (d.run o ok er read ready) := by
    refine ⟨?_, rfl⟩
    simp only [Desk.run, List.map_map]
    exact List.map_congr_left fun t _ => poll_uid o _ _ _ t
  exact h5.ok h4 (h5.sel h4 rfl)

theorem close_ok {d : Desk P D T E} (ho : d.Ok) : d.close.Ok := by
  have hn : ((d.tabs.eraseIdx d.cur).map Tab.uid).Nodup :=
    ho.nodup.sublist ((List.eraseIdx_sublist _ _).map _)
  have hf : ∀ t ∈ d.tabs.eraseIdx d.cur, t.uid < d.uid :=
    fun t ht => ho.fresh t ((List.eraseIdx_sublist _ _).mem ht)
  unfold Desk.close
  split
  · next h =>
    refine ⟨?_, hn, hf⟩
    simp only
    have hl : (d.tabs.eraseIdx d.cur).length = d.tabs.length - 1 := by
      rw [List.length_eraseIdx]; split <;> omega
    by_cases hz : d.cur = 0
    · right
      refine ⟨List.length_eq_zero_iff.1 ?_, by omega⟩
      omega
    · left; omega
  · split
    · next h1 h2 =>
      refine ⟨.inl ?_, hn, hf⟩
      simp only
      rw [List.length_eraseIdx]
      split <;> omega
    · exact ho

theorem step_ok (o : Ops D T E) {d : Desk P D T E} (ho : d.Ok) (e : Event P D T E) : (d.step o e).Ok := by
  cases e with
  | send c =>
    simp only [Desk.step]; split
    · exact ho
    · exact ⟨ho.sel, ho.nodup, ho.fresh⟩
  | create base =>
    simp only [Desk.step, Desk.create]; split
    · exact ho
    · exact add_ok ho _ rfl
  | close => exact close_ok ho
  | tab f =>
    simp only [Desk.step, Desk.tabBetween]; split
    · exact ho
    · next h => exact ⟨.inl (Nat.mod_lt _ (List.length_pos_iff.2 h)), ho.nodup, ho.fresh⟩
  | click i z =>
    simp only [Desk.step, Desk.click]; split
    · exact ho
    · next t ht =>
      split
      · exact ho
      · have hi : i < d.tabs.length := (List.getElem?_eq_some_iff.1 ht).1
        refine Same.ok (d := d) ⟨map_uid_modify _ _ _ fun t => rfl, rfl⟩ ho (.inl ?_)
        simpa using hi
  | save ok =>
    obtain ⟨h1, h2⟩ := saveMap_same o ok d
    exact h1.ok ho (h1.sel ho h2)
  | saveAs copy =>
    obtain ⟨h1, h2⟩ := saveMapAs_same d copy
    exact h1.ok ho (h1.sel ho h2)
  | saveAll ok =>
    have h : Same d (d.saveAll o ok) := saveFrom_same o ok d.tabs.length { d with cur := 0 }
    exact h.ok ho (h.sel ho rfl)
  | answer k p =>
    simp only [Desk.step]; split
    · exact ho
    · exact ⟨ho.sel, ho.nodup, ho.fresh⟩
  | edit f | undo | redo =>
    simp only [Desk.step, Desk.act]; split
    · exact ho
    · have h : ∀ g : History T E → History T E, Same d { d with tabs := d.tabs.modify d.cur (Tab.onHist g) } :=
        fun g => ⟨map_uid_modify _ _ _ (onHist_uid g), rfl⟩
      exact (h _).ok ho ((h _).sel ho rfl)
  | run ok er read ready => exact run_ok o ok er read ready ho

theorem new_ok : (Desk.new : Desk P D T E).Ok :=
  ⟨.inr ⟨rfl, rfl⟩, List.nodup_nil, fun _ h => by cases h⟩

theorem after_snoc (o : Ops D T E) (evs : List (Event P D T E)) (e : Event P D T E) :
    after o (evs ++ [e]) = (after o evs).step o e := by
  simp [after]

/-- **C108.** Whatever the user and the threads do: as long as a map is open, one of the open maps is
selected, and the numbers by which dialogs refer to maps are different for different maps. -/
theorem desk_ok (o : Ops D T E) (evs : List (Event P D T E)) : (after o evs).Ok := by
  induction evs using List.reverseRecOn with
  | nil => exact new_ok
  | append_singleton evs e ih => rw [after_snoc]; exact step_ok o ih e

/-! ## What gets written -/

/-- the tab holds the map `w` says it wrote -/
def Holds (o : Ops D T E) (t : Tab P D T E) (w : Write P D T) : Prop :=
  t.uid = w.uid ∧ ∃ base h, t.state = .active base h ∧ w.doc = h.current ∧ w.data = o.save h.current base

/-- who asked for a write: "Save" writes the selected map to its file, "Save All" maps to their own files,
and a command from a save dialog the map it names to the path it names; nothing else writes -/
def Asked (d : Desk P D T E) (t : Tab P D T E) (w : Write P D T) : Event P D T E → Prop
  | .save ok => d.tabs[d.cur]? = some t ∧ t.path = some w.path ∧ w.copy = false ∧ w.ok = ok w.path
  | .saveAll ok => t.path = some w.path ∧ w.copy = false ∧ w.ok = ok w.path
  | .run ok .. => .saveMap w.uid w.path w.copy ∈ d.queue ∧ w.ok = ok w.path
  | _ => False

theorem hist_some {s : MapState P D T E} {base : D} {h : History T E} (e : s.hist = some (base, h)) :
    s = .active base h := by
  cases s <;> simp only [MapState.hist, reduceCtorEq] at e
  injection e with e
  injection e with e1 e2
  rw [e1, e2]

theorem saveMap_writes (o : Ops D T E) (ok : P → Bool) (d : Desk P D T E) :
    ∃ new, (d.saveMap o ok).writes = d.writes ++ new ∧ ∀ w ∈ new, ∃ t, d.tabs[d.cur]? = some t ∧
      Holds o t w ∧ t.path = some w.path ∧ w.copy = false ∧ w.ok = ok w.path := by
  unfold Desk.saveMap
  split
  · exact ⟨[], by simp, by simp⟩
  · next t ht =>
    split
    · exact ⟨[], by simp, by simp⟩
    · next base h hh =>
      split
      · exact ⟨[], by simp, by simp⟩
      · next p hp =>
        refine ⟨_, rfl, ?_⟩
        intro w hw
        rw [List.mem_singleton] at hw
        subst hw
        exact ⟨t, ht, ⟨rfl, base, h, hist_some hh, rfl, rfl⟩, hp, rfl, rfl⟩

/-- the maps of `d1` are, as far as a save is concerned, maps of `d` -/
def From (d d1 : Desk P D T E) : Prop :=
  ∀ t1 ∈ d1.tabs, ∀ base h1, t1.state = .active base h1 →
    ∃ t ∈ d.tabs, t.uid = t1.uid ∧ ∃ h, t.state = .active base h ∧ h.current = h1.current

theorem From.refl (d : Desk P D T E) : From d d := fun t ht _ h1 e => ⟨t, ht, rfl, h1, e, rfl⟩

theorem From.trans {d d1 d2 : Desk P D T E} (h1 : From d d1) (h2 : From d1 d2) : From d d2 := by
  intro t2 ht2 base h e
  obtain ⟨t1, ht1, e1, h', e2, e3⟩ := h2 t2 ht2 base h e
  obtain ⟨t, ht, e4, h'', e5, e6⟩ := h1 t1 ht1 base h' e2
  exact ⟨t, ht, e4.trans e1, h'', e5, e6.trans e3⟩

theorem mem_modify {α : Type} {l : List α} {i : Nat} {f : α → α} {x : α} (h : x ∈ l.modify i f) :
    x ∈ l ∨ ∃ y, l[i]? = some y ∧ x = f y := by
  obtain ⟨j, hj, e⟩ := List.getElem_of_mem h
  rw [List.getElem_modify] at e
  split at e
  · next h' =>
    subst h'
    refine .inr ⟨l[i]'(by simpa using hj), ?_, e.symm⟩
    simp
  · exact .inl (e ▸ List.getElem_mem _)

theorem onHist_active {f : History T E → History T E} {t : Tab P D T E} {base : D} {h : History T E}
    (e : (Tab.onHist f t).state = .active base h) : ∃ h', t.state = .active base h' ∧ h = f h' := by
  unfold Tab.onHist at e
  split at e
  · next b h' hs =>
    injection e with e1 e2
    subst e1
    exact ⟨h', hs, e2.symm⟩
  · next hne => exact absurd e (hne _ _)

theorem from_saveMap (o : Ops D T E) (ok : P → Bool) (d : Desk P D T E) : From d (d.saveMap o ok) := by
  unfold Desk.saveMap
  split
  · exact From.refl d
  · next t ht =>
    split
    · exact From.refl d
    · split
      · exact From.refl d
      · intro t1 ht1 base h1 e
        rcases mem_modify ht1 with h | ⟨y, hy, rfl⟩
        · exact ⟨t1, h, rfl, h1, e, rfl⟩
        · obtain ⟨h', e1, rfl⟩ := onHist_active e
          exact ⟨y, List.mem_of_getElem? hy, (onHist_uid _ _).symm, h', e1, rfl⟩

theorem from_command (o : Ops D T E) (ok : P → Bool) (d : Desk P D T E) (c : Command P) :
    From d (d.command o ok c) := by
  cases c with
  | dialogError m => simp only [Desk.command]; split <;> exact From.refl d
  | openEnvironment p => exact From.refl d
  | openMap ps =>
    simp only [Desk.command]
    induction ps generalizing d with
    | nil => exact From.refl d
    | cons p ps ih =>
      refine From.trans ?_ (ih (d.loadMap p))
      unfold Desk.loadMap
      split
      · exact From.refl d
      · intro t1 ht1 base h1 e
        simp only [List.mem_append, List.mem_singleton] at ht1
        rcases ht1 with h | rfl
        · exact ⟨t1, h, rfl, h1, e, rfl⟩
        · cases e
  | saveMap uid p copy =>
    simp only [Desk.command]
    split
    · exact From.refl d
    · split
      · exact From.refl d
      · split
        · exact From.refl d
        · split
          · exact From.refl d
          · intro t1 ht1 base h1 e
            rcases mem_modify ht1 with h | ⟨y, hy, rfl⟩
            · exact ⟨t1, h, rfl, h1, e, rfl⟩
            · obtain ⟨h', e1, rfl⟩ := onHist_active e
              exact ⟨y, List.mem_of_getElem? hy, (onHist_uid History.markClean { y with path := some p }).symm, h', e1, rfl⟩

theorem loadMaps_writes (ps : List P) (d : Desk P D T E) : (ps.foldl Desk.loadMap d).writes = d.writes := by
  induction ps generalizing d with
  | nil => rfl
  | cons p ps ih =>
    rw [List.foldl_cons, ih]
    unfold Desk.loadMap
    split <;> rfl

theorem command_writes (o : Ops D T E) (ok : P → Bool) (d : Desk P D T E) (c : Command P) :
    ∃ new, (d.command o ok c).writes = d.writes ++ new ∧ ∀ w ∈ new, ∃ t ∈ d.tabs, Holds o t w ∧
      c = .saveMap w.uid w.path w.copy ∧ w.ok = ok w.path := by
  cases c with
  | dialogError m => refine ⟨[], ?_, by simp⟩; simp only [Desk.command]; split <;> simp
  | openEnvironment p => exact ⟨[], by simp [Desk.command], by simp⟩
  | openMap ps => exact ⟨[], by simp [Desk.command, loadMaps_writes], by simp⟩
  | saveMap uid p copy =>
    simp only [Desk.command]
    split
    · exact ⟨[], by simp, by simp⟩
    · next i hi =>
      split
      · exact ⟨[], by simp, by simp⟩
      · next t ht =>
        split
        · exact ⟨[], by simp, by simp⟩
        · next base h hh =>
          have hu : t.uid = uid := by
            obtain ⟨hlt, h1, _⟩ := List.findIdx?_eq_some_iff_getElem.1 hi
            rw [List.getElem?_eq_getElem hlt] at ht
            injection ht with ht
            rw [ht] at h1
            simpa using h1
          have key : ∀ d' : Desk P D T E, d'.writes = (d.write o t.uid base h p copy (ok p)).writes →
              ∃ new, d'.writes = d.writes ++ new ∧ ∀ w ∈ new, ∃ t ∈ d.tabs, Holds o t w ∧
                (Command.saveMap uid p copy : Command P) = .saveMap w.uid w.path w.copy ∧ w.ok = ok w.path := by
            intro d' e
            refine ⟨_, e.trans rfl, ?_⟩
            intro w hw
            rw [List.mem_singleton] at hw
            subst hw
            exact ⟨t, List.mem_of_getElem? ht, ⟨rfl, base, h, hist_some hh, rfl, rfl⟩, by rw [hu], rfl⟩
          split
          · exact key _ rfl
          · exact key _ rfl

theorem commands_writes (o : Ops D T E) (ok : P → Bool) (cs : List (Command P)) (d : Desk P D T E) :
    ∃ new, (cs.foldl (Desk.command o ok) d).writes = d.writes ++ new ∧ ∀ w ∈ new, ∃ t ∈ d.tabs, Holds o t w ∧
      .saveMap w.uid w.path w.copy ∈ cs ∧ w.ok = ok w.path := by
  induction cs generalizing d with
  | nil => exact ⟨[], by simp, by simp⟩
  | cons c cs ih =>
    obtain ⟨n1, e1, h1⟩ := command_writes o ok d c
    obtain ⟨n2, e2, h2⟩ := ih (d.command o ok c)
    refine ⟨n1 ++ n2, by rw [List.foldl_cons, e2, e1, List.append_assoc], ?_⟩
    intro w hw
    rcases List.mem_append.1 hw with hw | hw
    · obtain ⟨t, ht, hh, e, e'⟩ := h1 w hw
      exact ⟨t, ht, hh, by rw [e]; exact List.mem_cons_self, e'⟩
    · obtain ⟨t, ht, ⟨hu, base, h, hs, hd, hda⟩, e, e'⟩ := h2 w hw
      obtain ⟨t0, ht0, hu0, h0, hs0, hc0⟩ := from_command o ok d c t ht base h hs
      exact ⟨t0, ht0, ⟨hu0.trans hu, base, h0, hs0, hd.trans hc0.symm, by rw [hda, hc0]⟩, List.mem_cons_of_mem _ e, e'⟩

theorem envArrives_writes (d : Desk P D T E) (er : EnvResult E) : (d.envArrives er).writes = d.writes := by
  cases er with
  | empty => rfl
  | failed => simp only [Desk.envArrives]; split <;> rfl
  | done e => simp only [Desk.envArrives]; split <;> rfl

/-- a save of the selected map changes no paths -/
theorem saveMap_path (o : Ops D T E) (ok : P → Bool) (d : Desk P D T E) (j : Nat) (t1 : Tab P D T E)
    (h1 : (d.saveMap o ok).tabs[j]? = some t1) :
    ∃ t, d.tabs[j]? = some t ∧ t.uid = t1.uid ∧ t.path = t1.path ∧
      ∀ base h1, t1.state = .active base h1 → ∃ h, t.state = .active base h ∧ h.current = h1.current := by
  have base0 : ∀ {d1 : Desk P D T E}, d1.tabs = d.tabs → d1.tabs[j]? = some t1 →
      ∃ t, d.tabs[j]? = some t ∧ t.uid = t1.uid ∧ t.path = t1.path ∧
      ∀ base h1, t1.state = .active base h1 → ∃ h, t.state = .active base h ∧ h.current = h1.current := by
    intro d1 e e1
    rw [e] at e1
    exact ⟨t1, e1, rfl, rfl, fun b h e => ⟨h, e, rfl⟩⟩
  unfold Desk.saveMap at h1
  split at h1
  · exact base0 rfl h1
  · split at h1
    · exact base0 rfl h1
    · split at h1
      · exact base0 rfl h1
      · simp only [List.getElem?_modify, Option.map_eq_map] at h1
        rw [Option.map_eq_some_iff] at h1
        obtain ⟨t, ht, e⟩ := h1
        refine ⟨t, ht, ?_⟩
        split at e
        · rw [← e]
          refine ⟨(onHist_uid _ _).symm, ?_, ?_⟩
          · unfold Tab.onHist; split <;> rfl
          · intro b h1 e1
            obtain ⟨h', e2, rfl⟩ := onHist_active e1
            exact ⟨h', e2, rfl⟩
        · subst e
          exact ⟨rfl, rfl, fun b h e => ⟨h, e, rfl⟩⟩

theorem saveFrom_writes (o : Ops D T E) (ok : P → Bool) (n : Nat) (d : Desk P D T E) :
    ∃ new, (d.saveFrom o ok n).writes = d.writes ++ new ∧ ∀ w ∈ new, ∃ t ∈ d.tabs, Holds o t w ∧
      t.path = some w.path ∧ w.copy = false ∧ w.ok = ok w.path := by
  induction n generalizing d with
  | zero => exact ⟨[], by simp [Desk.saveFrom], by simp⟩
  | succ n ih =>
    obtain ⟨n1, e1, h1⟩ := saveMap_writes o ok d
    obtain ⟨n2, e2, h2⟩ := ih { d.saveMap o ok with cur := d.cur + 1 }
    refine ⟨n1 ++ n2, by rw [Desk.saveFrom, e2]; simp only [e1, List.append_assoc], ?_⟩
    intro w hw
    rcases List.mem_append.1 hw with hw | hw
    · obtain ⟨t, ht, hh, e⟩ := h1 w hw
      exact ⟨t, List.mem_of_getElem? ht, hh, e⟩
    · obtain ⟨t1, ht1, ⟨hu, base, h, hs, hd, hda⟩, hp, e'⟩ := h2 w hw
      obtain ⟨j, hj⟩ := List.mem_iff_getElem?.1 ht1
      obtain ⟨t, ht, hu0, hp0, hs0⟩ := saveMap_path o ok d j t1 hj
      obtain ⟨h0, hs0, hc0⟩ := hs0 base h hs
      exact ⟨t, List.mem_of_getElem? ht, ⟨hu0.trans hu, base, h0, hs0, hd.trans hc0.symm, by rw [hda, hc0]⟩,
        hp0.trans hp, e'⟩

/-- **C108.** Every write to a file was asked for, and writes what is in the map it was asked for, as it
is at that moment: "Save" the selected map, "Save All" each map to its own file, and an answered dialog
the map for which it was opened, even if others have been selected, opened or closed in the meantime. -/
theorem writes_asked (o : Ops D T E) (d : Desk P D T E) (ev : Event P D T E) :
    ∃ new, (d.step o ev).writes = d.writes ++ new ∧
      ∀ w ∈ new, ∃ t ∈ d.tabs, Holds o t w ∧ Asked d t w ev := by
  have none : ∀ {d' : Desk P D T E} , d'.writes = d.writes → ∃ new, d'.writes = d.writes ++ new ∧
      ∀ w ∈ new, ∃ t ∈ d.tabs, Holds o t w ∧ Asked d t w ev := fun e => ⟨[], by simp [e], by simp⟩
  cases ev with
  | send c => simp only [Desk.step]; split <;> exact none rfl
  | create base => simp only [Desk.step, Desk.create]; split <;> exact none rfl
  | close => simp only [Desk.step, Desk.close]; split; · exact none rfl
             split <;> exact none rfl
  | tab f => simp only [Desk.step, Desk.tabBetween]; split <;> exact none rfl
  | click i z => simp only [Desk.step, Desk.click]; split; · exact none rfl
                 split <;> exact none rfl
  | save ok =>
    obtain ⟨new, e, h⟩ := saveMap_writes o ok d
    refine ⟨new, e, fun w hw => ?_⟩
    obtain ⟨t, ht, hh, e⟩ := h w hw
    exact ⟨t, List.mem_of_getElem? ht, hh, ht, e⟩
  | saveAs copy => simp only [Desk.step, Desk.saveMapAs]; split; · exact none rfl
                   split <;> exact none rfl
  | saveAll ok =>
    obtain ⟨new, e, h⟩ := saveFrom_writes o ok d.tabs.length { d with cur := 0 }
    exact ⟨new, e, h⟩
  | answer k p => simp only [Desk.step]; split <;> exact none rfl
  | edit f | undo | redo => simp only [Desk.step, Desk.act]; split <;> exact none rfl
  | run ok er read ready =>
    obtain ⟨new, e, h⟩ := commands_writes o ok d.queue { d with queue := [] }
    refine ⟨new, ?_, h⟩
    simp only [Desk.step, Desk.run]
    rw [envArrives_writes]
    exact e

end Verif.Editor.Desk
