import Verif.Editor.DeskProps
import Mathlib.Data.List.Nodup

/-!
# Saving and unsaved changes in the editor (C108)
-/

set_option linter.unusedSectionVars false

namespace Verif.Editor.Desk

open Verif.Editor

variable {P D T E A : Type} [DecidableEq P]

/-! ## What a file dialog saves -/

/-- a save dialog about the map `u` is open, or its answer has not been dealt with -/
def Waiting (d : Desk P D T E) (u : Nat) (copy : Bool) : Prop :=
  (u, copy) ∈ d.dialogs ∨ ∃ p, .saveMap u p copy ∈ d.queue

/-- the user asks for a save dialog about the map `t`: with "Save As" or "Save Copy As" when it is
selected, or with "Save" or "Save All" when it has no file yet -/
def AsksFor (d : Desk P D T E) (t : Tab P D T E) (copy : Bool) : Event P D T E → Prop
  | .saveAs c => c = copy ∧ d.tabs[d.cur]? = some t
  | .save _ => copy = false ∧ t.path = none ∧ d.tabs[d.cur]? = some t
  | .saveAll _ => copy = false ∧ t.path = none
  | _ => False

theorem saveMap_waiting (o : Ops D T E) (ok : P → Bool) (d : Desk P D T E) :
    (d.saveMap o ok).queue = d.queue ∧ ∀ x ∈ (d.saveMap o ok).dialogs, x ∈ d.dialogs ∨
      ∃ t, d.tabs[d.cur]? = some t ∧ x = (t.uid, false) ∧ t.path = none := by
  unfold Desk.saveMap
  split
  · exact ⟨rfl, fun x h => .inl h⟩
  · next t ht =>
    split
    · exact ⟨rfl, fun x h => .inl h⟩
    · split
      · next hp =>
        refine ⟨rfl, fun x h => ?_⟩
        simp only [List.mem_append, List.mem_singleton] at h
        exact h.imp_right fun e => ⟨t, ht, e, hp⟩
      · exact ⟨rfl, fun x h => .inl h⟩

theorem saveFrom_waiting (o : Ops D T E) (ok : P → Bool) (n : Nat) (d : Desk P D T E) :
    (d.saveFrom o ok n).queue = d.queue ∧ ∀ x ∈ (d.saveFrom o ok n).dialogs, x ∈ d.dialogs ∨
      ∃ t ∈ d.tabs, x = (t.uid, false) ∧ t.path = none := by
  induction n generalizing d with
  | zero => exact ⟨rfl, fun x h => .inl h⟩
  | succ n ih =>
    obtain ⟨h1, h2⟩ := ih { d.saveMap o ok with cur := d.cur + 1 }
    obtain ⟨h3, h4⟩ := saveMap_waiting o ok d
    refine ⟨h1.trans h3, fun x hx => ?_⟩
    rcases h2 x hx with h | ⟨t1, ht1, e, hp⟩
    · rcases h4 x h with h | ⟨t, ht, e, hp⟩
      · exact .inl h
      · exact .inr ⟨t, List.mem_of_getElem? ht, e, hp⟩
    · obtain ⟨j, hj⟩ := List.mem_iff_getElem?.1 ht1
      obtain ⟨t, ht, hu, hp0, _⟩ := saveMap_path o ok d j t1 hj
      exact .inr ⟨t, List.mem_of_getElem? ht, by rw [e, hu], hp0.trans hp⟩

theorem loadMaps_waiting (ps : List P) (d : Desk P D T E) :
    (ps.foldl Desk.loadMap d).queue = d.queue ∧ (ps.foldl Desk.loadMap d).dialogs = d.dialogs := by
  induction ps generalizing d with
  | nil => exact ⟨rfl, rfl⟩
  | cons p ps ih =>
    rw [List.foldl_cons, (ih _).1, (ih _).2]
    unfold Desk.loadMap
    split <;> exact ⟨rfl, rfl⟩

theorem command_waiting (o : Ops D T E) (ok : P → Bool) (d : Desk P D T E) (c : Command P) :
    (d.command o ok c).queue = d.queue ∧ (d.command o ok c).dialogs = d.dialogs := by
  cases c with
  | dialogError m => simp only [Desk.command]; split <;> exact ⟨rfl, rfl⟩
  | openEnvironment p => exact ⟨rfl, rfl⟩
  | openMap ps => exact loadMaps_waiting ps d
  | saveMap uid p copy =>
    simp only [Desk.command]
    split
    · exact ⟨rfl, rfl⟩
    · split
      · exact ⟨rfl, rfl⟩
      · split
        · exact ⟨rfl, rfl⟩
        · split <;> exact ⟨rfl, rfl⟩

theorem commands_waiting (o : Ops D T E) (ok : P → Bool) (cs : List (Command P)) (d : Desk P D T E) :
    (cs.foldl (Desk.command o ok) d).queue = d.queue ∧ (cs.foldl (Desk.command o ok) d).dialogs = d.dialogs := by
  induction cs generalizing d with
  | nil => exact ⟨rfl, rfl⟩
  | cons c cs ih =>
    rw [List.foldl_cons, (ih _).1, (ih _).2]
    exact command_waiting o ok d c

theorem envArrives_waiting (d : Desk P D T E) (er : EnvResult E) :
    (d.envArrives er).queue = d.queue ∧ (d.envArrives er).dialogs = d.dialogs := by
  cases er with
  | empty => exact ⟨rfl, rfl⟩
  | failed => simp only [Desk.envArrives]; split <;> exact ⟨rfl, rfl⟩
  | done e => simp only [Desk.envArrives]; split <;> exact ⟨rfl, rfl⟩

theorem step_waiting (o : Ops D T E) (d : Desk P D T E) (ev : Event P D T E) {u : Nat} {copy : Bool}
    (h : Waiting (d.step o ev) u copy) :
    Waiting d u copy ∨ ∃ t ∈ d.tabs, t.uid = u ∧ AsksFor d t copy ev := by
  have same : ∀ {d' : Desk P D T E}, d'.queue = d.queue → d'.dialogs = d.dialogs → Waiting d' u copy →
      Waiting d u copy := by
    intro d' e1 e2 h
    unfold Waiting at *
    rw [e1, e2] at h
    exact h
  cases ev with
  | send c =>
    simp only [Desk.step] at h
    split at h
    · exact .inl h
    · next hc =>
      refine .inl ?_
      rcases h with h | ⟨p, h⟩
      · exact .inl h
      · simp only [List.mem_append, List.mem_singleton] at h
        rcases h with h | h
        · exact .inr ⟨p, h⟩
        · rw [← h] at hc; exact absurd rfl hc
  | create base => refine .inl ?_; simp only [Desk.step, Desk.create] at h; split at h <;> exact same rfl rfl h
  | close =>
    refine .inl ?_; simp only [Desk.step, Desk.close] at h
    split at h
    · exact same rfl rfl h
    · split at h <;> exact same rfl rfl h
  | tab f => refine .inl ?_; simp only [Desk.step, Desk.tabBetween] at h; split at h <;> exact same rfl rfl h
  | click i z =>
    refine .inl ?_; simp only [Desk.step, Desk.click] at h
    split at h
    · exact same rfl rfl h
    · split at h <;> exact same rfl rfl h
  | save ok =>
    obtain ⟨h1, h2⟩ := saveMap_waiting o ok d
    rcases h with h | ⟨p, h⟩
    · rcases h2 _ h with h | ⟨t, ht, e, hp⟩
      · exact .inl (.inl h)
      · injection e with e1 e2
        exact .inr ⟨t, List.mem_of_getElem? ht, e1.symm, e2, hp, ht⟩
    · exact .inl (.inr ⟨p, by simp only [Desk.step] at h; rwa [h1] at h⟩)
  | saveAs c =>
    simp only [Desk.step, Desk.saveMapAs] at h
    split at h
    · exact .inl h
    · next t ht =>
      split at h
      · exact .inl h
      · rcases h with h | ⟨p, h⟩
        · simp only [List.mem_append, List.mem_singleton] at h
          rcases h with h | h
          · exact .inl (.inl h)
          · injection h with e1 e2
            exact .inr ⟨t, List.mem_of_getElem? ht, e1.symm, e2.symm, ht⟩
        · exact .inl (.inr ⟨p, h⟩)
  | saveAll ok =>
    obtain ⟨h1, h2⟩ := saveFrom_waiting o ok d.tabs.length { d with cur := 0 }
    rcases h with h | ⟨p, h⟩
    · rcases h2 _ h with h | ⟨t, ht, e, hp⟩
      · exact .inl (.inl h)
      · injection e with e1 e2
        exact .inr ⟨t, ht, e1.symm, e2, hp⟩
    · refine .inl (.inr ⟨p, ?_⟩)
      simp only [Desk.step, Desk.saveAll] at h
      rwa [h1] at h
  | answer k p =>
    refine .inl ?_
    simp only [Desk.step] at h
    split at h
    · exact h
    · next uid c hk =>
      rcases h with h | ⟨q, h⟩
      · exact .inl ((List.eraseIdx_sublist _ _).mem h)
      · simp only [List.mem_append, List.mem_singleton] at h
        rcases h with h | h
        · exact .inr ⟨q, h⟩
        · cases p with
          | none => cases h
          | some p =>
            injection h with e1 e2 e3
            subst e1 e3
            exact .inl (List.mem_of_getElem? hk)
  | edit f | undo | redo => refine .inl ?_; simp only [Desk.step, Desk.act] at h; split at h <;> exact same rfl rfl h
  | run ok er read ready =>
    refine .inl (.inl ?_)
    have h1 := commands_waiting o ok d.queue { d with queue := [] }
    have h2 := envArrives_waiting (d.queue.foldl (Desk.command o ok) { d with queue := [] }) er
    rcases h with h | ⟨p, h⟩
    · simp only [Desk.step, Desk.run] at h
      rw [h2.2, h1.2] at h
      exact h
    · simp only [Desk.step, Desk.run] at h
      rw [h2.1, h1.1] at h
      cases h

/-- Every dialog was asked for. -/
theorem request_origin (o : Ops D T E) (evs : List (Event P D T E)) (u : Nat) (copy : Bool)
    (h : Waiting (after o evs) u copy) :
    ∃ pre ev post, evs = pre ++ ev :: post ∧ ∃ t ∈ (after o pre).tabs, t.uid = u ∧ AsksFor (after o pre) t copy ev := by
  induction evs using List.reverseRecOn with
  | nil =>
    rcases h with h | ⟨p, h⟩ <;> cases h
  | append_singleton evs e ih =>
    rw [after_snoc] at h
    rcases step_waiting o _ e h with h | ⟨t, ht, hu, ha⟩
    · obtain ⟨pre, ev, post, rfl, h'⟩ := ih h
      exact ⟨pre, ev, post ++ [e], by simp, h'⟩
    · exact ⟨evs, e, [], rfl, t, ht, hu, ha⟩

/-- **C108.** Whatever is written as the answer to a save dialog is, as it is when it is written, the map
for which the user asked for that dialog, however the maps were rearranged since. -/
theorem dialog_saves_its_map (o : Ops D T E) (evs : List (Event P D T E)) (ok er read ready) :
    ∃ new, (after o (evs ++ [.run ok er read ready])).writes = (after o evs).writes ++ new ∧
      ∀ w ∈ new, (∃ t ∈ (after o evs).tabs, Holds o t w) ∧
        ∃ pre ev post, evs = pre ++ ev :: post ∧
          ∃ t ∈ (after o pre).tabs, t.uid = w.uid ∧ AsksFor (after o pre) t w.copy ev := by
  rw [after_snoc]
  obtain ⟨new, e, h⟩ := writes_asked o (after o evs) (.run ok er read ready)
  refine ⟨new, e, fun w hw => ?_⟩
  obtain ⟨t, ht, hh, hq, _⟩ := h w hw
  exact ⟨⟨t, ht, hh⟩, request_origin o evs _ _ (.inr ⟨_, hq⟩)⟩

/-! ## What commands and saves do to the maps -/

/-- what a save without "copy" does to a map that is ready -/
def Tab.savedAs (p : P) (t : Tab P D T E) : Tab P D T E :=
  match t.state with
  | .active base h => { t with path := some p, state := .active base h.markClean }
  | _ => t

/-- what a command does to a map -/
def Tab.onCommand (t : Tab P D T E) : Command P → Tab P D T E
  | .saveMap u p false => if t.uid = u then t.savedAs p else t
  | _ => t

theorem modify_eq_map {l : List (Tab P D T E)} (hn : (l.map Tab.uid).Nodup) {i : Nat} {t : Tab P D T E}
    (ht : l[i]? = some t) (f : Tab P D T E → Tab P D T E) :
    l.modify i f = l.map fun x => if x.uid = t.uid then f x else x := by
  refine List.ext_getElem? fun j => ?_
  rw [List.getElem?_modify, List.getElem?_map]
  cases hj : l[j]? with
  | none => rfl
  | some x =>
    simp only [Option.map_eq_map, Option.map_some, Option.some.injEq]
    by_cases e : i = j
    · subst e
      rw [ht] at hj
      injection hj with hj
      subst hj
      simp
    · rw [if_neg e, if_neg]
      intro e'
      apply e
      have hi := (List.getElem?_eq_some_iff.1 ht).1
      refine (List.Nodup.getElem_inj_iff hn (hi := by simpa using hi)
        (hj := by simpa using (List.getElem?_eq_some_iff.1 hj).1)).1 ?_
      simp only [List.getElem_map]
      rw [(List.getElem?_eq_some_iff.1 ht).2, (List.getElem?_eq_some_iff.1 hj).2, e']

theorem uid_unique {l : List (Tab P D T E)} (hn : (l.map Tab.uid).Nodup) {t t' : Tab P D T E}
    (h : t ∈ l) (h' : t' ∈ l) (e : t.uid = t'.uid) : t = t' :=
  List.inj_on_of_nodup_map hn h h' e

theorem loadMaps_tabs (ps : List P) (d : Desk P D T E) : ∃ new, (ps.foldl Desk.loadMap d).tabs = d.tabs ++ new ∧
    ∀ t ∈ new, ∃ p ∈ ps, t.path = some p ∧ t.state = .loading p := by
  induction ps generalizing d with
  | nil => exact ⟨[], by simp, by simp⟩
  | cons p ps ih =>
    obtain ⟨n2, e2, h2⟩ := ih (d.loadMap p)
    have : ∃ n1, (d.loadMap p).tabs = d.tabs ++ n1 ∧ ∀ t ∈ n1, t.path = some p ∧ t.state = .loading p := by
      unfold Desk.loadMap
      split
      · exact ⟨[], by simp, by simp⟩
      · exact ⟨_, rfl, by simp⟩
    obtain ⟨n1, e1, h1⟩ := this
    refine ⟨n1 ++ n2, by rw [List.foldl_cons, e2, e1, List.append_assoc], fun t ht => ?_⟩
    rcases List.mem_append.1 ht with h | h
    · exact ⟨p, List.mem_cons_self, h1 t h⟩
    · obtain ⟨q, hq, h⟩ := h2 t h
      exact ⟨q, List.mem_cons_of_mem _ hq, h⟩

/-- **C108.** A command changes only the map it names, and at most adds maps that are about to be read. -/
theorem command_tabs (o : Ops D T E) (ok : P → Bool) {d : Desk P D T E} (ho : d.Ok) (c : Command P) :
    ∃ new, (d.command o ok c).tabs = (d.tabs.map fun t => t.onCommand c) ++ new ∧
      ∀ t ∈ new, ∃ ps p, c = .openMap ps ∧ p ∈ ps ∧ t.path = some p ∧ t.state = .loading p := by
  cases c with
  | dialogError m => refine ⟨[], ?_, by simp⟩; simp only [Desk.command, Tab.onCommand]; split <;> simp
  | openEnvironment p => exact ⟨[], by simp [Desk.command, Tab.onCommand], by simp⟩
  | openMap ps =>
    obtain ⟨new, e, h⟩ := loadMaps_tabs ps d
    refine ⟨new, by simp [Desk.command, Tab.onCommand, e], fun t ht => ?_⟩
    obtain ⟨p, hp, h⟩ := h t ht
    exact ⟨ps, p, rfl, hp, h⟩
  | saveMap uid p copy =>
    refine ⟨[], ?_, by simp⟩
    rw [List.append_nil]
    have idle : (∀ t ∈ d.tabs, copy = false → t.uid = uid → t.state.hist = none) →
        d.tabs = d.tabs.map fun t => t.onCommand (.saveMap uid p copy) := by
      intro h
      conv => lhs; rw [← List.map_id d.tabs]
      refine List.map_congr_left fun t ht => ?_
      cases copy with
      | true => rfl
      | false =>
        simp only [Tab.onCommand, id]
        split
        · next hu =>
          have := h t ht rfl hu
          unfold Tab.savedAs
          split
          · next hs => rw [hs] at this; cases this
          · rfl
        · rfl
    simp only [Desk.command]
    split
    · next hi =>
      refine idle fun t ht _ hu => ?_
      rw [List.findIdx?_eq_none_iff] at hi
      have := hi t ht
      simp [hu] at this
    · next i hi =>
      obtain ⟨hlt, h1, _⟩ := List.findIdx?_eq_some_iff_getElem.1 hi
      split
      · next hn => rw [List.getElem?_eq_getElem hlt] at hn; cases hn
      · next t ht =>
        have hu : t.uid = uid := by
          rw [List.getElem?_eq_getElem hlt] at ht
          injection ht with ht
          rw [ht] at h1
          simpa using h1
        split
        · next hh =>
          refine idle fun t' ht' _ hu' => ?_
          rw [uid_unique ho.nodup ht' (List.mem_of_getElem? ht) (hu'.trans hu.symm)]
          exact hh
        · next base h hh =>
          split
          · next hc =>
            refine idle fun t' _ hc' => ?_
            rw [hc] at hc'; cases hc'
          · next hc =>
            have hc : copy = false := by simpa using hc
            subst hc
            simp only
            rw [modify_eq_map ho.nodup ht]
            refine List.map_congr_left fun x hx => ?_
            simp only [Tab.onCommand, hu]
            split
            · next hx' =>
              rw [uid_unique ho.nodup hx (List.mem_of_getElem? ht) (hx'.trans hu.symm)]
              unfold Tab.onHist Tab.savedAs
              simp only [hist_some hh]
            · rfl

theorem commands_tabs (o : Ops D T E) (ok : P → Bool) (cs : List (Command P)) {d : Desk P D T E} (ho : d.Ok) :
    ∃ new, (cs.foldl (Desk.command o ok) d).tabs = (d.tabs.map fun t => cs.foldl Tab.onCommand t) ++ new ∧
      ∀ t ∈ new, (∃ p, t.state = .loading p) ∧ ∀ t' ∈ d.tabs, t'.uid ≠ t.uid := by
  suffices h : ∃ new, (cs.foldl (Desk.command o ok) d).tabs = (d.tabs.map fun t => cs.foldl Tab.onCommand t) ++ new ∧
      ∀ t ∈ new, ∃ p, t.state = .loading p by
    obtain ⟨new, e, h⟩ := h
    refine ⟨new, e, fun t ht => ⟨h t ht, fun t' ht' e' => ?_⟩⟩
    have hn := (commands_ok o ok cs ho).nodup
    rw [e, List.map_append, List.nodup_append] at hn
    refine hn.2.2 _ (List.mem_map.2 ⟨_, List.mem_map.2 ⟨t', ht', rfl⟩, rfl⟩) _ (List.mem_map.2 ⟨t, ht, rfl⟩) ?_
    rw [← e']
    clear * -
    induction cs generalizing t' with
    | nil => rfl
    | cons c cs ih =>
      rw [List.foldl_cons, ih]
      unfold Tab.onCommand Tab.savedAs
      split
      · split
        · split <;> rfl
        · rfl
      · rfl
  induction cs generalizing d with
  | nil => exact ⟨[], by simp, by simp⟩
  | cons c cs ih =>
    obtain ⟨n1, e1, h1⟩ := command_tabs o ok ho c
    obtain ⟨n2, e2, h2⟩ := ih (command_ok o ok ho c)
    refine ⟨(n1.map fun t => cs.foldl Tab.onCommand t) ++ n2, ?_, ?_⟩
    · rw [List.foldl_cons, e2, e1]
      simp [List.map_map, Function.comp_def]
    · intro t ht
      rcases List.mem_append.1 ht with h | h
      · obtain ⟨t0, h0, rfl⟩ := List.mem_map.1 h
        obtain ⟨_, p, _, _, _, hs⟩ := h1 t0 h0
        refine ⟨p, ?_⟩
        clear * - hs
        induction cs generalizing t0 with
        | nil => exact hs
        | cons c cs ih =>
          rw [List.foldl_cons]
          apply ih
          unfold Tab.onCommand Tab.savedAs
          split
          · split
            · rw [hs]
              simp only
              exact hs
            · exact hs
          · exact hs
      · exact h2 t h

end Verif.Editor.Desk
