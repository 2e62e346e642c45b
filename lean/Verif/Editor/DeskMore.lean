import Verif.Editor.DeskClean

/-!
# Saving, selecting, opening and closing in the editor (C108); where it disappoints
-/

set_option linter.unusedSectionVars false

namespace Verif.Editor.Desk

open Verif.Editor

variable {P D T E A : Type} [DecidableEq P]

/-! ## Requests are carried out -/

/-- a command leaves the document of a map alone -/
theorem onCommand_active {t : Tab P D T E} {base : D} {h : History T E} (hs : t.state = .active base h) (c : Command P) :
    (t.onCommand c).uid = t.uid ∧ ∃ h', (t.onCommand c).state = .active base h' ∧ h'.current = h.current ∧ h'.idx = h.idx ∧
      (h.isDirty = false → h'.isDirty = false) := by
  unfold Tab.onCommand
  split
  · split
    · unfold Tab.savedAs
      rw [hs]
      refine ⟨rfl, _, rfl, rfl, rfl, fun _ => ?_⟩
      simp [History.isDirty, History.markClean]
    · exact ⟨rfl, h, hs, rfl, rfl, id⟩
  · exact ⟨rfl, h, hs, rfl, rfl, id⟩

theorem commands_active {t : Tab P D T E} {base : D} {h : History T E} (hs : t.state = .active base h)
    (cs : List (Command P)) :
    (cs.foldl Tab.onCommand t).uid = t.uid ∧ ∃ h', (cs.foldl Tab.onCommand t).state = .active base h' ∧
      h'.current = h.current ∧ h'.idx = h.idx ∧ (h.isDirty = false → h'.isDirty = false) := by
  induction cs generalizing t h with
  | nil => exact ⟨rfl, h, hs, rfl, rfl, id⟩
  | cons c cs ih =>
    obtain ⟨hu, h1, e1, e2, e3, e4⟩ := onCommand_active hs c
    obtain ⟨hu', h2, e5, e6, e7, e8⟩ := ih e1
    exact ⟨hu'.trans hu, h2, e5, e6.trans e2, e7.trans e3, fun hd => e8 (e4 hd)⟩

theorem command_prefix (o : Ops D T E) (ok : P → Bool) (cs : List (Command P)) (d : Desk P D T E) :
    ∀ w ∈ d.writes, w ∈ (cs.foldl (Desk.command o ok) d).writes := by
  obtain ⟨new, e, _⟩ := commands_writes o ok cs d
  intro w hw
  rw [e]
  exact List.mem_append_left _ hw

/-- the command writes the map it names -/
theorem command_does (o : Ops D T E) (ok : P → Bool) {d : Desk P D T E} (ho : d.Ok) {t : Tab P D T E} (ht : t ∈ d.tabs)
    {base : D} {h : History T E} (hs : t.state = .active base h) (p : P) (copy : Bool) :
    ∃ w ∈ (d.command o ok (.saveMap t.uid p copy)).writes, w.path = p ∧ w.copy = copy ∧ w.ok = ok p ∧ Holds o t w := by
  simp only [Desk.command]
  split
  · next hi =>
    rw [List.findIdx?_eq_none_iff] at hi
    have := hi t ht
    simp at this
  · next i hi =>
    obtain ⟨hlt, h1, _⟩ := List.findIdx?_eq_some_iff_getElem.1 hi
    have ht' : d.tabs[i] = t := uid_unique ho.nodup (List.getElem_mem hlt) ht (by simpa using h1)
    have hg : d.tabs[i]? = some t := by rw [List.getElem?_eq_getElem hlt, ht']
    split
    · next hn => rw [hg] at hn; cases hn
    · next t2 ht2 =>
      rw [hg] at ht2
      injection ht2 with ht2
      subst ht2
      split
      · next hn => rw [hs] at hn; cases hn
      · next b h' hh =>
        rw [hs] at hh
        simp only [MapState.hist, Option.some.injEq, Prod.mk.injEq] at hh
        obtain ⟨rfl, rfl⟩ := hh
        have key : ∃ w ∈ (d.write o t.uid base h p copy (ok p)).writes, w.path = p ∧ w.copy = copy ∧ w.ok = ok p ∧
            Holds o t w :=
          ⟨⟨t.uid, p, h.current, o.save h.current base, copy, ok p⟩, List.mem_append_right _ (List.mem_singleton.2 rfl),
            rfl, rfl, rfl, rfl, base, h, hs, rfl, rfl⟩
        split
        · exact key
        · exact key

/-- **C108.** An answered save dialog is acted on: if the map is still open and ready when the editor gets to
it, it is written to the path that was chosen. -/
theorem answer_is_written (o : Ops D T E) (evs : List (Event P D T E)) (ok er read ready) (t : Tab P D T E)
    (ht : t ∈ (after o evs).tabs) (base : D) (h : History T E) (hs : t.state = .active base h) (p : P) (copy : Bool)
    (hq : .saveMap t.uid p copy ∈ (after o evs).queue) :
    ∃ w ∈ (after o (evs ++ [.run ok er read ready])).writes, w.uid = t.uid ∧ w.path = p ∧ w.copy = copy ∧
      w.doc = h.current ∧ w.data = o.save h.current base := by
  rw [after_snoc]
  have ho := desk_ok o evs
  generalize after o evs = d at *
  obtain ⟨c1, c2, hc⟩ := List.append_of_mem hq
  simp only [Desk.step, Desk.run]
  rw [envArrives_writes, hc, List.foldl_append, List.foldl_cons]
  have ho0 : ({ d with queue := [] } : Desk P D T E).Ok := ⟨ho.sel, ho.nodup, ho.fresh⟩
  have ho1 := commands_ok o ok c1 ho0
  obtain ⟨new, e1, _⟩ := commands_tabs o ok c1 ho0
  obtain ⟨hu, h', e2, e3, _⟩ := commands_active hs c1
  have hm : c1.foldl Tab.onCommand t ∈ (c1.foldl (Desk.command o ok) { d with queue := [] }).tabs := by
    rw [e1]
    exact List.mem_append_left _ (List.mem_map.2 ⟨t, ht, rfl⟩)
  obtain ⟨w, hw, hp, hcp, _, hwu, b, h2, e4, e5, e6⟩ := command_does o ok ho1 hm e2 p copy
  rw [hu] at hw
  rw [e2] at e4
  injection e4 with e7 e8
  subst e7 e8
  refine ⟨w, command_prefix o ok c2 _ w hw, ?_, hp, hcp, e5.trans e3, by rw [e6, e3]⟩
  rw [← hwu, hu]

/-- **C108.** "Save" on a map with a file writes it there and takes the star away. -/
theorem save_writes (o : Ops D T E) (ok : P → Bool) (d : Desk P D T E) (t : Tab P D T E) (ht : d.tabs[d.cur]? = some t)
    (base : D) (h : History T E) (hs : t.state = .active base h) (p : P) (hp : t.path = some p) :
    (∃ w, (d.step o (.save ok)).writes = d.writes ++ [w] ∧ w.uid = t.uid ∧ w.path = p ∧ w.doc = h.current ∧
      w.data = o.save h.current base ∧ w.ok = ok p) ∧
    ∃ t', (d.step o (.save ok)).tabs[d.cur]? = some t' ∧ t'.uid = t.uid ∧ t'.path = some p ∧ t'.star = false ∧
      ∃ h', t'.state = .active base h' ∧ h'.current = h.current := by
  have e : d.step o (.save ok) = { d.write o t.uid base h p false (ok p) with
      tabs := d.tabs.modify d.cur (Tab.onHist History.markClean) } := by
    simp only [Desk.step, Desk.saveMap, ht, hs, MapState.hist, hp]
  rw [e]
  refine ⟨⟨_, rfl, rfl, rfl, rfl, rfl, rfl⟩, Tab.onHist History.markClean t, ?_, onHist_uid _ _, ?_, ?_, ?_⟩
  · simp [List.getElem?_modify, ht]
  · simp only [Tab.onHist, hs, hp]
  · simp [Tab.onHist, hs, hp, Tab.star, Tab.dirty, MapState.hist, History.isDirty, History.markClean]
  · exact ⟨h.markClean, by simp only [Tab.onHist, hs], rfl⟩

/-- what "Save All" does to each map -/
def Tab.saved (t : Tab P D T E) : Tab P D T E :=
  match t.path with
  | some _ => Tab.onHist History.markClean t
  | none => t

theorem saveMap_tabs (o : Ops D T E) (ok : P → Bool) (d : Desk P D T E) :
    (d.saveMap o ok).tabs = d.tabs.modify d.cur Tab.saved := by
  have idle : (∀ t, d.tabs[d.cur]? = some t → t.saved = t) → d.tabs = d.tabs.modify d.cur Tab.saved := by
    intro h
    refine List.ext_getElem? fun j => ?_
    rw [List.getElem?_modify]
    cases hj : d.tabs[j]? with
    | none => rfl
    | some x =>
      simp only [Option.map_eq_map, Option.map_some]
      split
      · next e => subst e; rw [h x hj]
      · rfl
  unfold Desk.saveMap
  split
  · next hn => exact idle fun t ht => by rw [hn] at ht; cases ht
  · next t ht =>
    have one : t.saved = t → d.tabs = d.tabs.modify d.cur Tab.saved := fun h => idle fun t' ht' => by
      rw [ht] at ht'
      injection ht' with ht'
      subst ht'
      exact h
    split
    · next hn =>
      refine one ?_
      unfold Tab.saved Tab.onHist
      split
      · split
        · next hs => rw [hs] at hn; cases hn
        · rfl
      · rfl
    · next base h hh =>
      split
      · next hp => exact one (by unfold Tab.saved; rw [hp])
      · next p hp =>
        refine List.ext_getElem? fun j => ?_
        simp only
        rw [List.getElem?_modify, List.getElem?_modify]
        cases hj : d.tabs[j]? with
        | none => rfl
        | some x =>
          simp only [Option.map_eq_map, Option.map_some]
          split
          · next e =>
            subst e
            rw [ht] at hj
            injection hj with hj
            subst hj
            unfold Tab.saved
            rw [hp]
          · rfl

theorem saveFrom_tabs (o : Ops D T E) (ok : P → Bool) (n : Nat) (d : Desk P D T E) (j : Nat) :
    (d.saveFrom o ok n).tabs[j]? = d.tabs[j]?.map fun t => if d.cur ≤ j ∧ j < d.cur + n then t.saved else t := by
  induction n generalizing d with
  | zero =>
    simp only [Desk.saveFrom]
    cases d.tabs[j]? with
    | none => rfl
    | some t => simp only [Option.map_some]; rw [if_neg (by omega)]
  | succ n ih =>
    rw [Desk.saveFrom, ih]
    simp only [saveMap_tabs, List.getElem?_modify]
    cases d.tabs[j]? with
    | none => rfl
    | some t =>
      simp only [Option.map_eq_map, Option.map_some, Option.some.injEq]
      by_cases h1 : d.cur = j
      · rw [if_pos h1, if_neg (by omega), if_pos (by omega)]
      · rw [if_neg h1]
        by_cases h2 : d.cur + 1 ≤ j ∧ j < d.cur + 1 + n
        · rw [if_pos h2, if_pos (by omega)]
        · rw [if_neg h2, if_neg (by omega)]

theorem saveFrom_does (o : Ops D T E) (ok : P → Bool) (n : Nat) (d : Desk P D T E) (j : Nat) (h1 : d.cur ≤ j)
    (h2 : j < d.cur + n) (t : Tab P D T E) (ht : d.tabs[j]? = some t) (base : D) (h : History T E)
    (hs : t.state = .active base h) :
    (∀ p, t.path = some p → ⟨t.uid, p, h.current, o.save h.current base, false, ok p⟩ ∈ (d.saveFrom o ok n).writes) ∧
    (t.path = none → (t.uid, false) ∈ (d.saveFrom o ok n).dialogs) := by
  have mono : ∀ (n : Nat) (d : Desk P D T E), (∀ w ∈ d.writes, w ∈ (d.saveFrom o ok n).writes) ∧
      ∀ x ∈ d.dialogs, x ∈ (d.saveFrom o ok n).dialogs := by
    intro n
    induction n with
    | zero => exact fun d => ⟨fun _ h => h, fun _ h => h⟩
    | succ n ih =>
      intro d
      have h1 : (∀ w ∈ d.writes, w ∈ (d.saveMap o ok).writes) ∧ ∀ x ∈ d.dialogs, x ∈ (d.saveMap o ok).dialogs := by
        unfold Desk.saveMap
        split
        · exact ⟨fun _ h => h, fun _ h => h⟩
        · split
          · exact ⟨fun _ h => h, fun _ h => h⟩
          · split
            · exact ⟨fun _ h => h, fun _ h => List.mem_append_left _ h⟩
            · exact ⟨fun _ h => List.mem_append_left _ h, fun _ h => h⟩
      obtain ⟨h2, h3⟩ := ih { d.saveMap o ok with cur := d.cur + 1 }
      exact ⟨fun w hw => h2 w (h1.1 w hw), fun x hx => h3 x (h1.2 x hx)⟩
  induction n generalizing d with
  | zero => omega
  | succ n ih =>
    by_cases hj : d.cur = j
    · obtain ⟨m1, m2⟩ := mono n { d.saveMap o ok with cur := d.cur + 1 }
      constructor
      · intro p hp
        refine m1 _ ?_
        simp only [Desk.saveMap, hj, ht, hs, MapState.hist, hp, Desk.write]
        simp
      · intro hp
        refine m2 _ ?_
        simp only [Desk.saveMap, hj, ht, hs, MapState.hist, hp]
        simp
    · have ht' : ({ d.saveMap o ok with cur := d.cur + 1 } : Desk P D T E).tabs[j]? = some t := by
        simp only [saveMap_tabs, List.getElem?_modify, ht, Option.map_eq_map, Option.map_some]
        rw [if_neg hj]
      exact ih _ (by simp only; omega) (by simp only; omega) ht'

/-- **C108.** "Save All" writes every map that is ready to its file, opens a dialog for every one that has
none, takes the stars away and leaves the selection where it was. -/
theorem save_all (o : Ops D T E) (ok : P → Bool) (d : Desk P D T E) :
    (d.step o (.saveAll ok)).cur = d.cur ∧ (d.step o (.saveAll ok)).tabs = d.tabs.map Tab.saved ∧
    (∀ t ∈ (d.step o (.saveAll ok)).tabs, t.star = false) ∧
    ∀ t ∈ d.tabs, ∀ base h, t.state = .active base h →
      (∀ p, t.path = some p →
        ⟨t.uid, p, h.current, o.save h.current base, false, ok p⟩ ∈ (d.step o (.saveAll ok)).writes) ∧
      (t.path = none → (t.uid, false) ∈ (d.step o (.saveAll ok)).dialogs) := by
  have ht : (d.step o (.saveAll ok)).tabs = d.tabs.map Tab.saved := by
    refine List.ext_getElem? fun j => ?_
    have := saveFrom_tabs o ok d.tabs.length { d with cur := 0 } j
    simp only [Desk.step, Desk.saveAll]
    rw [this, List.getElem?_map]
    cases hj : d.tabs[j]? with
    | none => simp [hj]
    | some t =>
      have hl := (List.getElem?_eq_some_iff.1 hj).1
      simp only [hj, Option.map_some]
      rw [if_pos (by omega)]
  refine ⟨rfl, ht, ?_, ?_⟩
  · rw [ht]
    intro t' ht'
    obtain ⟨t, _, rfl⟩ := List.mem_map.1 ht'
    unfold Tab.saved
    cases hp : t.path with
    | none => simp [Tab.star, hp]
    | some p =>
      simp only
      unfold Tab.onHist
      cases hs : t.state with
      | active base h =>
        simp [Tab.star, hp, Tab.dirty, MapState.hist, History.isDirty, History.markClean]
      | _ => simp [Tab.star, hp, Tab.dirty, MapState.hist, hs]
  · intro t htm base h hs
    obtain ⟨j, hj⟩ := List.mem_iff_getElem?.1 htm
    have hl := (List.getElem?_eq_some_iff.1 hj).1
    exact saveFrom_does o ok d.tabs.length { d with cur := 0 } j (by simp) (by simpa using hl) t hj base h hs

/-- **C108.** After "Save As" the map belongs to the new file and has no star; "Save Copy As" leaves it as
it is.  (When the queue holds one command and no new environment arrives.) -/
theorem saved_as (o : Ops D T E) (d : Desk P D T E) (ho : d.Ok) (ok read ready) (t : Tab P D T E) (ht : t ∈ d.tabs)
    (base : D) (h : History T E) (hs : t.state = .active base h) (p : P) (copy : Bool)
    (hq : d.queue = [.saveMap t.uid p copy]) :
    ∃ t' ∈ (d.step o (.run ok .empty read ready)).tabs, t'.uid = t.uid ∧
      (if copy then t' = t else t'.path = some p ∧ t'.star = false ∧
        ∃ h', t'.state = .active base h' ∧ h'.current = h.current) := by
  have ho0 : ({ d with queue := [] } : Desk P D T E).Ok := ⟨ho.sel, ho.nodup, ho.fresh⟩
  obtain ⟨new, e, _⟩ := command_tabs o ok ho0 (.saveMap t.uid p copy)
  obtain ⟨hu, h', e2, e3, _⟩ := onCommand_active hs (.saveMap t.uid p copy)
  refine ⟨t.onCommand (.saveMap t.uid p copy), ?_, hu, ?_⟩
  · simp only [Desk.step, Desk.run, hq, List.foldl_cons, List.foldl_nil, Desk.envArrives]
    rw [e]
    simp only [List.map_append, List.mem_append, List.mem_map]
    refine .inl ⟨t.onCommand (.saveMap t.uid p copy), ⟨t, ht, rfl⟩, ?_⟩
    unfold Tab.poll
    rw [e2]
  · cases copy with
    | true => rfl
    | false =>
      simp only [Bool.false_eq_true, if_false]
      refine ⟨?_, ?_, h', e2, e3⟩
      · simp only [Tab.onCommand, Tab.savedAs, if_true, hs]
      · simp [Tab.onCommand, Tab.savedAs, hs, Tab.star, Tab.dirty, MapState.hist, History.isDirty, History.markClean]

/-! ## Opening, closing, selecting -/

/-- **C108.** Closing removes the selected map and no other, and selects the one after it, or the one before
it if it was the last. -/
theorem close_spec (d : Desk P D T E) (l r : List (Tab P D T E)) (t : Tab P D T E) (ht : d.tabs = l ++ t :: r)
    (hc : d.cur = l.length) :
    d.close.tabs = l ++ r ∧ d.close.tabs[d.close.cur]? = (r.head?).or l.getLast? := by
  have he : d.tabs.eraseIdx d.cur = l ++ r := by
    rw [ht, hc, List.eraseIdx_append_of_length_le (Nat.le_refl _)]
    simp
  have hl : d.tabs.length = l.length + r.length + 1 := by rw [ht]; simp; omega
  unfold Desk.close
  by_cases h : r = []
  · subst h
    rw [if_pos (by rw [hl, hc]; simp)]
    refine ⟨he, ?_⟩
    simp only [he]
    rw [hc, List.append_nil, List.head?_nil, Option.none_or, List.getLast?_eq_getElem?]
  · have : 0 < r.length := List.length_pos_iff.2 h
    rw [if_neg (by omega), if_pos (by omega)]
    refine ⟨he, ?_⟩
    simp only [he]
    rw [hc, List.getElem?_append_right (Nat.le_refl _), Nat.sub_self]
    cases r with
    | nil => exact absurd rfl h
    | cons a r => simp

/-- **C108.** Tab and Shift+Tab go round the maps and undo each other. -/
theorem tab_cycle (d : Desk P D T E) (hc : d.cur < d.tabs.length) :
    (d.tabBetween true).tabBetween false = d ∧ (d.tabBetween false).tabBetween true = d ∧
    ∀ n, (Nat.rec d (fun _ x => x.tabBetween true) n : Desk P D T E) = { d with cur := (d.cur + n) % d.tabs.length } := by
  have hne : d.tabs ≠ [] := by rintro e; rw [e] at hc; simp at hc
  have h1 : ∀ x : Desk P D T E, x.tabs ≠ [] → x.cur < x.tabs.length →
      x.tabBetween true = { x with cur := (x.cur + 1) % x.tabs.length } := by
    intro x hx hc
    unfold Desk.tabBetween
    rw [if_neg hx, if_pos rfl]
    congr 1
    rw [show x.cur + x.tabs.length + 1 = x.cur + 1 + x.tabs.length by omega, Nat.add_mod_right]
  have h2 : ∀ x : Desk P D T E, x.tabs ≠ [] → x.cur < x.tabs.length →
      x.tabBetween false = { x with cur := (x.cur + x.tabs.length - 1) % x.tabs.length } := by
    intro x hx hc
    unfold Desk.tabBetween
    rw [if_neg hx, if_neg (by decide)]
  have hpos : 0 < d.tabs.length := by omega
  refine ⟨?_, ?_, ?_⟩
  · rw [h1 d hne hc, h2 { d with cur := (d.cur + 1) % d.tabs.length } hne (Nat.mod_lt _ hpos)]
    simp only
    have : ((d.cur + 1) % d.tabs.length + d.tabs.length - 1) % d.tabs.length = d.cur := by
      by_cases h : d.cur + 1 = d.tabs.length
      · rw [h, Nat.mod_self, Nat.mod_eq_of_lt (by omega)]; omega
      · rw [Nat.mod_eq_of_lt (by omega : d.cur + 1 < d.tabs.length)]
        rw [show d.cur + 1 + d.tabs.length - 1 = d.cur + d.tabs.length by omega, Nat.add_mod_right,
          Nat.mod_eq_of_lt hc]
    rw [this]
  · rw [h2 d hne hc, h1 { d with cur := (d.cur + d.tabs.length - 1) % d.tabs.length } hne (Nat.mod_lt _ hpos)]
    simp only
    have : ((d.cur + d.tabs.length - 1) % d.tabs.length + 1) % d.tabs.length = d.cur := by
      by_cases h : d.cur = 0
      · rw [h, Nat.mod_eq_of_lt (by omega : 0 + d.tabs.length - 1 < d.tabs.length)]
        rw [show 0 + d.tabs.length - 1 + 1 = d.tabs.length by omega, Nat.mod_self]
      · rw [show d.cur + d.tabs.length - 1 = d.cur - 1 + d.tabs.length by omega, Nat.add_mod_right,
          Nat.mod_eq_of_lt (by omega : d.cur - 1 < d.tabs.length), Nat.mod_eq_of_lt (by omega)]
        omega
    rw [this]
  · intro n
    induction n with
    | zero =>
      show d = _
      rw [Nat.add_zero, Nat.mod_eq_of_lt hc]
    | succ n ih =>
      simp only
      rw [ih, h1 { d with cur := (d.cur + n) % d.tabs.length } hne (Nat.mod_lt _ hpos)]
      simp only
      rw [Nat.add_mod, Nat.mod_mod, ← Nat.add_mod, Nat.add_assoc]

/-- **C108.** Opening a file that is open selects it and opens nothing; any other file is opened once, as a
new last map, which is selected. -/
theorem open_once (d : Desk P D T E) (p : P) :
    ((∃ t ∈ d.tabs, t.path = some p) → (d.loadMap p).tabs = d.tabs ∧
      ∃ t, d.tabs[(d.loadMap p).cur]? = some t ∧ t.path = some p) ∧
    ((∀ t ∈ d.tabs, t.path ≠ some p) → ∃ t, (d.loadMap p).tabs = d.tabs ++ [t] ∧ (d.loadMap p).cur = d.tabs.length ∧
      t.path = some p ∧ t.state = .loading p ∧ t.uid = d.uid) := by
  constructor
  · rintro ⟨t, ht, hp⟩
    unfold Desk.loadMap
    split
    · next i hi =>
      obtain ⟨hlt, h1, _⟩ := List.findIdx?_eq_some_iff_getElem.1 hi
      exact ⟨rfl, d.tabs[i], by simp [hlt], by simpa using h1⟩
    · next hn =>
      rw [List.findIdx?_eq_none_iff] at hn
      have := hn t ht
      simp [hp] at this
  · intro h
    unfold Desk.loadMap
    split
    · next i hi =>
      obtain ⟨hlt, h1, _⟩ := List.findIdx?_eq_some_iff_getElem.1 hi
      exact absurd (by simpa using h1) (h _ (List.getElem_mem hlt))
    · exact ⟨_, rfl, rfl, rfl, rfl, rfl⟩

/-- **C108.** An edit, Undo and Redo act on the selected map and on no other, and only when it is ready and
there is an environment. -/
theorem act_selected (o : Ops D T E) (d : Desk P D T E) (ev : Event P D T E) (f : E → History T E → History T E)
    (hev : (∃ g, ev = .edit g ∧ f = fun e h => h.edit e g) ∨ (ev = .undo ∧ f = fun e h => h.undo e) ∨
      (ev = .redo ∧ f = fun e h => h.redo e)) :
    (∀ j, j ≠ d.cur → (d.step o ev).tabs[j]? = d.tabs[j]?) ∧
    (∀ t, d.tabs[d.cur]? = some t → ∃ t', (d.step o ev).tabs[d.cur]? = some t' ∧ t'.uid = t.uid ∧ t'.path = t.path ∧
      ((∃ base h e, t.state = .active base h ∧ d.env = some e ∧ t'.state = .active base (f e h)) ∨
        ((d.env = none ∨ t.state.hist = none) ∧ t' = t))) := by
  have he : d.step o ev = d.act f := by
    rcases hev with ⟨g, rfl, rfl⟩ | ⟨rfl, rfl⟩ | ⟨rfl, rfl⟩ <;> rfl
  rw [he]
  unfold Desk.act
  cases hd : d.env with
  | none => exact ⟨fun j _ => rfl, fun t ht => ⟨t, ht, rfl, rfl, .inr ⟨.inl rfl, rfl⟩⟩⟩
  | some e =>
    refine ⟨fun j hj => ?_, fun t ht => ⟨Tab.onHist (f e) t, ?_, onHist_uid _ _, ?_, ?_⟩⟩
    · simp only [List.getElem?_modify]
      rw [Option.map_eq_map]
      have : ¬d.cur = j := fun h => hj h.symm
      simp [this]
    · simp [List.getElem?_modify, ht]
    · unfold Tab.onHist; split <;> rfl
    · unfold Tab.onHist
      cases hs : t.state with
      | active base h => exact .inl ⟨base, h, e, rfl, rfl, rfl⟩
      | _ => exact .inr ⟨.inr rfl, by rfl⟩

/-- **C108.** Nothing but "Close" makes a map go away. -/
theorem only_close_closes (o : Ops D T E) (d : Desk P D T E) (ho : d.Ok) (ev : Event P D T E) (hne : ev ≠ .close) :
    ∀ t ∈ d.tabs, ∃ t' ∈ (d.step o ev).tabs, t'.uid = t.uid := by
  have same : ∀ d' : Desk P D T E, d'.tabs.map Tab.uid = d.tabs.map Tab.uid →
      ∀ t ∈ d.tabs, ∃ t' ∈ d'.tabs, t'.uid = t.uid := by
    intro d' h t ht
    have : t.uid ∈ d'.tabs.map Tab.uid := by rw [h]; exact List.mem_map.2 ⟨t, ht, rfl⟩
    obtain ⟨t', h1, h2⟩ := List.mem_map.1 this
    exact ⟨t', h1, h2⟩
  cases ev with
  | send c => simp only [Desk.step]; split <;> exact same _ rfl
  | create base =>
    simp only [Desk.step, Desk.create]
    split
    · exact same _ rfl
    · exact fun t ht => ⟨t, List.mem_append_left _ ht, rfl⟩
  | close => exact absurd rfl hne
  | tab f => simp only [Desk.step, Desk.tabBetween]; split <;> exact same _ rfl
  | click i z =>
    simp only [Desk.step, Desk.click]
    split
    · exact same _ rfl
    · split
      · exact same _ rfl
      · exact same _ (map_uid_modify _ _ _ fun _ => rfl)
  | save ok => exact same _ (saveMap_same o ok d).1.1
  | saveAs c => exact same _ (saveMapAs_same d c).1.1
  | saveAll ok => exact same _ (saveFrom_same o ok d.tabs.length { d with cur := 0 }).1
  | answer k p => simp only [Desk.step]; split <;> exact same _ rfl
  | edit f | undo | redo =>
    simp only [Desk.step, Desk.act]
    split
    · exact same _ rfl
    · exact same _ (map_uid_modify _ _ _ (onHist_uid _))
  | run ok er read ready =>
    have ho0 : ({ d with queue := [] } : Desk P D T E).Ok := ⟨ho.sel, ho.nodup, ho.fresh⟩
    obtain ⟨new, e, _⟩ := commands_tabs o ok d.queue ho0
    intro t ht
    have h1 : ∃ t1 ∈ (d.queue.foldl (Desk.command o ok) { d with queue := [] }).tabs, t1.uid = t.uid := by
      refine ⟨d.queue.foldl Tab.onCommand t, by rw [e]; exact List.mem_append_left _ (List.mem_map.2 ⟨t, ht, rfl⟩), ?_⟩
      generalize d.queue = cs
      clear * -
      induction cs generalizing t with
      | nil => rfl
      | cons c cs ih =>
        rw [List.foldl_cons, ih]
        unfold Tab.onCommand Tab.savedAs
        split
        · split
          · split <;> rfl
          · rfl
        · rfl
    obtain ⟨t1, h1, h2⟩ := h1
    have h3 := (envArrives_same (d.queue.foldl (Desk.command o ok) { d with queue := [] }) er).1.1
    have : t1.uid ∈ ((d.queue.foldl (Desk.command o ok) { d with queue := [] }).envArrives er).tabs.map Tab.uid := by
      rw [h3]; exact List.mem_map.2 ⟨t1, h1, rfl⟩
    obtain ⟨t2, h4, h5⟩ := List.mem_map.1 this
    exact ⟨_, List.mem_map.2 ⟨t2, h4, rfl⟩, (poll_uid _ _ _ _ _).trans (h5.trans h2)⟩

/-! ## Environments -/

/-- maps are being prepared for the current environment -/
def Current (d : Desk P D T E) : Prop := ∀ t ∈ d.tabs, ∀ base e, t.state = .preparing base e → d.env = some e

theorem onHist_preparing {f : History T E → History T E} {t : Tab P D T E} {base : D} {e : E}
    (h : (Tab.onHist f t).state = .preparing base e) : t.state = .preparing base e := by
  unfold Tab.onHist at h
  split at h
  · cases h
  · exact h

theorem saved_preparing {t : Tab P D T E} {base : D} {e : E}
    (h : t.saved.state = .preparing base e) : t.state = .preparing base e := by
  unfold Tab.saved at h
  split at h
  · exact onHist_preparing h
  · exact h

theorem saveFrom_env (o : Ops D T E) (ok : P → Bool) (n : Nat) (d : Desk P D T E) : (d.saveFrom o ok n).env = d.env := by
  induction n generalizing d with
  | zero => rfl
  | succ n ih =>
    rw [Desk.saveFrom, ih]
    simp only
    unfold Desk.saveMap
    split
    · rfl
    · split
      · rfl
      · split <;> rfl

theorem commands_env (o : Ops D T E) (ok : P → Bool) (cs : List (Command P)) (d : Desk P D T E) :
    (cs.foldl (Desk.command o ok) d).env = d.env := by
  induction cs generalizing d with
  | nil => rfl
  | cons c cs ih =>
    rw [List.foldl_cons, ih]
    cases c with
    | dialogError m => simp only [Desk.command]; split <;> rfl
    | openEnvironment p => rfl
    | openMap ps =>
      simp only [Desk.command]
      clear ih
      induction ps generalizing d with
      | nil => rfl
      | cons p ps ih =>
        rw [List.foldl_cons, ih]
        unfold Desk.loadMap
        split <;> rfl
    | saveMap u p c =>
      simp only [Desk.command]
      split
      · rfl
      · split
        · rfl
        · split
          · rfl
          · split <;> rfl

theorem step_current (o : Ops D T E) {d : Desk P D T E} (ho : d.Ok) (h : Current d) (ev : Event P D T E) :
    Current (d.step o ev) := by
  cases ev with
  | send c => simp only [Desk.step]; split <;> exact h
  | create base =>
    simp only [Desk.step, Desk.create]
    split
    · exact h
    · next e he =>
      intro t ht b e' hs
      simp only [List.mem_append, List.mem_singleton] at ht
      rcases ht with ht | rfl
      · have := h t ht b e' hs; simpa using this
      · cases hs
  | close =>
    simp only [Desk.step, Desk.close]
    split
    · exact fun t ht => h t ((List.eraseIdx_sublist _ _).mem ht)
    · split
      · exact fun t ht => h t ((List.eraseIdx_sublist _ _).mem ht)
      · exact h
  | tab f => simp only [Desk.step, Desk.tabBetween]; split <;> exact h
  | click i z =>
    simp only [Desk.step, Desk.click]
    split
    · exact h
    · split
      · exact h
      · intro t ht b e hs
        rcases mem_modify ht with h' | ⟨y, hy, rfl⟩
        · exact h t h' b e hs
        · exact h y (List.mem_of_getElem? hy) b e hs
  | save ok =>
    intro t ht b e hs
    simp only [Desk.step] at *
    have he : (d.saveMap o ok).env = d.env := by
      unfold Desk.saveMap
      split
      · rfl
      · split
        · rfl
        · split <;> rfl
    rw [he]
    rw [saveMap_tabs] at ht
    rcases mem_modify ht with h' | ⟨y, hy, rfl⟩
    · exact h t h' b e hs
    · exact h y (List.mem_of_getElem? hy) b e (saved_preparing hs)
  | saveAs c =>
    simp only [Desk.step, Desk.saveMapAs]
    split
    · exact h
    · split <;> exact h
  | saveAll ok =>
    intro t ht b e hs
    rw [(save_all o ok d).2.1] at ht
    obtain ⟨y, hy, rfl⟩ := List.mem_map.1 ht
    have he : (d.step o (.saveAll ok)).env = d.env := saveFrom_env o ok _ _
    rw [he]
    exact h y hy b e (saved_preparing hs)
  | answer k p => simp only [Desk.step]; split <;> exact h
  | edit f | undo | redo =>
    simp only [Desk.step, Desk.act]
    split
    · exact h
    · intro t ht b e hs
      rcases mem_modify ht with h' | ⟨y, hy, rfl⟩
      · exact h t h' b e hs
      · exact h y (List.mem_of_getElem? hy) b e (onHist_preparing hs)
  | run ok er read ready =>
    have ho0 : ({ d with queue := [] } : Desk P D T E).Ok := ⟨ho.sel, ho.nodup, ho.fresh⟩
    have h1 : Current (d.queue.foldl (Desk.command o ok) { d with queue := [] }) := by
      obtain ⟨new, e, hn⟩ := commands_tabs o ok d.queue ho0
      intro t ht b e' hs
      rw [e, List.mem_append] at ht
      rw [commands_env]
      rcases ht with ht | ht
      · obtain ⟨y, hy, rfl⟩ := List.mem_map.1 ht
        refine h y hy b e' ?_
        clear * - hs
        generalize d.queue = cs at hs
        induction cs generalizing y with
        | nil => exact hs
        | cons c cs ih =>
          rw [List.foldl_cons] at hs
          have := ih _ hs
          unfold Tab.onCommand Tab.savedAs at this
          split at this
          · split at this
            · split at this
              · cases this
              · exact this
            · exact this
          · exact this
      · obtain ⟨⟨p, hp⟩, _⟩ := hn t ht
        rw [hp] at hs
        cases hs
    have h2 : Current ((d.queue.foldl (Desk.command o ok) { d with queue := [] }).envArrives er) := by
      generalize d.queue.foldl (Desk.command o ok) { d with queue := [] } = d1 at h1
      cases er with
      | empty => exact h1
      | failed => simp only [Desk.envArrives]; split <;> exact h1
      | done e =>
        simp only [Desk.envArrives]
        split
        · exact h1
        · intro t ht b e' hs
          obtain ⟨y, hy, rfl⟩ := List.mem_map.1 ht
          unfold Tab.newEnv at hs
          split at hs
          · injection hs with _ e2; rw [e2]
          · injection hs with _ e2; rw [e2]
          · cases hs
          · next h1 h2 h3 => exact absurd hs (h2 _ _)
    intro t ht b e hs
    simp only [Desk.step, Desk.run] at ht
    obtain ⟨y, hy, rfl⟩ := List.mem_map.1 ht
    simp only [Desk.step, Desk.run]
    generalize (d.queue.foldl (Desk.command o ok) { d with queue := [] }).envArrives er = d2 at *
    unfold Tab.poll at hs
    split at hs
    · split at hs <;> cases hs
    · next base hy' =>
      split at hs
      · next e' he => injection hs with _ e2; rw [← e2]; exact he
      · rw [hy'] at hs; cases hs
    · next base e0 hy' =>
      split at hs
      · cases hs
      · exact h2 y hy b e hs
    · next hy' =>
      split at hs
      · cases hs
      · rw [hy'] at hs; cases hs
    · next hy' => rw [hy'] at hs; cases hs

/-- **C108.** A map that was loaded is prepared for the environment that is the current one when it becomes
ready, even if that was changed in between. -/
theorem prepared_current (o : Ops D T E) (evs : List (Event P D T E)) (t : Tab P D T E) (ht : t ∈ (after o evs).tabs)
    (base : D) (e : E) (hs : t.state = .preparing base e) : (after o evs).env = some e := by
  have : Current (after o evs) := by
    clear * -
    induction evs using List.reverseRecOn with
    | nil => intro t ht; cases ht
    | append_singleton evs e ih => rw [after_snoc]; exact step_current o (desk_ok o evs) ih e
  exact this t ht base e hs

/-! ## Examples and disagreements -/

section Examples

/-- numbers as maps: prepared and refreshed maps remember for which environment -/
def ops : Ops Int (Int × Nat) Nat where
  prepare e n := (n, e)
  refresh e t := (t.1, e)
  save t _ := t.1

abbrev Ev := Event Nat Int (Int × Nat) Nat

def plus (n : Int) : EditFn (Int × Nat) Nat := fun _ t => ((t.1 + n, t.2), fun _ t' => (t'.1 - n, t'.2))

/-- a number stands for itself, whatever the environment -/
def Rn (t : Int × Nat) (a : Int) : Prop := t.1 = a

theorem plus_reversible (n a : Int) : Reversible Rn (plus n) a (a + n) := by
  intro env t ht
  refine ⟨?_, fun env' t' ht' => ?_⟩
  · unfold Rn plus at *; simp only; omega
  · unfold Rn plus at *; simp only; omega

def tick (er : EnvResult Nat := .empty) (read : Option Int := none) : Ev := .run (fun _ => true) er (fun _ => read) fun _ => true

/-- load an environment and the map 5 (which holds 100) -/
def opened : List Ev :=
  [.send (.openEnvironment 0), .send (.openMap [5]), tick, tick (.done 1), tick .empty (some 100), tick, tick]

/-- what one sees: for every map its path, star and content -/
def view (d : Desk Nat Int (Int × Nat) Nat) : List (Option Nat × Bool × Option (Int × Nat)) :=
  d.tabs.map fun t => (t.path, t.star, t.state.hist.map fun x => x.2.current)

example : view (after ops opened) = [(some 5, false, some (100, 1))] := by decide +kernel

/-- edit, save as 6 (the answer comes when another, new map is selected), undo -/
def session : List Ev :=
  opened ++ [.edit (plus 1), .saveAs false, .create 7, .answer 0 (some 6), tick, .tab true]

example : view (after ops session) = [(some 6, false, some (101, 1)), (none, false, some (7, 1))] := by decide +kernel
example : (after ops session).writes.map (fun w => (w.uid, w.path, w.data)) = [(0, 6, 101)] := by decide +kernel
example : view (after ops (session ++ [.undo])) = [(some 6, true, some (100, 1)), (none, false, some (7, 1))] := by
  decide +kernel

/-- the hypotheses of `clean_means_saved` for these sessions -/
example (evs : List Ev) (h : ∀ f, Event.edit f ∈ evs → ∃ n, f = plus n) :
    (∀ e base, ∃ a, Rn (ops.prepare e base) a) ∧ (∀ e x a, Rn x a → Rn (ops.refresh e x) a) ∧
    ∀ pre ev post, evs = pre ++ ev :: post → Fine Rn (after ops pre) ev := by
  refine ⟨fun e b => ⟨b, rfl⟩, fun _ _ _ h => h, ?_⟩
  intro pre ev post e
  cases ev with
  | edit f =>
    intro t base hi a _ _ _
    obtain ⟨n, rfl⟩ := h f (by rw [e]; simp)
    exact ⟨_, plus_reversible n a⟩
  | _ => trivial

/-- **Disagreement.** The star is taken away even if the file could not be written (editor.rs:1501-1505,
281-292): here the file was never written, the map was changed, and there is no star. -/
theorem failed_write_loses_star :
    let d := after ops (opened ++ [.edit (plus 1), .save fun _ => false])
    view d = [(some 5, false, some (101, 1))] ∧ (∀ w ∈ d.writes, w.ok = false) ∧ d.errors = 1 := by
  decide +kernel

/-- **Disagreement.** A new map has no star until it has a file, whatever is changed (editor.rs:820). -/
theorem untitled_has_no_star :
    let d := after ops (opened ++ [.create 7, .edit (plus 1)])
    d.tabs.map (fun t => (t.path, t.star, t.dirty)) = [(some 5, false, false), (none, false, true)] := by decide +kernel

/-- **Disagreement.** Closing a changed map discards the changes without asking (editor.rs:1465). -/
theorem close_discards :
    let d := after ops (opened ++ [.edit (plus 1), .close])
    d.tabs.length = 0 ∧ d.writes.length = 0 ∧ d.dialogs = [] := by decide +kernel

/-- **Disagreement.** "Save As" onto a file that is open elsewhere leaves two maps for one file, and saving
one overwrites the other, which has no star. -/
theorem two_maps_one_file :
    let d := after ops (opened ++ [.create 7, .saveAs false, .answer 0 (some 5), tick])
    view d = [(some 5, false, some (100, 1)), (some 5, false, some (7, 1))] ∧
      d.writes.map (fun w => (w.path, w.data)) = [(5, 7)] := by decide +kernel

/-- **Disagreement.** An environment that arrives while maps are being refreshed for the one before it does
not refresh them (editor.rs:256): the map stays as drawn for environment 2 although 3 is current. -/
theorem reload_missed :
    let slow (er : EnvResult Nat) : Ev := .run (fun _ => true) er (fun _ => none) fun _ => false
    let d := after ops (opened ++ [.send (.openEnvironment 0), slow .empty, slow (.done 2), .send (.openEnvironment 0),
      slow .empty, slow (.done 3), tick, tick])
    view d = [(some 5, false, some (100, 2))] ∧ d.env = some 3 := by decide +kernel

/-- **Disagreement.** A file that cannot be read stays open as "loading" (editor.rs:1460: the thread dies). -/
theorem unreadable_stays (n : Nat) :
    view (after ops ([.send (.openMap [5]), tick] ++ List.replicate n tick)) = [(some 5, false, none)] := by
  have h : ∀ m, (after ops ([.send (.openMap [5]), tick] ++ List.replicate m tick)) =
      after ops [.send (.openMap [5]), tick] := by
    intro m
    induction m with
    | zero => rw [List.replicate_zero, List.append_nil]
    | succ m ih =>
      rw [List.replicate_succ', ← List.append_assoc, after_snoc, ih]
      rfl
  rw [h]
  decide +kernel

end Examples

end Verif.Editor.Desk
