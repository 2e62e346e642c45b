import Verif.Server.DiagProps

/-!
# C88: progress, and what is shown in the end
-/

namespace Verif.Server

variable {U : Type} [DecidableEq U]

/-- The runs whose parser findings have been sent. -/
def System.parsedRuns (s : System U) : List Nat :=
  (s.log.filter (fun e => !e.2.1)).map Prod.fst

/-- More that holds in every state: everything is sent once. -/
structure Inv2 (s : System U) : Prop where
  /-- The runs in order. -/
  calm : (∀ r f pc, s.main ≠ .sending r f pc) → s.parsedRuns = List.range s.runs
  busy : ∀ r f pc, s.main = .sending r f pc → s.runs = r + 1 ∧ s.parsedRuns = List.range r
  /-- Threads belong to runs. -/
  ofRun : ∀ c ∈ s.checkers, c.run < s.runs
  /-- What the threads have sent. -/
  doneLog : ∀ c ∈ s.checkers, c.pc = .done → (c.run, true, c.map) ∈ s.log
  logDone : ∀ r m, (r, true, m) ∈ s.log → ∃ c ∈ s.checkers, c.run = r ∧ c.map = m ∧ c.pc = .done

theorem inv2_init : Inv2 (System.init : System U) := by
  constructor <;> simp [System.init, System.parsedRuns]

theorem mem_set_iff' {α : Type} {l : List α} {i : Nat} {a x b : α} (hb : l[i]? = some b)
    (h : x ∈ l.set i a) : x = a ∨ x ∈ l := by
  rcases List.mem_or_eq_of_mem_set h with h | h
  · exact .inr h
  · exact .inl h

/-- Replacing a thread by one of the same run with the same map. -/
theorem mem_set_of {l : List (Checker U)} {i : Nat} {c x : Checker U} {pc : CheckPc U}
    (hc : l[i]? = some c) (hx : x ∈ l) : x = c ∨ x ∈ l.set i { c with pc := pc } := by
  obtain ⟨j, hj⟩ := List.mem_iff_getElem?.1 hx
  by_cases hij : i = j
  · subst hij
    rw [hc] at hj
    exact .inl (Option.some.inj hj).symm
  · refine .inr (List.mem_iff_getElem?.2 ⟨j, ?_⟩)
    rw [List.getElem?_set_ne hij]
    exact hj

theorem inv2_step {s s' : System U} (iv : Inv2 s) (hs : SysStep s s') : Inv2 s' := by
  cases hs with
  | parse first second hm hf hg =>
    refine ⟨fun _ => iv.calm (by rw [hm]; nofun), nofun, iv.ofRun, iv.doneLog, iv.logDone⟩
  | lock first second hm hl =>
    refine ⟨fun _ => iv.calm (by rw [hm]; nofun), nofun, iv.ofRun, iv.doneLog, iv.logDone⟩
  | spawn first second hm =>
    refine ⟨fun h => absurd rfl (h _ _ _), ?_, ?_, ?_, ?_⟩
    · intro r f pc h
      cases h
      exact ⟨rfl, iv.calm (by rw [hm]; nofun)⟩
    · intro c hc
      rcases List.mem_append.1 hc with hc | hc
      · exact Nat.lt_succ_of_lt (iv.ofRun c hc)
      · cases second with
        | none => cases hc
        | some m => rw [List.mem_singleton.1 hc]; exact Nat.lt_succ_self _
    · intro c hc hp
      rcases List.mem_append.1 hc with hc | hc
      · exact iv.doneLog c hc hp
      · cases second with
        | none => cases hc
        | some m => rw [List.mem_singleton.1 hc] at hp; cases hp
    · intro r m hl
      obtain ⟨c, hc, h⟩ := iv.logDone r m hl
      exact ⟨c, List.mem_append_left _ hc, h⟩
  | mainSend run first pc sent' pc' ps hm hss =>
    refine ⟨fun h => absurd rfl (h _ _ _), ?_, iv.ofRun, iv.doneLog, iv.logDone⟩
    intro r f pc h
    cases h
    exact iv.busy _ _ _ hm
  | mainDone run first pc sent' ps hm hss =>
    refine ⟨fun _ => ?_, nofun, iv.ofRun, ?_, ?_⟩
    · obtain ⟨h1, h2⟩ := iv.busy _ _ _ hm
      have : (s.log.filter (fun e => !e.2.1)).map Prod.fst = List.range run := h2
      simp only [System.parsedRuns, List.filter_append, List.map_append, this, h1, List.range_succ]
      rfl
    · intro c hc hp
      exact List.mem_append_left _ (iv.doneLog c hc hp)
    · intro r m hl
      rcases List.mem_append.1 hl with hl | hl
      · exact iv.logDone r m hl
      · cases List.mem_singleton.1 hl
  | checkLock i c hc hp hl =>
    have hcm := List.mem_of_getElem? hc
    refine ⟨iv.calm, iv.busy, ?_, ?_, ?_⟩
    · intro d hd
      rcases mem_set_iff' hc hd with rfl | hd
      · exact iv.ofRun c hcm
      · exact iv.ofRun d hd
    · intro d hd hp
      rcases mem_set_iff' hc hd with rfl | hd
      · cases hp
      · exact iv.doneLog d hd hp
    · intro r m h
      obtain ⟨d, hd, h1, h2, h3⟩ := iv.logDone r m h
      rcases mem_set_of (pc := .sending (.publishing c.map [])) hc hd with rfl | hd
      · rw [hp] at h3; cases h3
      · exact ⟨d, hd, h1, h2, h3⟩
  | checkSend i c pc sent' pc' ps hc hp hss =>
    have hcm := List.mem_of_getElem? hc
    refine ⟨iv.calm, iv.busy, ?_, ?_, ?_⟩
    · intro d hd
      rcases mem_set_iff' hc hd with rfl | hd
      · exact iv.ofRun c hcm
      · exact iv.ofRun d hd
    · intro d hd hp
      rcases mem_set_iff' hc hd with rfl | hd
      · cases hp
      · exact iv.doneLog d hd hp
    · intro r m h
      obtain ⟨d, hd, h1, h2, h3⟩ := iv.logDone r m h
      rcases mem_set_of (pc := .sending pc') hc hd with rfl | hd
      · rw [hp] at h3; cases h3
      · exact ⟨d, hd, h1, h2, h3⟩
  | checkDone i c pc sent' ps hc hp hss =>
    have hcm := List.mem_of_getElem? hc
    have hpr : ((s.log ++ [(c.run, true, c.map)]).filter (fun e => !e.2.1)).map Prod.fst =
        s.parsedRuns := by
      simp [System.parsedRuns, List.filter_append]
    refine ⟨fun h => hpr.trans (iv.calm h), fun r f pc h => ⟨(iv.busy r f pc h).1,
      hpr.trans (iv.busy r f pc h).2⟩, ?_, ?_, ?_⟩
    · intro d hd
      rcases mem_set_iff' hc hd with rfl | hd
      · exact iv.ofRun c hcm
      · exact iv.ofRun d hd
    · intro d hd hp
      rcases mem_set_iff' hc hd with rfl | hd
      · exact List.mem_append_right _ List.mem_cons_self
      · exact List.mem_append_left _ (iv.doneLog d hd hp)
    · intro r m h
      rcases List.mem_append.1 h with h | h
      · obtain ⟨d, hd, h1, h2, h3⟩ := iv.logDone r m h
        rcases mem_set_of (pc := .done) hc hd with rfl | hd
        · rw [hp] at h3; cases h3
        · exact ⟨d, hd, h1, h2, h3⟩
      · cases List.mem_singleton.1 h
        exact ⟨_, List.mem_iff_getElem?.2 ⟨i, List.getElem?_set_self (List.getElem?_eq_some_iff.1 hc).1⟩,
          rfl, rfl, rfl⟩

theorem reach_inv2 {s : System U} (h : Reach s) : Inv2 s := by
  induction h with
  | init => exact inv2_init
  | step _ hs ih => exact inv2_step ih hs

/-- **C88**: in the end everything has been sent: the findings of the parser once for every run, in the
order of the runs, and those of every check; and nothing else. -/
theorem quiet_all_sent {s : System U} (h : Reach s) (hq : s.Quiet) :
    s.parsedRuns = List.range s.runs ∧
    ∀ r m, (r, true, m) ∈ s.log ↔ ∃ c ∈ s.checkers, c.run = r ∧ c.map = m := by
  have iv := reach_inv2 h
  refine ⟨iv.calm (by rw [hq.1]; nofun), fun r m => ⟨fun hl => ?_, ?_⟩⟩
  · obtain ⟨c, hc, h1, h2, -⟩ := iv.logDone r m hl
    exact ⟨c, hc, h1, h2⟩
  · rintro ⟨c, hc, rfl, rfl⟩
    exact iv.doneLog c hc (hq.2 c hc)

theorem quiet_lock {s : System U} (h : Reach s) (hq : s.Quiet) : s.lock = none := by
  have iv := reach_inv h
  cases hl : s.lock with
  | none => rfl
  | some w =>
    cases w with
    | main =>
      rcases iv.mainLock.2 hl with ⟨_, _, h⟩ | ⟨_, _, _, h⟩
      · rw [hq.1] at h; cases h
      · rw [hq.1] at h; cases h
    | checker i =>
      obtain ⟨c, pc, hc, hp⟩ := (iv.checkLock i).2 hl
      rw [hq.2 c (List.mem_of_getElem? hc)] at hp
      cases hp

/-- What was sent last, if the last run was checked, is what some check found. -/
theorem quiet_last {s : System U} (h : Reach s) (hq : s.Quiet) (c : Checker U)
    (hc : c ∈ s.checkers) (hr : c.run + 1 = s.runs) : ∃ d ∈ s.checkers, s.last = d.map := by
  have iv := reach_inv h
  have iv2 := reach_inv2 h
  have hcl := iv2.doneLog c hc (hq.2 c hc)
  rcases List.eq_nil_or_concat s.log with h0 | ⟨l, e, he⟩
  · rw [h0] at hcl; cases hcl
  rw [List.concat_eq_append] at he
  obtain ⟨r, b, m⟩ := e
  have hlast : s.last = m := by rw [System.last, he]; simp
  cases b with
  | true =>
    obtain ⟨d, hd, -, h2, -⟩ := iv2.logDone r m (by rw [he]; simp)
    exact ⟨d, hd, hlast.trans h2.symm⟩
  | false =>
    exfalso
    have hp := (quiet_all_sent h hq).1
    have hp2 : s.parsedRuns = (l.filter (fun e => !e.2.1)).map Prod.fst ++ [r] := by
      simp [System.parsedRuns, he, List.filter_append]
    rw [hp, ← hr, List.range_succ] at hp2
    obtain ⟨h1, h2⟩ := List.append_inj' hp2 rfl
    have hcl' : (c.run, true, c.map) ∈ l := by
      rw [he] at hcl
      rcases List.mem_append.1 hcl with hcl | hcl
      · exact hcl
      · cases List.mem_singleton.1 hcl
    obtain ⟨x, y, hxy⟩ := List.append_of_mem hcl'
    obtain ⟨f, hf⟩ := iv.ordered x c.run c.map ⟨y ++ [(r, false, m)], by rw [he, hxy]; simp⟩
    have : c.run ∈ (l.filter (fun e => !e.2.1)).map Prod.fst := by
      refine List.mem_map.2 ⟨(c.run, false, f), List.mem_filter.2 ⟨?_, rfl⟩, rfl⟩
      rw [hxy]
      exact List.mem_append_left _ hf
    rw [← h1] at this
    exact absurd (List.mem_range.1 this) (Nat.lt_irrefl _)

/-- **C88**: if there was one check, and that of the last run, then in the end the client shows its
findings, whatever the schedule. -/
theorem quiet_single {s : System U} (h : Reach s) (hq : s.Quiet) (c : Checker U)
    (hc : s.checkers = [c]) (hr : c.run + 1 = s.runs) (u : U) : shown s.out u = c.map.get u := by
  obtain ⟨d, hd, hl⟩ := quiet_last h hq c (by rw [hc]; exact List.mem_cons_self) hr
  rw [shown_last h (quiet_lock h hq), hl]
  rw [hc] at hd
  rw [List.mem_singleton.1 hd]

/-- **C88**: nobody waits forever: as long as something is to be sent, some thread can go on. -/
theorem progress {s : System U} (h : Reach s) (hn : ¬ s.Quiet) :
    ∃ s', SysStep s s' ∧ (s.main = .idle → s'.main = .idle) := by
  have iv := reach_inv h
  have send : ∀ pc : Sending U, (∃ sent' pc' ps, SendStep s.sent pc sent' (some pc') ps) ∨
      ∃ sent' ps, SendStep s.sent pc sent' none ps := by
    intro pc
    match pc with
    | .publishing [] new => exact .inl ⟨_, _, _, .swap new s.sent (List.Perm.refl _)⟩
    | .publishing ((u, ds) :: todo) new => exact .inl ⟨_, _, _, .publish u ds todo new⟩
    | .erasing [] => exact .inr ⟨_, _, .finish⟩
    | .erasing (u :: todo) => exact .inl ⟨_, _, _, .erase u todo⟩
  cases hl : s.lock with
  | some w =>
    cases w with
    | main =>
      rcases iv.mainLock.2 hl with ⟨f, g, hm⟩ | ⟨r, f, pc, hm⟩
      · exact ⟨_, .spawn s f g hm, fun hi => by cases hm.symm.trans hi⟩
      · rcases send pc with ⟨_, _, _, hs⟩ | ⟨_, _, hs⟩
        · exact ⟨_, .mainSend s r f pc _ _ _ hm hs, fun hi => by cases hm.symm.trans hi⟩
        · exact ⟨_, .mainDone s r f pc _ _ hm hs, fun hi => by cases hm.symm.trans hi⟩
    | checker i =>
      obtain ⟨c, pc, hc, hp⟩ := (iv.checkLock i).2 hl
      rcases send pc with ⟨_, _, _, hs⟩ | ⟨_, _, hs⟩
      · exact ⟨_, .checkSend s i c pc _ _ _ hc hp hs, id⟩
      · exact ⟨_, .checkDone s i c pc _ _ hc hp hs, id⟩
  | none =>
    by_cases hm : s.main = .idle
    · have : ∃ c ∈ s.checkers, c.pc ≠ .done := Classical.byContradiction (fun hh =>
        hn ⟨hm, fun c hc => Classical.byContradiction (fun hp => hh ⟨c, hc, hp⟩)⟩)
      obtain ⟨c, hc, hp⟩ := this
      obtain ⟨i, hi⟩ := List.mem_iff_getElem?.1 hc
      cases hpc : c.pc with
      | done => exact absurd hpc hp
      | working => exact ⟨_, .checkLock s i c hi hpc hl, id⟩
      | sending pc =>
        have := (iv.checkLock i).1 ⟨c, pc, hi, hpc⟩
        rw [hl] at this
        cases this
    · cases hmm : s.main with
      | idle => exact absurd hmm hm
      | parsed f g => exact ⟨_, .lock s f g hmm hl, nofun⟩
      | locked f g =>
        have := iv.mainLock.1 (.inl ⟨f, g, hmm⟩)
        rw [hl] at this
        cases this
      | sending r f pc =>
        have := iv.mainLock.1 (.inr ⟨r, f, pc, hmm⟩)
        rw [hl] at this
        cases this

end Verif.Server
