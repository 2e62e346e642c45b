import Verif.Server.RpcSpec

/-!
# C87: the driver does what the history of calls asks for
-/

namespace Verif.Server

variable {I S V : Type} {h : Handlers I S V}

theorem opened_append {a b : List (Call I V)} :
    Opened h (a ++ b) ↔ Opened h a ∨ Opened h b := by
  constructor
  · rintro ⟨id, p, body, hm, hb⟩
    rcases List.mem_append.1 hm with hm | hm
    · exact .inl ⟨id, p, body, hm, hb⟩
    · exact .inr ⟨id, p, body, hm, hb⟩
  · rintro (⟨id, p, body, hm, hb⟩ | ⟨id, p, body, hm, hb⟩)
    · exact ⟨id, p, body, List.mem_append_left _ hm, hb⟩
    · exact ⟨id, p, body, List.mem_append_right _ hm, hb⟩

theorem opened_single {c : Call I V} :
    Opened h [c] ↔ ∃ id p body, c = .method id "initialize" p ∧ h.init p = .ok body := by
  constructor
  · rintro ⟨id, p, body, hm, hb⟩
    exact ⟨id, p, body, (List.mem_singleton.1 hm).symm, hb⟩
  · rintro ⟨id, p, body, rfl, hb⟩
    exact ⟨id, p, body, List.mem_singleton.2 rfl, hb⟩

theorem closed_opened {past : List (Call I V)} (hc : Closed h past) : Opened h past := by
  obtain ⟨a, id, p, b, rfl, _, ho⟩ := hc
  exact opened_append.2 (.inl ho)

theorem closed_snoc {past : List (Call I V)} {c : Call I V} :
    Closed h (past ++ [c]) ↔ Closed h past ∨
      (Opened h past ∧ ∃ id p, c = .method id "shutdown" p ∧ h.shutdown p = .ok ()) := by
  constructor
  · rintro ⟨a, id, p, b, he, hs, ho⟩
    rcases List.eq_nil_or_concat b with rfl | ⟨b', x, rfl⟩
    · have := List.append_inj' he rfl
      obtain ⟨rfl, h2⟩ := this
      cases h2
      exact .inr ⟨ho, id, p, rfl, hs⟩
    · rw [List.concat_eq_append, ← List.cons_append, ← List.append_assoc] at he
      obtain ⟨rfl, -⟩ := List.append_inj' he rfl
      exact .inl ⟨a, id, p, b', rfl, hs, ho⟩
  · rintro (⟨a, id, p, b, rfl, hs, ho⟩ | ⟨ho, id, p, rfl, hs⟩)
    · exact ⟨a, id, p, b ++ [c], by simp, hs, ho⟩
    · exact ⟨past, id, p, [], rfl, hs, ho⟩

/-- The status stands for the history. -/
structure Fits (h : Handlers I S V) (past : List (Call I V)) (st : Status) : Prop where
  opened : Opened h past ↔ st ≠ .starting
  closed : Closed h past ↔ st = .shuttingDown

theorem Fits.active {past : List (Call I V)} {st : Status} (f : Fits h past st) :
    Active h past ↔ st = .running := by
  unfold Active
  rw [f.opened, f.closed]
  cases st <;> decide

theorem fits_nil : Fits h ([] : List (Call I V)) .starting := by
  constructor
  · simp [Opened]
  · simp [Closed]

theorem fits_same {past : List (Call I V)} {st : Status} {c : Call I V} (f : Fits h past st)
    (h1 : (∃ id p body, c = .method id "initialize" p ∧ h.init p = .ok body) → st ≠ .starting)
    (h2 : (∃ id p, c = .method id "shutdown" p ∧ h.shutdown p = .ok ()) → st ≠ .running) :
    Fits h (past ++ [c]) st := by
  constructor
  · rw [opened_append, opened_single, f.opened]
    exact ⟨fun x => x.elim id h1, .inl⟩
  · rw [closed_snoc, f.closed, f.opened]
    constructor
    · rintro (x | ⟨x, y⟩)
      · exact x
      · have := h2 y
        cases st <;> simp_all
    · exact .inl

/-- One call. -/
theorem handleCall_does (e : Engine I S V) (past : List (Call I V)) (f : Fits h past e.status)
    (c : Call I V) (hx : ¬ c.IsExit) :
    ∃ e' o ns, handleCall h e c = .go e' o ∧ Fits h (past ++ [c]) e'.status ∧
      e'.out = e.out ++ ns.map (fun n => .notify n.1 n.2) ∧
      ((c.asks = none ∧ o = none ∧ Does h past e.state c e'.state ns none) ∨
       ∃ id r, c.asks = some id ∧ o = some ⟨id, r⟩ ∧ Does h past e.state c e'.state ns (some r)) := by
  cases c with
  | invalid id =>
    refine ⟨e, _, [], rfl, ?_, (List.append_nil _).symm, .inr ⟨id, _, rfl, rfl, .invalid id⟩⟩
    exact fits_same f (by rintro ⟨_, _, _, h, _⟩; cases h) (by rintro ⟨_, _, h, _⟩; cases h)
  | method id name p =>
    simp only [handleCall, handleMethodCall]
    by_cases h1 : name ≠ "initialize" ∧ e.status ≠ .running
    · rw [if_pos h1]
      refine ⟨e, _, [], rfl, ?_, (List.append_nil _).symm, .inr ⟨id, _, rfl, rfl,
        .outside id name p h1.1 (by rw [f.active]; exact h1.2)⟩⟩
      refine fits_same f ?_ (fun _ => h1.2)
      rintro ⟨_, _, _, h, _⟩
      injection h with _ h _
      exact absurd h h1.1
    rw [if_neg h1]
    by_cases h2 : name = "initialize"
    · subst h2
      rw [if_pos rfl]
      cases hd : h.init p with
      | error m =>
        refine ⟨e, _, [], rfl, ?_, (List.append_nil _).symm, .inr ⟨id, _, rfl, rfl, .badInit id p m hd⟩⟩
        refine fits_same f ?_ ?_
        · rintro ⟨_, _, _, h, h'⟩
          injection h with _ _ h
          subst h
          rw [hd] at h'
          cases h'
        · rintro ⟨_, _, h, _⟩
          injection h with _ h _
          simp at h
      | ok body =>
        by_cases hs : e.status ≠ .starting
        · simp only [decoded, startUp, if_pos hs]
          refine ⟨e, _, [], rfl, ?_, (List.append_nil _).symm, .inr ⟨id, _, rfl, rfl,
            .initAgain id p body hd (f.opened.2 hs)⟩⟩
          refine fits_same f (fun _ => hs) ?_
          rintro ⟨_, _, h, _⟩
          injection h with _ h _
          simp at h
        · simp only [decoded, startUp, if_neg hs, runHandler]
          have hno : ¬ Opened h past := fun ho => hs (f.opened.1 ho)
          rcases hb : body e.state with ⟨s', ns, r⟩
          refine ⟨_, _, ns, rfl, ⟨?_, ?_⟩, rfl, .inr ⟨id, r, rfl, rfl, .init id p body s' ns r hd hno hb⟩⟩
          · rw [opened_append, opened_single]
            exact ⟨fun _ => by simp, fun _ => .inr ⟨id, p, body, rfl, hd⟩⟩
          · rw [closed_snoc]
            constructor
            · rintro (x | ⟨x, -⟩)
              · exact absurd (closed_opened x) hno
              · exact absurd x hno
            · simp
    rw [if_neg h2]
    have hr : e.status = .running := Classical.byContradiction (fun hn => h1 ⟨h2, hn⟩)
    have ha : Active h past := f.active.2 hr
    have noInit : (∃ id' p' body, Call.method id name p = Call.method id' "initialize" p' ∧
        h.init p' = .ok body) → e.status ≠ .starting := fun _ => by rw [hr]; simp
    by_cases h3 : name = "shutdown"
    · subst h3
      rw [if_pos rfl]
      cases hd : h.shutdown p with
      | error m =>
        refine ⟨e, _, [], rfl, ?_, (List.append_nil _).symm, .inr ⟨id, _, rfl, rfl, .badShutdown id p m ha hd⟩⟩
        refine fits_same f noInit ?_
        rintro ⟨_, _, h, h'⟩
        injection h with _ _ h
        subst h
        rw [hd] at h'
        cases h'
      | ok u =>
        refine ⟨_, _, [], rfl, ⟨?_, ?_⟩, (List.append_nil _).symm, .inr ⟨id, _, rfl, rfl, .shutdown id p ha hd⟩⟩
        · rw [opened_append]
          exact ⟨fun _ => nofun, fun _ => .inl ha.1⟩
        · rw [closed_snoc]
          exact ⟨fun _ => rfl, fun _ => .inr ⟨ha.1, id, p, rfl, hd⟩⟩
    rw [if_neg h3]
    have same : Fits h (past ++ [Call.method id name p]) e.status := by
      refine fits_same f noInit ?_
      rintro ⟨_, _, h, _⟩
      injection h with _ h _
      exact absurd h h3
    cases hq : h.request name with
    | none =>
      exact ⟨e, _, [], rfl, same, (List.append_nil _).symm, .inr ⟨id, _, rfl, rfl,
        .unknownRequest id name p ha h2 h3 hq⟩⟩
    | some d =>
      cases hd : d p with
      | error m =>
        simp only [decoded, hd]
        exact ⟨e, _, [], rfl, same, (List.append_nil _).symm, .inr ⟨id, _, rfl, rfl,
          .badRequest id name p d m ha h2 h3 hq hd⟩⟩
      | ok g =>
        simp only [decoded, hd, runHandler]
        rcases hb : g e.state with ⟨s', ns, r⟩
        exact ⟨_, _, ns, rfl, same, rfl, .inr ⟨id, r, rfl, rfl,
          .request id name p d g s' ns r ha h2 h3 hq hd hb⟩⟩
  | notification name p =>
    have hne : name ≠ "exit" := fun hn => hx ⟨p, by rw [hn]⟩
    have same : ∀ st, Fits h past st → Fits h (past ++ [Call.notification name p]) st :=
      fun st f => fits_same f (by rintro ⟨_, _, _, h, _⟩; cases h) (by rintro ⟨_, _, h, _⟩; cases h)
    simp only [handleCall, handleNotification, if_neg hne]
    by_cases hr : e.status ≠ .running
    · rw [if_pos hr]
      exact ⟨e, _, [], rfl, same _ f, (List.append_nil _).symm, .inl ⟨rfl, rfl,
        .dropped name p hne (by rw [f.active]; exact hr)⟩⟩
    rw [if_neg hr]
    have ha : Active h past := f.active.2 (Classical.byContradiction hr)
    cases hq : h.notification name with
    | none =>
      exact ⟨e, _, [], rfl, same _ f, (List.append_nil _).symm, .inl ⟨rfl, rfl,
        .unknownNotification name p hne hq⟩⟩
    | some d =>
      cases hd : d p with
      | error m =>
        simp only [decoded, hd]
        exact ⟨_, _, [("window/showMessage", h.showError m)], rfl, same _ f, rfl, .inl ⟨rfl, rfl,
          .badNotification name p d m ha hne hq hd⟩⟩
      | ok g =>
        simp only [decoded, hd, runHandler]
        rcases hb : g e.state with ⟨s', ns, r⟩
        cases r with
        | ok u =>
          exact ⟨_, _, ns, rfl, same _ f, rfl, .inl ⟨rfl, rfl,
            .notification name p d g s' ns ha hne hq hd hb⟩⟩
        | error err =>
          exact ⟨_, _, ns ++ [("window/showMessage", h.showError err.message)], rfl, same _ f,
            by simp, .inl ⟨rfl, rfl, .failing name p d g s' ns err ha hne hq hd hb⟩⟩

/-- A list of calls. -/
theorem handleCalls_does (cs : List (Call I V)) : ∀ (e : Engine I S V) (past : List (Call I V)),
    Fits h past e.status → (∀ c ∈ cs, ¬ c.IsExit) →
    ∃ e' ns os, handleCalls h e cs = .go e' os ∧ Fits h (past ++ cs) e'.status ∧
      e'.out = e.out ++ ns.map (fun n => .notify n.1 n.2) ∧
      DoesAll h past e.state cs e'.state ns os := by
  induction cs with
  | nil =>
    intro e past f _
    exact ⟨e, [], [], rfl, by simpa using f, (List.append_nil _).symm, .nil past e.state⟩
  | cons c cs ih =>
    intro e past f hx
    obtain ⟨e1, o, ns, h1, f1, o1, h2⟩ := handleCall_does e past f c (hx c List.mem_cons_self)
    obtain ⟨e2, ns2, os, h3, f2, o2, h4⟩ :=
      ih e1 (past ++ [c]) f1 (fun c hc => hx c (List.mem_cons_of_mem _ hc))
    have f2' : Fits h (past ++ c :: cs) e2.status := by simpa using f2
    have ho : e2.out = e.out ++ (ns ++ ns2).map (fun n => .notify n.1 n.2) := by
      rw [o2, o1]; simp
    rcases h2 with ⟨ha, rfl, hd⟩ | ⟨id, r, ha, rfl, hd⟩
    · refine ⟨e2, ns ++ ns2, os, ?_, f2', ho, .silent past e.state c cs _ ns _ ns2 os hd ha h4⟩
      simp only [handleCalls, h1, h3]
      rfl
    · refine ⟨e2, ns ++ ns2, _, ?_, f2', ho, .answered past e.state c cs _ ns r id _ ns2 os hd ha h4⟩
      simp only [handleCalls, h1, h3]
      rfl

theorem reply_replies (os : List (Output I V)) : Replies os (reply os) := by
  match os with
  | [] => exact .none
  | [o] => exact .one o
  | a :: b :: os => exact .many _ (by simp)

theorem outputs_calls (e : Engine I S V) (m : Message I V) (hm : ∀ why, m ≠ .garbage why) :
    outputs h e m = handleCalls h e m.calls := by
  cases m with
  | single c => rfl
  | batch cs => rfl
  | garbage why => exact absurd rfl (hm why)

/-- A session without `exit`. -/
theorem handleAll_session (ms : List (Message I V)) : ∀ (e : Engine I S V)
    (past : List (Call I V)), Fits h past e.status → (∀ c ∈ ms.flatMap Message.calls, ¬ c.IsExit) →
    ∃ e' out, handleAll h e ms = .go e' () ∧ Fits h (past ++ ms.flatMap Message.calls) e'.status ∧
      e'.out = e.out ++ out ∧ Session h past e.state ms e'.state out := by
  induction ms with
  | nil =>
    intro e past f _
    exact ⟨e, [], rfl, by simpa using f, (List.append_nil _).symm, .nil past e.state⟩
  | cons m ms ih =>
    intro e past f hx
    have hx1 : ∀ c ∈ m.calls, ¬ c.IsExit := fun c hc => hx c (List.mem_flatMap.2 ⟨m, List.mem_cons_self, hc⟩)
    have hx2 : ∀ c ∈ ms.flatMap Message.calls, ¬ c.IsExit := fun c hc => by
      obtain ⟨m', hm', hc⟩ := List.mem_flatMap.1 hc
      exact hx c (List.mem_flatMap.2 ⟨m', List.mem_cons_of_mem _ hm', hc⟩)
    by_cases hm : ∃ why, m = .garbage why
    · obtain ⟨why, rfl⟩ := hm
      obtain ⟨e', out, h1, f1, o1, s1⟩ :=
        ih { e with out := e.out ++ [.single ⟨h.null, .error ⟨-32700, why⟩⟩] } past f hx2
      refine ⟨e', _, ?_, f1, ?_, .garbage past e.state why ms _ out s1⟩
      · exact h1
      · rw [o1]; simp
    · have hm' : ∀ why, m ≠ .garbage why := fun why hw => hm ⟨why, hw⟩
      obtain ⟨e1, ns, os, h1, f1, o1, d1⟩ := handleCalls_does m.calls e past f hx1
      obtain ⟨e', out, h2, f2, o2, s2⟩ := ih { e1 with out := e1.out ++ reply os } (past ++ m.calls) f1 hx2
      refine ⟨e', _, ?_, ?_, ?_, .calls past e.state m ms _ ns os (reply os) _ out hm' d1
        (reply_replies os) s2⟩
      · simp only [handleAll, handleInput, outputs_calls e m hm', h1]
        exact h2
      · simpa [List.append_assoc] using f2
      · rw [o2, o1]; simp

/-! ### The main theorems -/

/-- **C87**: without `exit`, the server does exactly what the history asks for, and ends with the
code 0 when its input ends. -/
theorem main_session (s : S) (ms : List (Message I V))
    (hx : ∀ c ∈ ms.flatMap Message.calls, ¬ c.IsExit) :
    (main h s ms).2 = 0 ∧ Session h [] s ms (main h s ms).1.state (main h s ms).1.out := by
  obtain ⟨e', out, h1, -, ho, hs⟩ := handleAll_session (h := h) ms ⟨.starting, s, []⟩ [] fits_nil hx
  have hm : main h s ms = (e', 0) := by simp only [main, h1]
  rw [hm]
  refine ⟨rfl, ?_⟩
  rw [List.nil_append] at ho
  rw [ho]
  exact hs

theorem handleCalls_exit (cs rest : List (Call I V)) (p : V) : ∀ (e : Engine I S V)
    (past : List (Call I V)), Fits h past e.status → (∀ c ∈ cs, ¬ c.IsExit) →
    ∃ e' ns os st, handleCalls h e (cs ++ .notification "exit" p :: rest) =
        .exited e' (if st = .shuttingDown then 0 else 1) ∧ Fits h (past ++ cs) st ∧
      e'.out = e.out ++ ns.map (fun n => .notify n.1 n.2) ∧
      DoesAll h past e.state cs e'.state ns os := by
  induction cs with
  | nil =>
    intro e past f _
    exact ⟨e, [], [], e.status, rfl, by simpa using f, (List.append_nil _).symm, .nil past e.state⟩
  | cons c cs ih =>
    intro e past f hx
    obtain ⟨e1, o, ns, h1, f1, o1, h2⟩ := handleCall_does e past f c (hx c List.mem_cons_self)
    obtain ⟨e2, ns2, os, st, h3, f2, o2, h4⟩ :=
      ih e1 (past ++ [c]) f1 (fun c hc => hx c (List.mem_cons_of_mem _ hc))
    have f2' : Fits h (past ++ c :: cs) st := by simpa using f2
    have ho : e2.out = e.out ++ (ns ++ ns2).map (fun n => .notify n.1 n.2) := by
      rw [o2, o1]; simp
    rcases h2 with ⟨ha, rfl, hd⟩ | ⟨id, r, ha, rfl, hd⟩
    · refine ⟨e2, ns ++ ns2, os, st, ?_, f2', ho, .silent past e.state c cs _ ns _ ns2 os hd ha h4⟩
      simp only [List.cons_append, handleCalls, h1, h3]
    · refine ⟨e2, ns ++ ns2, _, st, ?_, f2', ho, .answered past e.state c cs _ ns r id _ ns2 os hd ha h4⟩
      simp only [List.cons_append, handleCalls, h1, h3]

theorem handleAll_append (a b : List (Message I V)) : ∀ (e e' : Engine I S V),
    handleAll h e a = .go e' () → handleAll h e (a ++ b) = handleAll h e' b := by
  induction a with
  | nil => intro e e' h1; cases h1; rfl
  | cons m a ih =>
    intro e e' h1
    simp only [List.cons_append, handleAll] at h1 ⊢
    split at h1
    · cases h1
    · exact ih _ _ h1

/-- **C87**: at the first `exit` the process ends: with the code 0 if there was an `initialize` and
then a `shutdown` before, else with 1.  All messages before have been answered; the calls before it
in the same message have been carried out, but of their answers none is written. -/
theorem main_exit (s : S) (before : List (Message I V)) (m : Message I V)
    (after : List (Message I V)) (cs rest : List (Call I V)) (p : V)
    (hm : m.calls = cs ++ .notification "exit" p :: rest)
    (hx : ∀ c ∈ before.flatMap Message.calls ++ cs, ¬ c.IsExit) :
    ((main h s (before ++ m :: after)).2 = 0 ∧ Closed h (before.flatMap Message.calls ++ cs) ∨
      (main h s (before ++ m :: after)).2 = 1 ∧ ¬ Closed h (before.flatMap Message.calls ++ cs)) ∧
    ∃ s' out ns os, Session h [] s before s' out ∧
      DoesAll h (before.flatMap Message.calls) s' cs (main h s (before ++ m :: after)).1.state ns os ∧
      (main h s (before ++ m :: after)).1.out = out ++ ns.map (fun n => .notify n.1 n.2) := by
  obtain ⟨e1, out, h1, f1, ho, hs⟩ := handleAll_session (h := h) before ⟨.starting, s, []⟩ []
    fits_nil (fun c hc => hx c (List.mem_append_left _ hc))
  rw [List.nil_append] at f1
  obtain ⟨e2, ns, os, st, h2, f2, o2, d2⟩ := handleCalls_exit cs rest p e1 _ f1
    (fun c hc => hx c (List.mem_append_right _ hc))
  have hg : ∀ why, m ≠ .garbage why := by
    rintro why rfl
    have := congrArg List.length hm
    simp [Message.calls] at this
  have hmain : main h s (before ++ m :: after) = (e2, if st = .shuttingDown then 0 else 1) := by
    simp only [main, handleAll_append before _ _ _ h1, handleAll, handleInput, outputs_calls e1 m hg,
      hm, h2]
  rw [hmain]
  refine ⟨?_, e1.state, out, ns, os, hs, d2, ?_⟩
  · rw [f2.closed]
    by_cases hst : st = .shuttingDown
    · exact .inl ⟨if_pos hst, hst⟩
    · exact .inr ⟨if_neg hst, hst⟩
  · rw [o2, ho]
    rfl

/-! ### What follows -/

theorem doesAll_ids {past : List (Call I V)} {s s' : S} {cs : List (Call I V)}
    {ns : List (String × V)} {os : List (Output I V)} (hd : DoesAll h past s cs s' ns os) :
    os.map Output.id = cs.filterMap Call.asks := by
  induction hd with
  | nil => rfl
  | silent past s c cs s' ns s'' ns' os _ ha _ ih => rw [List.filterMap_cons_none ha, ih]
  | answered past s c cs s' ns r id s'' ns' os _ ha _ ih =>
    rw [List.filterMap_cons_some ha, List.map_cons, ih]

theorem replies_answers {os : List (Output I V)} {ws : List (Written I V)} (hr : Replies os ws) :
    ws.flatMap Written.answers = os.map Output.id := by
  cases hr with
  | none => rfl
  | one o => rfl
  | many os _ => simp [Written.answers]

theorem notify_answers (ns : List (String × V)) :
    (ns.map (fun n => (Written.notify n.1 n.2 : Written I V))).flatMap Written.answers = [] := by
  induction ns with
  | nil => rfl
  | cons n ns ih => simpa [Written.answers] using ih

theorem session_answers {past : List (Call I V)} {s s' : S} {ms : List (Message I V)}
    {out : List (Written I V)} (hs : Session h past s ms s' out) :
    out.flatMap Written.answers = ms.flatMap (Message.asks h.null) := by
  induction hs with
  | nil => rfl
  | calls past s m ms s' ns os ws s'' out hm hd hr _ ih =>
    have : m.asks h.null = m.calls.filterMap Call.asks := by
      cases m with
      | single c => rfl
      | batch cs => rfl
      | garbage why => exact absurd rfl (hm why)
    rw [List.flatMap_append, List.flatMap_append, notify_answers, replies_answers hr, ih,
      doesAll_ids hd, List.flatMap_cons, this]
    rfl
  | garbage past s why ms s' out _ ih =>
    rw [List.flatMap_cons, ih, List.flatMap_cons]
    rfl

/-- **C87**: without `exit`, every request is answered exactly once, under its own id and in the
order of the requests; notifications are not answered. -/
theorem answered_once (s : S) (ms : List (Message I V))
    (hx : ∀ c ∈ ms.flatMap Message.calls, ¬ c.IsExit) :
    (main h s ms).1.out.flatMap Written.answers = ms.flatMap (Message.asks h.null) :=
  session_answers (main_session s ms hx).2

/-- **C87**: every message is answered by at most one thing written: one per message that asks for
something, none for the others. -/
theorem session_count {past : List (Call I V)} {s s' : S} {ms : List (Message I V)}
    {out : List (Written I V)} (hs : Session h past s ms s' out) :
    (out.filter (fun w => match w with | .notify _ _ => false | _ => true)).length =
      (ms.filter (fun m => !(m.asks h.null).isEmpty)).length := by
  induction hs with
  | nil => rfl
  | calls past s m ms s' ns os ws s'' out hm hd hr _ ih =>
    have ha : m.asks h.null = os.map Output.id := by
      rw [doesAll_ids hd]
      cases m with
      | single c => rfl
      | batch cs => rfl
      | garbage why => exact absurd rfl (hm why)
    have hn : (ns.map (fun n => (Written.notify n.1 n.2 : Written I V))).filter
        (fun w => match w with | .notify _ _ => false | _ => true) = [] := by
      rw [List.filter_eq_nil_iff]
      intro w hw
      obtain ⟨n, -, rfl⟩ := List.mem_map.1 hw
      simp
    rw [List.filter_append, List.filter_append, hn, List.nil_append, List.length_append, ih,
      List.filter_cons, ha]
    cases hr with
    | none => simp
    | one o => simp; omega
    | many os hl =>
      have : os ≠ [] := by rintro rfl; simp at hl
      simp [this]; omega
  | garbage past s why ms s' out _ ih =>
    rw [List.filter_cons_of_pos (by rfl), List.filter_cons_of_pos (by rfl), List.length_cons, ih,
      List.length_cons]

theorem does_idle {past : List (Call I V)} {s s' : S} {c : Call I V} {ns : List (String × V)}
    {r : Option (Except Err V)} (hd : Does h past s c s' ns r) (ha : ¬ Active h past)
    (hc : ¬ Opened h past → ¬ Opened h [c]) :
    s' = s ∧ ns = [] ∧ ∀ x, r = some x → ∃ err, x = .error err := by
  cases hd with
  | invalid => exact ⟨rfl, rfl, fun x hx => ⟨_, (Option.some.inj hx).symm⟩⟩
  | outside => exact ⟨rfl, rfl, fun x hx => ⟨_, (Option.some.inj hx).symm⟩⟩
  | badInit => exact ⟨rfl, rfl, fun x hx => ⟨_, (Option.some.inj hx).symm⟩⟩
  | initAgain => exact ⟨rfl, rfl, fun x hx => ⟨_, (Option.some.inj hx).symm⟩⟩
  | init id p body s' ns r hi hno _ => exact absurd (opened_single.2 ⟨id, p, body, rfl, hi⟩) (hc hno)
  | badShutdown _ _ _ h => exact absurd h ha
  | shutdown _ _ h => exact absurd h ha
  | request _ _ _ _ _ _ _ _ h => exact absurd h ha
  | badRequest _ _ _ _ _ h => exact absurd h ha
  | unknownRequest _ _ _ h => exact absurd h ha
  | dropped => exact ⟨rfl, rfl, fun x hx => by cases hx⟩
  | unknownNotification => exact ⟨rfl, rfl, fun x hx => by cases hx⟩
  | notification _ _ _ _ _ _ h => exact absurd h ha
  | failing _ _ _ _ _ _ _ h => exact absurd h ha
  | badNotification _ _ _ _ h => exact absurd h ha

/-- Nothing happens in this list of calls. -/
theorem doesAll_idle {past : List (Call I V)} {s s' : S} {cs : List (Call I V)}
    {ns : List (String × V)} {os : List (Output I V)} (hd : DoesAll h past s cs s' ns os)
    (hp : Closed h past ∨ ¬ Opened h (past ++ cs)) :
    s' = s ∧ ns = [] ∧ ∀ o ∈ os, ∃ err, o.result = .error err := by
  have step : ∀ (past : List (Call I V)) (c : Call I V) (cs : List (Call I V)),
      (Closed h past ∨ ¬ Opened h (past ++ c :: cs)) →
      ¬ Active h past ∧ (¬ Opened h past → ¬ Opened h [c]) ∧
        (Closed h (past ++ [c]) ∨ ¬ Opened h (past ++ [c] ++ cs)) := by
    intro past c cs hp
    rcases hp with hp | hp
    · exact ⟨fun ha => ha.2 hp, fun hn => absurd (closed_opened hp) hn, .inl (closed_snoc.2 (.inl hp))⟩
    · refine ⟨fun ha => hp (opened_append.2 (.inl ha.1)), fun _ ho => hp ?_, .inr (by simpa using hp)⟩
      have : past ++ c :: cs = past ++ ([c] ++ cs) := rfl
      rw [this]
      exact opened_append.2 (.inr (opened_append.2 (.inl ho)))
  induction hd with
  | nil => exact ⟨rfl, rfl, by simp⟩
  | silent past s c cs s' ns s'' ns' os hd _ _ ih =>
    obtain ⟨ha, hc, hn⟩ := step past c cs hp
    obtain ⟨rfl, rfl, -⟩ := does_idle hd ha hc
    exact ih hn
  | answered past s c cs s' ns r id s'' ns' os hd _ _ ih =>
    obtain ⟨ha, hc, hn⟩ := step past c cs hp
    obtain ⟨rfl, rfl, hr⟩ := does_idle hd ha hc
    obtain ⟨h1, h2, h3⟩ := ih hn
    refine ⟨h1, h2, ?_⟩
    intro o ho
    rcases List.mem_cons.1 ho with rfl | ho
    · exact hr _ rfl
    · exact h3 o ho

/-- **C87**: before a well-formed `initialize` and after a `shutdown`, nothing changes the state of the
server, no notification is written, and every request is answered with an error. -/
theorem session_idle {past : List (Call I V)} {s s' : S} {ms : List (Message I V)}
    {out : List (Written I V)} (hs : Session h past s ms s' out)
    (hp : Closed h past ∨ ¬ Opened h (past ++ ms.flatMap Message.calls)) :
    s' = s ∧ ∀ w ∈ out, match w with
      | .notify _ _ => False
      | .single o => ∃ err, o.result = .error err
      | .batch os => ∀ o ∈ os, ∃ err, o.result = .error err := by
  induction hs with
  | nil => exact ⟨rfl, by simp⟩
  | calls past s m ms s' ns os ws s'' out hm hd hr _ ih =>
    have h1 : Closed h past ∨ ¬ Opened h (past ++ m.calls) := by
      rcases hp with hp | hp
      · exact .inl hp
      · refine .inr (fun ho => hp ?_)
        rw [List.flatMap_cons, ← List.append_assoc]
        exact opened_append.2 (.inl ho)
    obtain ⟨rfl, rfl, he⟩ := doesAll_idle hd h1
    have h2 : Closed h (past ++ m.calls) ∨ ¬ Opened h (past ++ m.calls ++ ms.flatMap Message.calls) := by
      rcases hp with ⟨a, id, p, b, rfl, hb, ho⟩ | hp
      · exact .inl ⟨a, id, p, b ++ m.calls, by simp, hb, ho⟩
      · exact .inr (by simpa [List.append_assoc] using hp)
    obtain ⟨h3, h4⟩ := ih h2
    refine ⟨h3, ?_⟩
    intro w hw
    rw [List.map_nil, List.nil_append] at hw
    rcases List.mem_append.1 hw with hw | hw
    · cases hr with
      | none => cases hw
      | one o => rw [List.mem_singleton.1 hw]; exact he o List.mem_cons_self
      | many os _ => rw [List.mem_singleton.1 hw]; exact he
    · exact h4 w hw
  | garbage past s why ms s' out _ ih =>
    obtain ⟨h3, h4⟩ := ih hp
    refine ⟨h3, ?_⟩
    intro w hw
    rcases List.mem_cons.1 hw with rfl | hw
    · exact ⟨_, rfl⟩
    · exact h4 w hw

/-- What a call does is determined by the history. -/
theorem does_unique {past : List (Call I V)} {s : S} {c : Call I V} {s1 s2 : S}
    {n1 n2 : List (String × V)} {r1 r2 : Option (Except Err V)}
    (h1 : Does h past s c s1 n1 r1) (h2 : Does h past s c s2 n2 r2) :
    s1 = s2 ∧ n1 = n2 ∧ r1 = r2 := by
  have key : ∀ c', Does h past s c' s2 n2 r2 → c = c' → s1 = s2 ∧ n1 = n2 ∧ r1 = r2 := by
    intro c' h3
    clear h2
    cases h1 <;> cases h3 <;> intro hc <;> simp_all
  exact key c h2 rfl

end Verif.Server
