import Verif.Server.SessionProps

/-!
# C107: the table of references, and cases for C106 and C107
-/

namespace Verif.Session

open Verif.Langserver

variable {U D T : Type} [DecidableEq U]

/-- the job of the last parse -/
def Tables.latest (s : Tables T) : Option (Job T) := s.jobs.getLast?

structure Inv (s : Tables T) : Prop where
  rx : ∀ j, s.bg.rx = some j → j + 1 = s.jobs.length
  idle : s.bg.rx = none → s.latest = none ∨ s.latest = some .dead ∨ ∃ v, s.latest = some (.sent v) ∧ s.bg.value = some v

theorem latest_get {s : Tables T} {j : Nat} (h : j + 1 = s.jobs.length) : s.jobs[j]? = s.latest := by
  unfold Tables.latest
  rw [List.getLast?_eq_getElem?]
  congr 1
  omega

theorem set_last {l : List (Job T)} {j : Nat} {r x : Job T} (h : l.getLast? = some x) (hx : x ≠ .running)
    (hj : l[j]? = some .running) : (l.set j r).getLast? = some x := by
  rw [List.getLast?_eq_getElem?] at h ⊢
  rw [List.length_set, List.getElem?_set]
  split
  · rename_i he
    rw [he] at hj
    rw [hj] at h
    cases h
    exact absurd rfl hx
  · exact h

theorem inv_step {s : Tables T} (h : Inv s) (e : Event T) : Inv (s.step e) := by
  have hfin : ∀ j r, Inv (s.finish j r) := by
    intro j r
    unfold Tables.finish
    split
    · rename_i hj
      refine ⟨fun k hk => by simpa using h.rx k hk, fun hn => ?_⟩
      rcases h.idle hn with h0 | h0 | ⟨v, h0, hv⟩
      · have : s.jobs = [] := by simpa [Tables.latest] using h0
        rw [this] at hj; cases hj
      · exact .inr (.inl (set_last h0 (by intro h; cases h) hj))
      · exact .inr (.inr ⟨v, set_last h0 (by intro h; cases h) hj, hv⟩)
    · exact h
  cases e with
  | spawn => exact ⟨fun j hj => by cases hj; simp [Tables.step], fun hn => by cases hn⟩
  | done j v => exact hfin j _
  | die j => exact hfin j _
  | poll =>
    show Inv s.poll
    unfold Tables.poll
    split
    · exact h
    · rename_i j hj
      have hl := latest_get (h.rx j hj)
      split
      · rename_i v hv
        exact ⟨(fun _ hk => by cases hk), fun _ => .inr (.inr ⟨v, by rw [← hv]; exact hl.symm, rfl⟩)⟩
      · exact ⟨fun k hk => by cases hk; exact h.rx _ hj, fun hk => by cases hk⟩
      · rename_i hv
        exact ⟨(fun _ hk => by cases hk), fun _ => .inr (.inl (by rw [← hv]; exact hl.symm))⟩
      · rename_i hv
        exact ⟨(fun _ hk => by cases hk), fun _ => .inl (by rw [← hv]; exact hl.symm)⟩

theorem inv_run (es : List (Event T)) : Inv (Tables.new.run es : Tables T) := by
  have : ∀ s : Tables T, Inv s → Inv (s.run es) := by
    induction es with
    | nil => exact fun s h => h
    | cons e es ih => exact fun s h => ih _ (inv_step h e)
  exact this _ ⟨(fun _ h => by cases h), fun _ => .inl rfl⟩

/-- **C107** After any history, a request for references uses the table of the last parse as soon as that is ready; while it is
being made, and if its thread has panicked, it uses the table used before. -/
theorem poll_latest (es : List (Event T)) :
    let s := Tables.new.run es
    (∀ v, s.latest = some (.sent v) → s.poll.bg.value = some v ∧ s.poll.isBusy = false) ∧
    (s.latest = some .running → s.poll.bg.value = s.bg.value ∧ s.poll.isBusy = true) ∧
    (s.latest = some .dead → s.poll.bg.value = s.bg.value ∧ s.poll.isBusy = false) ∧
    (s.latest = none → s.poll.bg.value = none ∧ s.poll.isBusy = false) ∧
    s.poll.jobs = s.jobs := by
  intro s
  have h : Inv s := inv_run es
  unfold Tables.poll Tables.isBusy
  cases hr : s.bg.rx with
  | none =>
    simp only [hr, Option.isSome_none]
    refine ⟨?_, ?_, fun _ => ⟨trivial, trivial⟩, ?_, trivial⟩
    · intro v hv
      rcases h.idle hr with h0 | h0 | ⟨w, h0, hw⟩
      · rw [h0] at hv; cases hv
      · rw [h0] at hv; cases hv
      · rw [h0] at hv; cases hv; exact ⟨hw, trivial⟩
    · intro hv
      rcases h.idle hr with h0 | h0 | ⟨w, h0, hw⟩ <;> · rw [h0] at hv; cases hv
    · intro hv
      refine ⟨?_, trivial⟩
      -- no job was ever started
      have key : ∀ es : List (Event T), (Tables.new.run es : Tables T).jobs = [] → (Tables.new.run es : Tables T).bg = ⟨none, none⟩ := by
        intro es
        induction es using List.reverseRecOn with
        | nil => exact fun _ => rfl
        | append_singleton es e ih =>
          intro hj
          unfold Tables.run at hj ih ⊢
          rw [List.foldl_append] at hj ⊢
          simp only [List.foldl_cons, List.foldl_nil] at hj ⊢
          generalize hq : List.foldl Tables.step Tables.new es = q at hj ih ⊢
          cases e with
          | spawn => simp [Tables.step] at hj
          | done j v =>
            simp only [Tables.step, Tables.finish] at hj ⊢
            split at hj
            · simp at hj; rename_i hx; rw [hj] at hx; cases hx
            · exact ih hj
          | die j =>
            simp only [Tables.step, Tables.finish] at hj ⊢
            split at hj
            · simp at hj; rename_i hx; rw [hj] at hx; cases hx
            · exact ih hj
          | poll =>
            have hj' : q.jobs = [] := by
              simp only [Tables.step, Tables.poll] at hj
              split at hj
              · exact hj
              · split at hj <;> exact hj
            have := ih hj'
            simp only [Tables.step, Tables.poll, this]
      have hj : s.jobs = [] := by simpa [Tables.latest] using hv
      have := key es hj
      rw [show s.bg = _ from this]
  | some j =>
    simp only
    rw [latest_get (h.rx j hr)]
    cases hl : s.latest with
    | none =>
      have : s.jobs = [] := by simpa [Tables.latest] using hl
      have h2 := h.rx j hr
      rw [this] at h2
      cases h2
    | some x => cases x <;> simp

/-- **C107** The table in use was made for a parse that was the last one when the table was taken into use, and since then no request
has found the table of a later parse ready. -/
theorem table_from (es : List (Event T)) {v : T} (h : (Tables.new.run es : Tables T).bg.value = some v) :
    ∃ a b, es = a ++ .poll :: b ∧ (Tables.new.run a).latest = some (.sent v) ∧
      ∀ x y, b = x ++ .poll :: y → (Tables.new.run (a ++ .poll :: x)).isBusy = true →
        ∀ w, (Tables.new.run (a ++ .poll :: x)).latest ≠ some (.sent w) := by
  induction es using List.reverseRecOn generalizing v with
  | nil => cases h
  | append_singleton es e ih =>
    have hstep : (Tables.new.run (es ++ [e]) : Tables T) = (Tables.new.run es).step e := by
      unfold Tables.run; rw [List.foldl_append]; rfl
    rw [hstep] at h
    have keep : (Tables.new.run es : Tables T).bg.value = some v →
        (∀ w, e = .poll → (Tables.new.run es : Tables T).isBusy = true → (Tables.new.run es : Tables T).latest ≠ some (.sent w)) →
        ∃ a b, es ++ [e] = a ++ .poll :: b ∧ (Tables.new.run a).latest = some (.sent v) ∧
          ∀ x y, b = x ++ .poll :: y → (Tables.new.run (a ++ .poll :: x)).isBusy = true →
            ∀ w, (Tables.new.run (a ++ .poll :: x)).latest ≠ some (.sent w) := by
      intro h0 hp
      obtain ⟨a, b, i1, i2, i3⟩ := ih h0
      refine ⟨a, b ++ [e], by rw [i1]; simp, i2, ?_⟩
      intro x y hb hbusy w
      rcases List.eq_nil_or_concat y with rfl | ⟨y', z, rfl⟩
      · obtain ⟨rfl, hz⟩ := List.append_inj' (show b ++ [e] = x ++ [.poll] from hb) rfl
        injection hz with hz _
        rw [← i1] at hbusy ⊢
        exact hp w hz hbusy
      · obtain ⟨rfl, _⟩ := List.append_inj' (show b ++ [e] = (x ++ .poll :: y') ++ [z] by rw [hb]; simp) rfl
        exact i3 x y' rfl hbusy w
    cases e with
    | spawn => exact keep h fun w he => by cases he
    | done j x =>
      refine keep ?_ fun w he => by cases he
      simp only [Tables.step, Tables.finish] at h
      split at h <;> exact h
    | die j =>
      refine keep ?_ fun w he => by cases he
      simp only [Tables.step, Tables.finish] at h
      split at h <;> exact h
    | poll =>
      have h : (Tables.new.run es : Tables T).poll.bg.value = some v := h
      obtain ⟨p1, p2, p3, p4, _⟩ := poll_latest es
      cases hl : (Tables.new.run es : Tables T).latest with
      | none =>
        rw [(p4 hl).1] at h; cases h
      | some x =>
        cases x with
        | sent w =>
          rw [(p1 w hl).1] at h
          cases h
          exact ⟨es, [], rfl, hl, fun x y hb => by simp at hb⟩
        | running =>
          rw [(p2 hl).1] at h
          exact keep h fun w _ _ => by rw [hl]; intro hx; cases hx
        | dead =>
          rw [(p3 hl).1] at h
          exact keep h fun w _ _ => by rw [hl]; intro hx; cases hx

/-- **C107** It is busy exactly from the start of a job until a request finds that it has ended, and starting another does not wait
for it. -/
theorem busy_latest (es : List (Event T)) :
    ((Tables.new.run es : Tables T).isBusy = true → (Tables.new.run es : Tables T).jobs ≠ []) ∧
    ((Tables.new.run es : Tables T).latest = some .running → (Tables.new.run es : Tables T).isBusy = true) ∧
    ((Tables.new.run (es ++ [.spawn]) : Tables T).isBusy = true ∧
      (Tables.new.run (es ++ [.spawn]) : Tables T).latest = some .running ∧
      (Tables.new.run (es ++ [.spawn]) : Tables T).bg.value = (Tables.new.run es : Tables T).bg.value) := by
  have h := inv_run es
  refine ⟨?_, ?_, ?_⟩
  · intro hb
    obtain ⟨j, hj⟩ := Option.isSome_iff_exists.1 hb
    have := h.rx j hj
    intro hn
    rw [hn] at this
    cases this
  · intro hl
    cases hr : (Tables.new.run es : Tables T).bg.rx with
    | some j => unfold Tables.isBusy; rw [hr]; rfl
    | none => rcases h.idle hr with h0 | h0 | ⟨w, h0, hw⟩ <;> · rw [h0] at hl; cases hl
  · have hstep : (Tables.new.run (es ++ [.spawn]) : Tables T) = (Tables.new.run es).step .spawn := by
      unfold Tables.run; rw [List.foldl_append]; rfl
    rw [hstep]
    refine ⟨rfl, ?_, rfl⟩
    simp [Tables.step, Tables.latest]

/-! ## Cases -/

namespace Case

abbrev E := Engine Nat Nat

/-- an orderly session: opened, asked, changed, parsed again, asked -/
def good : List (Msg Nat Nat) :=
  [.parse (some 7), .opened 1 0 "ab".toList, .ask 1 none, .changed 1 1 [⟨none, "cd".toList⟩], .ask 1 none]

def start : E := Engine.new true

example : (start.run good).map (fun e => (e.getAnnotations 1 none).2) = some (some (.within 7 "cd".toList)) := by decide +kernel

theorem always_cons {e : E} {m : Msg Nat Nat} {ms : List (Msg Nat Nat)} {R : E → Msg Nat Nat → Prop} (h0 : R e m)
    (h : ∀ e' ok, e.step m = some (e', ok) → Always e' ms R) : Always e (m :: ms) R := by
  intro a x b e' he hr
  cases a with
  | nil => cases hr; cases he; exact h0
  | cons y a =>
    simp only [List.cons_append, List.cons.injEq] at he
    obtain ⟨rfl, rfl⟩ := he
    simp only [Engine.run, Option.bind_eq_some_iff] at hr
    obtain ⟨⟨e1, ok⟩, h1, h2⟩ := hr
    exact h e1 ok h1 a x b e' rfl h2

/-- the hypotheses of `answer_current` can be met -/
theorem good_orderly : Orderly start good 1 := by
  refine always_cons ⟨fun h => h.elim, fun h => h.elim⟩ fun e1 o1 h1 => ?_
  cases h1
  refine always_cons ⟨fun _ => ⟨_, rfl⟩, fun h => h.elim⟩ fun e1 o1 h1 => ?_
  cases h1
  refine always_cons ⟨fun h => h.elim, fun _ => rfl⟩ fun e1 o1 h1 => ?_
  cases h1
  refine always_cons ⟨fun _ => ⟨_, rfl⟩, fun h => h.elim⟩ fun e1 o1 h1 => ?_
  cases h1
  refine always_cons ⟨fun h => h.elim, fun _ => rfl⟩ fun e1 o1 h1 => ?_
  cases h1
  intro a x b e' he
  cases a <;> cases he

/-- **C106** (disagreement) A list of changes of which one is bad changes the text but keeps the old annotations. -/
theorem bad_change_stale :
    (start.run [.parse (some 7), .opened 1 0 "ab".toList, .ask 1 none,
      .changed 1 1 [⟨none, "cd".toList⟩, ⟨some (⟨9, 0⟩, ⟨9, 0⟩), []⟩]]).map
        (fun e => ((e.docs 1).map Document.text, (e.getAnnotations 1 none).2)) =
      some (some "cd".toList, some (.within 7 "ab".toList)) := by decide +kernel

/-- **C106** (disagreement) Opening a document that was asked about before it was opened keeps the annotations of what was on the
disk. -/
theorem opened_late_stale :
    (start.run [.parse (some 7), .ask 1 (some "disk".toList), .opened 1 0 "unsaved".toList]).map
        (fun e => ((e.docs 1).map Document.text, (e.getAnnotations 1 none).2)) =
      some (some "unsaved".toList, some (.within 7 "disk".toList)) := by decide +kernel

/-- **C106** (disagreement) Parsing the environment again keeps the annotations made with the macros of the last time. -/
theorem reparse_stale :
    (start.run [.parse (some 7), .opened 1 0 "ab".toList, .ask 1 none, .parse (some 8)]).map
        (fun e => (e.defines, (e.getAnnotations 1 none).2)) =
      some (some 8, some (.within 7 "ab".toList)) := by decide +kernel

/-- **C107** (disagreement) After parsing again, a request may be answered from the table of the environment before: symbols are
looked up by their number in the new one. -/
theorem references_stale :
    let s := (Tables.new.run [.spawn, .done 0 "old", .poll, .spawn, .poll] : Tables String)
    s.bg.value = some "old" ∧ s.latest = some .running := by decide +kernel

-- a result that comes too late is not used
example : (Tables.new.run [.spawn, .spawn, .done 1 "new", .poll, .done 0 "old", .poll] : Tables String).bg =
    ⟨some "new", none⟩ := by decide +kernel
example : (Tables.new.run [.spawn, .done 0 "a", .spawn, .poll] : Tables String).bg = ⟨none, some 1⟩ := by decide +kernel

end Case

end Verif.Session
