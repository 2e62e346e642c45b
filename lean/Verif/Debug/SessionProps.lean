import Verif.Debug.Session

/-!
# C94: requests, sequence numbers and the life of the game
-/

namespace Verif.Debug

/-! ## Specification of the life of a game -/

/-- the game that an observation is about -/
def Obs.about : Obs → Nat
  | .ended i _ => i
  | .terminated i => i
  | .exited i _ => i
  | .signal i => i
  | .disconnect i _ => i

/-- what was observed about game `i`, except the end of its process -/
def Life.story (w : Life) (i : Nat) : List Obs :=
  w.log.filter fun o => o.about = i && (match o with | .ended .. => false | _ => true)

/-- the complete stories of a game that ended with `code`: nobody disconnected before the end (a disconnect
afterwards does nothing), it was killed, it was detached -/
inductive Complete (i : Nat) (code : Int) : List Obs → Prop where
  | own : Complete i code [.terminated i, .exited i code]
  | late (b : Bool) : Complete i code [.terminated i, .exited i code, .disconnect i b]
  | killed : Complete i code [.disconnect i true, .signal i, .exited i code]
  | detached : Complete i code [.disconnect i false, .exited i code]

/-- the stories that are not over -/
inductive Unfinished (i : Nat) : List Obs → Prop where
  | none : Unfinished i []
  | killed : Unfinished i [.disconnect i true, .signal i]
  | detached : Unfinished i [.disconnect i false]
  | terminated : Unfinished i [.terminated i]

/-! ## Invariant -/

/-- state, phase and story of a game -/
def Tale (i : Nat) (c : Child) (o : List Obs) : Prop :=
  match c.phase with
  | .told _ => c.st = .exited ∧
      (o = [.terminated i] ∨ o = [.disconnect i true, .signal i] ∨ o = [.disconnect i false])
  | .done code => c.st = .exited ∧ Complete i code o
  | _ => (c.st = .active ∧ o = []) ∨ (c.st = .killed ∧ o = [.disconnect i true, .signal i]) ∨
      (c.st = .detached ∧ o = [.disconnect i false])

/-- the code of a process that has ended -/
def Phase.code : Phase → Option Int
  | .running => none
  | .ended c => some c
  | .reaped c => some c
  | .locked c => some c
  | .told c => some c
  | .done c => some c

/-- the invariant -/
structure LifeInv (w : Life) : Prop where
  tale : ∀ (i : Nat) (c : Child), w.children[i]? = some c → Tale i c (w.story i)
  fresh : ∀ o ∈ w.log, o.about < w.children.length
  held : ∀ i, w.held = some i → i < w.children.length ∧ ∀ b, Obs.disconnect i b ∉ w.log
  ended : ∀ (i : Nat) (code : Int), Obs.ended i code ∈ w.log ↔
    ∃ c, w.children[i]? = some c ∧ c.phase.code = some code
  after : ∀ (i : Nat) (pre post : List Obs) (o : Obs), w.log = pre ++ o :: post → o.about = i →
    ((∃ code, o = .exited i code) ∨ o = .terminated i) →
      ∃ code, Obs.ended i code ∈ pre ∧ ∀ code', o = .exited i code' → code' = code

theorem after_append {log new : List Obs} (h : ∀ (i : Nat) (pre post : List Obs) (o : Obs),
      log = pre ++ o :: post → o.about = i → ((∃ code, o = .exited i code) ∨ o = .terminated i) →
      ∃ code, Obs.ended i code ∈ pre ∧ ∀ code', o = .exited i code' → code' = code)
    (hn : ∀ o ∈ new, ((∃ code, o = .exited o.about code) ∨ o = .terminated o.about) →
      ∃ code, Obs.ended o.about code ∈ log ∧ ∀ code', o = .exited o.about code' → code' = code) :
    ∀ (i : Nat) (pre post : List Obs) (o : Obs),
      log ++ new = pre ++ o :: post → o.about = i → ((∃ code, o = .exited i code) ∨ o = .terminated i) →
      ∃ code, Obs.ended i code ∈ pre ∧ ∀ code', o = .exited i code' → code' = code := by
  intro i pre post o he hi hk
  subst hi
  rcases List.append_eq_append_iff.1 he with ⟨a, h1, h2⟩ | ⟨a, h1, h2⟩
  · obtain ⟨code, hm, hc⟩ := hn o (by rw [h2]; simp) hk
    exact ⟨code, by rw [h1]; simp [hm], hc⟩
  · cases a with
    | nil =>
      simp only [List.nil_append] at h2
      obtain ⟨code, hm, hc⟩ := hn o (by rw [← h2]; simp) hk
      exact ⟨code, by rw [List.append_nil] at h1; rw [← h1]; exact hm, hc⟩
    | cons x xs =>
      simp only [List.cons_append, List.cons.injEq] at h2
      obtain ⟨rfl, -⟩ := h2
      exact h _ pre xs o h1 rfl hk

theorem story_append (w : Life) (ch : List Child) (hd : Option Nat) (new : List Obs) (i : Nat) :
    (Life.mk ch hd (w.log ++ new)).story i = w.story i ++ (Life.mk ch hd new).story i := by
  simp [Life.story]

theorem story_log (w : Life) (ch : List Child) (hd : Option Nat) (i : Nat) :
    (Life.mk ch hd w.log).story i = w.story i := rfl

theorem lifeInv_start : LifeInv ⟨[], none, []⟩ where
  tale := by simp
  fresh := by simp
  held := by simp
  ended := by simp
  after := by simp

/-- a change of one child and some observations about it keep the invariant -/
theorem LifeInv.change {w : Life} (h : LifeInv w) {i : Nat} {c c' : Child} (hc : w.children[i]? = some c)
    (new : List Obs) (hd : Option Nat) (hnew : ∀ o ∈ new, o.about = i)
    (htale : ∀ o, Tale i c o → o = w.story i → Tale i c' (o ++ (Life.mk [] none new).story i))
    (hheld : ∀ j, hd = some j → w.held = some j ∧ ∀ b, Obs.disconnect j b ∉ new)
    (hcode : ∀ code, (c'.phase.code = some code ↔ c.phase.code = some code ∨ Obs.ended i code ∈ new))
    (hafter : ∀ o ∈ new, ((∃ code, o = .exited i code) ∨ o = .terminated i) →
      ∃ code, c.phase.code = some code ∧ ∀ code', o = .exited i code' → code' = code) :
    LifeInv ⟨w.children.set i c', hd, w.log ++ new⟩ := by
  have hi : i < w.children.length := (List.getElem?_eq_some_iff.1 hc).1
  constructor
  · intro j d hj
    simp only at hj
    rw [story_append]
    by_cases hij : i = j
    · subst hij
      rw [List.getElem?_set_self hi, Option.some.injEq] at hj
      subst hj
      exact htale _ (h.tale i c hc) rfl
    · rw [List.getElem?_set_ne hij] at hj
      have : (Life.mk (w.children.set i c') hd new).story j = [] := by
        unfold Life.story
        refine List.filter_eq_nil_iff.2 fun o ho => ?_
        rw [hnew o ho]
        simp [hij]
      rw [this, List.append_nil]
      exact h.tale j d hj
  · intro o ho
    simp only [List.length_set]
    rcases List.mem_append.1 ho with ho | ho
    · exact h.fresh o ho
    · rw [hnew o ho]; exact hi
  · intro j hj
    obtain ⟨h1, h2⟩ := hheld j hj
    obtain ⟨h3, h4⟩ := h.held j h1
    refine ⟨by simpa using h3, fun b hb => ?_⟩
    rcases List.mem_append.1 hb with hb | hb
    · exact h4 b hb
    · exact h2 b hb
  · intro j code
    simp only [List.mem_append]
    by_cases hij : i = j
    · subst hij
      rw [h.ended i code, List.getElem?_set_self hi]
      simp only [Option.some.injEq, exists_eq_left', hcode code, hc]
    · rw [h.ended j code, List.getElem?_set_ne hij]
      constructor
      · rintro (h1 | h1)
        · exact h1
        · exact absurd (hnew _ h1) (Ne.symm hij)
      · exact .inl
  · refine after_append h.after fun o ho hk => ?_
    rw [hnew o ho] at hk ⊢
    obtain ⟨code, h1, h2⟩ := hafter o ho hk
    exact ⟨code, (h.ended i code).2 ⟨c, hc, h1⟩, h2⟩

theorem lifeInv_step {w w' : Life} (h : LifeInv w) (hs : LifeStep w w') : LifeInv w' := by
  cases hs with
  | launch =>
    constructor
    · intro i c hc
      simp only at hc
      rw [story_log]
      rcases Nat.lt_trichotomy i w.children.length with hi | hi | hi
      · rw [List.getElem?_append_left hi] at hc
        exact h.tale i c hc
      · subst hi
        simp at hc
        subst hc
        refine .inl ⟨rfl, List.filter_eq_nil_iff.2 fun o ho => ?_⟩
        have := h.fresh o ho
        simp; intro e; omega
      · rw [List.getElem?_eq_none (by simp; omega)] at hc; cases hc
    · intro o ho
      have := h.fresh o ho
      simp; omega
    · intro i hi
      simp only [Option.some.injEq] at hi
      subst hi
      refine ⟨by simp, fun b hb => ?_⟩
      have := h.fresh _ hb
      simp [Obs.about] at this
    · intro i code
      rw [h.ended i code]
      constructor
      · rintro ⟨c, hc, hp⟩
        exact ⟨c, by rw [List.getElem?_append_left (List.getElem?_eq_some_iff.1 hc).1]; exact hc, hp⟩
      · rintro ⟨c, hc, hp⟩
        simp only at hc
        rcases Nat.lt_trichotomy i w.children.length with hi | hi | hi
        · rw [List.getElem?_append_left hi] at hc
          exact ⟨c, hc, hp⟩
        · subst hi
          simp at hc
          subst hc
          cases hp
        · rw [List.getElem?_eq_none (by simp; omega)] at hc; cases hc
    · exact h.after
  | disconnect i c terminate hh hc hl =>
    have hst : ∀ b, Obs.disconnect i b ∉ w.story i := fun b hb => (h.held i hh).2 b (List.mem_filter.1 hb).1
    generalize terminate.getD true = b
    refine h.change hc _ none ?_ ?_ (by simp) ?_ ?_
    · intro o ho
      rcases List.mem_cons.1 ho with rfl | ho
      · rfl
      · unfold Child.disconnect at ho
        cases hcs : c.st <;> cases b <;> simp [hcs] at ho
        subst ho; rfl
    · intro o ht ho
      subst ho
      unfold Tale at ht ⊢
      obtain ⟨st, ph⟩ := c
      cases ph <;> simp [Phase.locks] at hl <;> simp only at ht
      case done code =>
        obtain ⟨rfl, hcm⟩ := ht
        refine ⟨rfl, ?_⟩
        have : (Life.mk [] none (Obs.disconnect i b :: (Child.disconnect ⟨.exited, .done code⟩ i b).2)).story i =
            [.disconnect i b] := by simp [Child.disconnect, Life.story, Obs.about]
        rw [this]
        generalize w.story i = s at *
        cases hcm with
        | own => exact .late b
        | late b' => exact absurd (by simp) (hst b')
        | killed => exact absurd (by simp) (hst true)
        | detached => exact absurd (by simp) (hst false)
      all_goals
        rcases ht with ⟨rfl, hs⟩ | ⟨rfl, hs⟩ | ⟨rfl, hs⟩
        · rw [hs]
          cases b <;> simp [Child.disconnect, Life.story, Obs.about]
        · exact absurd (by rw [hs]; simp) (hst true)
        · exact absurd (by rw [hs]; simp) (hst false)
    · intro code
      have : (c.disconnect i b).1.phase = c.phase := by
        unfold Child.disconnect
        cases c.st <;> cases b <;> rfl
      rw [this]
      constructor
      · exact .inl
      · rintro (h1 | h1)
        · exact h1
        · unfold Child.disconnect at h1
          cases hcs : c.st <;> cases b <;> simp [hcs] at h1
    · intro o ho hk
      exfalso
      unfold Child.disconnect at ho
      cases hcs : c.st <;> cases b <;> simp [hcs] at ho
      all_goals
        first
          | (rcases ho with rfl | rfl <;> simp at hk)
          | (subst ho; simp at hk)
  | ends i c code hc hp =>
    refine h.change hc _ _ (by simp [Obs.about]) ?_ (by intro j hj; exact ⟨hj, by simp⟩) ?_ (by
      intro o ho hk
      simp only [List.mem_cons, List.not_mem_nil, or_false] at ho
      subst ho
      simp at hk)
    · intro o ht _
      have : (Life.mk [] none [Obs.ended i code]).story i = [] := by simp [Life.story]
      rw [this, List.append_nil]
      unfold Tale at ht ⊢
      rw [hp] at ht
      exact ht
    · intro code'
      simp only [Phase.code, hp, Option.some.injEq, List.mem_cons, List.not_mem_nil, or_false,
        Obs.ended.injEq, true_and, reduceCtorEq, false_or]
      exact eq_comm
  | waited i c code hc hp =>
    have := h.change hc (c' := { c with phase := .reaped code }) [] w.held (by simp) (by
      intro o ht _
      have : (Life.mk [] none []).story i = [] := by simp [Life.story]
      rw [this, List.append_nil]
      unfold Tale at ht ⊢
      rw [hp] at ht
      exact ht) (by simp) (by simp [Phase.code, hp]) (by simp)
    simpa using this
  | lock i c code hc hp =>
    have := h.change hc (c' := { c with phase := .locked code }) [] w.held (by simp) (by
      intro o ht _
      have : (Life.mk [] none []).story i = [] := by simp [Life.story]
      rw [this, List.append_nil]
      unfold Tale at ht ⊢
      rw [hp] at ht
      exact ht) (by simp) (by simp [Phase.code, hp]) (by simp)
    simpa using this
  | tell i c code hc hp =>
    refine h.change hc _ _ ?_ ?_ ?_ ?_ ?_
    · intro o ho
      split at ho
      · simp at ho; subst ho; rfl
      · simp at ho
    · intro o ht _
      unfold Tale at ht ⊢
      rw [hp] at ht
      simp only at ht ⊢
      refine ⟨trivial, ?_⟩
      rcases ht with ⟨h1, rfl⟩ | ⟨h1, rfl⟩ | ⟨h1, rfl⟩
      · left; simp [h1, Life.story, Obs.about]
      · right; left; simp [h1, Life.story]
      · right; right; simp [h1, Life.story]
    · intro j hj
      refine ⟨hj, fun b hb => ?_⟩
      split at hb <;> simp at hb
    · intro code'
      simp only [Phase.code, hp]
      constructor
      · exact .inl
      · rintro (h1 | h1)
        · exact h1
        · split at h1 <;> simp at h1
    · intro o ho _
      refine ⟨code, by rw [hp]; rfl, fun code' he => ?_⟩
      split at ho
      · simp at ho; rw [ho] at he; cases he
      · simp at ho
  | exit i c code hc hp =>
    refine h.change hc _ _ (by simp [Obs.about]) ?_ (by intro j hj; exact ⟨hj, by simp⟩) ?_ ?_
    · intro o ht _
      have : (Life.mk [] none [Obs.exited i code]).story i = [.exited i code] := by
        simp [Life.story, Obs.about]
      rw [this]
      unfold Tale at ht ⊢
      rw [hp] at ht
      simp only at ht ⊢
      refine ⟨ht.1, ?_⟩
      rcases ht.2 with rfl | rfl | rfl
      · exact .own
      · exact .killed
      · exact .detached
    · intro code'
      simp only [Phase.code, hp]
      simp
    · intro o ho _
      refine ⟨code, by rw [hp]; rfl, fun code' he => ?_⟩
      simp at ho
      rw [ho] at he
      cases he
      rfl

theorem lifeInv_reach {w : Life} (h : LifeReach w) : LifeInv w := by
  induction h with
  | start => exact lifeInv_start
  | step _ hs ih => exact lifeInv_step ih hs

/-! ## Theorems -/

/-- **C94**: in every state of every interleaving, what was observed about a game is one of a few stories:
the complete one if its manager thread is done, the beginning of one otherwise. -/
theorem life_story {w : Life} (h : LifeReach w) {i : Nat} {c : Child} (hc : w.children[i]? = some c) :
    (∀ code, c.phase = .done code → Complete i code (w.story i)) ∧
    ((∀ code, c.phase ≠ .done code) → Unfinished i (w.story i)) := by
  have ht := (lifeInv_reach h).tale i c hc
  unfold Tale at ht
  constructor
  · intro code hp
    rw [hp] at ht
    exact ht.2
  · intro hn
    cases hp : c.phase with
    | done code => exact absurd hp (hn code)
    | told code =>
      rw [hp] at ht
      rcases ht.2 with h1 | h1 | h1 <;> rw [h1]
      · exact .terminated
      · exact .killed
      · exact .detached
    | _ =>
      rw [hp] at ht
      rcases ht with ⟨-, h1⟩ | ⟨-, h1⟩ | ⟨-, h1⟩ <;> rw [h1]
      · exact .none
      · exact .killed
      · exact .detached

/-- **C94**: the editor is told that a game exited or that debugging is over only after its process ended,
and the exit code it is told is that of the process. -/
theorem life_truthful {w : Life} (h : LifeReach w) {pre post : List Obs} {o : Obs}
    (hl : w.log = pre ++ o :: post) :
    (∀ i, o = .terminated i → ∃ code, Obs.ended i code ∈ pre) ∧
    (∀ i code, o = .exited i code → Obs.ended i code ∈ pre) := by
  constructor
  · rintro i rfl
    obtain ⟨code, hm, -⟩ := (lifeInv_reach h).after i pre post _ hl rfl (.inr rfl)
    exact ⟨code, hm⟩
  · rintro i code rfl
    obtain ⟨code', hm, he⟩ := (lifeInv_reach h).after i pre post _ hl rfl (.inl ⟨code, rfl⟩)
    rw [he code rfl]; exact hm

theorem mem_story {w : Life} {o : Obs} (h : o ∈ w.log) (hn : ∀ i code, o ≠ .ended i code) :
    o ∈ w.story o.about := by
  refine List.mem_filter.2 ⟨h, ?_⟩
  cases o <;> simp at hn ⊢

/-- **C94**: a process ends once. -/
theorem life_ended_once {w : Life} (h : LifeReach w) {i : Nat} {a b : Int} (ha : Obs.ended i a ∈ w.log)
    (hb : Obs.ended i b ∈ w.log) : a = b := by
  obtain ⟨c, hc, hp⟩ := ((lifeInv_reach h).ended i a).1 ha
  obtain ⟨d, hd, hq⟩ := ((lifeInv_reach h).ended i b).1 hb
  rw [hc, Option.some.injEq] at hd
  subst hd
  rw [hp, Option.some.injEq] at hq
  exact hq

/-- **C94**: a signal is sent only to a game whose exit was not told and is not being told, that was not
killed before, and on a disconnect that asks for it (or says nothing). -/
theorem life_signal {w w' : Life} (h : LifeReach w) (hs : LifeStep w w') {i : Nat}
    (hn : w'.story i ≠ w.story i) (hm : Obs.signal i ∈ w'.story i) (hnm : Obs.signal i ∉ w.story i) :
    w.held = some i ∧ w'.held = none ∧ w.story i = [] ∧
      w'.story i = [.disconnect i true, .signal i] := by
  have hr' := lifeInv_step (lifeInv_reach h) hs
  cases hs with
  | launch => exact absurd hm hnm
  | waited j c code hc hp => exact absurd hm hnm
  | lock j c code hc hp => exact absurd hm hnm
  | ends j c code hc hp =>
    rw [story_append] at hm
    have : (Life.mk (w.children.set j { c with phase := .ended code }) w.held [Obs.ended j code]).story i = [] := by
      simp [Life.story]
    rw [this, List.append_nil] at hm
    exact absurd hm hnm
  | tell j c code hc hp =>
    rw [story_append] at hm
    rcases List.mem_append.1 hm with hm | hm
    · exact absurd hm hnm
    · have := (List.mem_filter.1 hm).1
      simp only at this
      split at this <;> simp at this
  | exit j c code hc hp =>
    rw [story_append] at hm
    rcases List.mem_append.1 hm with hm | hm
    · exact absurd hm hnm
    · have := (List.mem_filter.1 hm).1
      simp at this
  | disconnect j c terminate hh hc hl =>
    have ht := (lifeInv_reach h).tale j c hc
    have hst : ∀ b, Obs.disconnect j b ∉ w.story j := fun b hb =>
      ((lifeInv_reach h).held j hh).2 b (List.mem_filter.1 hb).1
    rw [story_append] at hm ⊢
    rcases List.mem_append.1 hm with hm | hm
    · exact absurd hm hnm
    · have hm' := List.mem_filter.1 hm
      have hij : j = i := by
        have h1 := hm'.1
        rcases List.mem_cons.1 h1 with h1 | h1
        · cases h1
        · unfold Child.disconnect at h1
          split at h1
          · split at h1
            · simp at h1; exact h1.symm
            · simp at h1
          · simp at h1
      subst hij
      generalize terminate.getD true = b at *
      have hact : c.st = .active ∧ b = true := by
        have h1 := hm'.1
        rcases List.mem_cons.1 h1 with h1 | h1
        · cases h1
        · unfold Child.disconnect at h1
          cases hcs : c.st <;> cases b <;> simp [hcs] at h1
          exact ⟨rfl, rfl⟩
      obtain ⟨ha, rfl⟩ := hact
      have hs0 : w.story j = [] := by
        unfold Tale at ht
        cases hp : c.phase <;> rw [hp] at ht <;> simp [ha] at ht
        all_goals exact ht
      refine ⟨hh, rfl, hs0, ?_⟩
      rw [hs0]
      simp [Child.disconnect, ha, Life.story, Obs.about]

/-- **C94**: nothing blocks: every game whose process ended and that is not done has a next step, after
which fewer are left for it, and a disconnect is blocked only while such a step is due. -/
theorem life_progress (w : Life) {i : Nat} {c : Child} (hc : w.children[i]? = some c) :
    (∀ code, c.phase.code = some code → c.phase ≠ .done code → ∃ w' c', LifeStep w w' ∧
      w'.children[i]? = some c' ∧ c'.phase.code = some code ∧ w'.held = w.held ∧
      (c'.phase = .done code ∨ c'.phase = .told code ∧ c.phase = .locked code ∨
        c'.phase = .locked code ∧ c.phase = .reaped code ∨ c'.phase = .reaped code ∧ c.phase = .ended code)) ∧
    (w.held = some i → c.phase.locks = false → ∀ b, ∃ w', LifeStep w w' ∧ w'.held = none ∧
      Obs.disconnect i b ∈ w'.log) := by
  have hi : i < w.children.length := (List.getElem?_eq_some_iff.1 hc).1
  constructor
  · intro code hcode hnd
    cases hp : c.phase with
    | running => rw [hp] at hcode; cases hcode
    | ended k =>
      rw [hp] at hcode; cases hcode
      exact ⟨_, _, .waited w i c code hc hp, List.getElem?_set_self hi, rfl, rfl, by simp⟩
    | reaped k =>
      rw [hp] at hcode; cases hcode
      exact ⟨_, _, .lock w i c code hc hp, List.getElem?_set_self hi, rfl, rfl, by simp⟩
    | locked k =>
      rw [hp] at hcode; cases hcode
      exact ⟨_, _, .tell w i c code hc hp, List.getElem?_set_self hi, rfl, rfl, by simp⟩
    | told k =>
      rw [hp] at hcode; cases hcode
      exact ⟨_, _, .exit w i c code hc hp, List.getElem?_set_self hi, rfl, rfl, by simp⟩
    | done k => rw [hp] at hcode; cases hcode; exact absurd hp hnd
  · intro hh hl b
    exact ⟨_, .disconnect w i c (some b) hh hc hl, rfl, by simp⟩

/-! ## Sequence numbers -/

/-- **C94**: whatever the schedule of the threads, the numbers from 0 on are each taken by one message, and
each message is written once. -/
theorem seq_perm {s : Seqs} (h : SeqReach s) : (s.out ++ s.held.map (·.2)).Perm (List.range s.next) := by
  induction h with
  | start => exact .refl _
  | step _ hs ih =>
    cases hs with
    | take t h =>
      simp only [List.map_append, List.map_cons, List.map_nil, List.range_succ]
      rw [← List.append_assoc]
      exact ih.append_right _
    | write t n l r h =>
      simp only at ih ⊢
      rw [h] at ih
      refine List.Perm.trans ?_ ih
      simp only [List.map_append, List.map_cons]
      rw [List.append_assoc]
      refine List.Perm.append_left _ ?_
      simp only [List.singleton_append]
      exact List.perm_middle.symm

theorem seq_distinct {s : Seqs} (h : SeqReach s) : s.out.Nodup :=
  ((seq_perm h).nodup_iff.2 List.nodup_range).sublist (List.sublist_append_left ..)

/-- **C94**: when no thread is writing, all numbers below the next were written. -/
theorem seq_quiet {s : Seqs} (h : SeqReach s) (hq : s.held = []) : s.out.Perm (List.range s.next) := by
  have := seq_perm h
  rwa [hq, List.map_nil, List.append_nil] at this

/-- **C94** (disagreement): the numbers need not be in the order of the messages: another thread can write
between. -/
theorem seq_order_disagrees : SeqReach ⟨2, [], [1, 0]⟩ := by
  refine .step (.step (.step (.step .start (.take _ 0 (by simp))) (.take _ 1 (by simp)))
    (.write _ 1 1 [(0, 0)] [] rfl)) (.write _ 0 0 [] [] rfl)

/-! ## Requests -/

section
variable {σ ε α β : Type}

/-- the responses that a list of requests should get, in order -/
def responses (h : Handlers σ ε α β) : σ → List (Int × Text × α) → List (Outgoing ε β)
  | _, [] => []
  | st, (seq, command, args) :: rest =>
    .response seq command (h.result st command args).2.2 :: responses h (h.result st command args).1 rest

/-- the messages that are responses -/
def Outgoing.isResponse : Outgoing ε β → Bool
  | .response .. => true
  | _ => false

theorem filter_events (es : List ε) (n : Nat) :
    (((es.zipIdx n).map fun e => (e.2, (Outgoing.event e.1 : Outgoing ε β))).map (·.2)).filter
      Outgoing.isResponse = [] := by
  refine List.filter_eq_nil_iff.2 fun o ho => ?_
  simp only [List.map_map, List.mem_map] at ho
  obtain ⟨x, -, rfl⟩ := ho
  simp [Outgoing.isResponse]

theorem events_facts (a : Adapter σ ε β) (es : List ε) : (a.events es).st = a.st ∧
    (((a.events es).out).map (·.2)).filter Outgoing.isResponse = (a.out.map (·.2)).filter Outgoing.isResponse ∧
    ((a.out.map (·.1)).Perm (List.range a.next) →
      (((a.events es).out).map (·.1)).Perm (List.range (a.events es).next)) := by
  refine ⟨rfl, ?_, fun hp => ?_⟩
  · simp only [Adapter.events, List.map_append, List.filter_append]
    rw [filter_events, List.append_nil]
  · simp only [Adapter.events, List.map_append, List.map_map]
    have : List.map ((fun x : Nat × Outgoing ε β => x.1) ∘ fun e : ε × Nat => (e.2, .event e.1)) (es.zipIdx a.next) =
        (List.range' a.next es.length) := by
      rw [← List.zipIdx_map_snd a.next es]; rfl
    rw [this, List.range_add, ← List.range'_eq_map_range]
    exact hp.append_right _

theorem respond_facts (a : Adapter σ ε β) (seq : Int) (command : Text) (res : Except Text β) :
    (a.respond seq command res).st = a.st ∧
    (((a.respond seq command res).out).map (·.2)).filter Outgoing.isResponse =
      (a.out.map (·.2)).filter Outgoing.isResponse ++ [.response seq command res] ∧
    ((a.out.map (·.1)).Perm (List.range a.next) →
      (((a.respond seq command res).out).map (·.1)).Perm (List.range (a.respond seq command res).next)) := by
  have one : ∀ (res : Except Text β), (((a.out ++ [(a.next, Outgoing.response (ε := ε) seq command res)]).map (·.2)).filter
      Outgoing.isResponse = (a.out.map (·.2)).filter Outgoing.isResponse ++ [.response seq command res]) ∧
      ((a.out.map (·.1)).Perm (List.range a.next) →
        ((a.out ++ [(a.next, Outgoing.response (ε := ε) seq command res)]).map (·.1)).Perm (List.range (a.next + 1))) := by
    intro res
    refine ⟨by simp only [List.map_append, List.filter_append]; rfl, fun hp => ?_⟩
    simp only [List.map_append, List.range_succ]
    exact hp.append_right _
  unfold Adapter.respond
  cases res with
  | ok v => exact ⟨rfl, one _⟩
  | error e =>
    simp only
    split
    · refine ⟨rfl, by simp only [List.map_append, List.filter_append]; rfl, fun hp => ?_⟩
      simp only [List.map_append, List.range_succ, List.append_assoc]
      exact hp.append (List.Perm.swap ..)
    · exact ⟨rfl, one _⟩

theorem handleInput_request (h : Handlers σ ε α β) (a : Adapter σ ε β) (seq : Int) (command : Text) (args : α) :
    ∃ a', handleInput h a (.request seq command args) = some a' ∧
      a'.st = (h.result a.st command args).1 ∧
      (a'.out.map (·.2)).filter Outgoing.isResponse = (a.out.map (·.2)).filter Outgoing.isResponse ++
        [.response seq command (h.result a.st command args).2.2] ∧
      ((a.out.map (·.1)).Perm (List.range a.next) → (a'.out.map (·.1)).Perm (List.range a'.next)) := by
  refine ⟨_, rfl, ?_⟩
  obtain ⟨e1, e2, e3⟩ := events_facts { a with st := (h.result a.st command args).1 } (h.result a.st command args).2.1
  obtain ⟨r1, r2, r3⟩ := respond_facts
    ({ a with st := (h.result a.st command args).1 }.events (h.result a.st command args).2.1) seq command
    (h.result a.st command args).2.2
  exact ⟨r1.trans e1, r2.trans (by rw [e2]), fun hp => r3 (e3 hp)⟩

/-- **C94**: every request gets exactly one response, in the order of the requests, with its number, its
command and what the handler gave; unknown commands fail. -/
theorem dap_responses (h : Handlers σ ε α β) (st : σ) (reqs : List (Int × Text × α)) :
    ∃ a, dapSession h ⟨st, 0, []⟩ (reqs.map fun r => .request r.1 r.2.1 r.2.2) = some a ∧
      (a.out.map (·.2)).filter Outgoing.isResponse = responses h st reqs ∧
      (a.out.map (·.1)).Perm (List.range a.next) := by
  have gen : ∀ (reqs : List (Int × Text × α)) (a : Adapter σ ε β), (a.out.map (·.1)).Perm (List.range a.next) →
      ∃ a', dapSession h a (reqs.map fun r => .request r.1 r.2.1 r.2.2) = some a' ∧
        (a'.out.map (·.2)).filter Outgoing.isResponse =
          (a.out.map (·.2)).filter Outgoing.isResponse ++ responses h a.st reqs ∧
        (a'.out.map (·.1)).Perm (List.range a'.next) := by
    intro reqs
    induction reqs with
    | nil => intro a hp; exact ⟨a, rfl, by simp [responses], hp⟩
    | cons r rs ih =>
      obtain ⟨seq, command, args⟩ := r
      intro a hp
      obtain ⟨a1, h1, h2, h3, h4⟩ := handleInput_request h a seq command args
      obtain ⟨a2, g1, g2, g3⟩ := ih a1 (h4 hp)
      refine ⟨a2, ?_, ?_, g3⟩
      · simp only [List.map_cons, dapSession, h1, Option.bind_some, g1]
      · rw [g2, h3, List.append_assoc, h2]; rfl
  obtain ⟨a, h1, h2, h3⟩ := gen reqs ⟨st, 0, []⟩ (.refl _)
  exact ⟨a, h1, by simpa using h2, h3⟩

/-- **C94** (disagreement): anything but a request ends the adapter with a panic. -/
theorem dap_panic_disagrees (h : Handlers σ ε α β) (a : Adapter σ ε β) (t : Text) (rest : List (Incoming α)) :
    dapSession h a (.garbage :: rest) = none ∧ dapSession h a (.other t :: rest) = none := ⟨rfl, rfl⟩

/-- **C94** (disagreement): for every request that fails, except `evaluate`, a message with a larger number
is written before the response. -/
theorem dap_order_disagrees (h : Handlers σ ε α β) (a : Adapter σ ε β) (seq : Int) (command : Text) (args : α)
    (hc : command ≠ cEvaluate) {e : Text} (he : (h.result a.st command args).2.2 = .error e) :
    ∃ a' before n, handleInput h a (.request seq command args) = some a' ∧
      a'.out = before ++ [(n + 1, .complaint command e), (n, .response seq command (.error e))] := by
  refine ⟨_, ({ a with st := (h.result a.st command args).1 }.events (h.result a.st command args).2.1).out,
    ({ a with st := (h.result a.st command args).1 }.events (h.result a.st command args).2.1).next, rfl, ?_⟩
  rw [he]
  simp only [Adapter.respond, if_pos hc]

end

end Verif.Debug
