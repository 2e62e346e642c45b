import Verif.Preproc.DefineMap
import Verif.IntervalTree.Props
import Verif.Context.Lemmas

/-!
# C43: the define history gives back the macros in force at a location
-/

namespace Verif.Preproc

open Verif.Context (Location)
open Verif.IntervalTree (Range mkRange Tree)

/-! ## Model -/

/-- `Location { file: FileId::default(), line: !0, column: i }` (preprocessor.rs:506-510); `i` is a `u16`:
`none` is the overflow of `i += 1` (a panic in debug builds). -/
def endOfTime (i : Nat) : Option Location :=
  if h : i < 65536 then some (Location.mk 0xffff 0xffffffff ⟨i, h⟩) else none

/-- the loops of `finalize` (preprocessor.rs:499-514) over the definitions still in force, in the order in
which they are visited; `i` counts them -/
def finalizeLoop : List (Name × Location × Define) → Nat → Option (List (Range Location × Name × Define))
  | [], _ => some []
  | (name, start, d) :: rest, i =>
    match endOfTime (i + 1), finalizeLoop rest (i + 1) with
    | some e, some r => some ((mkRange start e, name, d) :: r)
    | _, _ => none

/-- the definitions still in force in the order in which `finalize` visits them
(preprocessor.rs:501-502): the hash map is drained in an unspecified order `order`; a vector has its
oldest entry first (our lists have the newest first) -/
def drain (order : List (Name × List (Location × Define))) : List (Name × Location × Define) :=
  order.flatMap fun p => p.2.reverse.map fun v => (p.1, v)

/-- `finalize` (preprocessor.rs:499-520): the intervals recorded by `#undef` and those of the definitions
still in force, all inserted into one interval tree -/
def finalize (s : PP) (order : List (Name × List (Location × Define))) :
    Option (Tree Location (Name × Define)) :=
  (finalizeLoop (drain order) 0).bind fun fin =>
    IntervalTree.run (((s.history.reverse.map fun h => (mkRange h.1.1 h.1.2, h.2)) ++ fin).map
      fun e => IntervalTree.Op.insert e.1 e.2)

/-- `DefineMap::from_history` (preprocessor.rs:241-247), given the items yielded by the range iterator -/
def fromHistory (items : List (Range Location × Name × Define)) : DefineMap :=
  items.foldl (fun m e => (m.insert e.2.1 (e.1.lo, e.2.2)).2) {}

/-- what happens to macros while preprocessing -/
inductive Event
  /-- `#define` (or a builtin); the location is that of the name -/
  | define (name : Name) (d : Define)
  /-- `#undef`; the location is that of the directive -/
  | undef (name : Name)

/-- the name concerned -/
def Event.name : Event → Name
  | .define n _ => n
  | .undef n => n

/-- the effect of an event on the macros and their history (preprocessor.rs:1030-1034, 1050-1054) -/
def PP.event (s : PP) : Location × Event → PP
  | (l, .define name d) => { s with defines := (s.defines.insert name (l, d)).2 }
  | (l, .undef name) =>
    match (s.defines.remove name).1 with
    | some previous =>
      { s with defines := (s.defines.remove name).2
               lastLoc := l }.moveToHistory name previous
    | none => { s with lastLoc := l }

/-- the effect of events in order -/
def PP.events (s : PP) (evs : List (Location × Event)) : PP := evs.foldl PP.event s

/-- `#define` acts as the event (macro `DEBUG` counts only in the environment file) -/
theorem PP.finishDefine_event (env : Env) (s : PP) (name : Name) (l : Location) (d : Define)
    (h : name ≠ "DEBUG".toList) :
    (s.finishDefine env name l d).defines = (s.event (l, .define name d)).defines ∧
    (s.finishDefine env name l d).history = (s.event (l, .define name d)).history := by
  unfold PP.finishDefine PP.event
  have hc : (decide (name ≠ "DEBUG".toList) || s.inEnvironment env) = true := by
    rw [decide_eq_true h]; rfl
  simp only [hc, if_true]
  split
  · split <;> exact ⟨rfl, rfl⟩
  · exact ⟨rfl, rfl⟩

/-- `#undef` acts as the event -/
theorem PP.doUndef_event (s : PP) (p : Path) (l1 l2 : Location) (name : Name) (ws : Bool)
    (rest : List LTok) (st : List Include)
    (hs : s.stack = .file p (⟨l1, .ident name ws⟩ :: ⟨l2, newline⟩ :: rest) :: st) :
    ∃ s', s.doUndef = .ok s' ∧ s'.defines = (s.event (s.lastLoc, .undef name)).defines ∧
      s'.history = (s.event (s.lastLoc, .undef name)).history := by
  unfold PP.doUndef PP.withNext PP.innerNext
  simp only [hs, stackNext, Option.map_some, if_true]
  refine ⟨_, rfl, ?_⟩
  unfold PP.event
  simp only
  cases (s.defines.remove name).1 <;> exact ⟨rfl, rfl⟩

/-! ## Specification -/

/-- has the event happened before location `loc` is reached?  (A definition counts from its own
location on, an `#undef` only after its own location.) -/
def Before (loc : Location) : Location × Event → Bool
  | (l, .define _ _) => decide (l ≤ loc)
  | (l, .undef _) => decide (l < loc)

/-- the call on a define map that an event makes -/
def Event.call : Location × Event → DOp
  | (l, .define name d) => .insert name (l, d)
  | (_, .undef name) => .remove name

/-- the definitions of `name` in force at `loc`, most recent first -/
def inForce (evs : List (Location × Event)) (loc : Location) (name : Name) : List (Location × Define) :=
  specStack name ((evs.filter (Before loc)).map Event.call) []

/-- The events happened in the order of their locations: locations do not decrease, and increase
strictly among the events of one name. -/
def InOrder (evs : List (Location × Event)) : Prop :=
  evs.Pairwise fun a b => a.1 ≤ b.1 ∧ (a.2.name = b.2.name → a.1 < b.1)

/-! ## Proof -/

theorem specStack_append (k : Name) (a b : List DOp) : ∀ st,
    specStack k (a ++ b) st = specStack k b (specStack k a st) := by
  induction a with
  | nil => intro st; rfl
  | cons x a ih => intro st; cases x <;> exact ih _

theorem inForce_snoc (evs : List (Location × Event)) (loc : Location) (k : Name) (e : Location × Event) :
    inForce (evs ++ [e]) loc k =
      if Before loc e then specStack k [Event.call e] (inForce evs loc k) else inForce evs loc k := by
  unfold inForce
  rw [List.filter_append, List.map_append, specStack_append]
  by_cases h : Before loc e = true
  · rw [if_pos h]; simp [h]
  · rw [if_neg h]; simp [h, specStack]

theorem inForce_mem (loc : Location) (k : Name) (evs : List (Location × Event)) :
    ∀ v ∈ inForce evs loc k, ∃ e ∈ evs, e.2.name = k ∧ e.1 = v.1 := by
  induction evs using List.reverseRecOn with
  | nil => intro v hv; simp [inForce, specStack] at hv
  | append_singleton evs e ih =>
    intro v hv
    have old : v ∈ inForce evs loc k → ∃ x ∈ evs ++ [e], x.2.name = k ∧ x.1 = v.1 := by
      intro h
      obtain ⟨x, hx, h1⟩ := ih v h
      exact ⟨x, by simp [hx], h1⟩
    rw [inForce_snoc] at hv
    split at hv
    · obtain ⟨l, e⟩ := e
      cases e with
      | define name d =>
        simp only [Event.call, specStack] at hv
        split at hv
        · rename_i hk
          rcases List.mem_cons.1 hv with rfl | hv
          · exact ⟨(l, .define name d), by simp, hk, rfl⟩
          · exact old hv
        · exact old hv
      | undef name =>
        simp only [Event.call, specStack] at hv
        split at hv
        · exact old (List.mem_of_mem_tail hv)
        · exact old hv
    · exact old hv

theorem InOrder.snoc {evs : List (Location × Event)} {e : Location × Event} (h : InOrder (evs ++ [e])) :
    InOrder evs ∧ ∀ x ∈ evs, x.1 ≤ e.1 ∧ (x.2.name = e.2.name → x.1 < e.1) := by
  unfold InOrder at h
  rw [List.pairwise_append] at h
  exact ⟨h.1, fun x hx => h.2.2 x hx e (by simp)⟩

theorem inForce_sorted (loc : Location) (k : Name) (evs : List (Location × Event)) (h : InOrder evs) :
    (inForce evs loc k).Pairwise fun a b => b.1 < a.1 := by
  induction evs using List.reverseRecOn with
  | nil => simp [inForce, specStack]
  | append_singleton evs e ih =>
    obtain ⟨h1, h2⟩ := h.snoc
    have ih := ih h1
    rw [inForce_snoc]
    split
    · obtain ⟨l, e⟩ := e
      cases e with
      | define name d =>
        simp only [Event.call, specStack]
        split
        · rename_i hk
          refine List.pairwise_cons.2 ⟨?_, ih⟩
          intro v hv
          obtain ⟨x, hx, g1, g2⟩ := inForce_mem loc k evs v hv
          rw [← g2]
          exact (h2 x hx).2 (g1.trans hk.symm)
        · exact ih
      | undef name =>
        simp only [Event.call, specStack]
        split
        · exact ih.tail
        · exact ih
    · exact ih

/-- the entries of the history for `k` that contain `loc` -/
def histAt (s : PP) (loc : Location) (k : Name) : List (Location × Define) :=
  (s.history.filter fun h => decide (h.2.1 = k ∧ h.1.1 ≤ loc ∧ loc ≤ h.1.2)).map fun h => (h.1.1, h.2.2)

/-- the current definitions of `k` made at or before `loc` -/
def openAt (s : PP) (loc : Location) (k : Name) : List (Location × Define) :=
  (s.defines.stackOf k).filter fun v => decide (v.1 ≤ loc)

/-- the invariant -/
structure HInv (s : PP) (evs : List (Location × Event)) (loc : Location) (k : Name) : Prop where
  ok : s.defines.Ok
  /-- starts of current definitions come from events -/
  starts : ∀ v ∈ s.defines.stackOf k, ∃ e ∈ evs, e.2.name = k ∧ e.1 = v.1
  /-- ends of history entries come from `#undef`s -/
  ends : ∀ h ∈ s.history, h.2.1 = k → ∃ e ∈ evs, e.2 = .undef k ∧ e.1 = h.1.2
  /-- while every event counts, the current definitions are those in force -/
  all : (∀ e ∈ evs, e.2.name = k → Before loc e = true) → s.defines.stackOf k = inForce evs loc k
  perm : (histAt s loc k ++ openAt s loc k).Perm (inForce evs loc k)

theorem HInv.snoc {s : PP} {evs : List (Location × Event)} {loc : Location} {k : Name}
    (h : HInv s evs loc k) (e : Location × Event)
    (ho : ∀ x ∈ evs, x.1 ≤ e.1 ∧ (x.2.name = e.2.name → x.1 < e.1)) :
    HInv (s.event e) (evs ++ [e]) loc k := by
  obtain ⟨l, e⟩ := e
  cases e with
  | define name d =>
    obtain ⟨hok, hst, -⟩ := h.ok.insert name (l, d)
    have hd : (s.event (l, .define name d)).defines = (s.defines.insert name (l, d)).2 := rfl
    have hends : ∀ h' ∈ (s.event (l, .define name d)).history, h'.2.1 = k →
        ∃ e ∈ evs ++ [(l, .define name d)], e.2 = .undef k ∧ e.1 = h'.1.2 := by
      intro h' hm hk
      obtain ⟨e, he, h1⟩ := h.ends h' hm hk
      exact ⟨e, by simp [he], h1⟩
    by_cases hk : k = name
    · subst hk
      have hs : (s.event (l, .define k d)).defines.stackOf k = (l, d) :: s.defines.stackOf k := by
        rw [hd, hst k, if_pos rfl]
      refine ⟨hd ▸ hok, ?_, hends, ?_, ?_⟩
      · intro v hv
        rw [hs, List.mem_cons] at hv
        rcases hv with rfl | hv
        · exact ⟨(l, .define k d), by simp, rfl, rfl⟩
        · obtain ⟨x, hx, h1⟩ := h.starts v hv
          exact ⟨x, by simp [hx], h1⟩
      · intro hall
        rw [hs, inForce_snoc, if_pos (hall _ (by simp) rfl), h.all fun e he => hall e (by simp [he])]
        simp [Event.call, specStack]
      · rw [inForce_snoc]
        have h1 : histAt (s.event (l, .define k d)) loc k = histAt s loc k := rfl
        have h2 : openAt (s.event (l, .define k d)) loc k =
            (if l ≤ loc then [(l, d)] else []) ++ openAt s loc k := by
          unfold openAt
          rw [hs]
          by_cases hl : l ≤ loc <;> simp [hl]
        rw [h1, h2]
        by_cases hl : l ≤ loc
        · simp only [Before, hl, decide_true, if_true, Event.call, specStack]
          exact List.perm_middle.trans (h.perm.cons _)
        · simp only [Before, hl, decide_false, Bool.false_eq_true, if_false, List.nil_append]
          exact h.perm
    · have hs : (s.event (l, .define name d)).defines.stackOf k = s.defines.stackOf k := by
        rw [hd, hst k, if_neg hk]
      have hf : inForce (evs ++ [(l, .define name d)]) loc k = inForce evs loc k := by
        rw [inForce_snoc]
        split
        · simp [Event.call, specStack, Ne.symm hk]
        · rfl
      refine ⟨hd ▸ hok, ?_, hends, ?_, ?_⟩
      · intro v hv
        rw [hs] at hv
        obtain ⟨x, hx, h1⟩ := h.starts v hv
        exact ⟨x, by simp [hx], h1⟩
      · intro hall
        rw [hs, hf]
        exact h.all fun e he => hall e (by simp [he])
      · have h2 : openAt (s.event (l, .define name d)) loc k = openAt s loc k := by
          unfold openAt; rw [hs]
        rw [hf, h2]
        exact h.perm
  | undef name =>
    obtain ⟨hok, hst, hres⟩ := h.ok.remove name
    have hd : (s.event (l, .undef name)).defines =
        (if (s.defines.stackOf name) = [] then s.defines else (s.defines.remove name).2) := by
      unfold PP.event
      simp only
      rw [hres]
      cases s.defines.stackOf name <;> rfl
    have hh : (s.event (l, .undef name)).history =
        (match s.defines.stackOf name with
        | [] => s.history
        | v :: _ => ((v.1, l), name, v.2) :: s.history) := by
      unfold PP.event
      simp only
      rw [hres]
      cases s.defines.stackOf name <;> rfl
    by_cases hk : k = name
    · subst hk
      cases hstk : s.defines.stackOf k with
      | nil =>
        rw [hstk] at hd hh
        simp only [if_true] at hd hh
        have hall' : (∀ e ∈ evs ++ [(l, Event.undef k)], e.2.name = k → Before loc e = true) →
            ([] : List (Location × Define)) = inForce (evs ++ [(l, .undef k)]) loc k := by
          intro hall
          rw [inForce_snoc, if_pos (hall _ (by simp) rfl),
            ← h.all fun e he => hall e (by simp [he]), hstk]
          simp [Event.call, specStack]
        refine ⟨by rw [hd]; exact h.ok, ?_, ?_, ?_, ?_⟩
        · rw [hd, hstk]; simp
        · intro h' hm hk
          rw [hh] at hm
          obtain ⟨e, he, h1⟩ := h.ends h' hm hk
          exact ⟨e, by simp [he], h1⟩
        · rw [hd, hstk]; exact hall'
        · have h1 : histAt (s.event (l, .undef k)) loc k = histAt s loc k := by
            unfold histAt; rw [hh]
          have h2 : openAt (s.event (l, .undef k)) loc k = openAt s loc k := by
            unfold openAt; rw [hd]
          rw [h1, h2, inForce_snoc]
          split
          · rename_i hb
            simp only [Before, decide_eq_true_eq] at hb
            have hall : ∀ e ∈ evs, e.2.name = k → Before loc e = true := by
              intro e he hek
              have := lt_trans ((ho e he).2 hek) hb
              obtain ⟨le, e⟩ := e
              cases e <;> simp only [Before, decide_eq_true_eq]
              · exact le_of_lt this
              · exact this
            have he := h.all hall
            rw [hstk] at he
            have hp := h.perm
            rw [← he] at hp ⊢
            simpa [Event.call, specStack] using hp
          · exact h.perm
      | cons v vs =>
        rw [hstk] at hd hh
        simp only [reduceCtorEq, if_false] at hd hh
        have hs : (s.event (l, .undef k)).defines.stackOf k = vs := by
          rw [hd, hst k, if_pos rfl, hstk]; rfl
        have hv : v.1 < l := by
          obtain ⟨x, hx, g1, g2⟩ := h.starts v (by rw [hstk]; simp)
          rw [← g2]
          exact (ho x hx).2 g1
        refine ⟨by rw [hd]; exact hok, ?_, ?_, ?_, ?_⟩
        · intro u hu
          rw [hs] at hu
          obtain ⟨x, hx, h1⟩ := h.starts u (by rw [hstk]; simp [hu])
          exact ⟨x, by simp [hx], h1⟩
        · intro h' hm hk
          rw [hh] at hm
          rcases List.mem_cons.1 hm with rfl | hm
          · exact ⟨(l, .undef k), by simp, rfl, rfl⟩
          · obtain ⟨e, he, h1⟩ := h.ends h' hm hk
            exact ⟨e, by simp [he], h1⟩
        · intro hall
          rw [hs, inForce_snoc, if_pos (hall _ (by simp) rfl),
            ← h.all fun e he => hall e (by simp [he]), hstk]
          simp [Event.call, specStack]
        · have h1 : histAt (s.event (l, .undef k)) loc k =
              (if v.1 ≤ loc ∧ loc ≤ l then [v] else []) ++ histAt s loc k := by
            unfold histAt
            rw [hh]
            by_cases hc : v.1 ≤ loc ∧ loc ≤ l
            · simp [hc]
            · simp only [List.filter_cons, hc, and_false, decide_false, if_false]
              rfl
          have h2 : openAt s loc k = (if v.1 ≤ loc then [v] else []) ++ openAt (s.event (l, .undef k)) loc k := by
            unfold openAt
            rw [hs, hstk]
            by_cases hl : v.1 ≤ loc <;> simp [hl]
          have hp := h.perm
          rw [inForce_snoc]
          by_cases hb : l < loc
          · have hall : ∀ e ∈ evs, e.2.name = k → Before loc e = true := by
              intro e he hek
              have := lt_trans ((ho e he).2 hek) hb
              obtain ⟨le, e⟩ := e
              cases e <;> simp only [Before, decide_eq_true_eq]
              · exact le_of_lt this
              · exact this
            have he := h.all hall
            have hempty : histAt s loc k = [] := by
              unfold histAt
              rw [List.map_eq_nil_iff, List.filter_eq_nil_iff]
              intro h' hm hcon
              simp only [decide_eq_true_eq] at hcon
              obtain ⟨e, hem, g1, g2⟩ := h.ends h' hm hcon.1
              have := (ho e hem).2 (by rw [g1])
              rw [g2] at this
              exact absurd (lt_of_le_of_lt hcon.2.2 (lt_trans this hb)) (lt_irrefl _)
            have hvl : v.1 ≤ loc := le_of_lt (lt_trans hv hb)
            have hnl : ¬ loc ≤ l := not_le.2 hb
            rw [if_pos (by simp [Before, hb]), ← he, hstk]
            simp only [Event.call, specStack, if_true, List.tail_cons]
            rw [h1, hempty, if_neg (fun h => hnl h.2), List.nil_append, List.nil_append]
            rw [hempty, List.nil_append, h2, if_pos hvl, ← he, hstk] at hp
            exact hp.cons_inv
          · rw [if_neg (by simp [Before, hb])]
            have hle : loc ≤ l := not_lt.1 hb
            rw [h1]
            rw [h2] at hp
            by_cases hvl : v.1 ≤ loc
            · rw [if_pos ⟨hvl, hle⟩]
              rw [if_pos hvl] at hp
              exact List.perm_middle.symm.trans hp
            · rw [if_neg (fun h => hvl h.1)]
              rw [if_neg hvl] at hp
              exact hp
    · have hs : (s.event (l, .undef name)).defines.stackOf k = s.defines.stackOf k := by
        rw [hd]
        split
        · rfl
        · rw [hst k, if_neg hk]
      have hf : inForce (evs ++ [(l, .undef name)]) loc k = inForce evs loc k := by
        rw [inForce_snoc]
        split
        · simp [Event.call, specStack, Ne.symm hk]
        · rfl
      have hh' : ∀ h' ∈ (s.event (l, .undef name)).history, h'.2.1 = k → h' ∈ s.history := by
        intro h' hm hk'
        rw [hh] at hm
        split at hm
        · exact hm
        · rcases List.mem_cons.1 hm with rfl | hm
          · exact absurd hk'.symm hk
          · exact hm
      refine ⟨?_, ?_, ?_, ?_, ?_⟩
      · rw [hd]
        split
        · exact h.ok
        · exact hok
      · intro v hv
        rw [hs] at hv
        obtain ⟨x, hx, h1⟩ := h.starts v hv
        exact ⟨x, by simp [hx], h1⟩
      · intro h' hm hk'
        obtain ⟨e, he, h1⟩ := h.ends h' (hh' h' hm hk') hk'
        exact ⟨e, by simp [he], h1⟩
      · intro hall
        rw [hs, hf]
        exact h.all fun e he => hall e (by simp [he])
      · have h2 : openAt (s.event (l, .undef name)) loc k = openAt s loc k := by
          unfold openAt; rw [hs]
        have h1 : histAt (s.event (l, .undef name)) loc k = histAt s loc k := by
          unfold histAt
          rw [hh]
          split
          · rfl
          · simp [List.filter_cons, Ne.symm hk]
        rw [hf, h1, h2]
        exact h.perm

theorem hinv_events (loc : Location) (k : Name) (evs : List (Location × Event)) (h : InOrder evs) (s0 : PP)
    (hd : s0.defines = {}) (hh : s0.history = []) : HInv (s0.events evs) evs loc k := by
  induction evs using List.reverseRecOn with
  | nil =>
    have hs : s0.defines.stackOf k = [] := by rw [hd]; rfl
    refine ⟨by show s0.defines.Ok; rw [hd]; exact DefineMap.Ok.empty, ?_, ?_, ?_, ?_⟩
    · intro v hv
      have hv : v ∈ s0.defines.stackOf k := hv
      rw [hs] at hv
      simp at hv
    · intro h' hm
      have hm : h' ∈ s0.history := hm
      rw [hh] at hm
      simp at hm
    · intro _
      exact hs
    · have h1 : histAt (s0.events []) loc k = [] := by
        show histAt s0 loc k = []
        unfold histAt; rw [hh]; rfl
      have h2 : openAt (s0.events []) loc k = [] := by
        show openAt s0 loc k = []
        unfold openAt; rw [hs]; rfl
      rw [h1, h2]
      exact List.Perm.refl _
  | append_singleton evs e ih =>
    obtain ⟨h1, h2⟩ := h.snoc
    have := (ih h1).snoc e h2
    unfold PP.events at this ⊢
    rw [List.foldl_append]
    exact this

/-! ### finalize -/

theorem mem_lookup {β : Type} (l : List (Name × β)) (h : (l.map Prod.fst).Nodup) (k : Name) (v : β)
    (hm : (k, v) ∈ l) : l.lookup k = some v := by
  induction l with
  | nil => simp at hm
  | cons p l ih =>
    obtain ⟨a, b⟩ := p
    rw [DefineMap.lookup_cons']
    simp only [List.map_cons, List.nodup_cons] at h
    rcases List.mem_cons.1 hm with e | hm
    · cases e; rw [if_pos rfl]
    · rename_i hm'
      rw [if_neg, ih h.2 hm]
      rintro rfl
      exact h.1 (List.mem_map.2 ⟨(k, v), hm, rfl⟩)

theorem lookup_perm {β : Type} (l l' : List (Name × β)) (h : (l.map Prod.fst).Nodup) (hp : l'.Perm l)
    (k : Name) : l'.lookup k = l.lookup k := by
  have h' : (l'.map Prod.fst).Nodup := (hp.map Prod.fst).nodup_iff.2 h
  cases hl : l.lookup k with
  | some v =>
    exact mem_lookup l' h' k v (hp.mem_iff.2 (DefineMap.lookup_mem l k v hl))
  | none =>
    cases hl' : l'.lookup k with
    | none => rfl
    | some v =>
      have := mem_lookup l h k v (hp.mem_iff.1 (DefineMap.lookup_mem l' k v hl'))
      rw [hl] at this
      cases this

theorem drain_filter (l : List (Name × List (Location × Define))) (h : (l.map Prod.fst).Nodup) (k : Name) :
    ((drain l).filter fun p => decide (p.1 = k)).map Prod.snd = ((l.lookup k).getD []).reverse := by
  induction l with
  | nil => simp [drain]
  | cons p l ih =>
    obtain ⟨a, b⟩ := p
    simp only [List.map_cons, List.nodup_cons] at h
    have hd : drain ((a, b) :: l) = (b.reverse.map fun v => (a, v)) ++ drain l := by simp [drain]
    rw [hd, List.filter_append, List.map_append, ih h.2, DefineMap.lookup_cons']
    by_cases hk : k = a
    · subst hk
      have : l.lookup k = none := by
        rw [DefineMap.lookup_none_iff]
        exact h.1
      simp [this, List.filter_map, Function.comp_def]
    · simp [hk, List.filter_map, Function.comp_def, Ne.symm hk]

theorem finalizeLoop_some (xs : List (Name × Location × Define)) : ∀ i, i + xs.length < 65536 →
    ∃ r, finalizeLoop xs i = some r ∧
      r.map (fun e => (e.2.1, e.1.lo, e.2.2)) = xs ∧
      ∀ e ∈ r, Location.mk 0xffff 0xffffffff 0 < e.1.hi := by
  induction xs with
  | nil => intro i _; exact ⟨[], rfl, rfl, by simp⟩
  | cons x xs ih =>
    intro i hi
    obtain ⟨name, start, d⟩ := x
    simp only [List.length_cons] at hi
    obtain ⟨r, h1, h2, h3⟩ := ih (i + 1) (by omega)
    have he : endOfTime (i + 1) = some (Location.mk 0xffff 0xffffffff ⟨i + 1, by omega⟩) := by
      unfold endOfTime
      rw [dif_pos (by omega)]
    refine ⟨_, by rw [finalizeLoop, he, h1], by rw [List.map_cons, h2]; rfl, ?_⟩
    intro e hem
    rcases List.mem_cons.1 hem with rfl | hem
    · show _ < Location.mk 0xffff 0xffffffff _
      rw [Context.loc_lt_iff]
      right
      refine ⟨rfl, .inr ⟨rfl, ?_⟩⟩
      show (0 : Fin 65536) < ⟨i + 1, _⟩
      rw [Fin.lt_def]
      simp
    · exact h3 e hem

/-! ### the query -/

theorem spec_inserts {K V : Type} [LinearOrder K] (xs : List (Range K × V)) (k : Range K) :
    IntervalTree.spec (xs.map fun e => IntervalTree.Op.insert e.1 e.2) k =
      (xs.filter fun e => decide (e.1 = k)).map Prod.snd := by
  induction xs using List.reverseRecOn with
  | nil => rfl
  | append_singleton xs x ih =>
    unfold IntervalTree.spec at ih ⊢
    rw [List.map_append, List.foldl_append, List.filter_append, List.map_append, ← ih]
    simp only [List.map_cons, List.map_nil, List.foldl_cons, List.foldl_nil, IntervalTree.specStep]
    by_cases h : x.1 = k
    · subst h; simp
    · simp [h, Ne.symm h]

/-- the items of a query, up to order -/
theorem lists_perm {K V : Type} [LinearOrder K] (all xs : List (Range K × V)) (q : Range K)
    (h : IntervalTree.Lists (fun k => if q.lo ≤ k.hi ∧ k.lo ≤ q.hi then
      IntervalTree.spec (all.map fun e => IntervalTree.Op.insert e.1 e.2) k else []) xs)
    (f : Range K × V → Bool) :
    (∀ k, ((xs.filter f).filter fun p => decide (p.1 = k)) =
      (((all.filter fun e => decide (q.lo ≤ e.1.hi ∧ e.1.lo ≤ q.hi)).filter f).filter
        fun p => decide (p.1 = k))) := by
  intro k
  have h2 : ((xs.filter fun p => decide (p.1 = k)).map Prod.snd) =
      if q.lo ≤ k.hi ∧ k.lo ≤ q.hi then ((all.filter fun e => decide (e.1 = k)).map Prod.snd) else [] := by
    have h2 := h.2 k
    simp only [spec_inserts] at h2
    exact h2
  have key : (xs.filter fun p => decide (p.1 = k)) =
      ((all.filter fun e => decide (q.lo ≤ e.1.hi ∧ e.1.lo ≤ q.hi)).filter fun p => decide (p.1 = k)) := by
    have hmap : ∀ l : List (Range K × V), (l.filter fun p => decide (p.1 = k)) =
        ((l.filter fun p => decide (p.1 = k)).map Prod.snd).map fun v => (k, v) := by
      intro l
      rw [List.map_map]
      conv_lhs => rw [← List.map_id (l.filter fun p => decide (p.1 = k))]
      apply List.map_congr_left
      intro p hp
      have := (List.mem_filter.1 hp).2
      simp only [decide_eq_true_eq] at this
      simp [← this]
    rw [hmap xs, h2, hmap (all.filter _)]
    congr 1
    rw [List.filter_filter]
    by_cases hc : q.lo ≤ k.hi ∧ k.lo ≤ q.hi
    · rw [if_pos hc]
      congr 1
      apply List.filter_congr
      intro p _
      by_cases hp : p.1 = k
      · subst hp; simp [hc]
      · simp [hp]
    · rw [if_neg hc]
      symm
      rw [List.map_eq_nil_iff, List.filter_eq_nil_iff]
      intro p _ hcon
      simp only [Bool.and_eq_true, decide_eq_true_eq] at hcon
      exact hc (hcon.1 ▸ hcon.2)
  rw [List.filter_filter, List.filter_filter]
  have hsw : ∀ l : List (Range K × V), (l.filter fun a => decide (a.1 = k) && f a) =
      (l.filter fun p => decide (p.1 = k)).filter f := by
    intro l
    rw [List.filter_filter]
    apply List.filter_congr
    intro p _
    exact Bool.and_comm _ _
  rw [hsw, hsw, key]

/-- no items: no interval contains the query -/
theorem lists_nil {K V : Type} [LinearOrder K] (all xs : List (Range K × V)) (q : Range K)
    (h : IntervalTree.Lists (fun k => if q.lo ≤ k.hi ∧ k.lo ≤ q.hi then
      IntervalTree.spec (all.map fun e => IntervalTree.Op.insert e.1 e.2) k else []) xs)
    (hall : ∀ e ∈ all, ¬ (q.lo ≤ e.1.hi ∧ e.1.lo ≤ q.hi)) : xs = [] := by
  rw [List.eq_nil_iff_forall_not_mem]
  intro x hx
  have := lists_perm all xs q h (fun _ => true) x.1
  have hm : x ∈ (xs.filter fun _ => true).filter fun p => decide (p.1 = x.1) := by simp [hx]
  rw [this] at hm
  simp only [List.mem_filter, decide_eq_true_eq] at hm
  exact hall x hm.1.1.1 hm.1.1.2

theorem perm_of_filters {K V : Type} [LinearOrder K] [DecidableEq V] (a b : List (Range K × V))
    (h : ∀ k, (a.filter fun p => decide (p.1 = k)) = (b.filter fun p => decide (p.1 = k))) : a.Perm b := by
  rw [List.perm_iff_count]
  intro x
  have hc : ∀ l : List (Range K × V), l.count x = (l.filter fun p => decide (p.1 = x.1)).count x := by
    intro l
    rw [List.count_filter (by simp)]
  rw [hc a, hc b, h x.1]

theorem fromHistory_stackOf (items : List (Range Location × Name × Define)) (k : Name) :
    (fromHistory items).stackOf k =
      (((items.filter fun e => decide (e.2.1 = k)).map fun e => (e.1.lo, e.2.2))).reverse := by
  have h1 : fromHistory items =
      DefineMap.applyAll {} (items.map fun e => DOp.insert e.2.1 (e.1.lo, e.2.2)) := by
    unfold fromHistory DefineMap.applyAll
    rw [List.foldl_map]
    rfl
  rw [h1, (DefineMap.applyAll_spec _ {} DefineMap.Ok.empty).2 k]
  have h0 : DefineMap.stackOf {} k = [] := rfl
  rw [h0]
  have : ∀ (l : List (Range Location × Name × Define)) st,
      specStack k (l.map fun e => DOp.insert e.2.1 (e.1.lo, e.2.2)) st =
      ((l.filter fun e => decide (e.2.1 = k)).map fun e => (e.1.lo, e.2.2)).reverse ++ st := by
    intro l
    induction l with
    | nil => intro st; rfl
    | cons e l ih =>
      intro st
      simp only [List.map_cons, specStack]
      rw [ih]
      by_cases hk : e.2.1 = k
      · simp [hk]
      · simp [hk]
  rw [this, List.append_nil]

/-- **C43.** Suppose the definitions and `#undef`s of an environment happened in the order of their
locations (as they do within one file), at most 65535 definitions are in force at the end, and no
location lies in the bogus file at the end of the location space.  Then `finalize` does not panic, in
whatever order the hash map is drained, and for every location the define map cut from the history
holds, for every name, exactly the definitions in force there, with their locations, most recent
first. -/
theorem history_gives_defines (s0 : PP) (hd : s0.defines = {}) (hh : s0.history = [])
    (evs : List (Location × Event)) (ho : InOrder evs)
    (order : List (Name × List (Location × Define)))
    (hp : order.Perm (s0.events evs).defines.inner) (hn : (drain order).length < 65536)
    (loc : Location) (hloc : loc ≤ Location.mk 0xffff 0xffffffff 0) :
    ∃ t items, finalize (s0.events evs) order = some t ∧
      (∀ n, (IntervalTree.range t (mkRange loc loc)).nth n = items[n]?) ∧
      ∀ k, (fromHistory items).stackOf k = inForce evs loc k := by
  obtain ⟨fin, hf1, hf2, hf3⟩ := finalizeLoop_some (drain order) 0 (by omega)
  let hist := (s0.events evs).history.reverse.map fun h => (mkRange h.1.1 h.1.2, h.2)
  obtain ⟨t, xs, ht, hxs, hL⟩ := IntervalTree.interval_tree_range_exact
    ((hist ++ fin).map fun e => IntervalTree.Op.insert e.1 e.2) (mkRange loc loc)
  refine ⟨t, xs, by simp only [finalize, hf1, Option.bind_some]; exact ht, hxs, fun k => ?_⟩
  rw [fromHistory_stackOf]
  have hinv := hinv_events loc k evs ho s0 hd hh
  have hsorted := inForce_sorted loc k evs ho
  -- the items for `k`, up to order
  have hperm := perm_of_filters _ _
    (lists_perm (hist ++ fin) xs (mkRange loc loc) hL fun e => decide (e.2.1 = k))
  have hperm2 := hperm.map fun e => (e.1.lo, e.2.2)
  have hq1 : (mkRange loc loc : Range Location).lo = loc := rfl
  have hq2 : (mkRange loc loc : Range Location).hi = loc := rfl
  rw [hq1, hq2] at hperm2
  rw [List.filter_append, List.filter_append, List.map_append] at hperm2
  have hA : List.Perm (((hist.filter fun e => decide (loc ≤ e.1.hi ∧ e.1.lo ≤ loc)).filter
      fun e => decide (e.2.1 = k)).map fun e => (e.1.lo, e.2.2)) (histAt (s0.events evs) loc k) := by
    rw [List.filter_filter]
    unfold histAt
    simp only [hist, List.filter_map, List.map_map, List.filter_reverse, List.map_reverse]
    refine (List.reverse_perm _).trans ?_
    apply List.Perm.of_eq
    congr 1
    apply List.filter_congr
    intro h _
    simp only [Function.comp_apply, ← Bool.decide_and, decide_eq_decide]
    show h.2.1 = k ∧ loc ≤ h.1.2 ∧ h.1.1 ≤ loc ↔ _
    tauto
  have hB : List.Perm (((fin.filter fun e => decide (loc ≤ e.1.hi ∧ e.1.lo ≤ loc)).filter
      fun e => decide (e.2.1 = k)).map fun e => (e.1.lo, e.2.2)) (openAt (s0.events evs) loc k) := by
    have hnd := hinv.ok.nodup
    have hnd' : (order.map Prod.fst).Nodup := (hp.map Prod.fst).nodup_iff.2 hnd
    have hfil : (fin.filter fun e => decide (loc ≤ e.1.hi ∧ e.1.lo ≤ loc)) =
        fin.filter fun e => decide (e.1.lo ≤ loc) := by
      apply List.filter_congr
      intro e he
      have := le_of_lt (lt_of_le_of_lt hloc (hf3 e he))
      simp [this]
    rw [hfil, List.filter_filter]
    have h1 := drain_filter order hnd' k
    rw [lookup_perm _ _ hnd hp k, ← hf2, List.filter_map, List.map_map] at h1
    have h2 : openAt (s0.events evs) loc k =
        (((fin.filter (fun e => decide (e.2.1 = k))).map fun e => (e.1.lo, e.2.2)).reverse).filter
          fun v => decide (v.1 ≤ loc) := by
      unfold openAt DefineMap.stackOf DefineMap.find
      rw [← List.reverse_reverse ((List.lookup k (s0.events evs).defines.inner).getD []), ← h1]
      rfl
    rw [h2, List.filter_reverse]
    refine List.Perm.trans (List.Perm.of_eq ?_) (List.reverse_perm _).symm
    rw [List.filter_map, List.filter_filter]
    congr 1
    apply List.filter_congr
    intro e _
    exact Bool.and_comm _ _
  have hfin := hperm2.trans ((hA.append hB).trans hinv.perm)
  -- both are sorted
  have hrev : ((xs.filter fun e => decide (e.2.1 = k)).map fun e => (e.1.lo, e.2.2)) =
      (inForce evs loc k).reverse := by
    apply List.Perm.eq_of_pairwise (le := fun a b : Location × Define => a.1 ≤ b.1)
    · intro a b ha hb hab hba
      have ha' : a ∈ inForce evs loc k := hfin.mem_iff.1 ha
      have hb' : b ∈ inForce evs loc k := by simpa using hb
      have heq : a.1 = b.1 := le_antisymm hab hba
      by_contra hne
      have : ∀ (l : List (Location × Define)), l.Pairwise (fun a b => b.1 < a.1) → a ∈ l → b ∈ l → False := by
        intro l
        induction l with
        | nil => intro _ h; simp at h
        | cons x l ih =>
          intro hpw ha hb
          rw [List.pairwise_cons] at hpw
          rcases List.mem_cons.1 ha with rfl | ha'
          · rcases List.mem_cons.1 hb with rfl | hb'
            · exact hne rfl
            · exact absurd (hpw.1 b hb') (by rw [heq]; exact lt_irrefl _)
          · rcases List.mem_cons.1 hb with rfl | hb'
            · exact absurd (hpw.1 a ha') (by rw [heq]; exact lt_irrefl _)
            · exact ih hpw.2 ha' hb'
      exact this _ hsorted ha' hb'
    · rw [List.pairwise_map]
      refine (hL.1.filter _).imp ?_
      intro a b hab
      rcases Prod.Lex.le_iff.1 hab with h | h
      · exact le_of_lt h
      · exact le_of_eq h.1
    · rw [List.pairwise_reverse]
      exact hsorted.imp fun h => le_of_lt h
    · exact hfin.trans (List.reverse_perm _).symm
  rw [hrev, List.reverse_reverse]

/-! ### A concrete case -/

/-- `#define A` at line 1, `#define A 1` at line 2, `#undef A` at line 4 -/
def demoEvents : List (Location × Event) :=
  [(Location.mk 1 1 9, .define ['A'] (.constant [])),
   (Location.mk 1 2 9, .define ['A'] (.constant [.int 1])),
   (Location.mk 1 4 1, .undef ['A'])]

example : InOrder demoEvents ∧
    (drain (PP.events { stack := [] } demoEvents).defines.inner).length < 65536 ∧
    inForce demoEvents (Location.mk 1 3 1) ['A'] =
      [(Location.mk 1 2 9, .constant [.int 1]), (Location.mk 1 1 9, .constant [])] ∧
    inForce demoEvents (Location.mk 1 5 1) ['A'] = [(Location.mk 1 1 9, .constant [])] := by
  refine ⟨?_, ?_, ?_, ?_⟩
  · unfold InOrder demoEvents
    decide +kernel
  all_goals decide +kernel

/-! ### Where it fails: included files

File ids are given out in the order in which files are first seen, so an included file has a larger id
than the file that includes it, and all its locations come after all locations of the including file.
A macro that the including file removes *after* the `#include` is therefore missing from the map cut at
the beginning of the included file, although it was in force there. -/

/-- file 1: `#define A 1`, `#include "b.dm"` (file 2, which does `#define B`), `#undef A`.  The events in
the order in which they happen: -/
def includeEvents : List (Location × Event) :=
  [(Location.mk 1 1 9, .define ['A'] (.constant [.int 1])),
   (Location.mk 2 3 9, .define ['B'] (.constant [])),
   (Location.mk 1 3 1, .undef ['A'])]

/-- `A` was in force when file 2 was read, but the define map that `branch_at_file(2)` starts from
(preprocessor.rs:98-112) does not have it. -/
theorem history_forgets_in_included_file :
    ∃ t items, finalize (PP.events { stack := [] } includeEvents)
        (PP.events { stack := [] } includeEvents).defines.inner = some t ∧
      (∀ n, (IntervalTree.range t (mkRange (Location.mk 2 0 0) (Location.mk 2 0 0))).nth n = items[n]?) ∧
      (fromHistory items).get ['A'] = none ∧
      -- in force when the first token of file 2 was read:
      (PP.events { stack := [] } (includeEvents.take 1)).defines.get ['A'] =
        some (Location.mk 1 1 9, .constant [.int 1]) := by
  obtain ⟨t, xs, ht, hxs, hL⟩ := IntervalTree.interval_tree_range_exact
    (V := Name × Define)
    [.insert (mkRange (Location.mk 1 1 9) (Location.mk 1 3 1)) (['A'], .constant [.int 1]),
     .insert (mkRange (Location.mk 2 3 9) (Location.mk 0xffff 0xffffffff 1)) (['B'], .constant [])]
    (mkRange (Location.mk 2 0 0) (Location.mk 2 0 0))
  have hfin : finalize (PP.events { stack := [] } includeEvents)
      (PP.events { stack := [] } includeEvents).defines.inner = IntervalTree.run
    [.insert (mkRange (Location.mk 1 1 9) (Location.mk 1 3 1)) (['A'], .constant [.int 1]),
     .insert (mkRange (Location.mk 2 3 9) (Location.mk 0xffff 0xffffffff 1)) (['B'], .constant [])] := by
    rfl
  refine ⟨t, xs, hfin.trans ht, hxs, ?_, by decide +kernel⟩
  have hnil : xs = [] := by
    refine lists_nil [(mkRange (Location.mk 1 1 9) (Location.mk 1 3 1), (['A'], Define.constant [.int 1])),
      (mkRange (Location.mk 2 3 9) (Location.mk 0xffff 0xffffffff 1), (['B'], Define.constant []))] xs _ hL ?_
    decide +kernel
  rw [hnil]
  rfl

end Verif.Preproc
