import Verif.Debug.BreaksProps
import Mathlib.Data.List.Induction

/-!
# C91: breakpoints with auxtools
-/

namespace Verif.Debug

/-! ## The link -/

theorem call_up {env : AuxEnv} {x : Aux} (h : (x.call env).1.down = false) :
    x.down = false ∧ (x.call env).2 = true ∧ (x.call env).1.bps = x.bps := by
  unfold Aux.call at h ⊢
  split at h
  · cases h
  · next hn =>
    rw [if_neg hn]
    exact ⟨by simpa using h, rfl, rfl⟩

theorem call_bps (env : AuxEnv) (x : Aux) : (x.call env).1.bps = x.bps := by
  unfold Aux.call; split <;> rfl

theorem set_up {env : AuxEnv} {x : Aux} {b : Bp} {c : Option Text} (h : (x.set env b c).1.down = false) :
    x.down = false ∧ (x.set env b c).2 = some (env.accepts b) ∧
      (x.set env b c).1.bps =
        if (env.accepts b).isSome then (b, c) :: x.bps.filter (·.1 ≠ b) else x.bps := by
  unfold Aux.set at h ⊢
  simp only at h ⊢
  have hup : (x.call env).1.down = false := by
    cases hc : (x.call env).2 <;> rw [hc] at h
    · simpa using h
    · simp only [if_true] at h
      cases ha : env.accepts b <;> rw [ha] at h <;> exact h
  obtain ⟨h1, h2, h3⟩ := call_up hup
  rw [h2]
  simp only [if_true]
  cases ha : env.accepts b with
  | none => exact ⟨h1, rfl, by simpa using h3⟩
  | some l => exact ⟨h1, rfl, by simp [h3]⟩

theorem unset_up {env : AuxEnv} {x : Aux} {b : Bp} (h : (x.unset env b).down = false) :
    x.down = false ∧ (x.unset env b).bps = x.bps.filter (·.1 ≠ b) := by
  unfold Aux.unset at h ⊢
  simp only at h ⊢
  have hup : (x.call env).1.down = false := by
    cases hc : (x.call env).2 <;> rw [hc] at h <;> simpa using h
  obtain ⟨h1, h2, h3⟩ := call_up hup
  rw [h2]
  exact ⟨h1, by simp [h3]⟩

theorem unsets_up {env : AuxEnv} {l : List Bp} {x : Aux}
    (h : (l.foldl (Aux.unset env) x).down = false) :
    x.down = false ∧ ∀ y, y ∈ (l.foldl (Aux.unset env) x).bps ↔ y ∈ x.bps ∧ y.1 ∉ l := by
  induction l generalizing x with
  | nil => exact ⟨h, by simp⟩
  | cons b bs ih =>
    rw [List.foldl_cons] at h ⊢
    obtain ⟨h1, h2⟩ := ih h
    obtain ⟨h3, h4⟩ := unset_up h1
    refine ⟨h3, fun y => ?_⟩
    rw [h2, h4]
    simp only [List.mem_filter, decide_eq_true_eq, List.mem_cons, not_or, and_assoc]

/-! ## Last wishes -/

theorem lastWish_append (l : List (Bp × Option Text)) (b x : Bp) (c d : Option Text) :
    LastWish (l ++ [(b, c)]) x d ↔ (x = b ∧ d = c) ∨ (x ≠ b ∧ LastWish l x d) := by
  constructor
  · rintro ⟨before, after, he, ha⟩
    rcases List.eq_nil_or_concat after with rfl | ⟨after', y, rfl⟩
    · have := List.append_inj' he rfl
      simp only [List.cons.injEq, Prod.mk.injEq, and_true] at this
      exact .inl ⟨this.2.1.symm, this.2.2.symm⟩
    · rw [List.concat_eq_append, ← List.cons_append, ← List.append_assoc] at he
      have := List.append_inj' he rfl
      simp only [List.cons.injEq, and_true] at this
      right
      have hy := ha y (by simp)
      rw [← this.2] at hy
      exact ⟨fun h => hy h.symm, before, after', this.1, fun z hz => ha z (by simp [hz])⟩
  · rintro (⟨rfl, rfl⟩ | ⟨hx, before, after, rfl, ha⟩)
    · exact ⟨l, [], rfl, nofun⟩
    · refine ⟨before, after ++ [(b, c)], by simp, ?_⟩
      intro y hy
      rcases List.mem_append.1 hy with hy | hy
      · exact ha y hy
      · rw [List.mem_singleton.1 hy]; exact fun h => hx h.symm

theorem lastWish_mem {l : List (Bp × Option Text)} {b : Bp} {c : Option Text} (h : LastWish l b c) :
    b ∈ places l := by
  obtain ⟨before, after, rfl, -⟩ := h
  simp [places]

theorem lastWish_of_append {l m : List (Bp × Option Text)} {b : Bp} {c : Option Text} :
    LastWish (l ++ m) b c ↔ LastWish m b c ∨ (b ∉ places m ∧ LastWish l b c) := by
  induction m using List.reverseRecOn generalizing c with
  | nil => simp [places]; rintro ⟨before, after, h, -⟩; simp at h
  | append_singleton m y ih =>
    obtain ⟨b', c'⟩ := y
    rw [← List.append_assoc, lastWish_append, lastWish_append, ih]
    simp only [places, List.map_append, List.map_cons, List.map_nil, List.mem_append, List.mem_singleton,
      not_or]
    constructor
    · rintro (⟨h1, h2⟩ | ⟨h1, h2 | ⟨h2, h3⟩⟩)
      · exact .inl (.inl ⟨h1, h2⟩)
      · exact .inl (.inr ⟨h1, h2⟩)
      · exact .inr ⟨⟨h2, h1⟩, h3⟩
    · rintro ((⟨h1, h2⟩ | ⟨h1, h2⟩) | ⟨⟨h2, h1⟩, h3⟩)
      · exact .inl ⟨h1, h2⟩
      · exact .inr ⟨h1, .inl h2⟩
      · exact .inr ⟨h1, .inr ⟨h2, h3⟩⟩

/-! ## One request -/

/-- the state of a loop that has accepted the wishes `w`, begun with the saved set `s0` and the
breakpoints `e0` in the game -/
structure AuxStage (env : AuxEnv) (s0 : List Bp) (e0 : List (Bp × Option Text))
    (w : List (Bp × Option Text)) (a : AuxAcc) : Prop where
  saved : ∀ b, b ∈ a.saved ↔ b ∈ s0 ∨ b ∈ places w
  keep : ∀ b, b ∈ a.keep ↔ b ∈ places w
  eng : a.link.down = false → ∀ b c, (b, c) ∈ a.link.bps ↔
    ((env.accepts b).isSome ∧ LastWish w b c) ∨ (b ∉ places w ∧ (b, c) ∈ e0)

theorem AuxStage.init (env : AuxEnv) (s0 : List Bp) (x : Aux) :
    AuxStage env s0 x.bps [] ⟨s0, [], x, []⟩ := by
  refine ⟨by simp [places], by simp [places], ?_⟩
  intro _ b c
  simp only [places, List.map_nil, List.not_mem_nil, not_false_eq_true, true_and, iff_or_self, and_imp]
  rintro - ⟨before, after, h, -⟩
  simp at h

/-- everything in the game was accepted -/
def Accepted (env : AuxEnv) (e : List (Bp × Option Text)) : Prop := ∀ y ∈ e, (env.accepts y.1).isSome

theorem AuxStage.accept {env : AuxEnv} {s0 : List Bp} {e0 w : List (Bp × Option Text)} {a : AuxAcc}
    (h : AuxStage env s0 e0 w a) (hacc : Accepted env e0) (b : Bp) (c : Option Text) :
    AuxStage env s0 e0 (w ++ [(b, c)]) (a.accept env b c).1 ∧
      ((a.accept env b c).1.link.down = false → a.link.down = false ∧ (a.accept env b c).2 = true) := by
  have hs : (a.accept env b c).1.saved = setInsert a.saved b ∧
      (a.accept env b c).1.keep = setInsert a.keep b ∧
      (a.accept env b c).1.link = (a.link.set env b c).1 := by
    unfold AuxAcc.accept
    simp only
    split <;> exact ⟨rfl, rfl, rfl⟩
  refine ⟨⟨?_, ?_, ?_⟩, ?_⟩
  · intro x; rw [hs.1, mem_setInsert, h.saved]; simp [places, or_assoc]
  · intro x; rw [hs.2.1, mem_setInsert, h.keep]; simp [places]
  · rw [hs.2.2]
    intro hd x d
    obtain ⟨h1, -, h3⟩ := set_up hd
    have he := h.eng h1
    rw [h3, lastWish_append]
    have hp : x ∈ places (w ++ [(b, c)]) ↔ x ∈ places w ∨ x = b := by simp [places]
    rw [hp]
    by_cases hx : x = b
    · subst hx
      cases ha : env.accepts x with
      | some l =>
        simp only [Option.isSome_some, if_true, List.mem_cons, Prod.mk.injEq, List.mem_filter, ne_eq,
          not_true_eq_false, decide_false, Bool.false_eq_true, and_false, or_false, true_and, false_and,
          or_true]
      | none =>
        simp only [Option.isSome_none, Bool.false_eq_true, if_false, false_and, or_true,
          not_true_eq_false, or_false, iff_false]
        intro hm
        rcases (he x d).1 hm with ⟨h4, -⟩ | ⟨-, h4⟩
        · rw [ha] at h4; simp at h4
        · have := hacc _ h4
          rw [ha] at this; simp at this
    · have : (x, d) ∈ (if (env.accepts b).isSome then (b, c) :: a.link.bps.filter (·.1 ≠ b)
          else a.link.bps) ↔ (x, d) ∈ a.link.bps := by
        split
        · simp [hx]
        · rfl
      rw [this, he]
      simp [hx]
  · rw [hs.2.2]
    intro hd
    obtain ⟨h1, h2, -⟩ := set_up hd
    refine ⟨h1, ?_⟩
    unfold AuxAcc.accept
    simp only [h2]
    cases env.accepts b <;> rfl

theorem AuxStage.answers {env : AuxEnv} {s0 : List Bp} {e0 w : List (Bp × Option Text)} {a : AuxAcc}
    (h : AuxStage env s0 e0 w a) (as : List Answer) : AuxStage env s0 e0 w { a with answers := as } :=
  ⟨h.saved, h.keep, h.eng⟩

theorem AuxStage.call {env : AuxEnv} {s0 : List Bp} {e0 w : List (Bp × Option Text)} {a : AuxAcc}
    (h : AuxStage env s0 e0 w a) : AuxStage env s0 e0 w { a with link := (a.link.call env).1 } := by
  refine ⟨h.saved, h.keep, ?_⟩
  intro hd
  have := call_up hd
  simp only [this.2.2]
  exact h.eng this.1

theorem auxLines_stage (db : Db) (env : AuxEnv) (f : Nat) {s0 : List Bp} {e0 : List (Bp × Option Text)}
    (hacc : Accepted env e0) (bps : List (Nat × Option Text)) {w : List (Bp × Option Text)} {a : AuxAcc}
    (h : AuxStage env s0 e0 w a) :
    ∃ w', AuxStage env s0 e0 w' (auxLines db env f a bps).1 ∧
      ((auxLines db env f a bps).1.link.down = false →
        (auxLines db env f a bps).2 = true ∧ a.link.down = false ∧
        w' = w ++ bps.filterMap fun b => (linePlace db (auxOff env) f b.1).map fun p => (p, b.2)) := by
  induction bps generalizing w a with
  | nil => exact ⟨w, by simpa [auxLines] using h, by simp [auxLines]⟩
  | cons x xs ih =>
    obtain ⟨line, cond⟩ := x
    rw [auxLines]
    cases hl : db.tree.locationToProcRef f line with
    | none =>
      obtain ⟨w', h1, h2⟩ := ih (h.answers (a.answers ++ [⟨some .noProc, some line⟩]))
      refine ⟨w', h1, fun hd => ?_⟩
      obtain ⟨h3, h4, h5⟩ := h2 hd
      refine ⟨h3, h4, ?_⟩
      rw [h5, List.filterMap_cons_none (by simp [linePlace, hl])]
    | some pnk =>
      obtain ⟨path, name, k⟩ := pnk
      simp only
      cases hc : (a.link.call env).2 with
      | false =>
        simp only [Bool.false_eq_true, if_false]
        refine ⟨w, h.call, fun hd => ?_⟩
        have := (call_up hd).2.1
        rw [hc] at this; cases this
      | true =>
        simp only [if_true]
        cases ho : env.offset (path ++ '/' :: name) k line with
        | none =>
          obtain ⟨w', h1, h2⟩ := ih (h.call.answers (a.answers ++ [⟨some .noOffset, some line⟩]))
          refine ⟨w', h1, fun hd => ?_⟩
          obtain ⟨h3, h4, h5⟩ := h2 hd
          refine ⟨h3, (call_up h4).1, ?_⟩
          rw [h5, List.filterMap_cons_none (by simp [linePlace, hl, auxOff, ho])]
        | some off =>
          simp only
          obtain ⟨h1, h2⟩ := h.call.accept hacc ⟨path ++ '/' :: name, k, (off : Int)⟩ cond
          cases hr : (({ a with link := (a.link.call env).1 } : AuxAcc).accept env
              ⟨path ++ '/' :: name, k, (off : Int)⟩ cond).2 with
          | false =>
            simp only [Bool.false_eq_true, if_false]
            refine ⟨_, h1, fun hd => ?_⟩
            have := (h2 hd).2
            rw [hr] at this; cases this
          | true =>
            simp only [if_true]
            obtain ⟨w', h3, h4⟩ := ih h1
            refine ⟨w', h3, fun hd => ?_⟩
            obtain ⟨h5, h6, h7⟩ := h4 hd
            refine ⟨h5, (call_up (h2 h6).1).1, ?_⟩
            rw [h7, List.filterMap_cons_some (b := (⟨path ++ '/' :: name, k, (off : Int)⟩, cond))
              (by simp [linePlace, hl, auxOff, ho])]
            simp

theorem auxFuncs_stage (env : AuxEnv) {s0 : List Bp} {e0 : List (Bp × Option Text)}
    (hacc : Accepted env e0) (names : List (Text × Option Text)) {w : List (Bp × Option Text)} {a : AuxAcc}
    (h : AuxStage env s0 e0 w a) :
    ∃ w', AuxStage env s0 e0 w' (auxFuncs env a names).1 ∧
      ((auxFuncs env a names).1.link.down = false →
        (auxFuncs env a names).2 = (names.all fun n => (parseFunction n.1).isSome) ∧
        a.link.down = false ∧
        w' = w ++ (names.takeWhile fun n => (parseFunction n.1).isSome).filterMap fun n =>
          (funcPlace auxKnown n.1).map fun p => (p, n.2)) := by
  induction names generalizing w a with
  | nil => exact ⟨w, by simpa [auxFuncs] using h, by simp [auxFuncs]⟩
  | cons x xs ih =>
    obtain ⟨n, cond⟩ := x
    rw [auxFuncs]
    cases hp : parseFunction n with
    | none => exact ⟨w, h, fun hd => ⟨by simp [hp], hd, by simp [hp]⟩⟩
    | some pk =>
      obtain ⟨proc, k⟩ := pk
      simp only
      obtain ⟨h1, h2⟩ := h.accept hacc ⟨proc, k, 0⟩ cond
      cases hr : (a.accept env ⟨proc, k, 0⟩ cond).2 with
      | false =>
        simp only [Bool.false_eq_true, if_false]
        refine ⟨_, h1, fun hd => ?_⟩
        have := (h2 hd).2
        rw [hr] at this; cases this
      | true =>
        simp only [if_true]
        obtain ⟨w', h3, h4⟩ := ih h1
        refine ⟨w', h3, fun hd => ?_⟩
        obtain ⟨h5, h6, h7⟩ := h4 hd
        have hk : (parseFunction n).isSome = true := by simp [hp]
        refine ⟨by simp only [List.all_cons, hk, Bool.true_and]; exact h5, (h2 h6).1, ?_⟩
        rw [h7]
        simp only [List.takeWhile_cons, hk, if_true]
        rw [List.filterMap_cons_some (b := (⟨proc, k, 0⟩, cond)) (by simp [funcPlace, hp, auxKnown])]
        simp

theorem AuxStage.retain_saved {env : AuxEnv} {s0 : List Bp} {e0 w : List (Bp × Option Text)} {a : AuxAcc}
    (h : AuxStage env s0 e0 w a) (b : Bp) : b ∈ (a.retain env).saved ↔ b ∈ places w := by
  simp only [AuxAcc.retain, List.mem_filter, h.saved, h.keep, decide_eq_true_eq]
  exact ⟨fun h => h.2, fun h => ⟨.inr h, h⟩⟩

theorem AuxStage.retain_eng {env : AuxEnv} {s0 : List Bp} {e0 w : List (Bp × Option Text)} {a : AuxAcc}
    (h : AuxStage env s0 e0 w a) (hd : (a.retain env).link.down = false) :
    a.link.down = false ∧ ∀ b c, (b, c) ∈ (a.retain env).link.bps ↔
      ((env.accepts b).isSome ∧ LastWish w b c) ∨ (b ∉ places w ∧ b ∉ s0 ∧ (b, c) ∈ e0) := by
  obtain ⟨h1, h2⟩ := unsets_up hd
  refine ⟨h1, fun b c => ?_⟩
  refine (h2 (b, c)).trans ?_
  rw [h.eng h1]
  simp only [List.mem_filter, h.saved, h.keep, decide_eq_true_eq, not_and, Classical.not_not]
  constructor
  · rintro ⟨h3 | ⟨h3, h4⟩, h5⟩
    · exact .inl h3
    · exact .inr ⟨h3, fun hs => h3 (h5 (.inl hs)), h4⟩
  · rintro (h3 | ⟨h3, h4, h5⟩)
    · exact ⟨.inl h3, fun _ => lastWish_mem h3.2⟩
    · refine ⟨.inr ⟨h3, h5⟩, ?_⟩
      rintro (h | h)
      · exact absurd h h4
      · exact h

/-- one request over a link that is up afterwards, seen from outside -/
theorem auxRequest_effect (db : Db) (env : AuxEnv) (s : Saved) (x : Aux) (hacc : Accepted env x.bps)
    (r : Req) (hd : (auxRequest db env s x r).2.1.down = false) :
    x.down = false ∧
    (r.source db = none → (auxRequest db env s x r).1 = s ∧ (auxRequest db env s x r).2.1 = x) ∧
    ∀ f, r.source db = some f →
      (∀ g, g ≠ f → (auxRequest db env s x r).1 g = s g) ∧
      (∀ b, b ∈ (auxRequest db env s x r).1 f ↔
        b ∈ places (r.asked db (auxOff env) auxKnown) ∨ (r.complete = false ∧ b ∈ s f)) ∧
      (∀ b c, (b, c) ∈ (auxRequest db env s x r).2.1.bps ↔
        ((env.accepts b).isSome ∧ LastWish (r.asked db (auxOff env) auxKnown) b c) ∨
          (b ∉ places (r.asked db (auxOff env) auxKnown) ∧ (r.complete = true → b ∉ s f) ∧
            (b, c) ∈ x.bps)) := by
  cases r with
  | lines path modified bps =>
    cases hp : path.bind db.fileId with
    | none =>
      simp only [auxRequest, hp] at hd ⊢
      exact ⟨hd, fun _ => ⟨trivial, trivial⟩, fun f hf => by simp [Req.source, hp] at hf⟩
    | some f =>
      cases modified with
      | true =>
        simp only [auxRequest, hp, if_true] at hd ⊢
        exact ⟨hd, fun _ => ⟨trivial, trivial⟩, fun f hf => by simp [Req.source] at hf⟩
      | false =>
        obtain ⟨w, hst, hw⟩ := auxLines_stage db env f hacc bps (AuxStage.init env (s f) x)
        have ha : (Req.lines path false bps).asked db (auxOff env) auxKnown =
            bps.filterMap fun b => (linePlace db (auxOff env) f b.1).map fun p => (p, b.2) := by
          simp only [Req.asked, hp, Option.map_some, Option.getD_some]
        rw [← ha] at hw
        simp only [auxRequest, hp, Bool.false_eq_true, if_false] at hd ⊢
        cases hdone : (auxLines db env f ⟨s f, [], x, []⟩ bps).2 with
        | false =>
          rw [hdone] at hd hw
          simp only [Bool.false_eq_true, if_false] at hd
          exact absurd (hw hd).1 (by simp)
        | true =>
          rw [hdone] at hd hw
          simp only [if_true] at hd ⊢
          obtain ⟨h1, h2⟩ := hst.retain_eng hd
          obtain ⟨-, h3, h4⟩ := hw h1
          rw [List.nil_append] at h4
          subst h4
          refine ⟨h3, fun h => by simp [Req.source, hp] at h, fun f' hf => ?_⟩
          have : f' = f := by simpa [Req.source, hp] using hf.symm
          subst this
          refine ⟨fun g hg => put_other _ _ hg, fun b => ?_, fun b c => ?_⟩
          · rw [put_same, hst.retain_saved]; simp [Req.complete]
          · rw [h2]; simp [Req.complete]
  | funcs names =>
    obtain ⟨w, hst, hw⟩ := auxFuncs_stage env hacc names (AuxStage.init env (s fileFunctions) x)
    have ha : (Req.funcs names).asked db (auxOff env) auxKnown =
        (names.takeWhile fun n => (parseFunction n.1).isSome).filterMap fun n =>
          (funcPlace auxKnown n.1).map fun p => (p, n.2) := rfl
    have hcomp : (Req.funcs names).complete = names.all fun n => (parseFunction n.1).isSome := rfl
    rw [← ha, ← hcomp] at hw
    simp only [auxRequest] at hd ⊢
    cases hdone : (auxFuncs env ⟨s fileFunctions, [], x, []⟩ names).2 with
    | false =>
      rw [hdone] at hd hw
      simp only [Bool.false_eq_true, if_false] at hd ⊢
      obtain ⟨h1, h3, h4⟩ := hw hd
      rw [List.nil_append] at h4
      subst h4
      refine ⟨h3, fun h => by simp [Req.source] at h, fun f hf => ?_⟩
      have : f = fileFunctions := by simpa [Req.source] using hf.symm
      subst this
      refine ⟨fun g hg => put_other _ _ hg, fun b => ?_, fun b c => ?_⟩
      · rw [put_same, hst.saved, ← h1]; simp [or_comm]
      · rw [hst.eng hd, ← h1]; simp
    | true =>
      rw [hdone] at hd hw
      simp only [if_true] at hd ⊢
      obtain ⟨h1, h2⟩ := hst.retain_eng hd
      obtain ⟨h5, h3, h4⟩ := hw h1
      rw [List.nil_append] at h4
      subst h4
      refine ⟨h3, fun h => by simp [Req.source] at h, fun f hf => ?_⟩
      have : f = fileFunctions := by simpa [Req.source] using hf.symm
      subst this
      refine ⟨fun g hg => put_other _ _ hg, fun b => ?_, fun b c => ?_⟩
      · rw [put_same, hst.retain_saved, ← h5]; simp
      · rw [h2, ← h5]; simp

/-! ## Sessions -/

theorem wishes_last (db : Db) (off : Text → Nat → Nat → Option Int) (known : Text → Nat → Bool) (r : Req)
    (past : List Req) (f : Nat) (hf : r.source db = some f) (b : Bp) (c : Option Text) :
    LastWish (wishes db off known (r :: past) f) b c ↔
      LastWish (r.asked db off known) b c ∨
        (b ∉ places (r.asked db off known) ∧ r.complete = false ∧
          LastWish (wishes db off known past f) b c) := by
  rw [wishes, if_pos hf, lastWish_of_append]
  cases hc : r.complete
  · simp
  · simp only [if_true, Bool.true_eq_false, false_and, and_false, or_false, or_iff_left_iff_imp, and_imp]
    rintro - ⟨before, after, h, -⟩
    simp at h

/-- a link that is down stays down -/
theorem auxRequest_down (db : Db) (env : AuxEnv) (s : Saved) (x : Aux) (r : Req) (hx' : x.down = true) :
    (auxRequest db env s x r).2.1.down = true := by
  have hcall : ∀ y : Aux, y.down = true → (y.call env).1.down = true ∧ (y.call env).2 = false := by
    intro y hy; simp [Aux.call, hy]
  have hset : ∀ (y : Aux) b c, y.down = true → (y.set env b c).1.down = true := by
    intro y b c hy
    simp only [Aux.set, (hcall y hy).2, Bool.false_eq_true, if_false]
    exact (hcall y hy).1
  have hunset : ∀ (y : Aux) b, y.down = true → (y.unset env b).down = true := by
    intro y b hy
    simp only [Aux.unset, (hcall y hy).2, Bool.false_eq_true, if_false]
    exact (hcall y hy).1
  have hunsets : ∀ (l : List Bp) (y : Aux), y.down = true → (l.foldl (Aux.unset env) y).down = true := by
    intro l
    induction l with
    | nil => intro y hy; exact hy
    | cons b bs ih => intro y hy; exact ih _ (hunset y b hy)
  have hacc : ∀ (a : AuxAcc) b c, a.link.down = true → (a.accept env b c).1.link.down = true := by
    intro a b c hy
    unfold AuxAcc.accept
    simp only
    split <;> exact hset _ _ _ hy
  have hlines : ∀ f bps (a : AuxAcc), a.link.down = true →
      (auxLines db env f a bps).1.link.down = true := by
    intro f bps
    induction bps with
    | nil => intro a ha; exact ha
    | cons y ys ih =>
      intro a ha
      obtain ⟨l, c⟩ := y
      rw [auxLines]
      split
      · exact ih _ ha
      · simp only [(hcall _ ha).2, Bool.false_eq_true, if_false]
        exact (hcall _ ha).1
  have hfuncs : ∀ names (a : AuxAcc), a.link.down = true →
      (auxFuncs env a names).1.link.down = true := by
    intro names
    induction names with
    | nil => intro a ha; exact ha
    | cons y ys ih =>
      intro a ha
      obtain ⟨n, c⟩ := y
      rw [auxFuncs]
      split
      · exact ha
      · simp only
        split
        · exact ih _ (hacc _ _ _ ha)
        · exact hacc _ _ _ ha
  cases r with
  | lines path modified bps =>
    simp only [auxRequest]
    split
    · exact hx'
    · split
      · exact hx'
      · split
        · exact hunsets _ _ (hlines _ _ _ hx')
        · exact hlines _ _ _ hx'
  | funcs names =>
    simp only [auxRequest]
    split
    · exact hunsets _ _ (hfuncs _ _ hx')
    · exact hfuncs _ _ hx'

theorem auxSession_inv (db : Db) (env : AuxEnv) (hist : List Req)
    (hup : (auxSession db env hist).2.down = false) :
    Accepted env (auxSession db env hist).2.bps ∧
    (∀ f b, b ∈ (auxSession db env hist).1 f ↔
      b ∈ places (wishes db (auxOff env) auxKnown hist f)) ∧
    (∀ b c, (b, c) ∈ (auxSession db env hist).2.bps →
      ∃ f, LastWish (wishes db (auxOff env) auxKnown hist f) b c) := by
  induction hist with
  | nil => exact ⟨nofun, by simp [auxSession, wishes, places], nofun⟩
  | cons r past ih =>
    simp only [auxSession] at hup ⊢
    by_cases hx : (auxSession db env past).2.down = false
    · obtain ⟨i1, i2, i3⟩ := ih hx
      obtain ⟨-, e1, e2⟩ := auxRequest_effect db env _ _ i1 r hup
      cases hs : r.source db with
      | none =>
        obtain ⟨h1, h2⟩ := e1 hs
        rw [h1, h2]
        have hw : ∀ f, wishes db (auxOff env) auxKnown (r :: past) f =
            wishes db (auxOff env) auxKnown past f := by
          intro f; rw [wishes, if_neg (by simp [hs])]
        refine ⟨i1, fun f b => by rw [hw]; exact i2 f b, fun b c h => ?_⟩
        obtain ⟨f, hf⟩ := i3 b c h
        exact ⟨f, by rw [hw]; exact hf⟩
      | some f =>
        obtain ⟨h1, h2, h3⟩ := e2 f hs
        refine ⟨?_, ?_, ?_⟩
        · rintro ⟨b, c⟩ hy
          rcases (h3 b c).1 hy with h | ⟨-, -, h⟩
          · exact h.1
          · exact i1 _ h
        · intro g b
          rw [wishes_mem]
          by_cases hg : g = f
          · subst hg; rw [h2, i2, if_pos hs]
          · rw [h1 g hg, i2, if_neg (by rw [hs]; simpa using fun h => hg h.symm)]
        · intro b c hb
          rcases (h3 b c).1 hb with h | ⟨h4, h5, h⟩
          · exact ⟨f, (wishes_last _ _ _ _ _ _ hs _ _).2 (.inl h.2)⟩
          · obtain ⟨g, hg⟩ := i3 b c h
            by_cases hgf : g = f
            · subst hgf
              refine ⟨g, (wishes_last _ _ _ _ _ _ hs _ _).2 (.inr ⟨h4, ?_, hg⟩)⟩
              cases hc : r.complete with
              | false => rfl
              | true => exact absurd ((i2 g b).2 (lastWish_mem hg)) (h5 hc)
            · refine ⟨g, ?_⟩
              rw [wishes, if_neg (by rw [hs]; simpa using fun h => hgf h.symm)]
              exact hg
    · exfalso
      have hx' : (auxSession db env past).2.down = true := by simpa using hx
      rw [auxRequest_down db env _ _ r hx'] at hup
      cases hup

/-- **C91** (auxtools): as long as the link is up, a breakpoint is in the game only with the condition of
the last wish for it of some source that still wishes it. -/
theorem auxSession_no_stale (db : Db) (env : AuxEnv) (hist : List Req)
    (hup : (auxSession db env hist).2.down = false) (b : Bp) (c : Option Text)
    (h : (b, c) ∈ (auxSession db env hist).2.bps) :
    (env.accepts b).isSome ∧ ∃ f, LastWish (wishes db (auxOff env) auxKnown hist f) b c :=
  ⟨(auxSession_inv db env hist hup).1 _ h, (auxSession_inv db env hist hup).2.2 b c h⟩

theorem auxSession_up {db : Db} {env : AuxEnv} {r : Req} {past : List Req}
    (hup : (auxSession db env (r :: past)).2.down = false) :
    (auxSession db env past).2.down = false := by
  cases hx : (auxSession db env past).2.down with
  | false => rfl
  | true =>
    have := auxRequest_down db env (auxSession db env past).1 _ r hx
    simp only [auxSession] at hup
    rw [this] at hup; cases hup

/-- **C91** (auxtools): as long as the link is up, the breakpoints of the game are exactly those wished for
the sources that the game accepts, each with the condition wished last. -/
theorem auxSession_exact {db : Db} (wf : db.tree.WF) (hn : db.files.length < fileFunctions) {env : AuxEnv}
    (h0 : NoLineAtStart (auxOff env)) (hist : List Req)
    (hup : (auxSession db env hist).2.down = false) (b : Bp) (c : Option Text) :
    (b, c) ∈ (auxSession db env hist).2.bps ↔
      (env.accepts b).isSome ∧ ∃ f, LastWish (wishes db (auxOff env) auxKnown hist f) b c := by
  refine ⟨auxSession_no_stale db env hist hup b c, ?_⟩
  rintro ⟨hb, f, hf⟩
  induction hist generalizing f with
  | nil =>
    obtain ⟨before, after, h, -⟩ := hf
    simp [wishes] at h
  | cons r past ih =>
    have hpast := auxSession_up hup
    obtain ⟨i1, i2, i3⟩ := auxSession_inv db env past hpast
    have hup' := hup
    simp only [auxSession] at hup' ⊢
    obtain ⟨-, e1, e2⟩ := auxRequest_effect db env _ _ i1 r hup'
    cases hs : r.source db with
    | none =>
      rw [(e1 hs).2]
      rw [wishes, if_neg (by simp [hs])] at hf
      exact ih hpast f hf
    | some g =>
      obtain ⟨h1, h2, h3⟩ := e2 g hs
      by_cases hg : f = g
      · subst hg
        rcases (wishes_last _ _ _ _ _ _ hs _ _).1 hf with h | ⟨h4, h5, h6⟩
        · exact (h3 b c).2 (.inl ⟨hb, h⟩)
        · exact (h3 b c).2 (.inr ⟨h4, by rw [h5]; nofun, ih hpast f h6⟩)
      · have hne : ¬ r.source db = some f := by rw [hs]; simpa using fun h => hg h.symm
        have hf' := hf
        rw [wishes, if_neg hne] at hf'
        have hapart : ∀ {x : Nat}, b ∈ places (wishes db (auxOff env) auxKnown (r :: past) x) → f = x :=
          fun hx => wishes_apart wf hn h0 (lastWish_mem hf) hx
        refine (h3 b c).2 (.inr ⟨fun hm => ?_, fun _ hm => ?_, ih hpast f hf'⟩)
        · exact hg (hapart ((wishes_mem ..).2 (by rw [if_pos hs]; exact .inl hm)))
        · exact hg (wishes_apart wf hn h0 (lastWish_mem hf') ((i2 g b).1 hm))

/-- **C91** (auxtools): once a call is lost, the link stays down. -/
theorem auxSession_down {db : Db} {env : AuxEnv} {r : Req} {past : List Req}
    (h : (auxSession db env past).2.down = true) : (auxSession db env (r :: past)).2.down = true := by
  simp only [auxSession]
  exact auxRequest_down db env _ _ r h

end Verif.Debug
