import Verif.Debug.BreaksSpec
import Verif.Debug.DbProps

/-!
# C91: the breakpoints of the game are those last asked for
-/

namespace Verif.Debug

/-! ## Function names -/

/-- **C91**: a name with a `#` is the proc before the first one and the number behind it; a name without
one has the number 0. -/
theorem parseFunction_iff (name proc : Text) (k : Nat) :
    parseFunction name = some (proc, k) ↔
      ('#' ∉ name ∧ proc = name ∧ k = 0) ∨
      ∃ digits, '#' ∉ proc ∧ name = proc ++ '#' :: digits ∧ parseUsize digits = some k := by
  have key : ∀ p d : Text, '#' ∉ p →
      (p ++ '#' :: d).takeWhile (· ≠ '#') = p ∧ (p ++ '#' :: d).dropWhile (· ≠ '#') = '#' :: d := by
    intro p d hp
    induction p with
    | nil => simp
    | cons x xs ih =>
      have hx : x ≠ '#' := fun h => hp (by simp [h])
      have := ih fun h => hp (List.mem_cons_of_mem _ h)
      simp only [List.cons_append, List.takeWhile_cons, List.dropWhile_cons, hx, ne_eq,
        not_false_eq_true, decide_true, if_true]
      exact ⟨by rw [this.1], this.2⟩
  unfold parseFunction
  split
  · next h =>
    obtain ⟨p, d, hpd, hp⟩ : ∃ p d : Text, name = p ++ '#' :: d ∧ '#' ∉ p := by
      clear key
      induction name with
      | nil => cases h
      | cons x xs ih =>
        by_cases hx : x = '#'
        · exact ⟨[], xs, by simp [hx], nofun⟩
        · have : '#' ∈ xs := by
            rcases List.mem_cons.1 h with h | h
            · exact absurd h.symm hx
            · exact h
          obtain ⟨p, d, h1, h2⟩ := ih this
          refine ⟨x :: p, d, by rw [h1]; rfl, ?_⟩
          intro hm
          rcases List.mem_cons.1 hm with hm | hm
          · exact hx hm.symm
          · exact h2 hm
    subst hpd
    rw [(key p d hp).1, (key p d hp).2]
    simp only [List.drop_succ_cons, List.drop_zero, Option.map_eq_some_iff, Prod.mk.injEq]
    constructor
    · rintro ⟨n, h1, rfl, rfl⟩
      exact .inr ⟨d, hp, rfl, h1⟩
    · rintro (⟨h1, -⟩ | ⟨d', hp', he, hd⟩)
      · exact absurd h h1
      · have h1 := key proc d' hp'
        rw [← he, (key p d hp).1, (key p d hp).2] at h1
        obtain ⟨rfl, h2⟩ := h1
        cases h2
        exact ⟨k, hd, rfl, rfl⟩
  · next h =>
    simp only [Option.some.injEq, Prod.mk.injEq]
    constructor
    · rintro ⟨rfl, rfl⟩; exact .inl ⟨h, rfl, rfl⟩
    · rintro (⟨-, rfl, rfl⟩ | ⟨d, -, rfl, -⟩)
      · exact ⟨rfl, rfl⟩
      · exact absurd (by simp) h

/-! ## Sets -/

theorem mem_setInsert (s : List Bp) (b x : Bp) : x ∈ setInsert s b ↔ x ∈ s ∨ x = b := by
  unfold setInsert
  split
  · next h =>
    constructor
    · exact .inl
    · rintro (h' | rfl)
      · exact h'
      · exact h
  · simp

theorem put_same (s : Saved) (f : Nat) (v : List Bp) : s.put f v f = v := by simp [Saved.put]

theorem put_other (s : Saved) {f g : Nat} (v : List Bp) (h : g ≠ f) : s.put f v g = s g := by
  simp [Saved.put, h]

/-! ## extools: one request -/

/-- the state of a loop that has accepted the places `w`, begun with the saved set `s0` and the
breakpoints `e0` in the game -/
structure Stage (s0 e0 : List Bp) (w : List Bp) (a : Acc) : Prop where
  saved : ∀ b, b ∈ a.saved ↔ b ∈ s0 ∨ b ∈ w
  keep : ∀ b, b ∈ a.keep ↔ b ∈ w
  eng : ∀ b, b ∈ a.sent.foldl Msg.act e0 ↔ b ∈ e0 ∨ (b ∈ w ∧ b ∉ s0)

theorem Stage.init (s0 e0 : List Bp) : Stage s0 e0 [] ⟨s0, [], [], []⟩ :=
  ⟨by simp, by simp, by simp⟩

theorem Stage.refuse {s0 e0 w : List Bp} {a : Acc} (h : Stage s0 e0 w a) (ans : Answer) :
    Stage s0 e0 w (a.refuse ans) := ⟨h.saved, h.keep, h.eng⟩

theorem Stage.accept {s0 e0 w : List Bp} {a : Acc} (h : Stage s0 e0 w a) (b : Bp) (ans : Answer) :
    Stage s0 e0 (w ++ [b]) (a.accept b ans) := by
  refine ⟨?_, ?_, ?_⟩
  · intro x; simp only [Acc.accept, mem_setInsert, h.saved]; simp [or_assoc]
  · intro x; simp only [Acc.accept, mem_setInsert, h.keep]; simp
  · intro x
    simp only [Acc.accept]
    split
    · next hb =>
      rw [h.eng]
      rcases (h.saved b).1 hb with hb | hb
      · constructor
        · rintro (h' | h')
          · exact .inl h'
          · exact .inr ⟨by simp [h'.1], h'.2⟩
        · rintro (h' | ⟨h1, h2⟩)
          · exact .inl h'
          · rcases List.mem_append.1 h1 with h1 | h1
            · exact .inr ⟨h1, h2⟩
            · rw [List.mem_singleton.1 h1] at h2; exact absurd hb h2
      · constructor
        · rintro (h' | h')
          · exact .inl h'
          · exact .inr ⟨by simp [h'.1], h'.2⟩
        · rintro (h' | ⟨h1, h2⟩)
          · exact .inl h'
          · rcases List.mem_append.1 h1 with h1 | h1
            · exact .inr ⟨h1, h2⟩
            · rw [List.mem_singleton.1 h1] at h2 ⊢; exact .inr ⟨hb, h2⟩
    · next hb =>
      have hb' : b ∉ s0 := fun h' => hb ((h.saved b).2 (.inl h'))
      rw [List.foldl_append]
      simp only [List.foldl_cons, List.foldl_nil, Msg.act, List.mem_cons, h.eng, List.mem_append,
        List.not_mem_nil, or_false]
      constructor
      · rintro (rfl | h' | h')
        · exact .inr ⟨.inr rfl, hb'⟩
        · exact .inl h'
        · exact .inr ⟨.inl h'.1, h'.2⟩
      · rintro (h' | ⟨h1 | h1, h2⟩)
        · exact .inr (.inl h')
        · exact .inr (.inr ⟨h1, h2⟩)
        · exact .inl h1

theorem unsets (e l : List Bp) (b : Bp) :
    b ∈ (l.map Msg.unset).foldl Msg.act e ↔ b ∈ e ∧ b ∉ l := by
  induction l generalizing e with
  | nil => simp
  | cons x xs ih =>
    simp only [List.map_cons, List.foldl_cons, ih, Msg.act, List.mem_filter, decide_eq_true_eq,
      List.mem_cons, not_or, and_assoc]

theorem Stage.retain_saved {s0 e0 w : List Bp} {a : Acc} (h : Stage s0 e0 w a) (b : Bp) :
    b ∈ a.retain.saved ↔ b ∈ w := by
  simp only [Acc.retain, List.mem_filter, h.saved, h.keep, decide_eq_true_eq]
  exact ⟨fun h => h.2, fun h => ⟨.inr h, h⟩⟩

theorem Stage.retain_eng {s0 e0 w : List Bp} {a : Acc} (h : Stage s0 e0 w a) (b : Bp) :
    b ∈ a.retain.sent.foldl Msg.act e0 ↔
      (b ∈ e0 ∨ (b ∈ w ∧ b ∉ s0)) ∧ (b ∈ s0 → b ∈ w) := by
  simp only [Acc.retain]
  rw [List.foldl_append, unsets, h.eng]
  simp only [List.mem_filter, h.saved, h.keep, decide_eq_true_eq, not_and, Classical.not_not]
  constructor
  · rintro ⟨h1, h2⟩; exact ⟨h1, fun hs => h2 (.inl hs)⟩
  · rintro ⟨h1, h2⟩
    refine ⟨h1, ?_⟩
    rintro (h' | h')
    · exact h2 h'
    · exact h'

theorem exLine_eq (db : Db) (code : Text → Nat → List Instr) (f : Nat) (a : Acc) (line : Nat) :
    (∃ b, linePlace db (exOff code) f line = some b ∧
      exLine db code f a line = a.accept b ⟨none, some line⟩) ∨
    (linePlace db (exOff code) f line = none ∧
      ∃ n, exLine db code f a line = a.refuse ⟨some n, some line⟩) := by
  unfold linePlace exLine exOff
  cases db.tree.locationToProcRef f line with
  | none => exact .inr ⟨rfl, _, rfl⟩
  | some pnk =>
    obtain ⟨path, name, k⟩ := pnk
    simp only [Option.bind_some]
    cases lineToOffset (code (path ++ '/' :: name) k) line with
    | none => exact .inr ⟨rfl, _, rfl⟩
    | some off => exact .inl ⟨_, rfl, rfl⟩

theorem exLines_stage (db : Db) (code : Text → Nat → List Instr) (f : Nat) {s0 e0 : List Bp}
    (ls : List Nat) {w : List Bp} {a : Acc} (h : Stage s0 e0 w a) :
    Stage s0 e0 (w ++ ls.filterMap (linePlace db (exOff code) f)) (ls.foldl (exLine db code f) a) := by
  induction ls generalizing w a with
  | nil => simpa using h
  | cons x xs ih =>
    rw [List.foldl_cons]
    rcases exLine_eq db code f a x with ⟨b, hb, he⟩ | ⟨hb, n, he⟩
    · rw [he, List.filterMap_cons_some hb]
      have := ih (h.accept b ⟨none, some x⟩)
      simpa using this
    · rw [he, List.filterMap_cons_none hb]
      exact ih (h.refuse _)

theorem exFuncs_stage (db : Db) {s0 e0 : List Bp} (ns : List Text) {w : List Bp} {a : Acc}
    (h : Stage s0 e0 w a) :
    Stage s0 e0 (w ++ (ns.takeWhile fun n => (parseFunction n).isSome).filterMap
        (funcPlace (exKnown db))) (exFuncs db a ns).1 ∧
      (exFuncs db a ns).2 = ns.all fun n => (parseFunction n).isSome := by
  induction ns generalizing w a with
  | nil => simpa [exFuncs] using h
  | cons n ns ih =>
    rw [exFuncs]
    cases hp : parseFunction n with
    | none => simpa [hp] using h
    | some pk =>
      obtain ⟨proc, ov⟩ := pk
      have hk : (parseFunction n).isSome = true := by simp [hp]
      simp only [List.takeWhile_cons, List.all_cons, hk, if_true, Bool.true_and]
      cases hg : db.tree.getProc proc ov with
      | none =>
        have hf : funcPlace (exKnown db) n = none := by simp [funcPlace, hp, exKnown, hg]
        simp only
        rw [List.filterMap_cons_none hf]
        exact ih (h.refuse _)
      | some loc =>
        have hf : funcPlace (exKnown db) n = some ⟨proc, ov, 0⟩ := by simp [funcPlace, hp, exKnown, hg]
        simp only
        rw [List.filterMap_cons_some hf]
        have := ih (h.accept ⟨proc, ov, 0⟩ ⟨none, some loc.line⟩)
        simpa using this

/-- the places of a list of wishes -/
def places (l : List (Bp × Option Text)) : List Bp := l.map (·.1)

theorem places_filterMap {α : Type} (l : List (α × Option Text)) (g : α → Option Bp) :
    places (l.filterMap fun b => (g b.1).map fun p => (p, b.2)) = (l.map (·.1)).filterMap g := by
  induction l with
  | nil => rfl
  | cons x xs ih =>
    cases hx : g x.1 with
    | none => rw [List.filterMap_cons_none (by simp [hx]), List.map_cons, List.filterMap_cons_none hx, ih]
    | some p =>
      rw [List.filterMap_cons_some (by rw [hx]; rfl), List.map_cons, List.filterMap_cons_some hx, ← ih]
      rfl

theorem takeWhile_map_fst {α : Type} (l : List (α × Option Text)) (p : α → Bool) :
    (l.takeWhile fun n => p n.1).map (·.1) = (l.map (·.1)).takeWhile p := by
  induction l with
  | nil => rfl
  | cons x xs ih =>
    simp only [List.takeWhile_cons, List.map_cons]
    split
    · simp [ih]
    · rfl

/-- one request, seen from outside -/
theorem exRequest_effect (db : Db) (code : Text → Nat → List Instr) (s : Saved) (e : List Bp) (r : Req) :
    (r.source db = none → (exRequest db code true s r).1 = s ∧ (exRequest db code true s r).2.1 = []) ∧
    ∀ f, r.source db = some f →
      (∀ g, g ≠ f → (exRequest db code true s r).1 g = s g) ∧
      (∀ b, b ∈ (exRequest db code true s r).1 f ↔
        b ∈ places (r.asked db (exOff code) (exKnown db)) ∨ (r.complete = false ∧ b ∈ s f)) ∧
      (∀ b, b ∈ (exRequest db code true s r).2.1.foldl Msg.act e ↔
        (b ∈ e ∨ (b ∈ places (r.asked db (exOff code) (exKnown db)) ∧ b ∉ s f)) ∧
          (b ∈ s f → b ∈ (exRequest db code true s r).1 f)) := by
  cases r with
  | lines path modified bps =>
    cases hp : path.bind db.fileId with
    | none =>
      refine ⟨fun _ => by simp [exRequest, hp], fun f hf => ?_⟩
      simp [Req.source, hp] at hf
    | some f =>
      cases modified with
      | true =>
        refine ⟨fun _ => by simp [exRequest, hp], fun f hf => ?_⟩
        simp [Req.source] at hf
      | false =>
        refine ⟨fun h => by simp [Req.source, hp] at h, fun f' hf => ?_⟩
        have : f' = f := by simpa [Req.source, hp] using hf.symm
        subst this
        have hst := exLines_stage db code f' (s0 := s f') (e0 := e) (bps.map (·.1)) (Stage.init _ _)
        rw [List.nil_append] at hst
        have ha : places ((Req.lines path false bps).asked db (exOff code) (exKnown db)) =
            (bps.map (·.1)).filterMap (linePlace db (exOff code) f') := by
          simp only [Req.asked, hp, Option.map_some, Option.getD_some]
          exact places_filterMap bps (linePlace db (exOff code) f')
        simp only [exRequest, hp, Bool.false_eq_true, if_false, if_true, ha, Req.complete]
        refine ⟨fun g hg => put_other _ _ hg, fun b => ?_, fun b => ?_⟩
        · rw [put_same, hst.retain_saved]; simp
        · rw [put_same, hst.retain_saved, hst.retain_eng]
  | funcs names =>
    refine ⟨fun h => by simp [Req.source] at h, fun f hf => ?_⟩
    have : f = fileFunctions := by simpa [Req.source] using hf.symm
    subst this
    have hst := exFuncs_stage db (s0 := s fileFunctions) (e0 := e) (names.map (·.1)) (Stage.init _ _)
    rw [List.nil_append] at hst
    have ha : places ((Req.funcs names).asked db (exOff code) (exKnown db)) =
        ((names.map (·.1)).takeWhile fun n => (parseFunction n).isSome).filterMap
          (funcPlace (exKnown db)) := by
      simp only [Req.asked]
      rw [places_filterMap]
      exact congrArg _ (takeWhile_map_fst names fun n => (parseFunction n).isSome)
    have hc : (Req.funcs names).complete = (names.map (·.1)).all fun n => (parseFunction n).isSome := by
      simp [Req.complete, List.all_map]; rfl
    rw [ha, hc, ← hst.2]
    simp only [exRequest, if_true]
    cases hd : (exFuncs db ⟨s fileFunctions, [], [], []⟩ (names.map (·.1))).2 with
    | true =>
      simp only [if_true]
      refine ⟨fun g hg => put_other _ _ hg, fun b => ?_, fun b => ?_⟩
      · rw [put_same, hst.1.retain_saved]; simp
      · rw [put_same, hst.1.retain_saved, hst.1.retain_eng]
    | false =>
      simp only [Bool.false_eq_true, if_false]
      refine ⟨fun g hg => put_other _ _ hg, fun b => ?_, fun b => ?_⟩
      · rw [put_same, hst.1.saved]; simp [or_comm]
      · rw [put_same, hst.1.saved, hst.1.eng]
        constructor
        · exact fun h => ⟨h, .inl⟩
        · exact fun h => h.1

/-! ## extools: sessions -/

theorem wishes_mem (db : Db) (off : Text → Nat → Nat → Option Int) (known : Text → Nat → Bool) (r : Req)
    (past : List Req) (f : Nat) (b : Bp) :
    b ∈ places (wishes db off known (r :: past) f) ↔
      if r.source db = some f then
        b ∈ places (r.asked db off known) ∨ (r.complete = false ∧ b ∈ places (wishes db off known past f))
      else b ∈ places (wishes db off known past f) := by
  rw [wishes]
  split
  · cases hc : r.complete
    · simp [places, or_comm]
    · simp [places]
  · rfl

theorem exSession_saved (db : Db) (code : Text → Nat → List Instr) (hist : List Req) (f : Nat) (b : Bp) :
    b ∈ (exSession db code hist).1 f ↔ b ∈ places (wishes db (exOff code) (exKnown db) hist f) := by
  induction hist generalizing f b with
  | nil => simp [exSession, wishes, places]
  | cons r past ih =>
    rw [wishes_mem]
    have he := exRequest_effect db code (exSession db code past).1 (exSession db code past).2 r
    simp only [exSession]
    cases hs : r.source db with
    | none => rw [(he.1 hs).1]; simpa using ih f b
    | some g =>
      obtain ⟨h1, h2, -⟩ := he.2 g hs
      by_cases hg : f = g
      · subst hg; rw [h2, ih]; simp
      · rw [h1 f hg, ih]
        rw [if_neg (by simpa using fun h => hg h.symm)]

/-- **C91** (extools): whatever was asked, in whatever order and however requests failed, a breakpoint is
in the game only if it is still wished for some source: none is left behind. -/
theorem exSession_no_stale (db : Db) (code : Text → Nat → List Instr) (hist : List Req) (b : Bp)
    (h : b ∈ (exSession db code hist).2) :
    ∃ f, b ∈ places (wishes db (exOff code) (exKnown db) hist f) := by
  suffices ∃ f, b ∈ (exSession db code hist).1 f by
    obtain ⟨f, hf⟩ := this; exact ⟨f, (exSession_saved ..).1 hf⟩
  induction hist with
  | nil => cases h
  | cons r past ih =>
    have he := exRequest_effect db code (exSession db code past).1 (exSession db code past).2 r
    simp only [exSession] at h ⊢
    cases hs : r.source db with
    | none =>
      rw [(he.1 hs).2] at h
      rw [(he.1 hs).1]
      exact ih h
    | some g =>
      obtain ⟨h1, h2, h3⟩ := he.2 g hs
      obtain ⟨h4, h5⟩ := (h3 b).1 h
      rcases h4 with h4 | h4
      · obtain ⟨f, hf⟩ := ih h4
        by_cases hg : f = g
        · subst hg; exact ⟨f, h5 hf⟩
        · exact ⟨f, by rw [h1 f hg]; exact hf⟩
      · exact ⟨g, (h2 b).2 (.inl h4.1)⟩

/-! ## Sources do not share places -/

/-- a place wished for a source comes from a line of that file, or is the beginning of a proc -/
theorem wishes_origin (db : Db) (off : Text → Nat → Nat → Option Int) (known : Text → Nat → Bool)
    (hist : List Req) (f : Nat) (b : Bp) (h : b ∈ places (wishes db off known hist f)) :
    (f = fileFunctions ∧ b.off = 0) ∨
      ((∃ p, db.fileId p = some f) ∧ ∃ line, linePlace db off f line = some b) := by
  induction hist with
  | nil => simp [wishes, places] at h
  | cons r past ih =>
    rw [wishes_mem] at h
    split at h
    · next hs =>
      rcases h with h | h
      · cases r with
        | lines path modified bps =>
          simp only [Req.source] at hs
          split at hs
          · cases hs
          · simp only [Req.asked, hs, Option.map_some, Option.getD_some] at h
            rw [places_filterMap, List.mem_filterMap] at h
            obtain ⟨l, -, hl⟩ := h
            obtain ⟨p, -, hp⟩ := Option.bind_eq_some_iff.1 hs
            exact .inr ⟨⟨p, hp⟩, l, hl⟩
        | funcs names =>
          left
          simp only [Req.source, Option.some.injEq] at hs
          simp only [Req.asked] at h
          rw [places_filterMap, List.mem_filterMap] at h
          obtain ⟨n, -, hn⟩ := h
          obtain ⟨pk, -, hk⟩ := Option.bind_eq_some_iff.1 hn
          split at hk
          · cases hk; exact ⟨hs.symm, rfl⟩
          · cases hk
      · exact ih h.2
    · exact ih h

/-- no line begins at offset 0 of a proc: the byte code begins with other instructions -/
def NoLineAtStart (off : Text → Nat → Nat → Option Int) : Prop := ∀ p k line, off p k line ≠ some 0

/-- two sources never wish for the same place -/
theorem wishes_apart {db : Db} (wf : db.tree.WF) (hn : db.files.length < fileFunctions)
    {off : Text → Nat → Nat → Option Int} (h0 : NoLineAtStart off) {known : Text → Nat → Bool}
    {hist : List Req} {f g : Nat} {b : Bp} (hf : b ∈ places (wishes db off known hist f))
    (hg : b ∈ places (wishes db off known hist g)) : f = g := by
  have line : ∀ f, (∃ line, linePlace db off f line = some b) →
      b.off ≠ 0 ∧ ∃ start, db.tree.getProc b.proc b.ov = some ⟨f, start⟩ := by
    rintro f ⟨l, hl⟩
    obtain ⟨pnk, h1, h2⟩ := Option.bind_eq_some_iff.1 hl
    obtain ⟨path, name, k⟩ := pnk
    obtain ⟨o, h3, h4⟩ := Option.map_eq_some_iff.1 h2
    subst h4
    obtain ⟨start, -, hs⟩ := location_getProc wf h1
    refine ⟨fun he => ?_, start, hs⟩
    simp only at he
    subst he
    exact h0 _ _ _ h3
  rcases wishes_origin _ _ _ _ _ _ hf with ⟨h1, h2⟩ | ⟨h1, h2⟩ <;>
    rcases wishes_origin _ _ _ _ _ _ hg with ⟨h3, h4⟩ | ⟨h3, h4⟩
  · rw [h1, h3]
  · exact absurd h2 (line _ h4).1
  · exact absurd h4 (line _ h2).1
  · obtain ⟨-, s, hs⟩ := line _ h2
    obtain ⟨-, s', hs'⟩ := line _ h4
    rw [hs] at hs'
    cases hs'; rfl

/-- **C91** (extools): the breakpoints of the game are exactly those wished for the sources. -/
theorem exSession_exact {db : Db} (wf : db.tree.WF) (hn : db.files.length < fileFunctions)
    {code : Text → Nat → List Instr} (h0 : NoLineAtStart (exOff code)) (hist : List Req) (b : Bp) :
    b ∈ (exSession db code hist).2 ↔
      ∃ f, b ∈ places (wishes db (exOff code) (exKnown db) hist f) := by
  refine ⟨exSession_no_stale db code hist b, ?_⟩
  suffices ∀ f, b ∈ (exSession db code hist).1 f → b ∈ (exSession db code hist).2 by
    rintro ⟨f, hf⟩; exact this f ((exSession_saved ..).2 hf)
  induction hist with
  | nil => simp [exSession]
  | cons r past ih =>
    have he := exRequest_effect db code (exSession db code past).1 (exSession db code past).2 r
    intro f hf
    simp only [exSession] at hf ⊢
    cases hs : r.source db with
    | none =>
      rw [(he.1 hs).1] at hf
      rw [(he.1 hs).2]
      exact ih f hf
    | some g =>
      obtain ⟨h1, h2, h3⟩ := he.2 g hs
      refine (h3 b).2 ?_
      by_cases hg : f = g
      · subst hg
        refine ⟨?_, fun _ => hf⟩
        rcases (h2 b).1 hf with h | h
        · by_cases hb : b ∈ (exSession db code past).1 f
          · exact .inl (ih f hb)
          · exact .inr ⟨h, hb⟩
        · exact .inl (ih f h.2)
      · have hf' := hf
        rw [h1 f hg] at hf'
        refine ⟨.inl (ih f hf'), fun hb => ?_⟩
        exact absurd (wishes_apart wf hn h0 ((exSession_saved ..).1 hf') ((exSession_saved ..).1 hb)) hg

/-! ## extools: answers -/

theorem exLines_answers (db : Db) (code : Text → Nat → List Instr) (f : Nat) (ls : List Nat) (a : Acc) :
    ∃ new, (ls.foldl (exLine db code f) a).answers = a.answers ++ new ∧ new.length = ls.length ∧
      ∀ (i : Nat) (l : Nat) (ans : Answer), ls[i]? = some l → new[i]? = some ans →
        ans.line = some l ∧ ans.verified = (linePlace db (exOff code) f l).isSome := by
  induction ls generalizing a with
  | nil => exact ⟨[], by simp, rfl, nofun⟩
  | cons x xs ih =>
    rw [List.foldl_cons]
    obtain ⟨new, h1, h2, h3⟩ := ih (exLine db code f a x)
    rcases exLine_eq db code f a x with ⟨b, hb, he⟩ | ⟨hb, n, he⟩
    · refine ⟨⟨none, some x⟩ :: new, by rw [h1, he]; simp [Acc.accept], by simp [h2], ?_⟩
      intro i l ans hl hn
      cases i with
      | zero => simp at hl hn; subst hl hn; simp [hb, Answer.verified]
      | succ i => exact h3 i l ans (by simpa using hl) (by simpa using hn)
    · refine ⟨⟨some n, some x⟩ :: new, by rw [h1, he]; simp [Acc.refuse], by simp [h2], ?_⟩
      intro i l ans hl hn
      cases i with
      | zero => simp at hl hn; subst hl hn; simp [hb, Answer.verified]
      | succ i => exact h3 i l ans (by simpa using hl) (by simpa using hn)

/-- **C91** (extools): a request for the breakpoints of a file is answered line by line, in order; a
breakpoint is verified exactly if its line has a place. -/
theorem exRequest_answers {db : Db} {code : Text → Nat → List Instr} {s : Saved} {path : Option Path}
    {bps : List (Nat × Option Text)} {f : Nat} (hf : path.bind db.fileId = some f) :
    ∃ answers, (exRequest db code true s (.lines path false bps)).2.2 = some answers ∧
      answers.length = bps.length ∧
      ∀ (i : Nat) (l : Nat) (c : Option Text) (ans : Answer), bps[i]? = some (l, c) →
        answers[i]? = some ans →
        ans.line = some l ∧ ans.verified = (linePlace db (exOff code) f l).isSome := by
  obtain ⟨new, h1, h2, h3⟩ := exLines_answers db code f (bps.map (·.1)) ⟨s f, [], [], []⟩
  refine ⟨new, ?_, by simpa using h2, ?_⟩
  · simp only [exRequest, hf, Bool.false_eq_true, if_false, if_true, Acc.retain, h1]
    simp
  · intro i l c ans hl hn
    exact h3 i l ans (by simp [hl]) hn

theorem exFuncs_answers (db : Db) (ns : List Text) (a : Acc)
    (hc : ∀ n ∈ ns, (parseFunction n).isSome = true) :
    ∃ new, (exFuncs db a ns).1.answers = a.answers ++ new ∧ new.length = ns.length ∧
      ∀ (i : Nat) (n : Text) (ans : Answer), ns[i]? = some n → new[i]? = some ans →
        ans.verified = (funcPlace (exKnown db) n).isSome := by
  induction ns generalizing a with
  | nil => exact ⟨[], by simp [exFuncs], rfl, nofun⟩
  | cons n ns ih =>
    have hn := hc n List.mem_cons_self
    rw [exFuncs]
    cases hp : parseFunction n with
    | none => simp [hp] at hn
    | some pk =>
      obtain ⟨proc, ov⟩ := pk
      simp only
      cases hg : db.tree.getProc proc ov with
      | none =>
        obtain ⟨new, h1, h2, h3⟩ := ih (a.refuse ⟨some (.unknownProc proc ov), none⟩)
          fun m hm => hc m (List.mem_cons_of_mem _ hm)
        refine ⟨⟨some (.unknownProc proc ov), none⟩ :: new, by rw [h1]; simp [Acc.refuse], by simp [h2], ?_⟩
        intro i l ans hl hn
        cases i with
        | zero =>
          simp at hl hn; subst hl hn
          simp [funcPlace, hp, exKnown, hg, Answer.verified]
        | succ i => exact h3 i l ans (by simpa using hl) (by simpa using hn)
      | some loc =>
        obtain ⟨new, h1, h2, h3⟩ := ih (a.accept ⟨proc, ov, 0⟩ ⟨none, some loc.line⟩)
          fun m hm => hc m (List.mem_cons_of_mem _ hm)
        refine ⟨⟨none, some loc.line⟩ :: new, by rw [h1]; simp [Acc.accept], by simp [h2], ?_⟩
        intro i l ans hl hn
        cases i with
        | zero =>
          simp at hl hn; subst hl hn
          simp [funcPlace, hp, exKnown, hg, Answer.verified]
        | succ i => exact h3 i l ans (by simpa using hl) (by simpa using hn)

/-- **C91** (extools): function breakpoints are answered name by name, and verified exactly if the name is
a proc of the environment; a malformed number makes the whole request an error. -/
theorem exRequest_func_answers {db : Db} {code : Text → Nat → List Instr} {s : Saved}
    {names : List (Text × Option Text)} :
    ((Req.funcs names).complete = false → (exRequest db code true s (.funcs names)).2.2 = none) ∧
    ((Req.funcs names).complete = true →
      ∃ answers, (exRequest db code true s (.funcs names)).2.2 = some answers ∧
        answers.length = names.length ∧
        ∀ (i : Nat) (n : Text) (c : Option Text) (ans : Answer), names[i]? = some (n, c) →
          answers[i]? = some ans → ans.verified = (funcPlace (exKnown db) n).isSome) := by
  have hd := (exFuncs_stage db (s0 := s fileFunctions) (e0 := []) (names.map (·.1)) (Stage.init _ _)).2
  have hc' : (Req.funcs names).complete = (names.map (·.1)).all fun n => (parseFunction n).isSome := by
    simp [Req.complete, List.all_map]; rfl
  rw [← hc'] at hd
  constructor
  · intro hc
    rw [hc] at hd
    simp [exRequest, hd]
  · intro hc
    rw [hc] at hd
    obtain ⟨new, h1, h2, h3⟩ := exFuncs_answers db (names.map (·.1)) ⟨s fileFunctions, [], [], []⟩ (by
      rw [hc, eq_comm, List.all_eq_true] at hc'
      exact hc')
    refine ⟨new, ?_, by simpa using h2, ?_⟩
    · simp only [exRequest, hd, if_true, Acc.retain, h1]
      simp
    · intro i l c ans hl hn
      exact h3 i l ans (by simp [hl]) hn

/-- **C91** (extools): without a connection every breakpoint is answered as not verified and nothing is
remembered. -/
theorem exRequest_unconnected (db : Db) (code : Text → Nat → List Instr) (s : Saved) (r : Req) :
    (exRequest db code false s r).1 = s ∧ (exRequest db code false s r).2.1 = [] ∧
      ∀ answers, (exRequest db code false s r).2.2 = some answers → ∀ a ∈ answers, a.verified = false := by
  cases r with
  | lines path modified bps =>
    simp only [exRequest]
    cases path.bind db.fileId with
    | none => simp
    | some f =>
      cases modified
      · simp only [Bool.false_eq_true, if_false, Answer.verified, true_and]
        intro answers h
        cases h
        intro a ha
        obtain ⟨b, -, rfl⟩ := List.mem_map.1 ha
        rfl
      · simp
  | funcs names =>
    simp only [exRequest, Bool.false_eq_true, if_false, Answer.verified, true_and]
    intro answers h
    cases h
    intro a ha
    obtain ⟨b, -, rfl⟩ := List.mem_map.1 ha
    rfl

end Verif.Debug
