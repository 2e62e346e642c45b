import Verif.Typing.Types

/-!
# Every effect of the checker is due, and every effect that is due happens

`effects_iff`: what visiting an expression does is what `Due` lists at the sites of the expression (`At`).
-/

namespace Verif.Typing

variable {es : List Expr} {vs : List An}

theorem mem_say {l l' : Loc} {m : Msg} {eff : Effect} : (l', eff) ∈ say l m ↔ l' = l ∧ eff = .msg m := by
  simp [say]

theorem flagEvents_iff (l : Loc) (s : Ident) (r : FlagRule) (l' : Loc) (eff : Effect) : ∀ e : Expr,
    (l', eff) ∈ flagEvents l s r e ↔ l' = l ∧ ∃ m, eff = .msg m ∧ BadFlag s r e m
  | .binary op a b => by
    by_cases hop : op = .bitOr
    · subst hop
      rw [flagEvents]
      have iha := flagEvents_iff l s r l' eff a
      have ihb := flagEvents_iff l s r l' eff b
      by_cases hx : r.exclusive = true
      · rw [if_pos hx, mem_say]
        constructor
        · rintro ⟨rfl, rfl⟩; exact ⟨rfl, _, rfl, .exclusive hx⟩
        · rintro ⟨rfl, m, rfl, hm⟩
          cases hm with
          | exclusive _ => exact ⟨rfl, rfl⟩
          | left h _ => rw [hx] at h; cases h
          | right h _ => rw [hx] at h; cases h
          | operator h => exact absurd rfl h
      · rw [if_neg hx, List.mem_append, iha, ihb]
        have hx' : r.exclusive = false := by simpa using hx
        constructor
        · rintro (⟨rfl, m, rfl, hm⟩ | ⟨rfl, m, rfl, hm⟩)
          · exact ⟨rfl, _, rfl, .left hx' hm⟩
          · exact ⟨rfl, _, rfl, .right hx' hm⟩
        · rintro ⟨rfl, m, rfl, hm⟩
          cases hm with
          | exclusive h => exact absurd h hx
          | left _ h => exact .inl ⟨rfl, _, rfl, h⟩
          | right _ h => exact .inr ⟨rfl, _, rfl, h⟩
          | operator h => exact absurd rfl h
    · have : flagEvents l s r (.binary op a b) = say l (.filterWrong s) := by
        cases op <;> first | rfl | exact absurd rfl hop
      rw [this, mem_say]
      constructor
      · rintro ⟨rfl, rfl⟩; exact ⟨rfl, _, rfl, .operator hop⟩
      · rintro ⟨rfl, m, rfl, hm⟩
        cases hm with
        | exclusive _ => exact absurd rfl hop
        | left _ _ => exact absurd rfl hop
        | right _ _ => exact absurd rfl hop
        | operator _ => exact ⟨rfl, rfl⟩
  | .assign op a b => by
    rw [flagEvents, mem_say]
    · constructor
      · rintro ⟨rfl, rfl⟩; exact ⟨rfl, _, rfl, .assign⟩
      · rintro ⟨rfl, m, rfl, hm⟩; cases hm; exact ⟨rfl, rfl⟩
    all_goals nofun
  | .ternary k a b => by
    rw [flagEvents, mem_say]
    · constructor
      · rintro ⟨rfl, rfl⟩; exact ⟨rfl, _, rfl, .ternary⟩
      · rintro ⟨rfl, m, rfl, hm⟩; cases hm; exact ⟨rfl, rfl⟩
    all_goals nofun
  | .base tl t (.cons l1 f fs) => by
    rw [flagEvents, mem_say]
    constructor
    · rintro ⟨rfl, rfl⟩; exact ⟨rfl, _, rfl, .follow⟩
    · rintro ⟨rfl, m, rfl, hm⟩; cases hm; exact ⟨rfl, rfl⟩
  | .base tl t .nil => by
    have other : (∀ n, t ≠ .ident n) → (t = .int 0 → r.canBeZero = false) →
        ((l', eff) ∈ say l (.filterBadValue s) ↔ l' = l ∧ ∃ m, eff = .msg m ∧ BadFlag s r (.base tl t .nil) m) := by
      intro h1 h2
      rw [mem_say]
      constructor
      · rintro ⟨rfl, rfl⟩; exact ⟨rfl, _, rfl, .value h1 h2⟩
      · rintro ⟨rfl, m, rfl, hm⟩
        cases hm with
        | name _ => exact absurd rfl (h1 _)
        | value _ _ => exact ⟨rfl, rfl⟩
    by_cases hid : ∃ n, t = .ident n
    · obtain ⟨n, rfl⟩ := hid
      rw [flagEvents]
      by_cases hn : n ∈ r.flags
      · rw [if_pos (by simpa using hn)]
        constructor
        · intro h; cases h
        · rintro ⟨_, m, _, hm⟩
          cases hm with
          | name h => exact absurd hn h
          | value h _ => exact absurd rfl (h _)
      · rw [if_neg (by simpa using hn), mem_say]
        constructor
        · rintro ⟨rfl, rfl⟩; exact ⟨rfl, _, rfl, .name hn⟩
        · rintro ⟨rfl, m, rfl, hm⟩
          cases hm with
          | name _ => exact ⟨rfl, rfl⟩
          | value h _ => exact absurd rfl (h _)
    · have hid' : ∀ n, t ≠ .ident n := fun n h => hid ⟨n, h⟩
      by_cases hz : t = .int 0
      · subst hz
        rw [flagEvents]
        by_cases h0 : r.canBeZero = true
        · rw [if_pos h0]
          constructor
          · intro h; cases h
          · rintro ⟨_, m, _, hm⟩
            cases hm with
            | value _ h => rw [h0] at h; exact absurd (h rfl) (by simp)
        · rw [if_neg h0]
          exact other hid' (fun _ => by simpa using h0)
      · rw [flagEvents]
        · exact other hid' (fun h => absurd h hz)
        · exact fun n h => hid' n h
        · exact fun h => hz h

theorem mem_keys (k : Ident) : k ∈ keys es ↔ ∃ e ∈ es, e.kwarg = some k := by
  unfold keys
  rw [List.mem_eraseDups, List.mem_filterMap]

theorem filterEvents_iff (hl : es.length = vs.length) (l l' : Loc) (eff : Effect) :
    (l', eff) ∈ (filterEvents l es vs).1 ↔ l' = l ∧ ∃ m, eff = .msg m ∧ FilterDue es vs m := by
  unfold filterEvents
  cases hn : named es vs "type" with
  | none =>
    have hu := (named_none hl _).1 hn
    simp only []
    by_cases ha : usesArglist es = true
    · rw [if_pos ha]
      constructor
      · intro h; cases h
      · rintro ⟨_, m, _, hm⟩
        cases hm with
        | noType _ h => rw [ha] at h; cases h
        | badType h _ => exact absurd hu h.not_unnamed
        | unknown h _ _ => exact absurd hu h.not_unnamed
        | arg h _ _ _ _ _ _ _ => exact absurd hu h.not_unnamed
        | flag h _ _ _ _ _ => exact absurd hu h.not_unnamed
    · rw [if_neg ha, mem_say]
      constructor
      · rintro ⟨rfl, rfl⟩; exact ⟨rfl, _, rfl, .noType hu (by simpa using ha)⟩
      · rintro ⟨rfl, m, rfl, hm⟩
        cases hm with
        | noType _ h => exact ⟨rfl, rfl⟩
        | badType h _ => exact absurd hu h.not_unnamed
        | unknown h _ _ => exact absurd hu h.not_unnamed
        | arg h _ _ _ _ _ _ _ => exact absurd hu h.not_unnamed
        | flag h _ _ _ _ _ => exact absurd hu h.not_unnamed
  | some x =>
    obtain ⟨a, e⟩ := x
    have hN := (named_iff _ _ _).1 hn
    simp only []
    have bad : (∀ s, a.value ≠ some (.str s)) →
        ((l', eff) ∈ say l .filterBadType ↔ l' = l ∧ ∃ m, eff = .msg m ∧ FilterDue es vs m) := by
      intro hv
      rw [mem_say]
      constructor
      · rintro ⟨rfl, rfl⟩; exact ⟨rfl, _, rfl, .badType hN hv⟩
      · rintro ⟨rfl, m, rfl, hm⟩
        cases hm with
        | noType h _ => exact absurd h hN.not_unnamed
        | badType h _ => exact ⟨rfl, rfl⟩
        | unknown h h' _ => obtain ⟨rfl, rfl⟩ := named_unique hN h; exact absurd h' (hv _)
        | arg h h' _ _ _ _ _ _ => obtain ⟨rfl, rfl⟩ := named_unique hN h; exact absurd h' (hv _)
        | flag h h' _ _ _ _ => obtain ⟨rfl, rfl⟩ := named_unique hN h; exact absurd h' (hv _)
    cases hv : a.value with
    | none => exact bad (by rw [hv]; nofun)
    | some v =>
      cases v with
      | null => exact bad (by rw [hv]; nofun)
      | num => exact bad (by rw [hv]; nofun)
      | res => exact bad (by rw [hv]; nofun)
      | prefab p => exact bad (by rw [hv]; nofun)
      | str s =>
        simp only []
        have huniq : ∀ {b : An} {x : Expr} {s' : Ident}, Named es vs "type" b x → b.value = some (.str s') → s = s' := by
          intro b x s' h h'
          obtain ⟨rfl, rfl⟩ := named_unique hN h
          rw [hv] at h'; cases h'; rfl
        cases hf : filterTypes.lookup s with
        | none =>
          simp only []
          rw [mem_say]
          constructor
          · rintro ⟨rfl, rfl⟩; exact ⟨rfl, _, rfl, .unknown hN hv hf⟩
          · rintro ⟨rfl, m, rfl, hm⟩
            cases hm with
            | noType h _ => exact absurd h hN.not_unnamed
            | badType h h' => obtain ⟨rfl, rfl⟩ := named_unique hN h; exact absurd hv (h' _)
            | unknown h h' _ => cases huniq h h'; exact ⟨rfl, rfl⟩
            | arg h h' h2 _ _ _ _ _ => cases huniq h h'; rw [hf] at h2; cases h2
            | flag h h' h2 _ _ _ => cases huniq h h'; rw [hf] at h2; cases h2
        | some args =>
          simp only []
          rw [List.mem_append, List.mem_flatMap]
          constructor
          · rintro (⟨k, hk, hm⟩ | hm)
            · split at hm
              · rename_i hc
                obtain ⟨rfl, rfl⟩ := mem_say.1 hm
                simp only [Bool.and_eq_true, bne_iff_ne, ne_eq, Bool.not_eq_true', List.contains_eq_mem,
                  decide_eq_false_iff_not] at hc
                obtain ⟨x, hx, hxk⟩ := (mem_keys k).1 hk
                exact ⟨rfl, _, rfl, .arg hN hv hf hx hxk hc.1.1 hc.1.2 hc.2⟩
              · cases hm
            · split at hm
              · cases hm
              · rename_i r hr
                split at hm
                · cases hm
                · rename_i b x hb
                  obtain ⟨rfl, m, rfl, hbad⟩ := (flagEvents_iff _ _ _ _ _ _).1 hm
                  exact ⟨rfl, _, rfl, .flag hN hv hf hr ((named_iff _ _ _).1 hb) hbad⟩
          · rintro ⟨rfl, m, rfl, hm⟩
            cases hm with
            | noType h _ => exact absurd h hN.not_unnamed
            | badType h h' => obtain ⟨rfl, rfl⟩ := named_unique hN h; exact absurd hv (h' _)
            | unknown h h' h2 => cases huniq h h'; rw [hf] at h2; cases h2
            | arg h h' h2 hx hxk h3 h4 h5 =>
              cases huniq h h'; rw [hf] at h2; cases h2
              refine .inl ⟨_, (mem_keys _).2 ⟨_, hx, hxk⟩, ?_⟩
              rw [if_pos]
              · exact mem_say.2 ⟨rfl, rfl⟩
              · simp only [Bool.and_eq_true, bne_iff_ne, ne_eq, Bool.not_eq_true', List.contains_eq_mem,
                  decide_eq_false_iff_not]
                exact ⟨⟨h3, h4⟩, h5⟩
            | flag h h' h2 h3 h4 h5 =>
              cases huniq h h'; rw [hf] at h2; cases h2
              refine .inr ?_
              rw [h3]
              simp only []
              rw [(named_iff _ _ _).2 h4]
              exact (flagEvents_iff _ _ _ _ _ _).2 ⟨rfl, _, rfl, h5⟩

/-- What the loop over the arguments reports; `any`: there was a keyword argument before. -/
def ArgDue (c : Ctx) (src : Nat) (p : Proc) (ex any : Bool) (es : List Expr) (eff : Effect) : Prop :=
  (∃ e n, e ∈ es ∧ e.kwarg = some n ∧ n ∉ (c.tree.info p).params ∧ eff = .msg (.badKwarg n p)) ∨
  (∃ e n, ex = false ∧ e ∈ es ∧ e.kwarg = some n ∧ n ∈ (c.tree.info p).params ∧ eff = .kwarg src p n) ∨
  (∃ pre e post, es = pre ++ e :: post ∧ (any = true ∨ ∃ x ∈ pre, x.kwarg ≠ none) ∧ e.kwarg = none ∧
    ¬ (p.ty = 0 ∧ p.name = "animate") ∧ eff = .msg (.kwargOrder p))

theorem argEvents_iff (c : Ctx) (l l' : Loc) (src : Nat) (p : Proc) (ex : Bool) (eff : Effect) :
    ∀ (es : List Expr) (visits : List (An × List Ev)) (any : Bool), es.length = visits.length →
    ((l', eff) ∈ argEvents c l src p ex any es visits ↔
      (l' = l ∧ ArgDue c src p ex any es eff) ∨ ∃ v ∈ visits, (l', eff) ∈ v.2)
  | [], [], any, _ => by
    simp [argEvents, ArgDue]
  | [], _ :: _, _, h => by simp at h
  | _ :: _, [], _, h => by simp at h
  | e :: es, v :: visits, any, h => by
    have ih := argEvents_iff c l l' src p ex eff es visits (any || e.kwarg.isSome) (by simpa using h)
    rw [argEvents]
    simp only [List.mem_append, ih, List.mem_cons, exists_eq_or_imp]
    have hk : (l', eff) ∈ kwargEvents c l src p ex e ↔ l' = l ∧
        ((∃ n, e.kwarg = some n ∧ n ∉ (c.tree.info p).params ∧ eff = .msg (.badKwarg n p)) ∨
        (∃ n, ex = false ∧ e.kwarg = some n ∧ n ∈ (c.tree.info p).params ∧ eff = .kwarg src p n)) := by
      unfold kwargEvents
      cases hkw : e.kwarg with
      | none => simp
      | some n =>
        simp only []
        by_cases hp : n ∈ (c.tree.info p).params
        · rw [if_pos (by simpa using hp)]
          cases ex
          · simp [hp]
          · simp [hp]
        · rw [if_neg (by simpa using hp), mem_say]
          simp [hp]
    have ho : (l', eff) ∈ orderEvents l p (any || e.kwarg.isSome) e ↔ l' = l ∧ any = true ∧ e.kwarg = none ∧
        ¬ (p.ty = 0 ∧ p.name = "animate") ∧ eff = .msg (.kwargOrder p) := by
      unfold orderEvents
      cases hkw : e.kwarg with
      | none =>
        cases any
        · simp
        · by_cases ha : p.ty = 0 ∧ p.name = "animate"
          · obtain ⟨h1, h2⟩ := ha
            simp [h1, h2]
          · rw [if_pos (by simpa using Decidable.not_and_iff_not_or_not.1 ha), mem_say]
            simp only [true_and]
            constructor
            · rintro ⟨h1, h2⟩; exact ⟨h1, ha, h2⟩
            · rintro ⟨h1, _, h2⟩; exact ⟨h1, h2⟩
      | some n => simp
    rw [hk, ho]
    constructor
    · rintro ((((⟨rfl, h⟩ | ⟨rfl, h1, h2, h3, h4⟩) | h) | h))
      · refine .inl ⟨rfl, ?_⟩
        rcases h with ⟨n, h1, h2, h3⟩ | ⟨n, h0, h1, h2, h3⟩
        · exact .inl ⟨e, n, List.mem_cons_self, h1, h2, h3⟩
        · exact .inr (.inl ⟨e, n, h0, List.mem_cons_self, h1, h2, h3⟩)
      · exact .inl ⟨rfl, .inr (.inr ⟨[], e, es, rfl, .inl h1, h2, h3, h4⟩)⟩
      · exact .inr (.inl h)
      · rcases h with ⟨rfl, h⟩ | h
        · refine .inl ⟨rfl, ?_⟩
          rcases h with ⟨x, n, hx, h1, h2, h3⟩ | ⟨x, n, h0, hx, h1, h2, h3⟩ | ⟨pre, x, post, rfl, ha, h1, h2, h3⟩
          · exact .inl ⟨x, n, List.mem_cons_of_mem _ hx, h1, h2, h3⟩
          · exact .inr (.inl ⟨x, n, h0, List.mem_cons_of_mem _ hx, h1, h2, h3⟩)
          · refine .inr (.inr ⟨e :: pre, x, post, rfl, ?_, h1, h2, h3⟩)
            rcases ha with ha | ⟨y, hy, hyk⟩
            · simp only [Bool.or_eq_true] at ha
              rcases ha with ha | ha
              · exact .inl ha
              · exact .inr ⟨e, List.mem_cons_self, by intro h; rw [h] at ha; cases ha⟩
            · exact .inr ⟨y, List.mem_cons_of_mem _ hy, hyk⟩
        · exact .inr (.inr h)
    · rintro (⟨rfl, h⟩ | h | h)
      · rcases h with ⟨x, n, hx, h1, h2, h3⟩ | ⟨x, n, h0, hx, h1, h2, h3⟩ | ⟨pre, x, post, he, ha, h1, h2, h3⟩
        · rcases List.mem_cons.1 hx with rfl | hx
          · exact .inl (.inl (.inl ⟨rfl, .inl ⟨n, h1, h2, h3⟩⟩))
          · exact .inr (.inl ⟨rfl, .inl ⟨x, n, hx, h1, h2, h3⟩⟩)
        · rcases List.mem_cons.1 hx with rfl | hx
          · exact .inl (.inl (.inl ⟨rfl, .inr ⟨n, h0, h1, h2, h3⟩⟩))
          · exact .inr (.inl ⟨rfl, .inr (.inl ⟨x, n, h0, hx, h1, h2, h3⟩)⟩)
        · cases pre with
          | nil =>
            cases he
            rcases ha with ha | ⟨y, hy, _⟩
            · exact .inl (.inl (.inr ⟨rfl, ha, h1, h2, h3⟩))
            · cases hy
          | cons z pre =>
            cases he
            refine .inr (.inl ⟨rfl, .inr (.inr ⟨pre, x, post, rfl, ?_, h1, h2, h3⟩)⟩)
            rcases ha with ha | ⟨y, hy, hyk⟩
            · left; simp [ha]
            · rcases List.mem_cons.1 hy with rfl | hy
              · left
                cases hz : y.kwarg with
                | none => exact absurd hz hyk
                | some _ => simp
              · exact .inr ⟨y, hy, hyk⟩
      · exact .inl (.inr h)
      · exact .inr (.inr h)

theorem mem_visitArgs (c : Ctx) (l l' : Loc) (eff : Effect) : ∀ es : Exprs,
    (∃ v ∈ visitArgs c l es, (l', eff) ∈ v.2) ↔
      ∃ e ∈ es.toList, ∃ v, ArgValue e v ∧ (l', eff) ∈ (visitExpr c l none v).2
  | .nil => by rw [visitArgs]; simp [Exprs.toList]
  | .cons e es => by
    rw [visitArgs_cons, Exprs.toList]
    simp only [List.mem_cons, exists_eq_or_imp, mem_visitArgs c l l' eff es]
    have : (l', eff) ∈ (visitArg c l e).2 ↔ ∃ v, ArgValue e v ∧ (l', eff) ∈ (visitExpr c l none v).2 := by
      constructor
      · intro h
        obtain ⟨v, hv⟩ := argValue_exists e
        rw [visitArg_eq c l hv] at h
        exact ⟨v, hv, h⟩
      · rintro ⟨v, hv, h⟩
        rw [visitArg_eq c l hv]
        exact h
    rw [this]

theorem mem_flatArgs (c : Ctx) (l l' : Loc) (eff : Effect) (es : Exprs) :
    (l', eff) ∈ (visitArgs c l es).flatMap Prod.snd ↔
      ∃ e ∈ es.toList, ∃ v, ArgValue e v ∧ (l', eff) ∈ (visitExpr c l none v).2 := by
  rw [← mem_visitArgs, List.mem_flatMap]

theorem mem_visitAll (c : Ctx) (l l' : Loc) (eff : Effect) : ∀ es : Exprs,
    (l', eff) ∈ visitAll c l es ↔ ∃ e ∈ es.toList, (l', eff) ∈ (visitExpr c l none e).2
  | .nil => by rw [visitAll]; simp [Exprs.toList]
  | .cons e es => by
    rw [visitAll, Exprs.toList]
    simp only [List.mem_append, List.mem_cons, exists_eq_or_imp, mem_visitAll c l l' eff es]

theorem toList_nil {es : Exprs} : es.toList = [] ↔ es = .nil := by
  cases es <;> simp [Exprs.toList]

theorem mem_findEvents (c : Ctx) (l l' : Loc) (p : Proc) (es : Exprs) (eff : Effect) :
    (l', eff) ∈ findEvents c l p es.toList ↔ l' = l ∧ eff = .msg .emptyFind ∧ es = .nil ∧
      (c.tree.info p).builtin = true ∧ p.name = "Find" ∧ (c.tree.path p.ty = ["list"] ∨ c.tree.path p.ty = ["alist"]) := by
  unfold findEvents
  split
  · rename_i h
    rw [mem_say]
    simp only [Bool.and_eq_true, List.isEmpty_iff, beq_iff_eq, Bool.or_eq_true] at h
    obtain ⟨⟨⟨h1, h2⟩, h3⟩, h4⟩ := h
    constructor
    · rintro ⟨rfl, rfl⟩; exact ⟨rfl, rfl, toList_nil.1 h2, h1, h3, h4⟩
    · rintro ⟨rfl, rfl, _⟩; exact ⟨rfl, rfl⟩
  · rename_i h
    constructor
    · intro h'; cases h'
    · rintro ⟨_, _, rfl, h1, h3, h4⟩
      refine absurd ?_ h
      simp only [Bool.and_eq_true, List.isEmpty_iff, beq_iff_eq, Bool.or_eq_true]
      exact ⟨⟨⟨h1, rfl⟩, h3⟩, h4⟩

theorem mem_returnType (c : Ctx) (l l' : Loc) (p : Proc) (hl : es.length = vs.length) (eff : Effect) :
    (l', eff) ∈ (returnType c l p es vs).2 ↔ l' = l ∧ ∃ t path, ¬ (p.ty = 0 ∧ (c.tree.info p).builtin = true) ∧
      c.returns p = some t ∧ MeansMissing c.tree (Given es vs) t path ∧ eff = .msg (.undefinedType path) := by
  unfold returnType
  by_cases hb : p.ty = 0 ∧ (c.tree.info p).builtin = true
  · obtain ⟨h0, h1⟩ := id hb
    simp only [h0, h1, beq_self_eq_true, Bool.and_self, if_true]
    constructor
    · intro h; cases h
    · rintro ⟨_, _, _, h, _⟩; exact absurd ⟨trivial, trivial⟩ h
  · have hb' : (p.ty == 0 && (c.tree.info p).builtin) = false := by simpa using hb
    simp only [hb', Bool.false_eq_true, if_false]
    cases hr : c.returns p with
    | none =>
      simp only []
      constructor
      · intro h; cases h
      · rintro ⟨_, _, _, _, h, _⟩; cases h
    | some t =>
      simp only []
      obtain ⟨_, _, e3⟩ := eval_iff c.tree (argOf es vs) (Given es vs) (argOf_iff hl) t
      cases hev : t.eval c.tree (argOf es vs) with
      | ok s =>
        simp only []
        constructor
        · intro h; cases h
        · rintro ⟨_, t', path, _, h, hm, _⟩
          cases h
          rw [(e3 path).2 hm] at hev; cases hev
      | error q =>
        simp only []
        rw [mem_say]
        constructor
        · rintro ⟨rfl, rfl⟩; exact ⟨rfl, t, q, hb, rfl, (e3 q).1 hev, rfl⟩
        · rintro ⟨rfl, t', path, _, h, hm, rfl⟩
          cases h
          rw [(e3 path).2 hm] at hev; cases hev
          exact ⟨rfl, rfl⟩

/-- What is inside the arguments of a call. -/
def ArgEvents (c : Ctx) (l : Loc) (es : Exprs) (l' : Loc) (eff : Effect) : Prop :=
  ∃ e ∈ es.toList, ∃ v, ArgValue e v ∧ (l', eff) ∈ (visitExpr c l none v).2

/-- What is reported before the type of a call is looked for. -/
theorem mem_head (c : Ctx) (l l' : Loc) (src : Nat) (p : Proc) (ex inh : Bool) (es : Exprs) (eff : Effect) :
    (l', eff) ∈ (l, Effect.call ⟨p, c.newContext, src, ex, inh⟩) ::
      (match c.privateBy p with
        | some q => if c.ty != q.ty then say l (.privateProc q) else []
        | none => []) ++ argEvents c l src p ex false es.toList (visitArgs c l es) ↔
    (l' = l ∧ (eff = .call ⟨p, c.newContext, src, ex, inh⟩ ∨
      (∃ q, c.privateBy p = some q ∧ q.ty ≠ c.ty ∧ eff = .msg (.privateProc q)) ∨
      ArgDue c src p ex false es.toList eff)) ∨ ArgEvents c l es l' eff := by
  rw [List.mem_append, List.mem_cons, argEvents_iff c l l' src p ex eff _ _ false (visitArgs_length c l es).symm,
    mem_visitArgs]
  have hp : ((l', eff) ∈ (match c.privateBy p with
        | some q => if c.ty != q.ty then say l (.privateProc q) else []
        | none => [])) ↔ l' = l ∧ ∃ q, c.privateBy p = some q ∧ q.ty ≠ c.ty ∧ eff = .msg (.privateProc q) := by
    cases hq : c.privateBy p with
    | none => simp
    | some q =>
      simp only []
      by_cases hne : q.ty = c.ty
      · simp [hne]
      · rw [if_pos (by simpa using fun h => hne h.symm), mem_say]
        simp [hne]
  rw [hp]
  simp only [Prod.mk.injEq]
  constructor
  · rintro ((⟨h1, h2⟩ | ⟨h1, h2⟩) | (⟨h1, h2⟩ | h))
    · exact .inl ⟨h1, .inl h2⟩
    · exact .inl ⟨h1, .inr (.inl h2)⟩
    · exact .inl ⟨h1, .inr (.inr h2)⟩
    · exact .inr h
  · rintro (⟨h1, h2 | h2 | h2⟩ | h)
    · exact .inl (.inl ⟨h1, h2⟩)
    · exact .inl (.inr ⟨h1, h2⟩)
    · exact .inr (.inl ⟨h1, h2⟩)
    · exact .inr (.inr h)

/-- The effects of a call are those due, and those inside its arguments. -/
theorem call_events (c : Ctx) (l l' : Loc) (src : Nat) (p : Proc) (ex inh : Bool) (es : Exprs) (eff : Effect) :
    (l', eff) ∈ (visitCall c l src p ex inh es.toList (visitArgs c l es)).2 ↔
      (l' = l ∧ CallDue c src p ex inh es eff) ∨ ArgEvents c l es l' eff := by
  have hl : es.toList.length = ((visitArgs c l es).map Prod.fst).length := by
    rw [List.length_map, visitArgs_length]
  have hargs : ∀ vs, ArgsAre c es vs ↔ vs = (visitArgs c l es).map Prod.fst := argsAre_iff c es l
  have hhead := mem_head c l l' src p ex inh es eff
  generalize hv : (visitArgs c l es).map Prod.fst = vs at hl hargs
  unfold visitCall
  simp only [hv]
  generalize hH : ((l, Effect.call ⟨p, c.newContext, src, ex, inh⟩) ::
      (match c.privateBy p with
        | some q => if c.ty != q.ty then say l (.privateProc q) else []
        | none => []) ++ argEvents c l src p ex false es.toList (visitArgs c l es)) = H at hhead
  have hbase : (eff = .call ⟨p, c.newContext, src, ex, inh⟩ ∨
      (∃ q, c.privateBy p = some q ∧ q.ty ≠ c.ty ∧ eff = .msg (.privateProc q)) ∨
      ArgDue c src p ex false es.toList eff) → CallDue c src p ex inh es eff := by
    rintro (rfl | ⟨q, h1, h2, rfl⟩ | ⟨e, n, h1, h2, h3, rfl⟩ | ⟨e, n, h0, h1, h2, h3, rfl⟩ | ⟨pre, e, post, h0, h1, h2, h3, rfl⟩)
    · exact .edge
    · exact .privateCall h1 h2
    · exact .badKwarg h1 h2 h3
    · exact .usesKwarg h0 h1 h2 h3
    · rcases h1 with h1 | ⟨x, hx, hk⟩
      · cases h1
      · exact .kwargOrder h0 hx hk h2 h3
  have hsplit : CallDue c src p ex inh es eff ↔
      (eff = .call ⟨p, c.newContext, src, ex, inh⟩ ∨
      (∃ q, c.privateBy p = some q ∧ q.ty ≠ c.ty ∧ eff = .msg (.privateProc q)) ∨
      ArgDue c src p ex false es.toList eff) ∨
      (eff = .msg .emptyFind ∧ es = .nil ∧
      (c.tree.info p).builtin = true ∧ p.name = "Find" ∧ (c.tree.path p.ty = ["list"] ∨ c.tree.path p.ty = ["alist"])) ∨
      (p.ty = 0 ∧ p.name = "filter" ∧ ∃ m, eff = .msg m ∧ FilterDue es.toList vs m) ∨
      (¬ Casts p es.toList vs ∧ ¬ (p.ty = 0 ∧ p.name = "filter" ∧ BadFilter es.toList vs) ∧
        ∃ t path, ¬ (p.ty = 0 ∧ (c.tree.info p).builtin = true) ∧
        c.returns p = some t ∧ MeansMissing c.tree (Given es.toList vs) t path ∧ eff = .msg (.undefinedType path)) := by
    constructor
    · intro h
      cases h with
      | edge => exact .inl (.inl rfl)
      | privateCall h1 h2 => exact .inl (.inr (.inl ⟨_, h1, h2, rfl⟩))
      | badKwarg h1 h2 h3 => exact .inl (.inr (.inr (.inl ⟨_, _, h1, h2, h3, rfl⟩)))
      | usesKwarg h0 h1 h2 h3 => exact .inl (.inr (.inr (.inr (.inl ⟨_, _, h0, h1, h2, h3, rfl⟩))))
      | kwargOrder h0 h1 h2 h3 h4 =>
        exact .inl (.inr (.inr (.inr (.inr ⟨_, _, _, h0, .inr ⟨_, h1, h2⟩, h3, h4, rfl⟩))))
      | emptyFind h1 h2 h3 h4 => exact .inr (.inl ⟨rfl, h1, h2, h3, h4⟩)
      | filter h1 h2 h3 h4 => cases (hargs _).1 h3; exact .inr (.inr (.inl ⟨h1, h2, _, rfl, h4⟩))
      | returnType h1 h2 h3 h4 h5 h6 =>
        cases (hargs _).1 h1; exact .inr (.inr (.inr ⟨h2, h3, _, _, h4, h5, h6, rfl⟩))
    · rintro (h | ⟨rfl, h1, h2, h3, h4⟩ | ⟨h1, h2, m, rfl, h3⟩ | ⟨h2, h3, t, path, h4, h5, h6, rfl⟩)
      · exact hbase h
      · exact .emptyFind h1 h2 h3 h4
      · exact .filter h1 h2 ((hargs _).2 rfl) h3
      · exact .returnType ((hargs _).2 rfl) h2 h3 h4 h5 h6
  rw [hsplit]
  cases ha : astype c p es.toList vs with
  | some a =>
    simp only []
    have hc : Casts p es.toList vs := by
      refine Classical.byContradiction fun hc => ?_
      rw [(astype_none c p).2 hc] at ha; cases ha
    obtain ⟨hc0, hc1, _⟩ := id hc
    rw [hhead]
    constructor
    · rintro (⟨h1, h2⟩ | h)
      · exact .inl ⟨h1, .inl h2⟩
      · exact .inr h
    · rintro (⟨h1, h2 | ⟨_, _, _, h2, _⟩ | ⟨_, h2, _⟩ | ⟨h2, _⟩⟩ | h)
      · exact .inl ⟨h1, h2⟩
      · rw [hc1] at h2; exact absurd h2 (by decide)
      · rw [hc1] at h2; exact absurd h2 (by decide)
      · exact absurd hc h2
      · exact .inr h
  | none =>
    have hnc := (astype_none c p).1 ha
    simp only []
    have hfilter : ∀ f : List Ev × Bool,
        f = (if p.ty == 0 && p.name == "filter" then filterEvents l es.toList vs else ([], false)) →
        ((l', eff) ∈ f.1 ↔ l' = l ∧ p.ty = 0 ∧ p.name = "filter" ∧ ∃ m, eff = .msg m ∧ FilterDue es.toList vs m) ∧
        (f.2 = true ↔ p.ty = 0 ∧ p.name = "filter" ∧ BadFilter es.toList vs) := by
      rintro f rfl
      by_cases h : p.ty = 0 ∧ p.name = "filter"
      · obtain ⟨h1, h2⟩ := h
        simp only [h1, h2, beq_self_eq_true, Bool.and_self, if_true, true_and]
        exact ⟨filterEvents_iff hl l l' eff, filterEvents_stop hl l⟩
      · have h' : (p.ty == 0 && p.name == "filter") = false := by simpa using h
        simp only [h', Bool.false_eq_true, if_false]
        constructor
        · constructor
          · intro h; cases h
          · rintro ⟨_, h1, h2, _⟩; exact absurd ⟨h1, h2⟩ h
        · constructor
          · intro h; cases h
          · rintro ⟨h1, h2, _⟩; exact absurd ⟨h1, h2⟩ h
    generalize hf : (if p.ty == 0 && p.name == "filter" then filterEvents l es.toList vs else ([], false)) = f
    obtain ⟨f1, f2⟩ := hfilter f hf.symm
    split
    · rename_i hstop
      have hstop' := f2.1 hstop
      simp only [List.mem_append]
      rw [hhead, mem_findEvents, f1]
      constructor
      · rintro (((⟨h1, h2⟩ | h) | ⟨h1, h2⟩) | ⟨h1, h2⟩)
        · exact .inl ⟨h1, .inl h2⟩
        · exact .inr h
        · exact .inl ⟨h1, .inr (.inl h2)⟩
        · exact .inl ⟨h1, .inr (.inr (.inl h2))⟩
      · rintro (⟨h1, h2 | h2 | h2 | ⟨_, h2, _⟩⟩ | h)
        · exact .inl (.inl (.inl ⟨h1, h2⟩))
        · exact .inl (.inr ⟨h1, h2⟩)
        · exact .inr ⟨h1, h2⟩
        · exact absurd hstop' h2
        · exact .inl (.inl (.inr h))
    · rename_i hstop
      have hstop' : ¬ (p.ty = 0 ∧ p.name = "filter" ∧ BadFilter es.toList vs) := fun h => hstop (f2.2 h)
      simp only [List.mem_append]
      rw [hhead, mem_findEvents, f1, mem_returnType c l l' p hl eff]
      constructor
      · rintro ((((⟨h1, h2⟩ | h) | ⟨h1, h2⟩) | ⟨h1, h2⟩) | ⟨h1, h2⟩)
        · exact .inl ⟨h1, .inl h2⟩
        · exact .inr h
        · exact .inl ⟨h1, .inr (.inl h2)⟩
        · exact .inl ⟨h1, .inr (.inr (.inl h2))⟩
        · exact .inl ⟨h1, .inr (.inr (.inr ⟨hnc, hstop', h2⟩))⟩
      · rintro (⟨h1, h2 | h2 | h2 | ⟨_, _, h2⟩⟩ | h)
        · exact .inl (.inl (.inl (.inl ⟨h1, h2⟩)))
        · exact .inl (.inl (.inr ⟨h1, h2⟩))
        · exact .inl (.inr ⟨h1, h2⟩)
        · exact .inr ⟨h1, h2⟩
        · exact .inl (.inl (.inl (.inr h)))

end Verif.Typing
