import Verif.Typing.Effects

/-!
# C79: the messages of DreamChecker about an expression are exactly those that are due
-/

namespace Verif.Typing

theorem sizeOf_mem_exprs : ∀ {es : Exprs} {e : Expr}, e ∈ es.toList → sizeOf e < sizeOf es
  | .nil, e, h => by cases h
  | .cons x xs, e, h => by
    rw [Exprs.toList] at h
    rcases List.mem_cons.1 h with rfl | h
    · simp only [Exprs.cons.sizeOf_spec]; omega
    · have := sizeOf_mem_exprs h
      simp only [Exprs.cons.sizeOf_spec]; omega

theorem sizeOf_argValue {e v : Expr} (h : ArgValue e v) : sizeOf v ≤ sizeOf e := by
  cases h with
  | plain _ => exact Nat.le_refl _
  | keyword _ => simp only [Expr.assign.sizeOf_spec]; omega

theorem sizeOf_arg {es : Exprs} {e v : Expr} (h : e ∈ es.toList) (hv : ArgValue e v) : sizeOf v < sizeOf es := by
  have := sizeOf_mem_exprs h
  have := sizeOf_argValue hv
  omega

theorem sizeOf_opens_term {c : Ctx} {l : Loc} {h k : Option Nat} {t : Term} {e : Expr}
    (ho : Opens c (.term l h t) k e) : sizeOf e < sizeOf t := by
  cases ho with
  | arg hm hx hv =>
    have := sizeOf_arg hx hv
    cases hm <;> simp +arith only [Term.call.sizeOf_spec, Term.selfCall.sizeOf_spec, Term.parentCall.sizeOf_spec,
      Term.globalCall.sizeOf_spec, Term.newImplicit.sizeOf_spec, Term.newPrefab.sizeOf_spec] <;> omega
  | paren => simp only [Term.expr.sizeOf_spec]; omega
  | interp hx => have := sizeOf_mem_exprs hx; simp only [Term.interp.sizeOf_spec]; omega
  | debug _ hx => have := sizeOf_mem_exprs hx; simp only [Term.call.sizeOf_spec]; omega
  | list hx hv => have := sizeOf_arg hx hv; simp only [Term.list.sizeOf_spec]; omega
  | input hx hv => have := sizeOf_arg hx hv; simp only [Term.input.sizeOf_spec]; omega
  | inputIn hx => have := sizeOf_mem_exprs hx; simp only [Term.input.sizeOf_spec]; omega
  | locate hx hv => have := sizeOf_arg hx hv; simp only [Term.locate.sizeOf_spec]; omega
  | locateIn hx => have := sizeOf_mem_exprs hx; simp only [Term.locate.sizeOf_spec]; omega
  | pick hx => have := sizeOf_mem_exprs hx; simp only [Term.pick.sizeOf_spec]; omega
  | dynLhs hx hv => have := sizeOf_arg hx hv; simp only [Term.dynCall.sizeOf_spec]; omega
  | dynRhs hx hv => have := sizeOf_arg hx hv; simp only [Term.dynCall.sizeOf_spec]; omega
  | extLib hx => have := sizeOf_mem_exprs hx; simp only [Term.extCall.sizeOf_spec]; omega
  | extFn => simp only [Term.extCall.sizeOf_spec]; omega
  | extArg hx hv => have := sizeOf_arg hx hv; simp only [Term.extCall.sizeOf_spec]; omega

theorem sizeOf_opens_follow {c : Ctx} {l : Loc} {a : An} {k : Option Nat} {f : Follow} {e : Expr}
    (ho : Opens c (.follow l a f) k e) : sizeOf e < sizeOf f := by
  cases ho with
  | arg hm hx hv =>
    have := sizeOf_arg hx hv
    cases hm with
    | method _ _ _ _ => simp only [Follow.call.sizeOf_spec]; omega
    | incr _ _ _ => cases hx
    | decr _ _ _ => cases hx
  | index => simp only [Follow.index.sizeOf_spec]; omega
  | uncheckedArg _ hx hv => have := sizeOf_arg hx hv; simp only [Follow.call.sizeOf_spec]; omega

theorem sizeOf_along {c : Ctx} {fs : Follows} {a b : An} {l : Loc} {f : Follow} (h : Along c a fs l b f) :
    sizeOf f < sizeOf fs := by
  induction h with
  | head => simp only [Follows.cons.sizeOf_spec]; omega
  | tail _ _ ih => simp only [Follows.cons.sizeOf_spec]; omega

theorem mem_shift (c : Ctx) (l l' : Loc) (op : BinaryOp) (a : An) (eff : Effect) :
    (l', eff) ∈ shiftEvents c l op a ↔ l' = l ∧ op = .lshift ∧
      ((a.st = .type (c.tree.expect "mob") ∧ eff = .impure "LShift onto mob") ∨
      (a.st = .type (c.tree.expect "savefile") ∧ c.tree.expect "savefile" ≠ c.tree.expect "mob" ∧
        eff = .impure "LShift onto savefile") ∨
      (a.st = .type (c.tree.expect "list") ∧ c.tree.expect "list" ≠ c.tree.expect "mob" ∧
        c.tree.expect "list" ≠ c.tree.expect "savefile" ∧ eff = .impure "LShift onto list")) := by
  unfold shiftEvents
  by_cases hop : op = .lshift
  · subst hop
    simp only [beq_self_eq_true, if_true, true_and, beq_iff_eq]
    by_cases h1 : a.st = .type (c.tree.expect "mob")
    · rw [if_pos h1]
      simp only [List.mem_singleton, Prod.mk.injEq]
      constructor
      · rintro ⟨h2, h3⟩; exact ⟨h2, .inl ⟨h1, h3⟩⟩
      · rintro ⟨h2, ⟨_, h3⟩ | ⟨h3, h4, _⟩ | ⟨h3, h4, _⟩⟩
        · exact ⟨h2, h3⟩
        · rw [h1] at h3; exact absurd (STy.type.inj h3).symm h4
        · rw [h1] at h3; exact absurd (STy.type.inj h3).symm h4
    · rw [if_neg h1]
      by_cases h2 : a.st = .type (c.tree.expect "savefile")
      · rw [if_pos h2]
        simp only [List.mem_singleton, Prod.mk.injEq]
        constructor
        · rintro ⟨h3, h4⟩
          exact ⟨h3, .inr (.inl ⟨h2, fun h => h1 (by rw [h2, h]), h4⟩)⟩
        · rintro ⟨h3, ⟨h4, _⟩ | ⟨_, _, h4⟩ | ⟨h4, _, h5, _⟩⟩
          · exact absurd h4 h1
          · exact ⟨h3, h4⟩
          · rw [h2] at h4
            exact absurd (STy.type.inj h4).symm h5
      · rw [if_neg h2]
        by_cases h3 : a.st = .type (c.tree.expect "list")
        · rw [if_pos h3]
          simp only [List.mem_singleton, Prod.mk.injEq]
          constructor
          · rintro ⟨h4, h5⟩
            exact ⟨h4, .inr (.inr ⟨h3, fun h => h1 (by rw [h3, h]), fun h => h2 (by rw [h3, h]), h5⟩)⟩
          · rintro ⟨h4, ⟨h5, _⟩ | ⟨h5, _⟩ | ⟨_, _, _, h5⟩⟩
            · exact absurd h5 h1
            · exact absurd h5 h2
            · exact ⟨h4, h5⟩
        · rw [if_neg h3]
          constructor
          · intro h; cases h
          · rintro ⟨_, ⟨h5, _⟩ | ⟨h5, _⟩ | ⟨h5, _⟩⟩
            · exact absurd h5 h1
            · exact absurd h5 h2
            · exact absurd h5 h3
  · have : (op == .lshift) = false := by simpa using hop
    simp [this, hop]

theorem mem_in (l l' : Loc) (op : BinaryOp) (x : Expr) (eff : Effect) :
    (l', eff) ∈ inEvents l op x ↔ l' = l ∧ op = .isIn ∧ eff = .msg .ambiguousIn ∧
      ((∃ tl t fs g u, x = .base tl t fs ∧ (g, Follow.unary u) ∈ fs.toList) ∨ ∀ tl t fs, x ≠ .base tl t fs) := by
  unfold inEvents
  by_cases hop : op = .isIn
  · subst hop
    simp only [beq_self_eq_true, if_true, true_and]
    have nb : (∀ tl t fs, x ≠ .base tl t fs) → ((l', eff) ∈ say l .ambiguousIn ↔ l' = l ∧ eff = .msg .ambiguousIn ∧
        ((∃ tl t fs g u, x = .base tl t fs ∧ (g, Follow.unary u) ∈ fs.toList) ∨ ∀ tl t fs, x ≠ .base tl t fs)) := by
      intro h
      rw [mem_say]
      exact ⟨fun ⟨h1, h2⟩ => ⟨h1, h2, .inr h⟩, fun ⟨h1, h2, _⟩ => ⟨h1, h2⟩⟩
    cases x with
    | base tl t fs =>
      simp only []
      split
      · rename_i hany
        rw [mem_say]
        obtain ⟨⟨g, f⟩, hm, hf⟩ := List.any_eq_true.1 hany
        constructor
        · rintro ⟨h1, h2⟩
          refine ⟨h1, h2, .inl ⟨tl, t, fs, g, ?_⟩⟩
          cases f with
          | unary u => exact ⟨u, rfl, hm⟩
          | _ => cases hf
        · rintro ⟨h1, h2, _⟩; exact ⟨h1, h2⟩
      · rename_i hany
        constructor
        · intro h; cases h
        · rintro ⟨_, _, ⟨_, _, _, g, u, he, hm⟩ | h⟩
          · cases he
            exact absurd (List.any_eq_true.2 ⟨_, hm, rfl⟩) hany
          · exact absurd rfl (h tl t fs)
    | binary _ _ _ => exact nb (by nofun)
    | assign _ _ _ => exact nb (by nofun)
    | ternary _ _ _ => exact nb (by nofun)
  · have : (op == .isIn) = false := by simpa using hop
    simp [this, hop]

theorem mem_not (l l' : Loc) (op : BinaryOp) (x : Expr) (eff : Effect) :
    (l', eff) ∈ notEvents l op x ↔ l' = l ∧ (op = .bitAnd ∨ op = .bitOr ∨ op = .bitXor) ∧ eff = .msg .ambiguousNot ∧
      (∃ tl t fs g, x = .base tl t fs ∧ (g, Follow.unary .not) ∈ fs.toList) := by
  unfold notEvents
  by_cases hop : op = .bitAnd ∨ op = .bitOr ∨ op = .bitXor
  · have : (op == .bitAnd || op == .bitOr || op == .bitXor) = true := by rcases hop with rfl | rfl | rfl <;> rfl
    simp only [this, if_true, hop, true_and]
    cases x with
    | base tl t fs =>
      simp only []
      split
      · rename_i hany
        rw [mem_say]
        obtain ⟨⟨g, f⟩, hm, hf⟩ := List.any_eq_true.1 hany
        constructor
        · rintro ⟨h1, h2⟩
          refine ⟨h1, h2, tl, t, fs, g, rfl, ?_⟩
          cases f with
          | unary u => cases u <;> first | exact hm | cases hf
          | _ => cases hf
        · rintro ⟨h1, h2, _⟩; exact ⟨h1, h2⟩
      · rename_i hany
        constructor
        · intro h; cases h
        · rintro ⟨_, _, _, _, _, g, he, hm⟩
          cases he
          exact absurd (List.any_eq_true.2 ⟨_, hm, rfl⟩) hany
    | binary _ _ _ => simp
    | assign _ _ _ => simp
    | ternary _ _ _ => simp
  · have : ¬ (op == .bitAnd || op == .bitOr || op == .bitXor) = true := by
      intro h
      simp only [Bool.or_eq_true, beq_iff_eq] at h
      exact hop (by rcases h with (h | h) | h <;> simp [h])
    rw [if_neg this]
    constructor
    · intro h; cases h
    · rintro ⟨_, h, _⟩; exact absurd h hop

/-- The effects of a binary operator itself. -/
theorem binary_events (c : Ctx) (l l' : Loc) (op : BinaryOp) (x y : Expr) (a : An) (eff : Effect)
    (ha : op = .lshift → ∀ b, ExprIs c none x b ↔ b = a) :
    (l', eff) ∈ inEvents l op x ∨ (l', eff) ∈ shiftEvents c l op a ∨ (l', eff) ∈ notEvents l op x ↔
      l' = l ∧ Due c (.node l (.binary op x y)) eff := by
  rw [mem_in, mem_shift, mem_not]
  constructor
  · rintro (⟨h1, rfl, rfl, ⟨tl, t, fs, g, u, rfl, hm⟩ | h⟩ | ⟨h1, rfl, h⟩ | ⟨h1, h2, rfl, tl, t, fs, g, rfl, hm⟩)
    · exact ⟨h1, .ambiguousIn hm⟩
    · exact ⟨h1, .ambiguousIn' h⟩
    · have hx := (ha rfl a).2 rfl
      rcases h with ⟨h2, rfl⟩ | ⟨h2, h3, rfl⟩ | ⟨h2, h3, h4, rfl⟩
      · exact ⟨h1, .shiftMob hx h2⟩
      · exact ⟨h1, .shiftSavefile hx h2 h3⟩
      · exact ⟨h1, .shiftList hx h2 h3 h4⟩
    · exact ⟨h1, .ambiguousNot h2 hm⟩
  · rintro ⟨h1, hd⟩
    cases hd with
    | ambiguousIn hm => exact .inl ⟨h1, rfl, rfl, .inl ⟨_, _, _, _, _, rfl, hm⟩⟩
    | ambiguousIn' h => exact .inl ⟨h1, rfl, rfl, .inr h⟩
    | ambiguousNot h2 hm => exact .inr (.inr ⟨h1, h2, rfl, _, _, _, _, rfl, hm⟩)
    | shiftMob hx h2 => cases (ha rfl _).1 hx; exact .inr (.inl ⟨h1, rfl, .inl ⟨h2, rfl⟩⟩)
    | shiftSavefile hx h2 h3 => cases (ha rfl _).1 hx; exact .inr (.inl ⟨h1, rfl, .inr (.inl ⟨h2, h3, rfl⟩)⟩)
    | shiftList hx h2 h3 h4 => cases (ha rfl _).1 hx; exact .inr (.inl ⟨h1, rfl, .inr (.inr ⟨h2, h3, h4, rfl⟩)⟩)
    | call hm _ => cases hm

/-- The effects of an assignment itself. -/
theorem assign_events (c : Ctx) (l l' : Loc) (op : AssignOp) (x y : Expr) (a : An) (eff : Effect)
    (ha : ∀ b, ExprIs c none x b ↔ b = a) :
    (l', eff) ∈ (if a.impure then [(l, Effect.impure "Assignment on purity breaking expression")] else []) ↔
      l' = l ∧ Due c (.node l (.assign op x y)) eff := by
  constructor
  · intro h
    split at h
    · rename_i hi
      simp only [List.mem_singleton, Prod.mk.injEq] at h
      obtain ⟨h1, rfl⟩ := h
      exact ⟨h1, .impureAssign ((ha _).2 rfl) hi⟩
    · cases h
  · rintro ⟨h1, hd⟩
    cases hd with
    | impureAssign hx hi => cases (ha _).1 hx; rw [if_pos hi, h1]; exact List.mem_singleton.2 rfl
    | call hm _ => cases hm

/-- Every effect that is due at a site of the expression happens. -/
theorem effects_complete (c : Ctx) {l : Loc} {h : Option Nat} {e : Expr} {s : Site} {eff : Effect} (hs : At c l h e s)
    (hd : Due c s eff) : (s.loc, eff) ∈ (visitExpr c l h e).2 := by
  have hb : ∀ {l tl : Loc} {h : Option Nat} {t : Term} {fs : Follows} {x : Ev},
      x ∈ (visitTerm c tl (termHint h fs) t).2 ∨ x ∈ (visitFollows c (visitTerm c tl (termHint h fs) t).1 fs).2 →
      x ∈ (visitExpr c l h (.base tl t fs)).2 := by
    intro l tl h t fs x hx
    rw [visitExpr_base]
    exact List.mem_append.2 hx
  induction hs with
  | term => exact hb (.inl ((term_events c _ _ _ _ _).2 (.inl ⟨rfl, hd⟩)))
  | follow ht ha =>
    rw [(termIs_iff c _ _ _ _).1 ht] at ha
    exact hb (.inr ((follows_events c _ _ _ _).2 ⟨_, _, _, ha, (follow_events c _ _ _ _ _).2 (.inl ⟨rfl, hd⟩)⟩))
  | inTerm ho _ ih => exact hb (.inl ((term_events c _ _ _ _ _).2 (.inr ⟨_, _, ho, ih hd⟩)))
  | inFollow ht ha ho _ ih =>
    rw [(termIs_iff c _ _ _ _).1 ht] at ha
    exact hb (.inr ((follows_events c _ _ _ _).2 ⟨_, _, _, ha, (follow_events c _ _ _ _ _).2 (.inr ⟨_, _, ho, ih hd⟩)⟩))
  | @binary l h op x y =>
    rw [visitExpr]
    simp only [List.mem_append]
    have := (binary_events c l l op x y (visitExpr c l (if op == .or then h else none) x).1 eff (by
      rintro rfl b; exact exprIs_iff c x l none b)).2 ⟨rfl, hd⟩
    rcases this with h | h | h
    · exact .inl (.inl (.inl (.inl h)))
    · exact .inl (.inl (.inr h))
    · exact .inr h
  | @assign l h op x y =>
    rw [visitExpr]
    simp only [List.mem_append]
    exact .inl (.inr ((assign_events c l l op x y _ eff (exprIs_iff c x l none)).2 ⟨rfl, hd⟩))
  | orLeft _ ih =>
    rw [visitExpr]
    simp only [List.mem_append, beq_self_eq_true, if_true]
    exact .inl (.inl (.inl (.inr (ih hd))))
  | orRight _ ih =>
    rw [visitExpr]
    simp only [List.mem_append, beq_self_eq_true, if_true]
    exact .inl (.inr (ih hd))
  | @left _ _ op _ _ _ hop _ ih =>
    rw [visitExpr]
    have : (op == .or) = false := by simpa using hop
    simp only [List.mem_append, this, Bool.false_eq_true, if_false]
    exact .inl (.inl (.inl (.inr (ih hd))))
  | @right _ _ op _ _ _ hop _ ih =>
    rw [visitExpr]
    have : (op == .or) = false := by simpa using hop
    simp only [List.mem_append, this, Bool.false_eq_true, if_false]
    exact .inl (.inr (ih hd))
  | target _ ih =>
    rw [visitExpr]
    simp only [List.mem_append]
    exact .inl (.inl (ih hd))
  | @value l _ _ _ x _ _ _ hx hh _ ih =>
    rw [visitExpr]
    simp only [List.mem_append]
    refine .inr ?_
    rw [(hintOf_iff _ _).1 hh, (exprIs_iff c x l none _).1 hx] at ih
    exact ih hd
  | cond _ ih =>
    rw [visitExpr]
    simp only [List.mem_append]
    exact .inl (.inl (ih hd))
  | yes _ ih =>
    rw [visitExpr]
    simp only [List.mem_append]
    exact .inl (.inr (ih hd))
  | no _ ih =>
    rw [visitExpr]
    simp only [List.mem_append]
    exact .inr (ih hd)

/-- Every effect that happens is due at some site of the expression. -/
theorem effects_sound (c : Ctx) (e : Expr) (l : Loc) (h : Option Nat) (l' : Loc) (eff : Effect)
    (hm : (l', eff) ∈ (visitExpr c l h e).2) : ∃ s, At c l h e s ∧ Due c s eff ∧ s.loc = l' := by
  cases e with
  | base tl t fs =>
    rw [visitExpr_base] at hm
    rcases List.mem_append.1 hm with hm | hm
    · rcases (term_events c _ _ _ _ _).1 hm with ⟨rfl, hd⟩ | ⟨k, e, ho, hin⟩
      · exact ⟨_, .term, hd, rfl⟩
      · have := sizeOf_opens_term ho
        obtain ⟨s, h1, h2, h3⟩ := effects_sound c e tl k l' eff hin
        exact ⟨s, .inTerm ho h1, h2, h3⟩
    · obtain ⟨lf, b, f, ha, hf⟩ := (follows_events c _ _ _ _).1 hm
      have hT := (termIs_iff c t tl (termHint h fs) _).2 rfl
      rcases (follow_events c _ _ _ _ _).1 hf with ⟨rfl, hd⟩ | ⟨k, e, ho, hin⟩
      · exact ⟨_, .follow hT ha, hd, rfl⟩
      · have := sizeOf_opens_follow ho
        have := sizeOf_along ha
        obtain ⟨s, h1, h2, h3⟩ := effects_sound c e lf k l' eff hin
        exact ⟨s, .inFollow hT ha ho h1, h2, h3⟩
  | binary op x y =>
    rw [visitExpr] at hm
    simp only [List.mem_append] at hm
    have own : (l', eff) ∈ inEvents l op x ∨
        (l', eff) ∈ shiftEvents c l op (visitExpr c l (if op == .or then h else none) x).1 ∨
        (l', eff) ∈ notEvents l op x → ∃ s, At c l h (.binary op x y) s ∧ Due c s eff ∧ s.loc = l' := by
      intro ho
      obtain ⟨rfl, hd⟩ := (binary_events c l l' op x y _ eff (by
        rintro rfl b; exact exprIs_iff c x l none b)).1 ho
      exact ⟨_, .binary, hd, rfl⟩
    by_cases hop : op = .or
    · subst hop
      simp only [beq_self_eq_true, if_true] at hm own
      rcases hm with (((hm | hm) | hm) | hm) | hm
      · exact own (.inl hm)
      · obtain ⟨s, h1, h2, h3⟩ := effects_sound c x l h l' eff hm
        exact ⟨s, .orLeft h1, h2, h3⟩
      · exact own (.inr (.inl hm))
      · obtain ⟨s, h1, h2, h3⟩ := effects_sound c y l h l' eff hm
        exact ⟨s, .orRight h1, h2, h3⟩
      · exact own (.inr (.inr hm))
    · have hne : (op == .or) = false := by simpa using hop
      simp only [hne, Bool.false_eq_true, if_false] at hm own
      rcases hm with (((hm | hm) | hm) | hm) | hm
      · exact own (.inl hm)
      · obtain ⟨s, h1, h2, h3⟩ := effects_sound c x l none l' eff hm
        exact ⟨s, .left hop h1, h2, h3⟩
      · exact own (.inr (.inl hm))
      · obtain ⟨s, h1, h2, h3⟩ := effects_sound c y l none l' eff hm
        exact ⟨s, .right hop h1, h2, h3⟩
      · exact own (.inr (.inr hm))
  | assign op x y =>
    rw [visitExpr] at hm
    simp only [List.mem_append] at hm
    rcases hm with (hm | hm) | hm
    · obtain ⟨s, h1, h2, h3⟩ := effects_sound c x l none l' eff hm
      exact ⟨s, .target h1, h2, h3⟩
    · obtain ⟨rfl, hd⟩ := (assign_events c l l' op x y _ eff (exprIs_iff c x l none)).1 hm
      exact ⟨_, .assign, hd, rfl⟩
    · obtain ⟨s, h1, h2, h3⟩ := effects_sound c y l _ l' eff hm
      exact ⟨s, .value ((exprIs_iff c x l none _).2 rfl) ((hintOf_iff _ _).2 rfl) h1, h2, h3⟩
  | ternary k x y =>
    rw [visitExpr] at hm
    simp only [List.mem_append] at hm
    rcases hm with (hm | hm) | hm
    · obtain ⟨s, h1, h2, h3⟩ := effects_sound c k l none l' eff hm
      exact ⟨s, .cond h1, h2, h3⟩
    · obtain ⟨s, h1, h2, h3⟩ := effects_sound c x l h l' eff hm
      exact ⟨s, .yes h1, h2, h3⟩
    · obtain ⟨s, h1, h2, h3⟩ := effects_sound c y l h l' eff hm
      exact ⟨s, .no h1, h2, h3⟩
termination_by sizeOf e
decreasing_by
  all_goals subst_vars
  all_goals first
    | (simp only [Expr.base.sizeOf_spec]; omega)
    | (simp only [Expr.binary.sizeOf_spec]; omega)
    | (simp only [Expr.assign.sizeOf_spec]; omega)
    | (simp only [Expr.ternary.sizeOf_spec]; omega)

/-- **C79**: visiting an expression has an effect at a place if and only if the rules of `Due` list it at one of the sites
(`At`) of the expression that reports there. -/
theorem effects_iff (c : Ctx) (e : Expr) (l : Loc) (h : Option Nat) (l' : Loc) (eff : Effect) :
    (l', eff) ∈ (visitExpr c l h e).2 ↔ ∃ s, At c l h e s ∧ Due c s eff ∧ s.loc = l' :=
  ⟨effects_sound c e l h l' eff, fun ⟨_, h1, h2, h3⟩ => h3 ▸ effects_complete c h1 h2⟩

/-- **C79**: an expression is accepted without a message if and only if no message is due at any of its sites. -/
theorem accepted_iff (c : Ctx) (e : Expr) (l : Loc) (h : Option Nat) :
    (∀ l' m, (l', .msg m) ∉ (visitExpr c l h e).2) ↔ ∀ s m, At c l h e s → ¬ Due c s (.msg m) := by
  constructor
  · intro hn s m hs hd
    exact hn s.loc m (effects_complete c hs hd)
  · intro hn l' m hm
    obtain ⟨s, hs, hd, _⟩ := effects_sound c e l h l' _ hm
    exact hn s m hs hd

end Verif.Typing
