import Verif.Typing.StmtLemmas

namespace Verif.Typing

open Verif.Flow (Ctl)

variable {w : Walk}

/-! ## Arms and cases -/

theorem arms_events (w : Walk) (v : Env) (n : Nat) (x : SEv) : ∀ (a : Arms) (all : Ctl),
    x ∈ (visitArms w v n all a).2 ↔
      (∃ c b, a.Has c b ∧ (x ∈ conditionCheck c.loc c ∨ x ∈ (w.look v n c.loc none c.e).2)) ∨
      ∃ b, ((∃ c, a.Has c b) ∨ a.Else b) ∧ x ∈ (visitBlock w v n Ctl.allfalse b).2.2
  | .noElse, all => by
    rw [visitArms]
    simp only [List.not_mem_nil, false_iff]
    rintro (⟨c, b, ⟨⟩, _⟩ | ⟨b, (⟨c, ⟨⟩⟩ | h1), _⟩)
    cases h1
  | .els b, all => by
    rw [visitArms]
    constructor
    · intro h; exact .inr ⟨b, .inr .here, h⟩
    · rintro (⟨c, b, ⟨⟩, _⟩ | ⟨b, (⟨c, ⟨⟩⟩ | h1), h⟩)
      cases h1
      exact h
  | .cons c b rest, all => by
    rw [visitArms]
    simp only [List.mem_append]
    rw [arms_events w v n x rest]
    constructor
    · rintro (((h | h) | h) | (⟨c', b', h1, h2⟩ | ⟨b', (⟨c', h1⟩ | h1), h2⟩))
      · exact .inl ⟨c, b, .here, .inl h⟩
      · exact .inl ⟨c, b, .here, .inr h⟩
      · exact .inr ⟨b, .inl ⟨c, .here⟩, h⟩
      · exact .inl ⟨c', b', .later h1, h2⟩
      · exact .inr ⟨b', .inl ⟨c', .later h1⟩, h2⟩
      · exact .inr ⟨b', .inr (.later h1), h2⟩
    · rintro (⟨c', b', h1, h2⟩ | ⟨b', (⟨c', h1⟩ | h1), h2⟩)
      · cases h1 with
        | here => exact .inl (.inl h2)
        | later h1 => exact .inr (.inl ⟨c', b', h1, h2⟩)
      · cases h1 with
        | here => exact .inl (.inr h2)
        | later h1 => exact .inr (.inr ⟨b', .inl ⟨c', h1⟩, h2⟩)
      · cases h1 with
        | later h1 => exact .inr (.inr ⟨b', .inr h1, h2⟩)

theorem case_events (w : Walk) (v : Env) (n : Nat) (l : Loc) (ks : List Case) (x : SEv) :
    x ∈ w.caseCheck v n l ks ↔
      (∃ e f, ks = [.exact (.binary .or e f)] ∧ x = (l, .orInCase)) ∨
      (∃ e, .exact e ∈ ks ∧ x ∈ (w.look v n l none e).2) ∨
      ∃ e f, .range e f ∈ ks ∧ (x ∈ (w.look v n l none e).2 ∨ x ∈ (w.look v n l none f).2) := by
  unfold Walk.caseCheck
  simp only [List.mem_append, List.mem_flatMap]
  refine or_congr ?_ ?_
  · constructor
    · intro h
      split at h
      · exact ⟨_, _, rfl, List.mem_singleton.1 h⟩
      · cases h
    · rintro ⟨e, f, rfl, rfl⟩
      exact List.mem_singleton.2 rfl
  · constructor
    · rintro ⟨k, hk, hx⟩
      cases k with
      | exact e => exact .inl ⟨e, hk, hx⟩
      | range e f => exact .inr ⟨e, f, hk, List.mem_append.1 hx⟩
    · rintro (⟨e, hk, hx⟩ | ⟨e, f, hk, hx⟩)
      · exact ⟨_, hk, hx⟩
      · exact ⟨_, hk, List.mem_append.2 hx⟩

theorem cases_events (w : Walk) (v : Env) (n : Nat) (x : SEv) : ∀ (a : Cases) (all : Ctl),
    x ∈ (visitCases w v n all a).2 ↔
      (∃ l ks b, a.Has l ks b ∧ x ∈ w.caseCheck v n l ks) ∨
      ∃ b, ((∃ l ks, a.Has l ks b) ∨ a.Else b) ∧ x ∈ (visitBlock w v n Ctl.allfalse b).2.2
  | .noDefault, all => by
    rw [visitCases]
    simp only [List.not_mem_nil, false_iff]
    rintro (⟨l, ks, b, ⟨⟩, _⟩ | ⟨b, (⟨l, ks, ⟨⟩⟩ | h1), _⟩)
    cases h1
  | .dflt b, all => by
    rw [visitCases]
    constructor
    · intro h; exact .inr ⟨b, .inr .here, h⟩
    · rintro (⟨l, ks, b, ⟨⟩, _⟩ | ⟨b, (⟨l, ks, ⟨⟩⟩ | h1), h⟩)
      cases h1
      exact h
  | .cons l ks b rest, all => by
    rw [visitCases]
    simp only [List.mem_append]
    rw [cases_events w v n x rest]
    constructor
    · rintro ((h | h) | (⟨l', ks', b', h1, h2⟩ | ⟨b', (⟨l', ks', h1⟩ | h1), h2⟩))
      · exact .inl ⟨l, ks, b, .here, h⟩
      · exact .inr ⟨b, .inl ⟨l, ks, .here⟩, h⟩
      · exact .inl ⟨l', ks', b', .later h1, h2⟩
      · exact .inr ⟨b', .inl ⟨l', ks', .later h1⟩, h2⟩
      · exact .inr ⟨b', .inr (.later h1), h2⟩
    · rintro (⟨l', ks', b', h1, h2⟩ | ⟨b', (⟨l', ks', h1⟩ | h1), h2⟩)
      · cases h1 with
        | here => exact .inl (.inl h2)
        | later h1 => exact .inr (.inl ⟨l', ks', b', h1, h2⟩)
      · cases h1 with
        | here => exact .inl (.inr h2)
        | later h1 => exact .inr (.inr ⟨b', .inl ⟨l', ks', h1⟩, h2⟩)
      · cases h1 with
        | later h1 => exact .inr (.inr ⟨b', .inr h1, h2⟩)

/-! ## The small checks -/

theorem condition_mem (l : Loc) (c : Cond) (x : SEv) :
    x ∈ conditionCheck l c ↔ c.fixed = true ∧ x = (l, .fixedCondition) := by
  unfold conditionCheck
  cases c.fixed <;> simp

theorem pure_mem (w : Walk) (l : Loc) (e : Expr) (x : SEv) :
    x ∈ w.pureCheck l e ↔ ∃ l' n es fs p, e = .base l' (.call n es) fs ∧
      (∀ g k m as, (g, Follow.call k m as) ∉ fs.toList) ∧ Defines w.tree w.ty n p ∧ w.pure p = true ∧
      x = (l, .pureDiscarded n) := by
  constructor
  · intro h
    cases e with
    | base l' t fs =>
      cases t with
      | call n es =>
        rw [Walk.pureCheck] at h
        split at h
        · cases h
        · rename_i hf
          cases hp : w.tree.getProc w.ty n with
          | none => rw [hp] at h; cases h
          | some p =>
            rw [hp] at h
            simp only at h
            split at h
            · rename_i hpure
              refine ⟨l', n, es, fs, p, rfl, ?_, (getProc_iff _ _ _).1 hp, hpure, List.mem_singleton.1 h⟩
              intro g k m as hm
              exact hf (List.any_eq_true.2 ⟨_, hm, rfl⟩)
            · cases h
      | _ => cases h
    | _ => cases h
  · rintro ⟨l', n, es, fs, p, rfl, h1, h2, h3, rfl⟩
    rw [Walk.pureCheck, if_neg, (getProc_iff _ _ _).2 h2]
    · simp only [h3, if_true, List.mem_singleton]
    · intro hf
      obtain ⟨⟨g, f⟩, hm, hf⟩ := List.any_eq_true.1 hf
      cases f with
      | call k m as => exact h1 g k m as hm
      | _ => cases hf

theorem shift_mem (w : Walk) (v : Env) (n : Nat) (l : Loc) (e : Expr) (x : SEv) :
    x ∈ w.shiftCheck v n l e ↔ ∃ a b, e = .binary .lshift a b ∧ (x ∈ (w.look v n l none a).2 ∨
      (w.look v n l none a).1.impure = true ∧ x = (l, .impureShift)) := by
  constructor
  · intro h
    cases e with
    | binary op a b =>
      cases op with
      | lshift =>
        rw [Walk.shiftCheck] at h
        simp only [List.mem_append] at h
        rcases h with h | h
        · exact ⟨a, b, rfl, .inl h⟩
        · split at h
          · rename_i hi; exact ⟨a, b, rfl, .inr ⟨hi, List.mem_singleton.1 h⟩⟩
          · cases h
      | _ => cases h
    | _ => cases h
  · rintro ⟨a, b, rfl, h | ⟨hi, rfl⟩⟩
    · rw [Walk.shiftCheck]; exact List.mem_append.2 (.inl h)
    · rw [Walk.shiftCheck]; exact List.mem_append.2 (.inr (by rw [if_pos hi]; exact List.mem_singleton.2 rfl))

theorem look_lshift (w : Walk) (v : Env) (n : Nat) (l : Loc) (a b : Expr) (x : SEv) (h : x ∈ (w.look v n l none a).2) :
    x ∈ (w.look v n l none (.binary .lshift a b)).2 := by
  obtain ⟨l', m⟩ := x
  rw [look_events] at h ⊢
  obtain ⟨s, eff, h1, h2⟩ := h
  exact ⟨s, eff, .left (by decide) h1, h2⟩

theorem iter_mem (w : Walk) (l : Loc) (s : STy) (x : SEv) :
    x ∈ w.iterCheck l s ↔ x.1 = l ∧ BadIteration w s x.2 := by
  obtain ⟨l', m⟩ := x
  cases s with
  | none => simp only [Walk.iterCheck, List.not_mem_nil, false_iff]; rintro ⟨_, ⟨⟩⟩
  | list k => simp only [Walk.iterCheck, List.not_mem_nil, false_iff]; rintro ⟨_, ⟨⟩⟩
  | proc =>
    simp only [Walk.iterCheck, List.mem_singleton, Prod.mk.injEq]
    constructor
    · rintro ⟨rfl, rfl⟩; exact ⟨rfl, .proc⟩
    · rintro ⟨rfl, ⟨⟩⟩; exact ⟨rfl, rfl⟩
  | type i =>
    simp only [Walk.iterCheck, Bool.and_eq_true, bne_iff_ne]
    split
    · rename_i hn
      obtain ⟨⟨h1, h2⟩, h3⟩ := hn
      split
      · rename_i hs
        simp only [List.not_mem_nil, false_iff]
        have := (isSubtype_iff _ _).1 hs
        rintro ⟨_, (_ | ⟨_, _, _, h4, _⟩ | ⟨_, _, _, h4, _⟩)⟩ <;> exact h4 this
      · rename_i hs
        rw [isSubtype_iff] at hs
        split
        · rename_i ha
          rw [isSubtype_iff] at ha
          simp only [List.mem_singleton, Prod.mk.injEq]
          constructor
          · rintro ⟨rfl, rfl⟩; exact ⟨rfl, .datum h1 h2 h3 hs ha⟩
          · rintro ⟨rfl, (_ | _ | ⟨_, _, _, _, h5⟩)⟩
            · exact ⟨rfl, rfl⟩
            · exact absurd ha h5
        · rename_i ha
          rw [isSubtype_iff] at ha
          simp only [List.mem_singleton, Prod.mk.injEq]
          constructor
          · rintro ⟨rfl, rfl⟩; exact ⟨rfl, .other h1 h2 h3 hs ha⟩
          · rintro ⟨rfl, (_ | ⟨_, _, _, _, h5⟩ | _)⟩
            · exact absurd h5 ha
            · exact ⟨rfl, rfl⟩
    · rename_i hn
      simp only [List.not_mem_nil, false_iff]
      rintro ⟨_, (_ | ⟨h1, h2, h3, _, _⟩ | ⟨h1, h2, h3, _, _⟩)⟩ <;> exact hn ⟨⟨h1, h2⟩, h3⟩

theorem setting_mem (l : Loc) (n : Ident) (as : Bool) (e : Expr) (x : SEv) :
    x ∈ settingCheck l n as e ↔ n = "waitfor" ∧ as = true ∧ x = (l, .waitfor) ∧
      ∃ l', e = .base l' (.int 0) .nil ∨ e = .base l' (.ident "FALSE") .nil := by
  unfold settingCheck
  constructor
  · intro h
    split at h
    · rename_i hc
      simp only [Bool.and_eq_true, beq_iff_eq] at hc
      obtain ⟨⟨h1, h2⟩, h3⟩ := hc
      refine ⟨h2, h1, List.mem_singleton.1 h, ?_⟩
      cases e with
      | base l' t fs =>
        cases fs with
        | cons => cases h3
        | nil =>
          cases t with
          | int k =>
            have : k = 0 := beq_iff_eq.1 h3
            subst this
            exact ⟨l', .inl rfl⟩
          | ident i =>
            have : i = "FALSE" := beq_iff_eq.1 h3
            subst this
            exact ⟨l', .inr rfl⟩
          | _ => cases h3
      | _ => cases h3
    · cases h
  · rintro ⟨rfl, rfl, rfl, l', rfl | rfl⟩ <;> exact List.mem_singleton.2 rfl

theorem iterate_mem (w : Walk) (v : Env) (n : Nat) (l : Loc) (e : Option Expr) (x : SEv) :
    x ∈ w.iterate v n l e ↔ ∃ f, e = some f ∧ (x ∈ (w.look v n l none f).2 ∨
      x.1 = l ∧ BadIteration w (w.look v n l none f).1.st x.2) := by
  cases e with
  | none => simp [Walk.iterate]
  | some e =>
    simp only [Walk.iterate, List.mem_append, iter_mem]
    constructor
    · intro h; exact ⟨e, rfl, h⟩
    · rintro ⟨_, ⟨⟩, h⟩; exact h

theorem loopVar_mem (w : Walk) (v : Env) (n : Nat) (l : Loc) (ty : Option (List Ident)) (x : Ident) (e : Option Expr)
    (y : SEv) : y ∈ (w.loopVar v n l ty x e).2 ↔ ∃ path, ty = some path ∧ y ∈ (w.declare v n l ⟨path, x, e⟩).2 := by
  cases ty <;> simp [Walk.loopVar]

/-! ## One statement -/

/-- What a declaration of a statement reports is reported for the statement itself. -/
theorem decl_own {v v' : Env} {n : Nat} {l : Loc} {s : Stmt} {d : VarDef} {x : SEv} (h : Decls w v n s v' d)
    (hx : x ∈ (w.declare v' n l d).2) : Own w v n l s x.1 x.2 := by
  obtain ⟨l', m⟩ := x
  rw [declare_events] at hx
  rcases hx with ⟨rfl, p, h1, rfl⟩ | ⟨e, t, k, h1, h2, h3, h4⟩
  · exact .type h h1
  · rw [look_events] at h4
    obtain ⟨site, eff, h5, h6, rfl, rfl⟩ := h4
    obtain ⟨path, x, value⟩ := d
    cases h1
    exact .expr (.init h h2 h3) h5 h6

theorem look_own {v v' : Env} {n n' : Nat} {l l' : Loc} {s : Stmt} {h : Option Nat} {e : Expr} {x : SEv}
    (hl : Looks w v n l s v' n' l' h e) (hx : x ∈ (w.look v' n' l' h e).2) : Own w v n l s x.1 x.2 := by
  obtain ⟨l', m⟩ := x
  rw [look_events] at hx
  obtain ⟨site, eff, h5, h6, rfl, rfl⟩ := hx
  exact .expr hl h5 h6

/-- What a block in a statement reports comes from a statement directly inside it. -/
theorem block_child {v v' : Env} {n n' : Nat} {l : Loc} {s : Stmt} {b : Block} {x : SEv}
    (h : InnerBlock w v n s v' n' b) (hx : x ∈ (visitBlock w v' n' Ctl.allfalse b).2.2) :
    ∃ v' n' l' s', Child w v n l s v' n' l' s' ∧ x ∈ (visitStmt w v' n' l' s').2.2 := by
  obtain ⟨v'', l', s', h1, h2⟩ := (direct_events w v' n' b x).1 hx
  exact ⟨v'', n', l', s', .block h h1, h2⟩

theorem stmt_sound (w : Walk) (v : Env) (n : Nat) (l : Loc) (s : Stmt) (x : SEv) (hx : x ∈ (visitStmt w v n l s).2.2) :
    Own w v n l s x.1 x.2 ∨ ∃ v' n' l' s', Child w v n l s v' n' l' s' ∧ x ∈ (visitStmt w v' n' l' s').2.2 := by
  cases s with
  | expr e =>
    rw [visitStmt] at hx
    simp only [List.mem_append, pure_mem, shift_mem] at hx
    left
    rcases hx with (⟨l', m, es, fs, p, rfl, h1, h2, h3, rfl⟩ | ⟨a, b, rfl, h | ⟨h, rfl⟩⟩) | h
    · exact .pureDiscarded rfl h1 h2 h3
    · exact look_own .expr (look_lshift w v n l a b x h)
    · exact .impureShift rfl ((look_is w v n l none a _).2 rfl) h
    · exact look_own .expr h
  | ret e =>
    cases e with
    | none => rw [visitStmt] at hx; cases hx
    | some e => rw [visitStmt] at hx; exact .inl (look_own .ret hx)
  | crash e =>
    cases e with
    | none => simp only [visitStmt, Walk.lookOpt] at hx; cases hx
    | some e => simp only [visitStmt, Walk.lookOpt] at hx; exact .inl (look_own .crash hx)
  | throw e => rw [visitStmt] at hx; exact .inl (look_own .throw hx)
  | del e => rw [visitStmt] at hx; exact .inl (look_own .del hx)
  | «while» c b =>
    simp only [visitStmt, Walked.leave, List.mem_append] at hx
    rcases hx with h | h
    · exact .inl (look_own .while h)
    · exact .inr (block_child .while h)
  | doWhile b c =>
    rw [visitStmt] at hx
    split at hx
    · exact .inr (block_child .doWhile hx)
    · rename_i ht
      simp only [List.mem_append] at hx
      rcases hx with h | h
      · exact .inr (block_child .doWhile h)
      · refine .inl (look_own (.doWhile ?_ ((atEnd_iff w v n b _).2 rfl)) h)
        rw [visitBlock_ctl] at ht
        exact ht
  | ifs a =>
    simp only [visitStmt, arms_events, condition_mem] at hx
    rcases hx with ⟨c, b, h1, ⟨h2, rfl⟩ | h2⟩ | ⟨b, ⟨c, h1⟩ | h1, h2⟩
    · exact .inl (.fixedIf rfl h1 h2)
    · exact .inl (look_own (.arm h1) h2)
    · exact .inr (block_child (.arm h1) h2)
    · exact .inr (block_child (.els h1) h2)
  | forever b =>
    simp only [visitStmt, Walked.leave, List.nil_append] at hx
    exact .inr (block_child .forever hx)
  | «for» i t k b =>
    simp only [visitStmt, Walked.leave, List.mem_append] at hx
    rcases hx with ((h | h) | h) | h
    · cases i with
      | none => simp only [visitHead] at h; cases h
      | some i => simp only [visitHead] at h; exact .inr ⟨_, _, _, _, .init rfl, h⟩
    · cases t with
      | none => cases h
      | some c =>
        simp only [List.mem_append, condition_mem] at h
        rcases h with ⟨h, rfl⟩ | h
        · exact .inl (.fixedTest rfl h)
        · exact .inl (look_own (.test ((afterHead_iff w v n l i _).2 rfl)) h)
    · cases k with
      | none => simp only [visitHead] at h; cases h
      | some k =>
        rw [visitHead] at h
        exact .inr ⟨_, _, _, _, .inc rfl ((afterHead_iff w v n l i _).2 rfl), h⟩
    · exact .inr (block_child (.for ((afterHead_iff w v n l i _).2 rfl) ((afterHead_iff w _ n l k _).2 rfl)) h)
  | forIn ty y e b =>
    simp only [visitStmt, Walked.leave, List.mem_append, iterate_mem, loopVar_mem] at hx
    rcases hx with (⟨f, rfl, h | ⟨h1, h2⟩⟩ | ⟨path, rfl, h⟩) | h
    · exact .inl (look_own (.list .forIn) h)
    · refine .inl ?_
      rw [h1]
      exact .iterates .forIn ((look_is w v n l none f _).2 rfl) h2
    · exact .inl (decl_own .forIn h)
    · exact .inr (block_child (.forIn ((loopVar_iff w v n l ty y none _).2 rfl)) h)
  | forTo ty y e f g lo hi kind b =>
    simp only [visitStmt, Walked.leave, List.mem_append, loopVar_mem] at hx
    rcases hx with ((h | h) | ⟨path, rfl, h⟩) | h
    · exact .inl (look_own .stop h)
    · cases g with
      | none => simp only [Walk.lookOpt] at h; cases h
      | some g => exact .inl (look_own .step h)
    · exact .inl (decl_own .forTo h)
    · exact .inr (block_child (.forTo ((loopVar_iff w v n l ty y (some e) _).2 rfl)) h)
  | forPairs ty y z e b =>
    simp only [visitStmt, Walked.leave, List.mem_append, iterate_mem, loopVar_mem] at hx
    rcases hx with ((⟨f, rfl, h | ⟨h1, h2⟩⟩ | ⟨path, rfl, h⟩) | h) | h
    · exact .inl (look_own (.list .forPairs) h)
    · refine .inl ?_
      rw [h1]
      exact .iterates .forPairs ((look_is w v n l none f _).2 rfl) h2
    · exact .inl (decl_own .forPairs h)
    · obtain ⟨l', m⟩ := x
      rw [declare_events] at h
      rcases h with ⟨_, p, h, _⟩ | ⟨_, _, _, ⟨⟩, _⟩
      cases h
    · exact .inr (block_child (.forPairs ((loopVar_iff w v n l ty y none _).2 rfl)
        ((declared_iff w _ n l ⟨[], z, none⟩ _).2 rfl)) h)
  | vars ds =>
    simp only [visitStmt, declares_events] at hx
    obtain ⟨pre, d, post, v', rfl, h2, h3⟩ := hx
    exact .inl (decl_own (.vars rfl h2) h3)
  | setting y as e =>
    simp only [visitStmt, setting_mem] at hx
    obtain ⟨rfl, rfl, rfl, l', rfl | rfl⟩ := hx
    · exact .inl (.waitforZero rfl)
    · exact .inl (.waitforFalse rfl)
  | spawn d b =>
    simp only [visitStmt, Walked.leave, List.mem_append] at hx
    rcases hx with h | h
    · cases d with
      | none => simp only [Walk.lookOpt] at h; cases h
      | some d => exact .inl (look_own .delay h)
    · exact .inr (block_child .spawn h)
  | switch c cs =>
    simp only [visitStmt, List.mem_append, condition_mem, cases_events, case_events] at hx
    rcases hx with (⟨h, rfl⟩ | h) | ⟨l', ks, b, h1, ⟨e, f, rfl, rfl⟩ | ⟨e, h2, h3⟩ | ⟨e, f, h2, h3 | h3⟩⟩ |
      ⟨b, ⟨l', ks, h1⟩ | h1, h2⟩
    · exact .inl (.fixedSwitch rfl h)
    · exact .inl (look_own .input h)
    · exact .inl (.orInCase rfl h1)
    · exact .inl (look_own (.exact h1 h2) h3)
    · exact .inl (look_own (.low h1 h2) h3)
    · exact .inl (look_own (.high h1 h2) h3)
    · exact .inr (block_child (.case h1) h2)
    · exact .inr (block_child (.dflt h1) h2)
  | tryCatch b ps h =>
    simp only [visitStmt, Walked.leave, List.mem_append, declares_events] at hx
    rcases hx with ((hx | hx) | ⟨pre, d, post, v', h1, h2, h3⟩) | hx
    · exact .inr (block_child .try hx)
    · split at hx
      · rename_i hl
        rw [List.mem_singleton.1 hx]
        exact .inl (.catchParams rfl hl)
      · cases hx
    · exact .inl (decl_own (.catch ((caughtAll_iff ps _).2 rfl) h1 h2) h3)
    · exact .inr (block_child (.catch ((caughtAll_iff ps _).2 rfl) ((declaredAll_iff w n l _ v _).2 rfl)) hx)
  | cont y => rw [visitStmt] at hx; cases hx
  | brk y => rw [visitStmt] at hx; cases hx
  | goto y => rw [visitStmt] at hx; cases hx
  | label y b =>
    simp only [visitStmt, Walked.leave, List.nil_append] at hx
    exact .inr (block_child .label hx)

theorem decls_mem {v v' : Env} {n : Nat} {l : Loc} {s : Stmt} {d : VarDef} {x : SEv} (h : Decls w v n s v' d)
    (hx : x ∈ (w.declare v' n l d).2) : x ∈ (visitStmt w v n l s).2.2 := by
  cases h with
  | vars h1 h2 =>
    simp only [visitStmt, declares_events]
    exact ⟨_, _, _, _, h1, h2, hx⟩
  | forIn =>
    simp only [visitStmt, Walked.leave, List.mem_append, loopVar_mem]
    exact .inl (.inr ⟨_, rfl, hx⟩)
  | forTo =>
    simp only [visitStmt, Walked.leave, List.mem_append, loopVar_mem]
    exact .inl (.inr ⟨_, rfl, hx⟩)
  | forPairs =>
    simp only [visitStmt, Walked.leave, List.mem_append, loopVar_mem]
    exact .inl (.inl (.inr ⟨_, rfl, hx⟩))
  | «catch» h1 h2 h3 =>
    simp only [visitStmt, Walked.leave, List.mem_append, declares_events]
    rw [(caughtAll_iff _ _).1 h1] at h2
    exact .inl (.inr ⟨_, _, _, _, h2, h3, hx⟩)

theorem looks_mem {v v' : Env} {n n' : Nat} {l l' : Loc} {s : Stmt} {h : Option Nat} {e : Expr} {x : SEv}
    (hl : Looks w v n l s v' n' l' h e) (hx : x ∈ (w.look v' n' l' h e).2) : x ∈ (visitStmt w v n l s).2.2 := by
  cases hl with
  | expr => rw [visitStmt]; exact List.mem_append.2 (.inr hx)
  | ret => rw [visitStmt]; exact hx
  | crash => simp only [visitStmt, Walk.lookOpt]; exact hx
  | throw => rw [visitStmt]; exact hx
  | del => rw [visitStmt]; exact hx
  | «while» => simp only [visitStmt, Walked.leave, List.mem_append]; exact .inl hx
  | @doWhile b c v' h1 h2 =>
    rw [visitStmt, if_neg]
    · rw [← (atEnd_iff w v n b _).1 h2]
      exact List.mem_append.2 (.inr hx)
    · rw [visitBlock_ctl]; exact h1
  | arm h1 =>
    simp only [visitStmt, arms_events]
    exact .inl ⟨_, _, h1, .inr hx⟩
  | test h1 =>
    simp only [visitStmt, Walked.leave, List.mem_append]
    rw [(afterHead_iff w v n l _ _).1 h1] at hx
    exact .inl (.inl (.inr (.inr hx)))
  | list h1 =>
    cases h1 with
    | forIn =>
      simp only [visitStmt, Walked.leave, List.mem_append, iterate_mem]
      exact .inl (.inl ⟨_, rfl, .inl hx⟩)
    | forPairs =>
      simp only [visitStmt, Walked.leave, List.mem_append, iterate_mem]
      exact .inl (.inl (.inl ⟨_, rfl, .inl hx⟩))
  | stop => simp only [visitStmt, Walked.leave, List.mem_append]; exact .inl (.inl (.inl hx))
  | step => simp only [visitStmt, Walked.leave, List.mem_append]; exact .inl (.inl (.inr hx))
  | init h1 h2 h3 =>
    refine decls_mem h1 ?_
    obtain ⟨l'', m⟩ := x
    rw [declare_events]
    exact .inr ⟨_, _, _, rfl, h2, h3, hx⟩
  | delay => simp only [visitStmt, Walked.leave, List.mem_append]; exact .inl hx
  | input => simp only [visitStmt, List.mem_append]; exact .inl (.inr hx)
  | exact h1 h2 =>
    simp only [visitStmt, List.mem_append, cases_events, case_events]
    exact .inr (.inl ⟨_, _, _, h1, .inr (.inl ⟨_, h2, hx⟩)⟩)
  | low h1 h2 =>
    simp only [visitStmt, List.mem_append, cases_events, case_events]
    exact .inr (.inl ⟨_, _, _, h1, .inr (.inr ⟨_, _, h2, .inl hx⟩)⟩)
  | high h1 h2 =>
    simp only [visitStmt, List.mem_append, cases_events, case_events]
    exact .inr (.inl ⟨_, _, _, h1, .inr (.inr ⟨_, _, h2, .inr hx⟩)⟩)

theorem own_mem {v : Env} {n : Nat} {l l' : Loc} {s : Stmt} {m : SMsg} (h : Own w v n l s l' m) :
    (l', m) ∈ (visitStmt w v n l s).2.2 := by
  cases h with
  | expr h1 h2 h3 => exact looks_mem h1 ((look_events _ _ _ _ _ _ _ _).2 ⟨_, _, h2, h3, rfl, rfl⟩)
  | type h1 h2 => exact decls_mem h1 ((declare_events _ _ _ _ _ _ _).2 (.inl ⟨rfl, _, h2, rfl⟩))
  | pureDiscarded hs h1 h2 h3 =>
    subst hs
    rw [visitStmt]
    exact List.mem_append.2 (.inl (List.mem_append.2 (.inl ((pure_mem _ _ _ _).2 ⟨_, _, _, _, _, rfl, h1, h2, h3, rfl⟩))))
  | impureShift hs h1 h2 =>
    subst hs
    rw [visitStmt]
    rw [(look_is w v n l none _ _).1 h1] at h2
    exact List.mem_append.2 (.inl (List.mem_append.2 (.inr ((shift_mem _ _ _ _ _ _).2 ⟨_, _, rfl, .inr ⟨h2, rfl⟩⟩))))
  | iterates h1 h2 h3 =>
    rw [(look_is w v n l none _ _).1 h2] at h3
    cases h1 with
    | forIn =>
      simp only [visitStmt, Walked.leave, List.mem_append, iterate_mem]
      exact .inl (.inl ⟨_, rfl, .inr ⟨trivial, h3⟩⟩)
    | forPairs =>
      simp only [visitStmt, Walked.leave, List.mem_append, iterate_mem]
      exact .inl (.inl (.inl ⟨_, rfl, .inr ⟨trivial, h3⟩⟩))
  | fixedIf hs h1 h2 =>
    subst hs
    simp only [visitStmt, arms_events, condition_mem]
    exact .inl ⟨_, _, h1, .inl ⟨h2, rfl⟩⟩
  | fixedTest hs h1 =>
    subst hs
    simp only [visitStmt, Walked.leave, List.mem_append]
    exact .inl (.inl (.inr (.inl ((condition_mem _ _ _).2 ⟨h1, rfl⟩))))
  | fixedSwitch hs h1 =>
    subst hs
    simp only [visitStmt, List.mem_append]
    exact .inl (.inl ((condition_mem _ _ _).2 ⟨h1, rfl⟩))
  | waitforZero hs =>
    subst hs
    simp only [visitStmt, setting_mem]
    exact ⟨trivial, trivial, trivial, _, .inl rfl⟩
  | waitforFalse hs =>
    subst hs
    simp only [visitStmt, setting_mem]
    exact ⟨trivial, trivial, trivial, _, .inr rfl⟩
  | orInCase hs h1 =>
    subst hs
    simp only [visitStmt, List.mem_append, cases_events, case_events]
    exact .inr (.inl ⟨_, _, _, h1, .inl ⟨_, _, rfl, rfl⟩⟩)
  | catchParams hs h1 =>
    subst hs
    simp only [visitStmt, Walked.leave, List.mem_append]
    exact .inl (.inl (.inr (by rw [if_pos h1]; exact List.mem_singleton.2 rfl)))

theorem inner_mem {v v' : Env} {n n' : Nat} {l : Loc} {s : Stmt} {b : Block} {x : SEv}
    (h : InnerBlock w v n s v' n' b) (hx : x ∈ (visitBlock w v' n' Ctl.allfalse b).2.2) :
    x ∈ (visitStmt w v n l s).2.2 := by
  cases h with
  | «while» => simp only [visitStmt, Walked.leave, List.mem_append]; exact .inr hx
  | doWhile =>
    rw [visitStmt]
    split
    · exact hx
    · exact List.mem_append.2 (.inl hx)
  | arm h1 => simp only [visitStmt, arms_events]; exact .inr ⟨_, .inl ⟨_, h1⟩, hx⟩
  | els h1 => simp only [visitStmt, arms_events]; exact .inr ⟨_, .inr h1, hx⟩
  | forever => simp only [visitStmt, Walked.leave, List.nil_append]; exact hx
  | «for» h1 h2 =>
    simp only [visitStmt, Walked.leave, List.mem_append]
    rw [(afterHead_iff w v n l _ _).1 h1] at h2
    rw [(afterHead_iff w _ n l _ _).1 h2] at hx
    exact .inr hx
  | forIn h1 =>
    simp only [visitStmt, Walked.leave, List.mem_append]
    rw [(loopVar_iff w v n l _ _ _ _).1 h1] at hx
    exact .inr hx
  | forTo h1 =>
    simp only [visitStmt, Walked.leave, List.mem_append]
    rw [(loopVar_iff w v n l _ _ _ _).1 h1] at hx
    exact .inr hx
  | forPairs h1 h2 =>
    simp only [visitStmt, Walked.leave, List.mem_append]
    rw [(loopVar_iff w v n l _ _ _ _).1 h1] at h2
    rw [(declared_iff w _ n l _ _).1 h2] at hx
    exact .inr hx
  | spawn => simp only [visitStmt, Walked.leave, List.mem_append]; exact .inr hx
  | case h1 =>
    simp only [visitStmt, List.mem_append, cases_events]
    exact .inr (.inr ⟨_, .inl ⟨_, _, h1⟩, hx⟩)
  | dflt h1 =>
    simp only [visitStmt, List.mem_append, cases_events]
    exact .inr (.inr ⟨_, .inr h1, hx⟩)
  | «try» => simp only [visitStmt, Walked.leave, List.mem_append]; exact .inl (.inl (.inl hx))
  | «catch» h1 h2 =>
    simp only [visitStmt, Walked.leave, List.mem_append]
    rw [(caughtAll_iff _ _).1 h1] at h2
    rw [(declaredAll_iff w n l _ v _).1 h2] at hx
    exact .inr hx
  | label => simp only [visitStmt, Walked.leave, List.nil_append]; exact hx

theorem child_mem {v v' : Env} {n n' : Nat} {l l' : Loc} {s s' : Stmt} {x : SEv} (h : Child w v n l s v' n' l' s')
    (hx : x ∈ (visitStmt w v' n' l' s').2.2) : x ∈ (visitStmt w v n l s).2.2 := by
  cases h with
  | block h1 h2 => exact inner_mem h1 ((direct_events _ _ _ _ _).2 ⟨_, _, _, h2, hx⟩)
  | init hs =>
    subst hs
    simp only [visitStmt, Walked.leave, List.mem_append, visitHead]
    exact .inl (.inl (.inl hx))
  | inc hs h1 =>
    subst hs
    simp only [visitStmt, Walked.leave, List.mem_append]
    rw [(afterHead_iff w v n l _ _).1 h1] at hx
    exact .inl (.inr (by rw [visitHead]; exact hx))

/-! ## The whole body -/

theorem toList_size {b : Block} {l : Loc} {s : Stmt} (h : (l, s) ∈ b.toList) : sizeOf s < sizeOf b := by
  induction b using Block.rec (motive_1 := fun _ => True) (motive_3 := fun _ => True) (motive_4 := fun _ => True)
    (motive_5 := fun _ => True) with
  | nil => cases h
  | cons l' s' b _ ih =>
    rw [Block.toList] at h
    simp only [Block.cons.sizeOf_spec]
    rcases List.mem_cons.1 h with h | h
    · cases h; omega
    · have := ih h; omega
  | _ => trivial

theorem armsHas_size {a : Arms} {c : Cond} {b : Block} (h : a.Has c b) : sizeOf b < sizeOf a := by
  induction h with
  | here => simp only [Arms.cons.sizeOf_spec]; omega
  | later _ ih => simp only [Arms.cons.sizeOf_spec]; omega

theorem armsElse_size {a : Arms} {b : Block} (h : a.Else b) : sizeOf b < sizeOf a := by
  induction h with
  | here => simp only [Arms.els.sizeOf_spec]; omega
  | later _ ih => simp only [Arms.cons.sizeOf_spec]; omega

theorem casesHas_size {a : Cases} {l : Loc} {ks : List Case} {b : Block} (h : a.Has l ks b) : sizeOf b < sizeOf a := by
  induction h with
  | here => simp only [Cases.cons.sizeOf_spec]; omega
  | later _ ih => simp only [Cases.cons.sizeOf_spec]; omega

theorem casesElse_size {a : Cases} {b : Block} (h : a.Else b) : sizeOf b < sizeOf a := by
  induction h with
  | here => simp only [Cases.dflt.sizeOf_spec]; omega
  | later _ ih => simp only [Cases.cons.sizeOf_spec]; omega

theorem inner_size {v v' : Env} {n n' : Nat} {s : Stmt} {b : Block} (h : InnerBlock w v n s v' n' b) :
    sizeOf b < sizeOf s := by
  cases h with
  | arm h => have := armsHas_size h; simp only [Stmt.ifs.sizeOf_spec]; omega
  | els h => have := armsElse_size h; simp only [Stmt.ifs.sizeOf_spec]; omega
  | case h => have := casesHas_size h; simp only [Stmt.switch.sizeOf_spec]; omega
  | dflt h => have := casesElse_size h; simp only [Stmt.switch.sizeOf_spec]; omega
  | «while» => simp only [Stmt.while.sizeOf_spec]; omega
  | doWhile => simp only [Stmt.doWhile.sizeOf_spec]; omega
  | forever => simp only [Stmt.forever.sizeOf_spec]; omega
  | «for» => simp only [Stmt.for.sizeOf_spec]; omega
  | forIn => simp only [Stmt.forIn.sizeOf_spec]; omega
  | forTo => simp only [Stmt.forTo.sizeOf_spec]; omega
  | forPairs => simp only [Stmt.forPairs.sizeOf_spec]; omega
  | spawn => simp only [Stmt.spawn.sizeOf_spec]; omega
  | «try» => simp only [Stmt.tryCatch.sizeOf_spec]; omega
  | «catch» => simp only [Stmt.tryCatch.sizeOf_spec]; omega
  | label => simp only [Stmt.label.sizeOf_spec]; omega

theorem child_size {v v' : Env} {n n' : Nat} {l l' : Loc} {s s' : Stmt} (h : Child w v n l s v' n' l' s') :
    sizeOf s' < sizeOf s := by
  cases h with
  | block h1 h2 =>
    obtain ⟨pre, post, h3, _, _⟩ := h2
    have := toList_size (b := _) (l := l') (s := s') (by rw [h3]; simp)
    have := inner_size h1
    omega
  | init hs => subst hs; simp only [Stmt.for.sizeOf_spec, Head.some.sizeOf_spec]; omega
  | inc hs => subst hs; simp only [Stmt.for.sizeOf_spec, Head.some.sizeOf_spec]; omega

theorem stands_sound (w : Walk) (v0 : Env) (n0 : Nat) (b : Block) (x : SEv) : ∀ (k : Nat) (s : Stmt) (v : Env) (n : Nat) (l : Loc),
    sizeOf s ≤ k → Stands w v0 n0 b v n l s → x ∈ (visitStmt w v n l s).2.2 →
    ∃ v' n' l' s', Stands w v0 n0 b v' n' l' s' ∧ Own w v' n' l' s' x.1 x.2 := by
  intro k
  induction k with
  | zero => intro s v n l hk; cases s <;> simp at hk
  | succ k ih =>
    intro s v n l hk hs hx
    rcases stmt_sound w v n l s x hx with h | ⟨v', n', l', s', hc, hx'⟩
    · exact ⟨v, n, l, s, hs, h⟩
    · exact ih s' v' n' l' (by have := child_size hc; omega) (.child hs hc) hx'

theorem stands_mem {v v' : Env} {n n' : Nat} {b : Block} {l : Loc} {s : Stmt} {x : SEv} (h : Stands w v n b v' n' l s)
    (hx : x ∈ (visitStmt w v' n' l s).2.2) : x ∈ (visitBlock w v n Ctl.allfalse b).2.2 := by
  induction h with
  | direct h => exact (direct_events _ _ _ _ _).2 ⟨_, _, _, h, hx⟩
  | child _ hc ih => exact ih (child_mem hc hx)

/-- **C80**: what is reported about a block, with given local variables: for each statement inside it that is looked at, with
the local variables in scope there, what is due for that statement. -/
theorem block_reports (w : Walk) (v : Env) (n : Nat) (b : Block) (l : Loc) (m : SMsg) :
    (l, m) ∈ (visitBlock w v n Ctl.allfalse b).2.2 ↔
      ∃ v' n' l' s, Stands w v n b v' n' l' s ∧ Own w v' n' l' s l m := by
  constructor
  · intro h
    obtain ⟨v', l', s, h1, h2⟩ := (direct_events _ _ _ _ _).1 h
    exact stands_sound w v n b (l, m) _ s v' n l' Nat.le.refl (.direct h1) h2
  · rintro ⟨v', n', l', s, h1, h2⟩
    exact stands_mem h1 (own_mem h2)

/-! ## The whole proc -/

theorem set_eq (v : Env) (x y : Ident) (a : An) : (v.set x a) y = if y = x then some a else v y := rfl

theorem start_iff (w : Walk) (x : Ident) (a : An) : w.start x = some a ↔ Given0 w x a := by
  unfold Walk.start
  constructor
  · intro h
    by_cases h1 : x = "global"
    · subst h1; rw [set_eq, if_pos rfl] at h; cases h; exact .global
    · rw [set_eq, if_neg h1] at h
      by_cases h2 : w.ty ≠ 0 ∧ x = "src"
      · obtain ⟨h2, rfl⟩ := h2
        rw [if_neg h2, set_eq, if_pos rfl] at h; cases h; exact .src h2
      · have h' : ((((Env.set (fun _ => none) "." {}).set "args"
            { st := .type (w.tree.expect "list"), impure := true }).set "usr" { st := .type (w.tree.expect "mob") }).set
            "callee" { st := .type (w.tree.expect "callee") }).set "caller" { st := .type (w.tree.expect "callee") } x =
            some a := by
          by_cases h0 : w.ty = 0
          · rw [if_pos h0] at h; exact h
          · rw [if_neg h0, set_eq, if_neg (fun hx => h2 ⟨h0, hx⟩)] at h; exact h
        by_cases h3 : x = "caller"
        · subst h3; rw [set_eq, if_pos rfl] at h'; cases h'; exact .caller
        rw [set_eq, if_neg h3] at h'
        by_cases h4 : x = "callee"
        · subst h4; rw [set_eq, if_pos rfl] at h'; cases h'; exact .callee
        rw [set_eq, if_neg h4] at h'
        by_cases h5 : x = "usr"
        · subst h5; rw [set_eq, if_pos rfl] at h'; cases h'; exact .usr
        rw [set_eq, if_neg h5] at h'
        by_cases h6 : x = "args"
        · subst h6; rw [set_eq, if_pos rfl] at h'; cases h'; exact .args
        rw [set_eq, if_neg h6] at h'
        by_cases h7 : x = "."
        · subst h7; rw [set_eq, if_pos rfl] at h'; cases h'; exact .dot
        rw [set_eq, if_neg h7] at h'
        cases h'
  · intro h
    cases h with
    | src h0 => rw [if_neg h0]; simp [set_eq]
    | _ => by_cases h0 : w.ty = 0 <;> simp [set_eq, h0]

theorem begins_nil (w : Walk) (x : Ident) (a : An) : Begins w [] x a ↔ Given0 w x a := by
  constructor
  · intro h
    generalize hp : ([] : List Param) = ps at h
    cases h with
    | none h => exact h
    | param => simp at hp
    | other => simp at hp
  · exact .none

theorem begins_snoc (w : Walk) (ps : List Param) (p : Param) (x : Ident) (a : An) : Begins w (ps ++ [p]) x a ↔
    (x = p.name ∧ ∃ s, Typed w.tree p.path s ∧ a = { st := s, impure := true }) ∨ x ≠ p.name ∧ Begins w ps x a := by
  constructor
  · intro h
    generalize hp : ps ++ [p] = qs at h
    cases h with
    | none h => simp at hp
    | param h =>
      obtain ⟨rfl, h2⟩ := List.append_inj' hp rfl
      cases h2
      exact .inl ⟨rfl, _, h, rfl⟩
    | other h1 h2 =>
      obtain ⟨rfl, h3⟩ := List.append_inj' hp rfl
      cases h3
      exact .inr ⟨h1, h2⟩
  · rintro (⟨rfl, s, h, rfl⟩ | ⟨h1, h2⟩)
    · exact .param h
    · exact .other h1 h2

theorem params_snoc (w : Walk) (p : Param) : ∀ (ps : List Param) (v : Env),
    (w.params v (ps ++ [p])).1 =
      ((w.params v ps).1).set p.name { (w.typed p.loc p.path).1 with impure := true }
  | [], v => rfl
  | q :: ps, v => by
    rw [List.cons_append, Walk.params, Walk.params]
    exact params_snoc w p ps _

theorem params_env (w : Walk) (ps : List Param) (x : Ident) (a : An) :
    (w.params w.start ps).1 x = some a ↔ Begins w ps x a := by
  generalize hr : ps.reverse = rs
  induction rs generalizing ps x a with
  | nil =>
    have : ps = [] := by simpa using hr
    subst this
    rw [begins_nil]
    exact start_iff w x a
  | cons p rs ih =>
    have : ps = rs.reverse ++ [p] := by rw [← List.reverse_reverse ps, hr, List.reverse_cons]
    subst this
    rw [begins_snoc, params_snoc, set_eq, ← ih rs.reverse x a (List.reverse_reverse rs)]
    obtain ⟨s, hs⟩ := typed_form w.toCtx p.loc p.path
    by_cases hx : x = p.name
    · rw [if_pos hx, hs]
      simp only [hx, true_and, ne_eq, not_true_eq_false, false_and, or_false, Option.some.injEq]
      constructor
      · rintro rfl
        exact ⟨s, (typed_is w.toCtx p.loc p.path s).2 (by rw [hs]), rfl⟩
      · rintro ⟨s', h1, rfl⟩
        rw [(typed_is w.toCtx p.loc p.path s').1 h1, hs]
    · rw [if_neg hx]
      simp [hx]

theorem params_events (w : Walk) (l : Loc) (m : SMsg) : ∀ (ps : List Param) (v : Env),
    (l, m) ∈ (w.params v ps).2 ↔
      ∃ p ∈ ps, l = p.loc ∧ ∃ q, Missing w.tree p.path q ∧ m = .expr (.msg (.undefinedType q))
  | [], v => by simp [Walk.params]
  | p :: ps, v => by
    rw [Walk.params]
    simp only [List.mem_append, typed_events' w.toCtx, params_events w l m ps, List.mem_cons, exists_eq_or_imp]

/-- **C80**: what is reported about a proc: types of parameters that do not exist, and what is due for the statements of the
body, beginning with the local variables of `Begins`. -/
theorem body_reports (w : Walk) (ps : List Param) (b : Block) (l : Loc) (m : SMsg) :
    (l, m) ∈ w.body ps b ↔
      (∃ p ∈ ps, l = p.loc ∧ ∃ q, Missing w.tree p.path q ∧ m = .expr (.msg (.undefinedType q))) ∨
      ∃ v : Env, (∀ x a, v x = some a ↔ Begins w ps x a) ∧
        ∃ v' n' l' s, Stands w v 0 b v' n' l' s ∧ Own w v' n' l' s l m := by
  unfold Walk.body
  simp only [List.mem_append, params_events, block_reports]
  refine or_congr Iff.rfl ?_
  constructor
  · intro h
    exact ⟨_, params_env w ps, h⟩
  · rintro ⟨v, hv, h⟩
    have : v = (w.params w.start ps).1 := by
      funext x
      apply Option.ext
      intro a
      rw [hv, params_env]
    rw [← this]
    exact h

end Verif.Typing
