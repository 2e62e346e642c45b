import Verif.Typing.Sites

/-!
# What visiting one term or one follow does

`term_events` and `follow_events`: what is due at the site, and what is inside.
-/

namespace Verif.Typing

/-- What happens in the expressions directly inside a site. -/
def Inner (c : Ctx) (l : Loc) (s : Site) (l' : Loc) (eff : Effect) : Prop :=
  ∃ k e, Opens c s k e ∧ (l', eff) ∈ (visitExpr c l k e).2

theorem mem_sleepers (c : Ctx) (l l' : Loc) (n : Ident) (eff : Effect) :
    (l', eff) ∈ sleepers c l n ↔ l' = l ∧ c.newContext = false ∧
      n ∈ ["sleep", "alert", "shell", "winexists", "winget"] ∧ eff = .sleep n := by
  unfold sleepers
  split
  · rename_i h
    simp only [Bool.and_eq_true, Bool.not_eq_true', List.contains_eq_mem, decide_eq_true_eq] at h
    simp only [List.mem_singleton, Prod.mk.injEq]
    constructor
    · rintro ⟨rfl, rfl⟩; exact ⟨rfl, h.1, h.2, rfl⟩
    · rintro ⟨rfl, _, _, rfl⟩; exact ⟨rfl, rfl⟩
  · rename_i h
    simp only [Bool.and_eq_true, Bool.not_eq_true', List.contains_eq_mem, decide_eq_true_eq] at h
    constructor
    · intro h; cases h
    · rintro ⟨_, h1, h2, _⟩; exact absurd ⟨h1, h2⟩ h

theorem mem_typeSleepers (c : Ctx) (ty : Nat) (l l' : Loc) (n : Ident) (eff : Effect) :
    (l', eff) ∈ typeSleepers c ty l n ↔ l' = l ∧ c.newContext = false ∧ ∃ w, Sleeps c.tree ty n w ∧ eff = .sleep w := by
  unfold typeSleepers
  by_cases hc : c.tree.path ty = ["client"]
  · rw [if_pos (by simpa using hc)]
    split
    · rename_i h
      simp only [Bool.and_eq_true, Bool.not_eq_true', List.contains_eq_mem, decide_eq_true_eq, List.mem_cons,
        List.not_mem_nil, or_false] at h
      simp only [List.mem_singleton, Prod.mk.injEq]
      constructor
      · rintro ⟨rfl, rfl⟩; exact ⟨rfl, h.1, _, .client hc h.2, rfl⟩
      · rintro ⟨rfl, _, w, hs, rfl⟩
        cases hs with
        | client _ _ => exact ⟨rfl, rfl⟩
        | world h _ => rw [hc] at h; exact absurd h (by decide)
    · rename_i h
      simp only [Bool.and_eq_true, Bool.not_eq_true', List.contains_eq_mem, decide_eq_true_eq, List.mem_cons,
        List.not_mem_nil, or_false] at h
      constructor
      · intro h; cases h
      · rintro ⟨rfl, h1, w, hs, rfl⟩
        cases hs with
        | client _ h2 => exact absurd ⟨h1, h2⟩ h
        | world h _ => rw [hc] at h; exact absurd h (by decide)
  · rw [if_neg (by simpa using hc)]
    by_cases hw : c.tree.path ty = ["world"]
    · rw [if_pos (by simpa using hw)]
      split
      · rename_i h
        simp only [Bool.and_eq_true, Bool.not_eq_true', List.contains_eq_mem, decide_eq_true_eq, List.mem_cons,
          List.not_mem_nil, or_false] at h
        simp only [List.mem_singleton, Prod.mk.injEq]
        constructor
        · rintro ⟨rfl, rfl⟩; exact ⟨rfl, h.1, _, .world hw h.2, rfl⟩
        · rintro ⟨rfl, _, w, hs, rfl⟩
          cases hs with
          | client h _ => exact absurd h hc
          | world _ _ => exact ⟨rfl, rfl⟩
      · rename_i h
        simp only [Bool.and_eq_true, Bool.not_eq_true', List.contains_eq_mem, decide_eq_true_eq, List.mem_cons,
          List.not_mem_nil, or_false] at h
        constructor
        · intro h; cases h
        · rintro ⟨rfl, h1, w, hs, rfl⟩
          cases hs with
          | client h _ => exact absurd h hc
          | world _ h2 => exact absurd ⟨h1, h2⟩ h
    · rw [if_neg (by simpa using hw)]
      constructor
      · intro h; cases h
      · rintro ⟨rfl, h1, w, hs, rfl⟩
        cases hs with
        | client h _ => exact absurd h hc
        | world h _ => exact absurd h hw

theorem typed_events (c : Ctx) (l l' : Loc) (path : List Ident) (eff : Effect) :
    (l', eff) ∈ (c.typed l path).2 ↔ l' = l ∧ ∃ p, Missing c.tree path p ∧ eff = .msg (.undefinedType p) := by
  obtain ⟨_, _, h3⟩ := staticType_iff (t := c.tree) path
  unfold Ctx.typed
  cases he : c.tree.staticType path with
  | ok s =>
    simp only []
    constructor
    · intro h; cases h
    · rintro ⟨_, p, hp, _⟩; rw [(h3 p).2 hp] at he; cases he
  | error q =>
    simp only []
    rw [mem_say]
    constructor
    · rintro ⟨rfl, rfl⟩; exact ⟨rfl, q, (h3 q).1 he, rfl⟩
    · rintro ⟨rfl, p, hp, rfl⟩; rw [(h3 p).2 hp] at he; cases he; exact ⟨rfl, rfl⟩

theorem new_events (c : Ctx) (l l' : Loc) (i : Nat) (es : Exprs) (eff : Effect) :
    (l', eff) ∈ (visitNew c l i es.toList (visitArgs c l es)).2 ↔
      (∃ p, Defines c.tree i "New" p ∧ ((l' = l ∧ CallDue c i p true false es eff) ∨ ArgEvents c l es l' eff)) ∨
      ((∀ p, ¬ Defines c.tree i "New" p) ∧ c.tree.path i ∉ [["list"], ["alist"], ["vector"], ["pixloc"]] ∧ l' = l ∧
        eff = .msg (.noNew i)) := by
  unfold visitNew
  cases hp : c.tree.getProc i "New" with
  | some p =>
    have hP := (getProc_iff _ _ _).1 hp
    simp only []
    rw [call_events]
    constructor
    · intro h; exact .inl ⟨p, hP, h⟩
    · rintro (⟨q, hq, h⟩ | ⟨h, _⟩)
      · rw [(getProc_iff _ _ _).2 hq] at hp; cases hp; exact h
      · exact absurd hP (h p)
  | none =>
    have hP := (getProc_none _ _).1 hp
    simp only []
    split
    · rename_i h
      simp only [List.contains_eq_mem, decide_eq_true_eq] at h
      constructor
      · intro h; cases h
      · rintro (⟨q, hq, _⟩ | ⟨_, h', _⟩)
        · exact absurd hq (hP q)
        · exact absurd h h'
    · rename_i h
      simp only [List.contains_eq_mem, decide_eq_true_eq] at h
      rw [mem_say]
      constructor
      · rintro ⟨rfl, rfl⟩; exact .inr ⟨hP, h, rfl, rfl⟩
      · rintro (⟨q, hq, _⟩ | ⟨_, _, h1, h2⟩)
        · exact absurd hq (hP q)
        · exact ⟨h1, h2⟩

/-- A site at which nothing happens. -/
theorem silent {c : Ctx} {l l' : Loc} {s : Site} {eff : Effect} (h1 : ¬ Due c s eff) (h2 : ∀ k e, ¬ Opens c s k e) :
    (l', eff) ∈ ([] : List Ev) ↔ (l' = l ∧ Due c s eff) ∨ Inner c l s l' eff := by
  constructor
  · intro h; cases h
  · rintro (⟨_, h⟩ | ⟨k, e, h, _⟩)
    · exact absurd h h1
    · exact absurd h (h2 k e)

theorem ident_events (c : Ctx) (l l' : Loc) (h : Option Nat) (n : Ident) (eff : Effect) :
    (l', eff) ∈ (visitIdent c l n).2 ↔ l' = l ∧ Due c (.term l h (.ident n)) eff := by
  have hdue : Due c (.term l h (.ident n)) eff ↔ c.locals n = none ∧ n ≠ "type" ∧
      (((∀ d, ¬ Declares c.tree c.ty n d) ∧ eff = .msg (.undefinedVar n)) ∨
      ∃ d p, Declares c.tree c.ty n d ∧ Missing c.tree d.path p ∧ eff = .msg (.undefinedType p)) := by
    constructor
    · intro hd
      cases hd with
      | undefinedVar h1 h2 h3 => exact ⟨h1, h2, .inl ⟨h3, rfl⟩⟩
      | varType h1 h2 h3 h4 => exact ⟨h1, h2, .inr ⟨_, _, h3, h4, rfl⟩⟩
      | call hm _ => cases hm
    · rintro ⟨h1, h2, ⟨h3, rfl⟩ | ⟨d, p, h3, h4, rfl⟩⟩
      · exact .undefinedVar h1 h2 h3
      · exact .varType h1 h2 h3 h4
  rw [hdue]
  unfold visitIdent
  cases hl : c.locals n with
  | some b =>
    simp only []
    constructor
    · intro h; cases h
    · rintro ⟨_, h, _⟩; cases h
  | none =>
    simp only []
    by_cases hn : n = "type"
    · simp [hn]
    · have hn' : (n == "type") = false := by simpa using hn
      simp only [hn', Bool.false_eq_true, if_false, true_and]
      cases hd : c.tree.varDecl c.ty n with
      | some d =>
        have hD := (varDecl_iff _ _ _).1 hd
        simp only []
        rw [typed_events]
        constructor
        · rintro ⟨h1, p, h2, h3⟩; exact ⟨h1, hn, .inr ⟨d, p, hD, h2, h3⟩⟩
        · rintro ⟨h1, _, ⟨h2, _⟩ | ⟨d', p, h2, h3, h4⟩⟩
          · exact absurd hD (h2 d)
          · rw [(varDecl_iff _ _ _).2 h2] at hd; cases hd; exact ⟨h1, p, h3, h4⟩
      | none =>
        have hD := (varDecl_none _ _).1 hd
        simp only []
        rw [mem_say]
        constructor
        · rintro ⟨h1, h2⟩; exact ⟨h1, hn, .inl ⟨hD, h2⟩⟩
        · rintro ⟨h1, _, ⟨_, h2⟩ | ⟨d', p, h2, h3, h4⟩⟩
          · exact ⟨h1, h2⟩
          · exact absurd h2 (hD _)

theorem globalIdent_events (c : Ctx) (l l' : Loc) (h : Option Nat) (n : Ident) (eff : Effect) :
    (l', eff) ∈ (visitGlobal c l n).2 ↔ l' = l ∧ Due c (.term l h (.globalIdent n)) eff := by
  have hdue : Due c (.term l h (.globalIdent n)) eff ↔
      (((∀ d, ¬ Declares c.tree 0 n d) ∧ eff = .msg (.undefinedGlobalVar n)) ∨
      ∃ d p, Declares c.tree 0 n d ∧ Missing c.tree d.path p ∧ eff = .msg (.undefinedType p)) := by
    constructor
    · intro hd
      cases hd with
      | undefinedGlobal h3 => exact .inl ⟨h3, rfl⟩
      | globalType h3 h4 => exact .inr ⟨_, _, h3, h4, rfl⟩
      | call hm _ => cases hm
    · rintro (⟨h3, rfl⟩ | ⟨d, p, h3, h4, rfl⟩)
      · exact .undefinedGlobal h3
      · exact .globalType h3 h4
  rw [hdue]
  unfold visitGlobal
  cases hd : c.tree.varDecl 0 n with
  | some d =>
    have hD := (varDecl_iff _ _ _).1 hd
    simp only []
    rw [typed_events]
    constructor
    · rintro ⟨h1, p, h2, h3⟩; exact ⟨h1, .inr ⟨d, p, hD, h2, h3⟩⟩
    · rintro ⟨h1, ⟨h2, _⟩ | ⟨d', p, h2, h3, h4⟩⟩
      · exact absurd hD (h2 d)
      · rw [(varDecl_iff _ _ _).2 h2] at hd; cases hd; exact ⟨h1, p, h3, h4⟩
  | none =>
    have hD := (varDecl_none _ _).1 hd
    simp only []
    rw [mem_say]
    constructor
    · rintro ⟨h1, h2⟩; exact ⟨h1, .inl ⟨hD, h2⟩⟩
    · rintro ⟨h1, ⟨_, h2⟩ | ⟨d', p, h2, h3, h4⟩⟩
      · exact ⟨h1, h2⟩
      · exact absurd h2 (hD _)

/-- A site with a call: what is due at the call and in its arguments, and what else is due. -/
theorem call_site {c : Ctx} {l l' : Loc} {s : Site} {src : Nat} {p : Proc} {ex inh : Bool} {es : Exprs} {eff : Effect}
    {O : Prop} (hm : Makes c s src p ex inh es)
    (hu : ∀ {src' p' ex' inh' es'}, Makes c s src' p' ex' inh' es' → src' = src ∧ p' = p ∧ ex' = ex ∧ inh' = inh ∧ es' = es)
    (hd : Due c s eff ↔ O ∨ ∃ src' p' ex' inh' es', Makes c s src' p' ex' inh' es' ∧ CallDue c src' p' ex' inh' es' eff)
    (ho : ∀ k e, Opens c s k e → ∃ src' p' ex' inh' es' x, Makes c s src' p' ex' inh' es' ∧ x ∈ es'.toList ∧
      ArgValue x e ∧ k = none) :
    (l' = l ∧ O) ∨ (l', eff) ∈ (visitCall c l src p ex inh es.toList (visitArgs c l es)).2 ↔
      (l' = l ∧ Due c s eff) ∨ Inner c l s l' eff := by
  rw [call_events, hd]
  constructor
  · rintro (⟨h1, h2⟩ | ⟨h1, h2⟩ | ⟨x, hx, v, hv, h⟩)
    · exact .inl ⟨h1, .inl h2⟩
    · exact .inl ⟨h1, .inr ⟨_, _, _, _, _, hm, h2⟩⟩
    · exact .inr ⟨none, v, .arg hm hx hv, h⟩
  · rintro (⟨h1, h2 | ⟨_, _, _, _, _, hm', h2⟩⟩ | ⟨k, e, hop, h⟩)
    · exact .inl ⟨h1, h2⟩
    · obtain ⟨rfl, rfl, rfl, rfl, rfl⟩ := hu hm'
      exact .inr (.inl ⟨h1, h2⟩)
    · obtain ⟨_, _, _, _, _, x, hm', hx, hv, rfl⟩ := ho k e hop
      obtain ⟨rfl, rfl, rfl, rfl, rfl⟩ := hu hm'
      exact .inr (.inr ⟨x, hx, e, hv, h⟩)

theorem Defines.unique {t : Tree} {i : Nat} {n : Ident} {p q : Proc} (h : Defines t i n p) (h' : Defines t i n q) : p = q := by
  have h1 := (getProc_iff _ _ _).2 h
  rw [(getProc_iff _ _ _).2 h'] at h1
  cases h1; rfl

theorem ParentOf.unique {t : Tree} {p q r : Proc} (h : ParentOf t p q) (h' : ParentOf t p r) : q = r := by
  have h1 := (parentProc_iff _ _).2 h
  rw [(parentProc_iff _ _).2 h'] at h1
  cases h1; rfl

theorem Basic.unique {t : Tree} {s : STy} {i j : Nat} (h : Basic t s i) (h' : Basic t s j) : i = j := by
  have h1 := (basic_iff _ _).2 h
  rw [(basic_iff _ _).2 h'] at h1
  cases h1; rfl

theorem Declares.unique {t : Tree} {i : Nat} {n : Ident} {d e : VarDecl} (h : Declares t i n d) (h' : Declares t i n e) :
    d = e := by
  have h1 := (varDecl_iff _ _ _).2 h
  rw [(varDecl_iff _ _ _).2 h'] at h1
  cases h1; rfl

theorem opens_call {c : Ctx} {l : Loc} {h k : Option Nat} {n : Ident} {args : Exprs} {e : Expr}
    (hop : Opens c (.term l h (.call n args)) k e) :
    (∃ src p ex inh es x, Makes c (.term l h (.call n args)) src p ex inh es ∧ x ∈ es.toList ∧ ArgValue x e ∧ k = none) ∨
    n = "SpacemanDMM_debug" := by
  cases hop with
  | arg hm hx hv => exact .inl ⟨_, _, _, _, _, _, hm, hx, hv, rfl⟩
  | debug _ _ => exact .inr rfl

theorem callTerm_events (c : Ctx) (l l' : Loc) (h : Option Nat) (n : Ident) (args : Exprs) (eff : Effect) :
    (l', eff) ∈ (visitTerm c l h (.call n args)).2 ↔
      (l' = l ∧ Due c (.term l h (.call n args)) eff) ∨ Inner c l (.term l h (.call n args)) l' eff := by
  rw [visitTerm]
  simp only []
  -- what is due apart from the call
  let O : Prop := ((∀ p, ¬ Defines c.tree c.ty n p) ∧ n ∉ ["__PROC__", "SpacemanDMM_unlint", "SpacemanDMM_debug"] ∧
      eff = .msg (.undefinedProc n c.ty)) ∨
    (c.newContext = false ∧ n ∈ ["sleep", "alert", "shell", "winexists", "winget"] ∧ eff = .sleep n) ∨
    (c.newContext = false ∧ ∃ w, Sleeps c.tree c.ty n w ∧ eff = .sleep w)
  have hd : Due c (.term l h (.call n args)) eff ↔ O ∨
      ∃ src' p' ex' inh' es', Makes c (.term l h (.call n args)) src' p' ex' inh' es' ∧
        CallDue c src' p' ex' inh' es' eff := by
    constructor
    · intro hd
      cases hd with
      | undefinedProc h1 h2 => exact .inl (.inl ⟨h1, h2, rfl⟩)
      | sleeps h1 h2 => exact .inl (.inr (.inl ⟨h1, h2, rfl⟩))
      | sleepsOn h1 h2 => exact .inl (.inr (.inr ⟨h1, _, h2, rfl⟩))
      | call hm hc => exact .inr ⟨_, _, _, _, _, hm, hc⟩
    · rintro ((⟨h1, h2, rfl⟩ | ⟨h1, h2, rfl⟩ | ⟨h1, w, h2, rfl⟩) | ⟨_, _, _, _, _, hm, hc⟩)
      · exact .undefinedProc h1 h2
      · exact .sleeps h1 h2
      · exact .sleepsOn h1 h2
      · exact .call hm hc
  have hpre : (l', eff) ∈ sleepers c l n ++ typeSleepers c c.ty l n ↔ l' = l ∧
      ((c.newContext = false ∧ n ∈ ["sleep", "alert", "shell", "winexists", "winget"] ∧ eff = .sleep n) ∨
      (c.newContext = false ∧ ∃ w, Sleeps c.tree c.ty n w ∧ eff = .sleep w)) := by
    rw [List.mem_append, mem_sleepers, mem_typeSleepers]
    constructor
    · rintro (⟨h1, h2⟩ | ⟨h1, h2⟩)
      · exact ⟨h1, .inl h2⟩
      · exact ⟨h1, .inr h2⟩
    · rintro ⟨h1, h2 | h2⟩
      · exact .inl ⟨h1, h2⟩
      · exact .inr ⟨h1, h2⟩
  cases hp : c.tree.getProc c.ty n with
  | some p =>
    have hP := (getProc_iff _ _ _).1 hp
    simp only []
    rw [List.mem_append, hpre, ← call_site (.call hP) (by
        intro _ _ _ _ _ hm
        cases hm with
        | call h => exact ⟨rfl, h.unique hP, rfl, rfl, rfl⟩
        | ownName h => exact absurd hP (h _)) hd (by
        intro k e hop
        cases hop with
        | arg hm hx hv => exact ⟨_, _, _, _, _, _, hm, hx, hv, rfl⟩
        | debug h _ => exact absurd hP (h _))]
    have : O ↔ ((c.newContext = false ∧ n ∈ ["sleep", "alert", "shell", "winexists", "winget"] ∧ eff = .sleep n) ∨
      (c.newContext = false ∧ ∃ w, Sleeps c.tree c.ty n w ∧ eff = .sleep w)) := by
      constructor
      · rintro (⟨h, _⟩ | h)
        · exact absurd hP (h _)
        · exact h
      · exact .inr
    rw [this]
  | none =>
    have hP := (getProc_none _ _).1 hp
    simp only []
    by_cases hn : n = "__PROC__"
    · subst hn
      simp only [beq_self_eq_true, if_true]
      rw [List.mem_append, hpre, ← call_site (.ownName hP) (by
          intro _ _ _ _ _ hm
          cases hm with
          | call h => exact absurd h (hP _)
          | ownName h => exact ⟨rfl, rfl, rfl, rfl, rfl⟩) hd (by
          intro k e hop
          exact (opens_call hop).resolve_right (by decide))]
      have : O ↔ ((c.newContext = false ∧ "__PROC__" ∈ ["sleep", "alert", "shell", "winexists", "winget"] ∧
          eff = .sleep "__PROC__") ∨ (c.newContext = false ∧ ∃ w, Sleeps c.tree c.ty "__PROC__" w ∧ eff = .sleep w)) := by
        constructor
        · rintro (⟨_, h, _⟩ | h)
          · simp at h
          · exact h
        · exact .inr
      rw [this]
    · have hn' : (n == "__PROC__") = false := by simpa using hn
      simp only [hn', Bool.false_eq_true, if_false]
      have hmk : ∀ {src p ex inh es}, ¬ Makes c (.term l h (.call n args)) src p ex inh es := by
        intro _ _ _ _ _ hm
        cases hm with
        | call h => exact hP _ h
        | ownName h => exact hn rfl
      have hd' : Due c (.term l h (.call n args)) eff ↔ O := by
        rw [hd]
        constructor
        · rintro (h | ⟨_, _, _, _, _, hm, _⟩)
          · exact h
          · exact absurd hm hmk
        · exact .inl
      rw [hd']
      by_cases hun : n = "SpacemanDMM_unlint"
      · subst hun
        simp only [beq_self_eq_true, if_true]
        rw [hpre]
        constructor
        · rintro ⟨h1, h2⟩; exact .inl ⟨h1, .inr h2⟩
        · rintro (⟨h1, ⟨_, h2, _⟩ | h2⟩ | ⟨k, e, hop, _⟩)
          · simp at h2
          · exact ⟨h1, h2⟩
          · rcases opens_call hop with ⟨_, _, _, _, _, _, hm, _⟩ | h
            · exact absurd hm hmk
            · exact absurd h (by decide)
      · have hun' : (n == "SpacemanDMM_unlint") = false := by simpa using hun
        simp only [hun', Bool.false_eq_true, if_false]
        by_cases hdb : n = "SpacemanDMM_debug"
        · subst hdb
          simp only [beq_self_eq_true, if_true]
          rw [List.mem_append, hpre, mem_visitAll]
          constructor
          · rintro (⟨h1, h2⟩ | ⟨e, he, h2⟩)
            · exact .inl ⟨h1, .inr h2⟩
            · exact .inr ⟨none, e, .debug hP he, h2⟩
          · rintro (⟨h1, ⟨_, h2, _⟩ | h2⟩ | ⟨k, e, hop, h2⟩)
            · simp at h2
            · exact .inl ⟨h1, h2⟩
            · cases hop with
              | arg hm _ _ => exact absurd hm hmk
              | debug _ he => exact .inr ⟨e, he, h2⟩
        · have hdb' : (n == "SpacemanDMM_debug") = false := by simpa using hdb
          simp only [hdb', Bool.false_eq_true, if_false]
          rw [List.mem_append, hpre, mem_say]
          constructor
          · rintro (⟨h1, h2⟩ | ⟨h1, h2⟩)
            · exact .inl ⟨h1, .inr h2⟩
            · exact .inl ⟨h1, .inl ⟨hP, by simp [hn, hun, hdb], h2⟩⟩
          · rintro (⟨h1, ⟨_, _, h2⟩ | h2⟩ | ⟨k, e, hop, h2⟩)
            · exact .inr ⟨h1, h2⟩
            · exact .inl ⟨h1, h2⟩
            · cases hop with
              | arg hm _ _ => exact absurd hm hmk
              | debug _ he => exact absurd rfl hdb

theorem term_events (c : Ctx) (l l' : Loc) (h : Option Nat) (eff : Effect) (t : Term) :
    (l', eff) ∈ (visitTerm c l h t).2 ↔ (l' = l ∧ Due c (.term l h t) eff) ∨ Inner c l (.term l h t) l' eff := by
  cases t with
  | null =>
    rw [visitTerm]
    refine silent (fun hd => ?_) (fun k e ho => ?_)
    · cases hd with | call hm _ => cases hm
    · cases ho with | arg hm _ _ => cases hm
  | int n =>
    rw [visitTerm]
    refine silent (fun hd => ?_) (fun k e ho => ?_)
    · cases hd with | call hm _ => cases hm
    · cases ho with | arg hm _ _ => cases hm
  | float =>
    rw [visitTerm]
    refine silent (fun hd => ?_) (fun k e ho => ?_)
    · cases hd with | call hm _ => cases hm
    · cases ho with | arg hm _ _ => cases hm
  | string s =>
    rw [visitTerm]
    refine silent (fun hd => ?_) (fun k e ho => ?_)
    · cases hd with | call hm _ => cases hm
    · cases ho with | arg hm _ _ => cases hm
  | resource =>
    rw [visitTerm]
    refine silent (fun hd => ?_) (fun k e ho => ?_)
    · cases hd with | call hm _ => cases hm
    · cases ho with | arg hm _ _ => cases hm
  | as =>
    rw [visitTerm]
    refine silent (fun hd => ?_) (fun k e ho => ?_)
    · cases hd with | call hm _ => cases hm
    · cases ho with | arg hm _ _ => cases hm
  | ident n =>
    rw [visitTerm, ident_events c l l' h n eff]
    constructor
    · exact .inl
    · rintro (h | ⟨k, e, ho, _⟩)
      · exact h
      · cases ho with | arg hm _ _ => cases hm
  | globalIdent n =>
    rw [visitTerm, globalIdent_events c l l' h n eff]
    constructor
    · exact .inl
    · rintro (h | ⟨k, e, ho, _⟩)
      · exact h
      · cases ho with | arg hm _ _ => cases hm
  | expr e =>
    rw [visitTerm]
    constructor
    · intro hm; exact .inr ⟨h, e, .paren, hm⟩
    · rintro (⟨_, hd⟩ | ⟨k, e', ho, hm⟩)
      · cases hd with | call hm _ => cases hm
      · cases ho with
        | arg hm' _ _ => cases hm'
        | paren => exact hm
  | prefab path =>
    rw [visitTerm]
    have hop : ∀ k e, ¬ Opens c (.term l h (.prefab path)) k e := by
      intro k e ho
      cases ho with | arg hm _ _ => cases hm
    cases hn : c.tree.nav c.ty path with
    | some i =>
      refine silent (fun hd => ?_) hop
      cases hd with
      | badPath h => rw [hn] at h; cases h
      | call hm _ => cases hm
    | none =>
      simp only []
      rw [mem_say]
      constructor
      · rintro ⟨h1, rfl⟩; exact .inl ⟨h1, .badPath hn⟩
      · rintro (⟨h1, hd⟩ | ⟨k, e, ho, _⟩)
        · cases hd with
          | badPath _ => exact ⟨h1, rfl⟩
          | call hm _ => cases hm
        · exact absurd ho (hop k e)
  | interp es =>
    rw [visitTerm, mem_visitAll]
    constructor
    · rintro ⟨e, he, hm⟩; exact .inr ⟨none, e, .interp he, hm⟩
    · rintro (⟨_, hd⟩ | ⟨k, e, ho, h⟩)
      · cases hd with | call hm _ => cases hm
      · cases ho with
        | arg hm _ _ => cases hm
        | interp he => exact ⟨e, he, h⟩
  | call n args => exact callTerm_events c l l' h n args eff
  | selfCall args =>
    rw [visitTerm, ← call_site (O := False) .self (by
        intro _ _ _ _ _ hm
        cases hm
        exact ⟨rfl, rfl, rfl, rfl, rfl⟩) (by
        constructor
        · intro hd
          cases hd with
          | call hm hc => exact .inr ⟨_, _, _, _, _, hm, hc⟩
        · rintro (h | ⟨_, _, _, _, _, hm, hc⟩)
          · exact h.elim
          · exact .call hm hc) (by
        intro k e hop
        cases hop with
        | arg hm hx hv => exact ⟨_, _, _, _, _, _, hm, hx, hv, rfl⟩)]
    simp
  | parentCall args =>
    rw [visitTerm]
    cases hp : c.tree.parentProc c.proc with
    | some p =>
      have hP := (parentProc_iff _ _).1 hp
      simp only []
      rw [List.mem_cons, ← call_site (O := eff = .callsParent) (.parent hP) (by
          intro _ _ _ _ _ hm
          cases hm with
          | parent h => exact ⟨rfl, h.unique hP, rfl, rfl, rfl⟩) (by
          constructor
          · intro hd
            cases hd with
            | noParentProc h => exact absurd hP (h _)
            | callsParent => exact .inl rfl
            | call hm hc => exact .inr ⟨_, _, _, _, _, hm, hc⟩
          · rintro (rfl | ⟨_, _, _, _, _, hm, hc⟩)
            · exact .callsParent
            · exact .call hm hc) (by
          intro k e hop
          cases hop with
          | arg hm hx hv => exact ⟨_, _, _, _, _, _, hm, hx, hv, rfl⟩)]
      rw [Prod.mk.injEq]
    | none =>
      have hP := (parentProc_none _).1 hp
      simp only []
      rw [List.mem_cons, mem_say, Prod.mk.injEq]
      constructor
      · rintro (⟨h1, rfl⟩ | ⟨h1, rfl⟩)
        · exact .inl ⟨h1, .callsParent⟩
        · exact .inl ⟨h1, .noParentProc hP⟩
      · rintro (⟨h1, hd⟩ | ⟨k, e, ho, _⟩)
        · cases hd with
          | noParentProc h => exact .inr ⟨h1, rfl⟩
          | callsParent => exact .inl ⟨h1, rfl⟩
          | call hm hc =>
            cases hm with
            | parent h => exact absurd h (hP _)
        · cases ho with
          | arg hm _ _ =>
            cases hm with
            | parent h => exact absurd h (hP _)
  | globalCall n args =>
    rw [visitTerm]
    cases hp : c.tree.getProc 0 n with
    | some p =>
      have hP := (getProc_iff _ _ _).1 hp
      simp only []
      rw [← call_site (O := False) (.global hP) (by
          intro _ _ _ _ _ hm
          cases hm with
          | global h => exact ⟨rfl, h.unique hP, rfl, rfl, rfl⟩) (by
          constructor
          · intro hd
            cases hd with
            | undefinedGlobalProc h => exact absurd hP (h _)
            | call hm hc => exact .inr ⟨_, _, _, _, _, hm, hc⟩
          · rintro (h | ⟨_, _, _, _, _, hm, hc⟩)
            · exact h.elim
            · exact .call hm hc) (by
          intro k e hop
          cases hop with
          | arg hm hx hv => exact ⟨_, _, _, _, _, _, hm, hx, hv, rfl⟩)]
      simp
    | none =>
      have hP := (getProc_none _ _).1 hp
      simp only []
      rw [mem_say]
      constructor
      · rintro ⟨h1, rfl⟩; exact .inl ⟨h1, .undefinedGlobalProc hP⟩
      · rintro (⟨h1, hd⟩ | ⟨k, e, ho, _⟩)
        · cases hd with
          | undefinedGlobalProc h => exact ⟨h1, rfl⟩
          | call hm hc =>
            cases hm with
            | global h => exact absurd h (hP _)
        · cases ho with
          | arg hm _ _ =>
            cases hm with
            | global h => exact absurd h (hP _)
  | newImplicit args =>
    rw [visitTerm.eq_def]
    cases h with
    | none =>
      simp only []
      rw [mem_say]
      constructor
      · rintro ⟨h1, rfl⟩; exact .inl ⟨h1, .noTypeHint⟩
      · rintro (⟨h1, hd⟩ | ⟨k, e, ho, _⟩)
        · cases hd with
          | noTypeHint => exact ⟨h1, rfl⟩
          | call hm _ => cases hm
        · cases ho with | arg hm _ _ => cases hm
    | some i =>
      simp only []
      rw [new_events]
      constructor
      · rintro (⟨p, hp, ⟨h1, h2⟩ | ⟨x, hx, v, hv, hm⟩⟩ | ⟨h1, h2, h3, rfl⟩)
        · exact .inl ⟨h1, .call (.newImplicit hp) h2⟩
        · exact .inr ⟨none, v, .arg (.newImplicit hp) hx hv, hm⟩
        · exact .inl ⟨h3, .noNew h1 h2⟩
      · rintro (⟨h1, hd⟩ | ⟨k, e, ho, h⟩)
        · cases hd with
          | noNew h2 h3 => exact .inr ⟨h2, h3, h1, rfl⟩
          | call hm hc =>
            cases hm with
            | newImplicit hp => exact .inl ⟨_, hp, .inl ⟨h1, hc⟩⟩
        · cases ho with
          | arg hm hx hv =>
            cases hm with
            | newImplicit hp => exact .inl ⟨_, hp, .inr ⟨_, hx, _, hv, h⟩⟩
  | newPrefab path args =>
    rw [visitTerm]
    cases hn : c.tree.nav c.ty path with
    | none =>
      simp only []
      rw [mem_say]
      constructor
      · rintro ⟨h1, rfl⟩; exact .inl ⟨h1, .badNewPath hn⟩
      · rintro (⟨h1, hd⟩ | ⟨k, e, ho, _⟩)
        · cases hd with
          | badNewPath _ => exact ⟨h1, rfl⟩
          | noNewPath h _ _ => rw [hn] at h; cases h
          | call hm _ =>
            cases hm with
            | newPrefab h _ => rw [hn] at h; cases h
        · cases ho with
          | arg hm _ _ =>
            cases hm with
            | newPrefab h _ => rw [hn] at h; cases h
    | some i =>
      simp only []
      rw [new_events]
      constructor
      · rintro (⟨p, hp, ⟨h1, h2⟩ | ⟨x, hx, v, hv, hm⟩⟩ | ⟨h1, h2, h3, rfl⟩)
        · exact .inl ⟨h1, .call (.newPrefab hn hp) h2⟩
        · exact .inr ⟨none, v, .arg (.newPrefab hn hp) hx hv, hm⟩
        · exact .inl ⟨h3, .noNewPath hn h1 h2⟩
      · rintro (⟨h1, hd⟩ | ⟨k, e, ho, h⟩)
        · cases hd with
          | badNewPath h => rw [hn] at h; cases h
          | noNewPath h h2 h3 => rw [hn] at h; cases h; exact .inr ⟨h2, h3, h1, rfl⟩
          | call hm hc =>
            cases hm with
            | newPrefab h hp => rw [hn] at h; cases h; exact .inl ⟨_, hp, .inl ⟨h1, hc⟩⟩
        · cases ho with
          | arg hm hx hv =>
            cases hm with
            | newPrefab h' hp => rw [hn] at h'; cases h'; exact .inl ⟨_, hp, .inr ⟨_, hx, _, hv, h⟩⟩
  | newMini =>
    rw [visitTerm]
    refine silent (fun hd => ?_) (fun k e ho => ?_)
    · cases hd with | call hm _ => cases hm
    · cases ho with | arg hm _ _ => cases hm
  | list es =>
    rw [visitTerm, mem_flatArgs]
    constructor
    · rintro ⟨x, hx, v, hv, hm⟩; exact .inr ⟨none, v, .list hx hv, hm⟩
    · rintro (⟨_, hd⟩ | ⟨k, e, ho, h⟩)
      · cases hd with | call hm _ => cases hm
      · cases ho with
        | arg hm _ _ => cases hm
        | list hx hv => exact ⟨_, hx, _, hv, h⟩
  | input es fs =>
    rw [visitTerm]
    simp only [List.mem_append]
    rw [mem_flatArgs, mem_visitAll]
    have hs : (l', eff) ∈ (if c.newContext then [] else [(l, Effect.sleep "input")]) ↔
        l' = l ∧ c.newContext = false ∧ eff = .sleep "input" := by
      cases c.newContext <;> simp
    rw [hs]
    constructor
    · rintro ((⟨h1, h2, rfl⟩ | ⟨x, hx, v, hv, hm⟩) | ⟨e, he, hm⟩)
      · exact .inl ⟨h1, .input h2⟩
      · exact .inr ⟨none, v, .input hx hv, hm⟩
      · exact .inr ⟨none, e, .inputIn he, hm⟩
    · rintro (⟨h1, hd⟩ | ⟨k, e, ho, h⟩)
      · cases hd with
        | input h2 => exact .inl (.inl ⟨h1, h2, rfl⟩)
        | call hm _ => cases hm
      · cases ho with
        | arg hm _ _ => cases hm
        | input hx hv => exact .inl (.inr ⟨_, hx, _, hv, h⟩)
        | inputIn he => exact .inr ⟨_, he, h⟩
  | locate es fs =>
    rw [visitTerm]
    simp only [List.mem_append]
    rw [mem_flatArgs, mem_visitAll]
    constructor
    · rintro (⟨x, hx, v, hv, hm⟩ | ⟨e, he, hm⟩)
      · exact .inr ⟨none, v, .locate hx hv, hm⟩
      · exact .inr ⟨none, e, .locateIn he, hm⟩
    · rintro (⟨h1, hd⟩ | ⟨k, e, ho, h⟩)
      · cases hd with
        | call hm _ => cases hm
      · cases ho with
        | arg hm _ _ => cases hm
        | locate hx hv => exact .inl ⟨_, hx, _, hv, h⟩
        | locateIn he => exact .inr ⟨_, he, h⟩
  | pick es =>
    rw [visitTerm, mem_visitAll]
    constructor
    · rintro ⟨e, he, hm⟩; exact .inr ⟨none, e, .pick he, hm⟩
    · rintro (⟨_, hd⟩ | ⟨k, e, ho, h⟩)
      · cases hd with | call hm _ => cases hm
      · cases ho with
        | arg hm _ _ => cases hm
        | pick he => exact ⟨e, he, h⟩
  | dynCall es fs =>
    rw [visitTerm]
    simp only [List.mem_append]
    rw [mem_flatArgs, mem_flatArgs]
    constructor
    · rintro (⟨x, hx, v, hv, hm⟩ | ⟨x, hx, v, hv, hm⟩)
      · exact .inr ⟨none, v, .dynLhs hx hv, hm⟩
      · exact .inr ⟨none, v, .dynRhs hx hv, hm⟩
    · rintro (⟨h1, hd⟩ | ⟨k, e, ho, h⟩)
      · cases hd with
        | call hm _ => cases hm
      · cases ho with
        | arg hm _ _ => cases hm
        | dynLhs hx hv => exact .inl ⟨_, hx, _, hv, h⟩
        | dynRhs hx hv => exact .inr ⟨_, hx, _, hv, h⟩
  | extCall es f fs =>
    rw [visitTerm]
    simp only [List.mem_append]
    rw [mem_flatArgs, mem_visitAll]
    constructor
    · rintro ((⟨e, he, hm⟩ | hm) | ⟨x, hx, v, hv, hm⟩)
      · exact .inr ⟨none, e, .extLib he, hm⟩
      · exact .inr ⟨none, f, .extFn, hm⟩
      · exact .inr ⟨none, v, .extArg hx hv, hm⟩
    · rintro (⟨h1, hd⟩ | ⟨k, e, ho, h⟩)
      · cases hd with
        | call hm _ => cases hm
      · cases ho with
        | arg hm _ _ => cases hm
        | extLib he => exact .inl (.inl ⟨_, he, h⟩)
        | extFn => exact .inl (.inr h)
        | extArg hx hv => exact .inr ⟨_, hx, _, hv, h⟩
  | typeMacro =>
    rw [visitTerm]
    refine silent (fun hd => ?_) (fun k e ho => ?_)
    · cases hd with | call hm _ => cases hm
    · cases ho with | arg hm _ _ => cases hm
  | procMacro =>
    rw [visitTerm]
    refine silent (fun hd => ?_) (fun k e ho => ?_)
    · cases hd with | call hm _ => cases hm
    · cases ho with | arg hm _ _ => cases hm
  | impliedType =>
    have : (visitTerm c l h .impliedType).2 = [] := by
      rw [visitTerm.eq_def]; cases h <;> rfl
    rw [this]
    refine silent (fun hd => ?_) (fun k e ho => ?_)
    · cases hd with | call hm _ => cases hm
    · cases ho with | arg hm _ _ => cases hm

theorem field_events (c : Ctx) (l l' : Loc) (a : An) (k : Access) (n : Ident) (eff : Effect) :
    (l', eff) ∈ (visitFollow c l a (.field k n)).2 ↔ (l' = l ∧ Due c (.follow l a (.field k n)) eff) ∨
      Inner c l (.follow l a (.field k n)) l' eff := by
  have hop : ∀ k' e, ¬ Opens c (.follow l a (.field k n)) k' e := by
    intro k' e ho
    cases ho with | arg hm _ _ => cases hm
  have hin : ¬ Inner c l (.follow l a (.field k n)) l' eff := by
    rintro ⟨_, _, ho, _⟩; exact hop _ _ ho
  have hdue : Due c (.follow l a (.field k n)) eff ↔ k.checked ∧
      ((∃ i, Basic c.tree a.st i ∧ ¬ (c.tree.path i = ["callee"] ∧ n = "proc") ∧
        (((∀ d, ¬ Declares c.tree i n d) ∧ eff = .msg (.undefinedField n i)) ∨
        ∃ d, Declares c.tree i n d ∧
          ((∃ p, Missing c.tree d.path p ∧ eff = .msg (.undefinedType p)) ∨
          (d.isPrivate = true ∧ i ≠ c.ty ∧ eff = .msg (.privateVar n i)) ∨
          (d.isPrivate = false ∧ d.isProtected = true ∧ ¬ Sub c.tree c.ty i ∧ eff = .msg (.protectedVar n i))))) ∨
      (a.st = .none ∧ eff = .msg (.fieldNeedsType n)) ∨
      (a.st = .proc ∧ n ∉ ["type", "name", "desc", "category", "invisibility"] ∧ eff = .msg (.undefinedProcField n))) := by
    constructor
    · intro hd
      cases hd with
      | undefinedField h0 h1 h2 h3 => exact ⟨h0, .inl ⟨_, h1, h2, .inl ⟨h3, rfl⟩⟩⟩
      | fieldType h0 h1 h2 h3 h4 => exact ⟨h0, .inl ⟨_, h1, h2, .inr ⟨_, h3, .inl ⟨_, h4, rfl⟩⟩⟩⟩
      | privateVar h0 h1 h2 h3 h4 h5 => exact ⟨h0, .inl ⟨_, h1, h2, .inr ⟨_, h3, .inr (.inl ⟨h4, h5, rfl⟩)⟩⟩⟩
      | protectedVar h0 h1 h2 h3 h4 h5 h6 => exact ⟨h0, .inl ⟨_, h1, h2, .inr ⟨_, h3, .inr (.inr ⟨h4, h5, h6, rfl⟩)⟩⟩⟩
      | fieldNeedsType h0 h1 => exact ⟨h0, .inr (.inl ⟨h1, rfl⟩)⟩
      | undefinedProcField h0 h1 h2 => exact ⟨h0, .inr (.inr ⟨h1, h2, rfl⟩)⟩
      | noTypepath h _ _ => rcases h with h | h <;> cases h
      | notTypepath h _ _ _ => rcases h with h | h <;> cases h
      | missingTypepath h _ _ _ => rcases h with h | h <;> cases h
      | call hm _ => cases hm
    · rintro ⟨h0, (⟨i, h1, h2, ⟨h3, rfl⟩ | ⟨d, h3, ⟨p, h4, rfl⟩ | ⟨h4, h5, rfl⟩ | ⟨h4, h5, h6, rfl⟩⟩⟩ | ⟨h1, rfl⟩ | ⟨h1, h2, rfl⟩)⟩
      · exact .undefinedField h0 h1 h2 h3
      · exact .fieldType h0 h1 h2 h3 h4
      · exact .privateVar h0 h1 h2 h3 h4 h5
      · exact .protectedVar h0 h1 h2 h3 h4 h5 h6
      · exact .fieldNeedsType h0 h1
      · exact .undefinedProcField h0 h1 h2
  by_cases hk : k.checked
  · rw [(visitFollow_checked c l a hk).1, or_iff_left hin, hdue]
    simp only [hk, true_and]
    unfold visitField
    have hnb : a.st.basic c.tree = none → ∀ i, ¬ Basic c.tree a.st i := (basic_none _).1
    cases hs : a.st with
    | proc =>
      simp only []
      have hb : ∀ i, ¬ Basic c.tree .proc i := fun i h => by cases h
      split
      · rename_i hc
        simp only [List.contains_eq_mem, decide_eq_true_eq] at hc
        constructor
        · intro h; cases h
        · rintro ⟨_, ⟨i, h, _⟩ | ⟨h, _⟩ | ⟨_, h, _⟩⟩
          · exact absurd h (hb i)
          · cases h
          · exact absurd hc h
      · rename_i hc
        simp only [List.contains_eq_mem, decide_eq_true_eq] at hc
        rw [mem_say]
        constructor
        · rintro ⟨h1, h2⟩; exact ⟨h1, .inr (.inr ⟨trivial, hc, h2⟩)⟩
        · rintro ⟨h1, ⟨i, h, _⟩ | ⟨h, _⟩ | ⟨_, _, h⟩⟩
          · exact absurd h (hb i)
          · cases h
          · exact ⟨h1, h⟩
    | none =>
      have hb : ∀ i, ¬ Basic c.tree .none i := fun i h => by cases h
      simp only [STy.basic]
      rw [mem_say]
      constructor
      · rintro ⟨h1, h2⟩; exact ⟨h1, .inr (.inl ⟨trivial, h2⟩)⟩
      · rintro ⟨h1, ⟨i, h, _⟩ | ⟨_, h⟩ | ⟨h, _⟩⟩
        · exact absurd h (hb i)
        · exact ⟨h1, h⟩
        · cases h
    | _ =>
      simp only []
      rw [← hs]
      obtain ⟨i, hb⟩ : ∃ i, a.st.basic c.tree = some i := by rw [hs]; exact ⟨_, rfl⟩
      have hB := (basic_iff _ _).1 hb
      have hne : ¬ (a.st = .none ∧ eff = .msg (.fieldNeedsType n)) ∧
          ¬ (a.st = .proc ∧ n ∉ ["type", "name", "desc", "category", "invisibility"] ∧
            eff = .msg (.undefinedProcField n)) := by
        rw [hs]; exact ⟨(by simp), (by simp)⟩
      rw [or_iff_left (not_or.2 hne), hb]
      simp only []
      have hex : ∀ (Q : Nat → Prop), (∃ j, Basic c.tree a.st j ∧ Q j) ↔ Q i := by
        intro Q
        constructor
        · rintro ⟨j, hj, hq⟩; cases hB.unique hj; exact hq
        · intro hq; exact ⟨i, hB, hq⟩
      rw [hex]
      by_cases hc : c.tree.path i = ["callee"] ∧ n = "proc"
      · obtain ⟨h1, h2⟩ := id hc
        simp [h1, h2]
      · have hc' : (c.tree.path i == ["callee"] && n == "proc") = false := by simpa using hc
        simp only [hc', Bool.false_eq_true, if_false]
        cases hd : c.tree.varDecl i n with
        | none =>
          have hD := (varDecl_none _ _).1 hd
          simp only []
          rw [mem_say]
          constructor
          · rintro ⟨h1, h2⟩; exact ⟨h1, hc, .inl ⟨hD, h2⟩⟩
          · rintro ⟨h1, _, ⟨_, h2⟩ | ⟨d, h2, _⟩⟩
            · exact ⟨h1, h2⟩
            · exact absurd h2 (hD d)
        | some d =>
          have hD := (varDecl_iff _ _ _).1 hd
          simp only []
          rw [List.mem_append, typed_events]
          have hacc : ((l', eff) ∈ (if (i != c.ty && d.isPrivate) = true then say l (.privateVar n i)
              else if (!c.tree.isSubtype c.ty i && d.isProtected) = true then say l (.protectedVar n i) else [])) ↔ l' = l ∧
              ((d.isPrivate = true ∧ i ≠ c.ty ∧ eff = .msg (.privateVar n i)) ∨
              (d.isPrivate = false ∧ d.isProtected = true ∧ ¬ Sub c.tree c.ty i ∧ eff = .msg (.protectedVar n i)) ∨
              (i = c.ty ∧ d.isProtected = true ∧ ¬ Sub c.tree c.ty i ∧ eff = .msg (.protectedVar n i))) := by
            by_cases h1 : i ≠ c.ty ∧ d.isPrivate = true
            · rw [if_pos (by simpa using h1), mem_say]
              constructor
              · rintro ⟨h2, h3⟩; exact ⟨h2, .inl ⟨h1.2, h1.1, h3⟩⟩
              · rintro ⟨h2, ⟨_, _, h3⟩ | ⟨h3, _⟩ | ⟨h3, _⟩⟩
                · exact ⟨h2, h3⟩
                · rw [h1.2] at h3; cases h3
                · exact absurd h3 h1.1
            · rw [if_neg (by simpa using h1)]
              have h1' : i = c.ty ∨ d.isPrivate = false := by
                by_cases h : i = c.ty
                · exact .inl h
                · right
                  cases hp : d.isPrivate
                  · rfl
                  · exact absurd ⟨h, hp⟩ h1
              by_cases h2 : ¬ Sub c.tree c.ty i ∧ d.isProtected = true
              · rw [if_pos (by simpa [isSubtype_false] using h2), mem_say]
                constructor
                · rintro ⟨h3, h4⟩
                  rcases h1' with h | h
                  · exact ⟨h3, .inr (.inr ⟨h, h2.2, h2.1, h4⟩)⟩
                  · exact ⟨h3, .inr (.inl ⟨h, h2.2, h2.1, h4⟩)⟩
                · rintro ⟨h3, ⟨h4, h5, _⟩ | ⟨_, _, _, h4⟩ | ⟨_, _, _, h4⟩⟩
                  · exact absurd ⟨h5, h4⟩ h1
                  · exact ⟨h3, h4⟩
                  · exact ⟨h3, h4⟩
              · rw [if_neg (by simpa [isSubtype_false] using h2)]
                constructor
                · intro h; cases h
                · rintro ⟨_, ⟨h4, h5, _⟩ | ⟨_, h4, h5, _⟩ | ⟨_, h4, h5, _⟩⟩
                  · exact absurd ⟨h5, h4⟩ h1
                  · exact absurd ⟨h5, h4⟩ h2
                  · exact absurd ⟨h5, h4⟩ h2
          have hself : ¬ (i = c.ty ∧ d.isProtected = true ∧ ¬ Sub c.tree c.ty i ∧ eff = .msg (.protectedVar n i)) := by
            rintro ⟨rfl, _, h, _⟩; exact h (.refl _)
          rw [hacc, or_iff_left hself]
          constructor
          · rintro (⟨h1, h2⟩ | ⟨h1, h2⟩)
            · exact ⟨h1, hc, .inr ⟨d, hD, .inr h2⟩⟩
            · exact ⟨h1, hc, .inr ⟨d, hD, .inl h2⟩⟩
          · rintro ⟨h1, _, ⟨h2, _⟩ | ⟨d', h2, h3⟩⟩
            · exact absurd hD (h2 d)
            · cases hD.unique h2
              rcases h3 with h3 | h3
              · exact .inr ⟨h1, h3⟩
              · exact .inl ⟨h1, h3⟩
  · rw [(visitFollow_unchecked c l a hk).1]
    exact silent (fun hd => hk (hdue.1 hd).1) hop

theorem method_events (c : Ctx) (l l' : Loc) (a : An) (k : Access) (n : Ident) (es : Exprs) (eff : Effect) :
    (l', eff) ∈ (visitFollow c l a (.call k n es)).2 ↔ (l' = l ∧ Due c (.follow l a (.call k n es)) eff) ∨
      Inner c l (.follow l a (.call k n es)) l' eff := by
  have hmk : ∀ {src p ex inh es'}, Makes c (.follow l a (.call k n es)) src p ex inh es' → k.checked ∧
      Basic c.tree a.st src ∧ Defines c.tree src n p ∧ (∀ q, c.privateBy p = some q → q.ty = src) ∧ ex = false ∧
      inh = false ∧ es' = es := by
    intro _ _ _ _ _ hm
    cases hm with
    | method h1 h2 h3 h4 => exact ⟨h1, h2, h3, h4, rfl, rfl, rfl⟩
  -- what is due apart from the call
  let O : Prop := k.checked ∧
    (((∀ i, ¬ Basic c.tree a.st i) ∧ eff = .msg (.callNeedsType n)) ∨
    ∃ i, Basic c.tree a.st i ∧
      ((c.newContext = false ∧ ∃ w, Sleeps c.tree i n w ∧ eff = .sleep w) ∨
      ((∀ p, ¬ Defines c.tree i n p) ∧ eff = .msg (.undefinedProc n i)) ∨
      ∃ p, Defines c.tree i n p ∧
        ((∃ q, c.privateBy p = some q ∧ q.ty ≠ i ∧ eff = .msg (.privateProc q)) ∨
        ((∀ q, c.privateBy p = some q → q.ty = i) ∧ ∃ q, c.protectedBy p = some q ∧ ¬ Sub c.tree c.ty q.ty ∧
          eff = .msg (.protectedProc q)))))
  have hd : Due c (.follow l a (.call k n es)) eff ↔ O ∨
      ∃ src p ex inh es', Makes c (.follow l a (.call k n es)) src p ex inh es' ∧ CallDue c src p ex inh es' eff := by
    constructor
    · intro hd
      cases hd with
      | noTypepath h _ _ => rcases h with h | h <;> cases h
      | notTypepath h _ _ _ => rcases h with h | h <;> cases h
      | missingTypepath h _ _ _ => rcases h with h | h <;> cases h
      | undefinedMethod h0 h1 h2 => exact .inl ⟨h0, .inr ⟨_, h1, .inr (.inl ⟨h2, rfl⟩)⟩⟩
      | callNeedsType h0 h1 => exact .inl ⟨h0, .inl ⟨h1, rfl⟩⟩
      | privateMethod h0 h1 h2 h3 h4 => exact .inl ⟨h0, .inr ⟨_, h1, .inr (.inr ⟨_, h2, .inl ⟨_, h3, h4, rfl⟩⟩)⟩⟩
      | protectedMethod h0 h1 h2 h3 h4 h5 =>
        exact .inl ⟨h0, .inr ⟨_, h1, .inr (.inr ⟨_, h2, .inr ⟨h3, _, h4, h5, rfl⟩⟩)⟩⟩
      | sleepsMethod h0 h1 h2 h3 => exact .inl ⟨h1, .inr ⟨_, h2, .inl ⟨h0, _, h3, rfl⟩⟩⟩
      | call hm hc => exact .inr ⟨_, _, _, _, _, hm, hc⟩
    · rintro (⟨h0, ⟨h1, rfl⟩ | ⟨i, h1, ⟨h2, w, h3, rfl⟩ | ⟨h2, rfl⟩ | ⟨p, h2, ⟨q, h3, h4, rfl⟩ | ⟨h3, q, h4, h5, rfl⟩⟩⟩⟩ |
        ⟨_, _, _, _, _, hm, hc⟩)
      · exact .callNeedsType h0 h1
      · exact .sleepsMethod h2 h0 h1 h3
      · exact .undefinedMethod h0 h1 h2
      · exact .privateMethod h0 h1 h2 h3 h4
      · exact .protectedMethod h0 h1 h2 h3 h4 h5
      · exact .call hm hc
  by_cases hk : k.checked
  · rw [(visitFollow_checked c l a hk).2]
    -- without a call
    have nocall : (∀ {src p ex inh es'}, ¬ Makes c (.follow l a (.call k n es)) src p ex inh es') →
        ((l' = l ∧ Due c (.follow l a (.call k n es)) eff) ∨ Inner c l (.follow l a (.call k n es)) l' eff ↔ l' = l ∧ O) := by
      intro hno
      rw [hd]
      constructor
      · rintro (⟨h1, h2 | ⟨_, _, _, _, _, h, _⟩⟩ | ⟨k', e, ho, _⟩)
        · exact ⟨h1, h2⟩
        · exact absurd h hno
        · cases ho with
          | arg hm _ _ => exact absurd hm hno
          | uncheckedArg h _ _ => exact absurd hk h
      · rintro ⟨h1, h2⟩; exact .inl ⟨h1, .inl h2⟩
    unfold visitMethod
    cases hb : a.st.basic c.tree with
    | none =>
      have hN := (basic_none _).1 hb
      simp only []
      rw [nocall (fun hm => hN _ (hmk hm).2.1), mem_say]
      constructor
      · rintro ⟨h1, h2⟩; exact ⟨h1, hk, .inl ⟨hN, h2⟩⟩
      · rintro ⟨h1, _, ⟨_, h2⟩ | ⟨i, h2, _⟩⟩
        · exact ⟨h1, h2⟩
        · exact absurd h2 (hN i)
    | some i =>
      have hB := (basic_iff _ _).1 hb
      simp only []
      have hO : O ↔ ((c.newContext = false ∧ ∃ w, Sleeps c.tree i n w ∧ eff = .sleep w) ∨
          ((∀ p, ¬ Defines c.tree i n p) ∧ eff = .msg (.undefinedProc n i)) ∨
          ∃ p, Defines c.tree i n p ∧
          ((∃ q, c.privateBy p = some q ∧ q.ty ≠ i ∧ eff = .msg (.privateProc q)) ∨
          ((∀ q, c.privateBy p = some q → q.ty = i) ∧ ∃ q, c.protectedBy p = some q ∧ ¬ Sub c.tree c.ty q.ty ∧
            eff = .msg (.protectedProc q)))) := by
        constructor
        · rintro ⟨_, ⟨h, _⟩ | ⟨j, hj, h⟩⟩
          · exact absurd hB (h i)
          · cases hB.unique hj; exact h
        · intro h; exact ⟨hk, .inr ⟨i, hB, h⟩⟩
      cases hp : c.tree.getProc i n with
      | none =>
        have hP := (getProc_none _ _).1 hp
        simp only []
        rw [nocall (fun hm => by obtain ⟨_, h1, h2, _⟩ := hmk hm; cases hB.unique h1; exact hP _ h2), hO,
          List.mem_append, mem_typeSleepers, mem_say]
        constructor
        · rintro (⟨h1, h2⟩ | ⟨h1, h2⟩)
          · exact ⟨h1, .inl h2⟩
          · exact ⟨h1, .inr (.inl ⟨hP, h2⟩)⟩
        · rintro ⟨h1, h2 | ⟨_, h2⟩ | ⟨p, h2, _⟩⟩
          · exact .inl ⟨h1, h2⟩
          · exact .inr ⟨h1, h2⟩
          · exact absurd h2 (hP p)
      | some p =>
        have hP := (getProc_iff _ _ _).1 hp
        simp only []
        have hbad : ∀ q, c.privateBy p = some q → q.ty ≠ i →
            ((l', eff) ∈ typeSleepers c i l n ++ say l (.privateProc q) ↔
              (l' = l ∧ Due c (.follow l a (.call k n es)) eff) ∨ Inner c l (.follow l a (.call k n es)) l' eff) := by
          intro q hq hne
          rw [nocall (fun hm => by
            obtain ⟨_, h1, h2, h3, _⟩ := hmk hm; cases hB.unique h1; cases hP.unique h2; exact hne (h3 _ hq)), hO,
            List.mem_append, mem_typeSleepers, mem_say]
          constructor
          · rintro (⟨h1, h2⟩ | ⟨h1, h2⟩)
            · exact ⟨h1, .inl h2⟩
            · exact ⟨h1, .inr (.inr ⟨p, hP, .inl ⟨q, hq, hne, h2⟩⟩)⟩
          · rintro ⟨h1, h2 | ⟨h2, _⟩ | ⟨p', h2, ⟨q', h3, _, h4⟩ | ⟨h3, _⟩⟩⟩
            · exact .inl ⟨h1, h2⟩
            · exact absurd hP (h2 p)
            · cases hP.unique h2; rw [hq] at h3; cases h3; exact .inr ⟨h1, h4⟩
            · cases hP.unique h2; exact absurd (h3 _ hq) hne
        have hgood : (∀ q, c.privateBy p = some q → q.ty = i) →
            ((l', eff) ∈ typeSleepers c i l n ++ (match c.protectedBy p with
              | some q => if !c.tree.isSubtype c.ty q.ty then say l (.protectedProc q) else []
              | none => []) ++ (visitCall c l i p false false es.toList (visitArgs c l es)).2 ↔
              (l' = l ∧ Due c (.follow l a (.call k n es)) eff) ∨ Inner c l (.follow l a (.call k n es)) l' eff) := by
          intro hg
          rw [← call_site (.method hk hB hP hg) (by
              intro _ _ _ _ _ hm
              obtain ⟨_, h1, h2, _, rfl, rfl, rfl⟩ := hmk hm
              cases hB.unique h1; cases hP.unique h2
              exact ⟨rfl, rfl, rfl, rfl, rfl⟩) hd (by
              intro k' e hop
              cases hop with
              | arg hm hx hv => exact ⟨_, _, _, _, _, _, hm, hx, hv, rfl⟩
              | uncheckedArg h _ _ => exact absurd hk h)]
          have hprot : (l', eff) ∈ (match c.protectedBy p with
              | some q => if !c.tree.isSubtype c.ty q.ty then say l (.protectedProc q) else []
              | none => []) ↔ l' = l ∧ ∃ q, c.protectedBy p = some q ∧ ¬ Sub c.tree c.ty q.ty ∧
                eff = .msg (.protectedProc q) := by
            cases hq : c.protectedBy p with
            | none => simp
            | some q =>
              simp only []
              by_cases hs : Sub c.tree c.ty q.ty
              · have := (isSubtype_iff _ _).2 hs
                simp [this, hs]
              · have := (isSubtype_false _ _).2 hs
                simp [this, hs, mem_say]
          rw [List.mem_append, List.mem_append, mem_typeSleepers, hprot, hO]
          constructor
          · rintro ((⟨h1, h2⟩ | ⟨h1, h2⟩) | h)
            · exact .inl ⟨h1, .inl h2⟩
            · exact .inl ⟨h1, .inr (.inr ⟨p, hP, .inr ⟨hg, h2⟩⟩)⟩
            · exact .inr h
          · rintro (⟨h1, h2 | ⟨h2, _⟩ | ⟨p', h2, ⟨q', h3, h4, _⟩ | ⟨_, h3⟩⟩⟩ | h)
            · exact .inl (.inl ⟨h1, h2⟩)
            · exact absurd hP (h2 p)
            · cases hP.unique h2; exact absurd (hg _ h3) h4
            · cases hP.unique h2; exact .inl (.inr ⟨h1, h3⟩)
            · exact .inr h
        cases hq : c.privateBy p with
        | none =>
          simp only []
          exact hgood (by rw [hq]; nofun)
        | some q =>
          simp only []
          by_cases hne : q.ty = i
          · simp only [hne, bne_self_eq_false, Bool.false_eq_true, if_false]
            refine hgood ?_
            intro q' hq'
            rw [hq] at hq'; cases hq'; exact hne
          · have : (i != q.ty) = true := by simpa using fun h => hne h.symm
            simp only [this, if_true]
            exact hbad q hq hne
  · rw [(visitFollow_unchecked c l a hk).2]
    simp only []
    rw [mem_flatArgs]
    constructor
    · rintro ⟨x, hx, v, hv, h⟩; exact .inr ⟨none, v, .uncheckedArg hk hx hv, h⟩
    · rintro (⟨_, h⟩ | ⟨k', e, ho, h⟩)
      · rcases hd.1 h with h | ⟨_, _, _, _, _, hm, _⟩
        · exact absurd h.1 hk
        · exact absurd (hmk hm).1 hk
      · cases ho with
        | arg hm _ _ => exact absurd (hmk hm).1 hk
        | uncheckedArg _ hx hv => exact ⟨_, hx, _, hv, h⟩

/-- What is wrong with the left side of `::`. -/
theorem scope_events (c : Ctx) (l l' : Loc) (a : An) (n : Ident) (eff : Effect) (evs : List Ev)
    (hs : scopeType c l a n = .inr evs) :
    (l', eff) ∈ evs ↔ l' = l ∧ (∀ i, ¬ Basic c.tree a.st i) ∧
      ((a.value = none ∧ eff = .msg (.noTypepath n)) ∨
      (∃ v, a.value = some v ∧ (∀ p, v ≠ .prefab p) ∧ eff = .msg .notTypepath) ∨
      ∃ p, a.value = some (.prefab p) ∧ c.tree.find p = none ∧ eff = .msg (.missingTypepath p)) := by
  unfold scopeType at hs
  cases hb : a.st.basic c.tree with
  | some i => rw [hb] at hs; cases hs
  | none =>
    have hB := (basic_none _).1 hb
    rw [hb] at hs
    simp only [] at hs
    have other : ∀ v, a.value = some v → (∀ p, v ≠ .prefab p) →
        ((l', eff) ∈ say l .notTypepath ↔ l' = l ∧ (∀ i, ¬ Basic c.tree a.st i) ∧
        ((a.value = none ∧ eff = .msg (.noTypepath n)) ∨
        (∃ v, a.value = some v ∧ (∀ p, v ≠ .prefab p) ∧ eff = .msg .notTypepath) ∨
        ∃ p, a.value = some (.prefab p) ∧ c.tree.find p = none ∧ eff = .msg (.missingTypepath p))) := by
      intro v hv hp
      rw [mem_say, hv]
      constructor
      · rintro ⟨h1, h2⟩; exact ⟨h1, hB, .inr (.inl ⟨v, rfl, hp, h2⟩)⟩
      · rintro ⟨h1, _, ⟨h2, _⟩ | ⟨_, _, _, h2⟩ | ⟨p, h2, _⟩⟩
        · cases h2
        · exact ⟨h1, h2⟩
        · cases h2; exact absurd rfl (hp p)
    cases hv : a.value with
    | none =>
      rw [hv] at hs
      cases hs
      rw [mem_say]
      constructor
      · rintro ⟨h1, h2⟩; exact ⟨h1, hB, .inl ⟨rfl, h2⟩⟩
      · rintro ⟨h1, _, ⟨_, h2⟩ | ⟨v, h2, _⟩ | ⟨p, h2, _⟩⟩
        · exact ⟨h1, h2⟩
        · cases h2
        · cases h2
    | some v =>
      rw [← hv]
      cases v with
      | prefab p =>
        rw [hv] at hs
        simp only [] at hs
        cases hf : c.tree.find p with
        | some i => rw [hf] at hs; cases hs
        | none =>
          rw [hf] at hs
          cases hs
          rw [mem_say, hv]
          constructor
          · rintro ⟨h1, h2⟩; exact ⟨h1, hB, .inr (.inr ⟨p, rfl, hf, h2⟩)⟩
          · rintro ⟨h1, _, ⟨h2, _⟩ | ⟨v, h2, h3, _⟩ | ⟨q, h2, _, h3⟩⟩
            · cases h2
            · cases h2; exact absurd rfl (h3 p)
            · cases h2; exact ⟨h1, h3⟩
      | null => rw [hv] at hs; cases hs; exact other _ hv (by nofun)
      | num => rw [hv] at hs; cases hs; exact other _ hv (by nofun)
      | str s => rw [hv] at hs; cases hs; exact other _ hv (by nofun)
      | res => rw [hv] at hs; cases hs; exact other _ hv (by nofun)

theorem Scope.unique {c : Ctx} {a : An} {i j : Nat} (h : Scope c a i) (h' : Scope c a j) : i = j := by
  have h1 := (scope_iff c default a default i).2 h
  rw [(scope_iff c default a default j).2 h'] at h1
  cases h1; rfl

theorem noBasic_of_noScope {c : Ctx} {a : An} (h : ∀ i, ¬ Scope c a i) : ∀ i, ¬ Basic c.tree a.st i :=
  fun i hi => h i (.static hi)

theorem staticField_events (c : Ctx) (l l' : Loc) (a : An) (n : Ident) (eff : Effect) :
    (l', eff) ∈ (visitStaticField c l a n).2 ↔ (l' = l ∧ Due c (.follow l a (.staticField n)) eff) ∨
      Inner c l (.follow l a (.staticField n)) l' eff := by
  have hin : ¬ Inner c l (.follow l a (.staticField n)) l' eff := by
    rintro ⟨_, _, ho, _⟩
    cases ho with | arg hm _ _ => cases hm
  have hdue : Due c (.follow l a (.staticField n)) eff ↔
      (∃ i, Scope c a i ∧ (((∀ d, ¬ Declares c.tree i n d) ∧ eff = .msg (.undefinedField n i)) ∨
        ∃ d p, Declares c.tree i n d ∧ Missing c.tree d.path p ∧ eff = .msg (.undefinedType p))) ∨
      ((∀ i, ¬ Basic c.tree a.st i) ∧
      ((a.value = none ∧ eff = .msg (.noTypepath n)) ∨
      (∃ v, a.value = some v ∧ (∀ p, v ≠ .prefab p) ∧ eff = .msg .notTypepath) ∨
      ∃ p, a.value = some (.prefab p) ∧ c.tree.find p = none ∧ eff = .msg (.missingTypepath p))) := by
    constructor
    · intro hd
      cases hd with
      | undefinedScoped h1 h2 => exact .inl ⟨_, h1, .inl ⟨h2, rfl⟩⟩
      | scopedType h1 h2 h3 => exact .inl ⟨_, h1, .inr ⟨_, _, h2, h3, rfl⟩⟩
      | noTypepath h h1 h2 => rcases h with h | h <;> cases h; exact .inr ⟨h1, .inl ⟨h2, rfl⟩⟩
      | notTypepath h h1 h2 h3 => exact .inr ⟨h1, .inr (.inl ⟨_, h2, h3, rfl⟩)⟩
      | missingTypepath h h1 h2 h3 => exact .inr ⟨h1, .inr (.inr ⟨_, h2, h3, rfl⟩)⟩
      | call hm _ => cases hm
    · rintro (⟨i, h1, ⟨h2, rfl⟩ | ⟨d, p, h2, h3, rfl⟩⟩ | ⟨h1, ⟨h2, rfl⟩ | ⟨v, h2, h3, rfl⟩ | ⟨p, h2, h3, rfl⟩⟩)
      · exact .undefinedScoped h1 h2
      · exact .scopedType h1 h2 h3
      · exact .noTypepath (.inl rfl) h1 h2
      · exact .notTypepath (.inl rfl) h1 h2 h3
      · exact .missingTypepath (.inl rfl) h1 h2 h3
  rw [or_iff_left hin, hdue]
  unfold visitStaticField
  cases hs : scopeType c l a n with
  | inr evs =>
    have hS := (scope_none c l a n).1 ⟨_, hs⟩
    simp only []
    rw [scope_events c l l' a n eff evs hs]
    constructor
    · rintro ⟨h1, h2⟩; exact ⟨h1, .inr h2⟩
    · rintro ⟨h1, ⟨i, h2, _⟩ | h2⟩
      · exact absurd h2 (hS i)
      · exact ⟨h1, h2⟩
  | inl i =>
    have hS := (scope_iff c l a n i).1 hs
    have hno : ¬ ((∀ i, ¬ Basic c.tree a.st i) ∧
      ((a.value = none ∧ eff = .msg (.noTypepath n)) ∨
      (∃ v, a.value = some v ∧ (∀ p, v ≠ .prefab p) ∧ eff = .msg .notTypepath) ∨
      ∃ p, a.value = some (.prefab p) ∧ c.tree.find p = none ∧ eff = .msg (.missingTypepath p))) := by
      rintro ⟨h1, h2⟩
      cases hS with
      | static h => exact h1 _ h
      | path _ hv hf =>
        rcases h2 with ⟨h2, _⟩ | ⟨v, h2, h3, _⟩ | ⟨p, h2, h3, _⟩
        · rw [hv] at h2; cases h2
        · rw [hv] at h2; cases h2; exact h3 _ rfl
        · rw [hv] at h2; cases h2; rw [hf] at h3; cases h3
    rw [or_iff_left hno]
    simp only []
    cases hd : c.tree.varDecl i n with
    | none =>
      have hD := (varDecl_none _ _).1 hd
      simp only []
      rw [mem_say]
      constructor
      · rintro ⟨h1, h2⟩; exact ⟨h1, i, hS, .inl ⟨hD, h2⟩⟩
      · rintro ⟨h1, j, hj, h2⟩
        cases hS.unique hj
        rcases h2 with ⟨_, h2⟩ | ⟨d, p, h2, _⟩
        · exact ⟨h1, h2⟩
        · exact absurd h2 (hD d)
    | some d =>
      have hD := (varDecl_iff _ _ _).1 hd
      simp only []
      rw [typed_events]
      constructor
      · rintro ⟨h1, p, h2, h3⟩; exact ⟨h1, i, hS, .inr ⟨d, p, hD, h2, h3⟩⟩
      · rintro ⟨h1, j, hj, h2⟩
        cases hS.unique hj
        rcases h2 with ⟨h2, _⟩ | ⟨d', p, h2, h3, h4⟩
        · exact absurd hD (h2 d)
        · cases hD.unique h2; exact ⟨h1, p, h3, h4⟩

theorem procRef_events (c : Ctx) (l l' : Loc) (a : An) (n : Ident) (eff : Effect) :
    (l', eff) ∈ (visitProcRef c l a n).2 ↔ (l' = l ∧ Due c (.follow l a (.procRef n)) eff) ∨
      Inner c l (.follow l a (.procRef n)) l' eff := by
  have hin : ¬ Inner c l (.follow l a (.procRef n)) l' eff := by
    rintro ⟨_, _, ho, _⟩
    cases ho with | arg hm _ _ => cases hm
  have hdue : Due c (.follow l a (.procRef n)) eff ↔
      (∃ i, Scope c a i ∧ (∀ p, ¬ Defines c.tree i n p) ∧ eff = .msg (.undefinedProc n i)) ∨
      ((∀ i, ¬ Basic c.tree a.st i) ∧
      ((a.value = none ∧ eff = .msg (.noTypepath n)) ∨
      (∃ v, a.value = some v ∧ (∀ p, v ≠ .prefab p) ∧ eff = .msg .notTypepath) ∨
      ∃ p, a.value = some (.prefab p) ∧ c.tree.find p = none ∧ eff = .msg (.missingTypepath p))) := by
    constructor
    · intro hd
      cases hd with
      | undefinedProcRef h1 h2 => exact .inl ⟨_, h1, h2, rfl⟩
      | noTypepath h h1 h2 => rcases h with h | h <;> cases h; exact .inr ⟨h1, .inl ⟨h2, rfl⟩⟩
      | notTypepath h h1 h2 h3 => exact .inr ⟨h1, .inr (.inl ⟨_, h2, h3, rfl⟩)⟩
      | missingTypepath h h1 h2 h3 => exact .inr ⟨h1, .inr (.inr ⟨_, h2, h3, rfl⟩)⟩
      | call hm _ => cases hm
    · rintro (⟨i, h1, h2, rfl⟩ | ⟨h1, ⟨h2, rfl⟩ | ⟨v, h2, h3, rfl⟩ | ⟨p, h2, h3, rfl⟩⟩)
      · exact .undefinedProcRef h1 h2
      · exact .noTypepath (.inr rfl) h1 h2
      · exact .notTypepath (n := n) (.inr rfl) h1 h2 h3
      · exact .missingTypepath (n := n) (.inr rfl) h1 h2 h3
  rw [or_iff_left hin, hdue]
  unfold visitProcRef
  cases hs : scopeType c l a n with
  | inr evs =>
    have hS := (scope_none c l a n).1 ⟨_, hs⟩
    simp only []
    rw [scope_events c l l' a n eff evs hs]
    constructor
    · rintro ⟨h1, h2⟩; exact ⟨h1, .inr h2⟩
    · rintro ⟨h1, ⟨i, h2, _⟩ | h2⟩
      · exact absurd h2 (hS i)
      · exact ⟨h1, h2⟩
  | inl i =>
    have hS := (scope_iff c l a n i).1 hs
    have hno : ¬ ((∀ i, ¬ Basic c.tree a.st i) ∧
      ((a.value = none ∧ eff = .msg (.noTypepath n)) ∨
      (∃ v, a.value = some v ∧ (∀ p, v ≠ .prefab p) ∧ eff = .msg .notTypepath) ∨
      ∃ p, a.value = some (.prefab p) ∧ c.tree.find p = none ∧ eff = .msg (.missingTypepath p))) := by
      rintro ⟨h1, h2⟩
      cases hS with
      | static h => exact h1 _ h
      | path _ hv hf =>
        rcases h2 with ⟨h2, _⟩ | ⟨v, h2, h3, _⟩ | ⟨p, h2, h3, _⟩
        · rw [hv] at h2; cases h2
        · rw [hv] at h2; cases h2; exact h3 _ rfl
        · rw [hv] at h2; cases h2; rw [hf] at h3; cases h3
    rw [or_iff_left hno]
    simp only []
    cases hd : c.tree.getProc i n with
    | none =>
      have hD := (getProc_none _ _).1 hd
      simp only []
      rw [mem_say]
      constructor
      · rintro ⟨h1, h2⟩; exact ⟨h1, i, hS, hD, h2⟩
      · rintro ⟨h1, j, hj, _, h2⟩
        cases hS.unique hj
        exact ⟨h1, h2⟩
    | some d =>
      have hD := (getProc_iff _ _ _).1 hd
      simp only []
      constructor
      · intro h; cases h
      · rintro ⟨h1, j, hj, h2, _⟩
        cases hS.unique hj
        exact absurd hD (h2 _)

theorem index_events (c : Ctx) (l l' : Loc) (a : An) (e : Expr) (eff : Effect) :
    (l', eff) ∈ (visitFollow c l a (.index e)).2 ↔ (l' = l ∧ Due c (.follow l a (.index e)) eff) ∨
      Inner c l (.follow l a (.index e)) l' eff := by
  have hin : Inner c l (.follow l a (.index e)) l' eff ↔ (l', eff) ∈ (visitExpr c l none e).2 := by
    constructor
    · rintro ⟨_, _, ho, h⟩
      cases ho with
      | arg hm _ _ => cases hm
      | index => exact h
    · intro h; exact ⟨none, e, .index, h⟩
  have hdue : Due c (.follow l a (.index e)) eff ↔ ∃ i, a.st = .type i ∧ (∀ p, ¬ Defines c.tree i "operator[]" p) ∧
      eff = .msg (.improperIndex i) := by
    constructor
    · intro hd
      cases hd with
      | noTypepath h _ _ => rcases h with h | h <;> cases h
      | notTypepath h _ _ _ => rcases h with h | h <;> cases h
      | missingTypepath h _ _ _ => rcases h with h | h <;> cases h
      | improperIndex h1 h2 => exact ⟨_, h1, h2, rfl⟩
      | call hm _ => cases hm
    · rintro ⟨i, h1, h2, rfl⟩; exact .improperIndex h1 h2
  rw [hin, hdue]
  unfold visitFollow
  simp only []
  rw [List.mem_append, or_comm]
  refine or_congr_left ?_
  unfold visitIndex
  cases hs : a.st with
  | type i =>
    simp only []
    cases hp : c.tree.getProc i "operator[]" with
    | some p =>
      simp only [Option.isNone_some, Bool.false_eq_true, if_false]
      constructor
      · intro h; cases h
      · rintro ⟨_, j, h1, h2, _⟩; cases h1; exact absurd ((getProc_iff _ _ _).1 hp) (h2 p)
    | none =>
      simp only [Option.isNone_none, if_true]
      rw [mem_say]
      constructor
      · rintro ⟨h1, h2⟩; exact ⟨h1, i, rfl, (getProc_none _ _).1 hp, h2⟩
      · rintro ⟨h1, j, h2, _, h3⟩; cases h2; exact ⟨h1, h3⟩
  | none => simp
  | list k => simp
  | proc => simp

theorem unary_events (c : Ctx) (l l' : Loc) (a : An) (op : UnaryOp) (eff : Effect) :
    (l', eff) ∈ (visitFollow c l a (.unary op)).2 ↔ (l' = l ∧ Due c (.follow l a (.unary op)) eff) ∨
      Inner c l (.follow l a (.unary op)) l' eff := by
  have hmk : ∀ {src p ex inh es}, Makes c (.follow l a (.unary op)) src p ex inh es ↔
      a.st = .type src ∧ (∃ n, Overload op n ∧ Defines c.tree src n p) ∧ ex = true ∧ inh = false ∧ es = .nil := by
    intro _ _ _ _ _
    constructor
    · intro hm
      cases hm with
      | incr h1 h2 h3 => exact ⟨h1, ⟨_, (overload_iff _ _).2 (.inl ⟨h2, rfl⟩), h3⟩, rfl, rfl, rfl⟩
      | decr h1 h2 h3 => exact ⟨h1, ⟨_, (overload_iff _ _).2 (.inr ⟨h2, rfl⟩), h3⟩, rfl, rfl, rfl⟩
    · rintro ⟨h1, ⟨n, h2, h3⟩, rfl, rfl, rfl⟩
      rcases (overload_iff _ _).1 h2 with ⟨h, rfl⟩ | ⟨h, rfl⟩
      · exact .incr h1 h h3
      · exact .decr h1 h h3
  let O : Prop := ∃ n, Overload op n ∧
    ((a.impure = true ∧ eff = .impure (n ++ " done on non-local var")) ∨
    (∃ i, a.st = .type i ∧ (∀ p, ¬ Defines c.tree i n p) ∧ eff = .msg (.noOverload n)) ∨
    (∃ k, a.st = .list k ∧ eff = .msg (.noOverload n)))
  have hd : Due c (.follow l a (.unary op)) eff ↔ O ∨
      ∃ src p ex inh es', Makes c (.follow l a (.unary op)) src p ex inh es' ∧ CallDue c src p ex inh es' eff := by
    constructor
    · intro hd
      cases hd with
      | noTypepath h _ _ => rcases h with h | h <;> cases h
      | notTypepath h _ _ _ => rcases h with h | h <;> cases h
      | missingTypepath h _ _ _ => rcases h with h | h <;> cases h
      | noOverload h0 h1 h2 => exact .inl ⟨_, h0, .inr (.inl ⟨_, h1, h2, rfl⟩)⟩
      | listOverload h0 h1 => exact .inl ⟨_, h0, .inr (.inr ⟨_, h1, rfl⟩)⟩
      | impureOverload h0 h1 => exact .inl ⟨_, h0, .inl ⟨h1, rfl⟩⟩
      | call hm hc => exact .inr ⟨_, _, _, _, _, hm, hc⟩
    · rintro (⟨n, h0, ⟨h1, rfl⟩ | ⟨i, h1, h2, rfl⟩ | ⟨k, h1, rfl⟩⟩ | ⟨_, _, _, _, _, hm, hc⟩)
      · exact .impureOverload h0 h1
      · exact .noOverload h0 h1 h2
      · exact .listOverload h0 h1
      · exact .call hm hc
  have hopen : ∀ k e, Opens c (.follow l a (.unary op)) k e → ∃ src' p' ex' inh' es' x,
      Makes c (.follow l a (.unary op)) src' p' ex' inh' es' ∧ x ∈ es'.toList ∧ ArgValue x e ∧ k = none := by
    intro k e hop
    cases hop with
    | arg hm hx hv => exact ⟨_, _, _, _, _, _, hm, hx, hv, rfl⟩
  have nocall : (∀ {src p ex inh es'}, ¬ Makes c (.follow l a (.unary op)) src p ex inh es') →
      ((l' = l ∧ Due c (.follow l a (.unary op)) eff) ∨ Inner c l (.follow l a (.unary op)) l' eff ↔ l' = l ∧ O) := by
    intro hno
    rw [hd]
    constructor
    · rintro (⟨h1, h2 | ⟨_, _, _, _, _, h, _⟩⟩ | ⟨k', e, ho, _⟩)
      · exact ⟨h1, h2⟩
      · exact absurd h hno
      · obtain ⟨_, _, _, _, _, _, hm, _⟩ := hopen _ _ ho
        exact absurd hm hno
    · rintro ⟨h1, h2⟩; exact .inl ⟨h1, .inl h2⟩
  unfold visitFollow
  simp only []
  rcases overload_cases op with ⟨n, hn⟩ | hno
  · rw [visitUnary_overload c l a hn]
    have hO : O ↔ ((a.impure = true ∧ eff = .impure (n ++ " done on non-local var")) ∨
        (∃ i, a.st = .type i ∧ (∀ p, ¬ Defines c.tree i n p) ∧ eff = .msg (.noOverload n)) ∨
        (∃ k, a.st = .list k ∧ eff = .msg (.noOverload n))) := by
      constructor
      · rintro ⟨m, hm, h⟩; cases hn.unique hm; exact h
      · intro h; exact ⟨n, hn, h⟩
    unfold visitOverload
    have hpre : (l', eff) ∈ (if a.impure then [(l, Effect.impure (n ++ " done on non-local var"))] else []) ↔
        l' = l ∧ a.impure = true ∧ eff = .impure (n ++ " done on non-local var") := by
      cases a.impure <;> simp
    simp only []
    cases hs : a.st with
    | none =>
      simp only []
      rw [nocall (fun hm => by have := (hmk.1 hm).1; rw [hs] at this; cases this), hO, hpre, hs]
      constructor
      · rintro ⟨h1, h2⟩; exact ⟨h1, .inl h2⟩
      · rintro ⟨h1, h2 | ⟨i, h2, _⟩ | ⟨k, h2, _⟩⟩
        · exact ⟨h1, h2⟩
        · cases h2
        · cases h2
    | proc =>
      simp only []
      rw [nocall (fun hm => by have := (hmk.1 hm).1; rw [hs] at this; cases this), hO, hpre, hs]
      constructor
      · rintro ⟨h1, h2⟩; exact ⟨h1, .inl h2⟩
      · rintro ⟨h1, h2 | ⟨i, h2, _⟩ | ⟨k, h2, _⟩⟩
        · exact ⟨h1, h2⟩
        · cases h2
        · cases h2
    | list k =>
      simp only []
      rw [nocall (fun hm => by have := (hmk.1 hm).1; rw [hs] at this; cases this), hO, List.mem_append, hpre, mem_say, hs]
      constructor
      · rintro (⟨h1, h2⟩ | ⟨h1, h2⟩)
        · exact ⟨h1, .inl h2⟩
        · exact ⟨h1, .inr (.inr ⟨k, rfl, h2⟩)⟩
      · rintro ⟨h1, h2 | ⟨i, h2, _⟩ | ⟨k, _, h2⟩⟩
        · exact .inl ⟨h1, h2⟩
        · cases h2
        · exact .inr ⟨h1, h2⟩
    | type i =>
      simp only []
      cases hp : c.tree.getProc i n with
      | none =>
        have hP := (getProc_none _ _).1 hp
        simp only []
        rw [nocall (fun hm => by
            obtain ⟨h1, ⟨m, h2, h3⟩, _⟩ := hmk.1 hm
            rw [hs] at h1; cases h1; cases hn.unique h2; exact hP _ h3), hO, List.mem_append, hpre, mem_say, hs]
        constructor
        · rintro (⟨h1, h2⟩ | ⟨h1, h2⟩)
          · exact ⟨h1, .inl h2⟩
          · exact ⟨h1, .inr (.inl ⟨i, rfl, hP, h2⟩)⟩
        · rintro ⟨h1, h2 | ⟨i, _, _, h2⟩ | ⟨k, h2, _⟩⟩
          · exact .inl ⟨h1, h2⟩
          · exact .inr ⟨h1, h2⟩
          · cases h2
      | some p =>
        have hP := (getProc_iff _ _ _).1 hp
        simp only []
        have hcs := call_site (l := l) (l' := l') (hmk.2 ⟨hs, ⟨n, hn, hP⟩, rfl, rfl, rfl⟩) (by
            intro _ _ _ _ _ hm
            obtain ⟨h1, ⟨m, h2, h3⟩, rfl, rfl, rfl⟩ := hmk.1 hm
            rw [hs] at h1; cases h1; cases hn.unique h2; cases hP.unique h3
            exact ⟨rfl, rfl, rfl, rfl, rfl⟩) hd hopen
        rw [← hcs, List.mem_append, hpre, hO, hs]
        have hva : visitArgs c l .nil = [] := by rw [visitArgs]
        rw [hva]
        constructor
        · rintro (⟨h1, h2⟩ | h)
          · exact .inl ⟨h1, .inl h2⟩
          · exact .inr h
        · rintro (⟨h1, h2 | ⟨j, h2, h3, _⟩ | ⟨k, h2, _⟩⟩ | h)
          · exact .inl ⟨h1, h2⟩
          · cases h2; exact absurd hP (h3 p)
          · cases h2
          · exact .inr h
  · rw [visitUnary_other c l a hno, nocall (fun hm => by
        obtain ⟨_, ⟨m, h2, _⟩, _⟩ := hmk.1 hm
        exact hno m h2)]
    constructor
    · intro h; cases h
    · rintro ⟨_, n, h, _⟩; exact absurd h (hno n)

theorem follow_events (c : Ctx) (l l' : Loc) (a : An) (eff : Effect) (f : Follow) :
    (l', eff) ∈ (visitFollow c l a f).2 ↔ (l' = l ∧ Due c (.follow l a f) eff) ∨ Inner c l (.follow l a f) l' eff := by
  cases f with
  | unary op => exact unary_events c l l' a op eff
  | index e => exact index_events c l l' a e eff
  | field k n => exact field_events c l l' a k n eff
  | call k n es => exact method_events c l l' a k n es eff
  | staticField n => exact staticField_events c l l' a n eff
  | procRef n => exact procRef_events c l l' a n eff

/-- The effects along the follows are those of each of them. -/
theorem follows_events (c : Ctx) (l' : Loc) (eff : Effect) : ∀ (fs : Follows) (a : An),
    (l', eff) ∈ (visitFollows c a fs).2 ↔ ∃ l b f, Along c a fs l b f ∧ (l', eff) ∈ (visitFollow c l b f).2
  | .nil, a => by
    rw [visitFollows]
    constructor
    · intro h; cases h
    · rintro ⟨_, _, _, h, _⟩; cases h
  | .cons l f fs, a => by
    rw [visitFollows_cons]
    simp only []
    rw [List.mem_append, follows_events c l' eff fs]
    constructor
    · rintro (h | ⟨l1, b, g, h1, h2⟩)
      · exact ⟨l, a, f, .head, h⟩
      · exact ⟨l1, b, g, .tail ((followIs_iff c f l _ _).2 rfl) h1, h2⟩
    · rintro ⟨l1, b, g, h1, h2⟩
      cases h1 with
      | head => exact .inl h2
      | tail h3 h4 =>
        rw [(followIs_iff c f l _ _).1 h3] at h4
        exact .inr ⟨_, _, _, h4, h2⟩

end Verif.Typing
