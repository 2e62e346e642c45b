import Verif.Refs.Types

/-!
# The uses recorded for an expression are those of the specification

`visitExpr_uses`: exactly the symbols named at a place that is looked at are recorded, with the location of that place.
-/

namespace Verif.Refs

open Verif.Typing (Ident Loc PathOp Tree VarDecl Proc modifiers Defines ParentOf getProc_iff getProc_none)

variable (c : Ctx)

/-- The use is in one of these expressions. -/
def EachIn (es : Exprs) (u : Use) : Prop := ∃ e ∈ es.toList, NamedIn c none e u.1 u.2

/-- The use is in the value of one of these arguments. -/
def ArgsIn (es : Exprs) (u : Use) : Prop := ∃ e ∈ es.toList, ∃ v, ArgValue e v ∧ NamedIn c none v u.1 u.2

/-- The use is in the value of one of these variables of a path of type `i`. -/
def VarsIn (i : Nat) (vs : Vars) (u : Use) : Prop :=
  ∃ n e h, (n, e) ∈ vs.toList ∧ VarHint c.tree i n h ∧ NamedIn c h e u.1 u.2

/-- The use is at a term or follow, or inside of it. -/
def InSite (x : Site) (u : Use) : Prop :=
  (Names c x u.1 ∧ x.loc = u.2) ∨ ∃ k e, Opens c x k e ∧ NamedIn c k e u.1 u.2

theorem inSite_iff (x : Site) (u : Use) : InSite c x u ↔
    (Names c x u.1 ∧ x.loc = u.2) ∨ (∃ l h e, x = .term l h (.expr e) ∧ NamedIn c h e u.1 u.2) ∨
    (∃ es, ArgsOf c x es ∧ ArgsIn c es u) ∨ (∃ i vs, VarsOf c x i vs ∧ VarsIn c i vs u) ∨
    ∃ e, PartOf x e ∧ NamedIn c none e u.1 u.2 := by
  unfold InSite
  constructor
  · rintro (h | ⟨k, e, ho, hn⟩)
    · exact .inl h
    · cases ho with
      | paren => exact .inr (.inl ⟨_, _, _, rfl, hn⟩)
      | arg ha he hv => exact .inr (.inr (.inl ⟨_, ha, _, he, _, hv, hn⟩))
      | var hv he hh => exact .inr (.inr (.inr (.inl ⟨_, _, hv, _, _, _, he, hh, hn⟩)))
      | part hp => exact .inr (.inr (.inr (.inr ⟨_, hp, hn⟩)))
  · rintro (h | ⟨l, h, e, rfl, hn⟩ | ⟨es, ha, e, he, v, hv, hn⟩ | ⟨i, vs, hv, n, e, h, he, hh, hn⟩ | ⟨e, hp, hn⟩)
    · exact .inl h
    · exact .inr ⟨_, _, .paren, hn⟩
    · exact .inr ⟨_, _, .arg ha he hv, hn⟩
    · exact .inr ⟨_, _, .var hv he hh, hn⟩
    · exact .inr ⟨_, _, .part hp, hn⟩

theorem namedIn_base (l : Loc) (t : Term) (fs : Follows) (h : Option Nat) (u : Use) :
    NamedIn c h (.base l t fs) u.1 u.2 ↔ InSite c (.term l (termHint h fs) t) u ∨
      ∃ s fl r f, TermIs c (termHint h fs) t s ∧ Along c s fs fl r f ∧ InSite c (.follow fl r f) u := by
  unfold NamedIn InSite
  constructor
  · rintro ⟨x, ha, hn, hl⟩
    cases ha with
    | term => exact .inl (.inl ⟨hn, hl⟩)
    | follow ht hf => exact .inr ⟨_, _, _, _, ht, hf, .inl ⟨hn, hl⟩⟩
    | inTerm ho ha => exact .inl (.inr ⟨_, _, ho, x, ha, hn, hl⟩)
    | inFollow ht hf ho ha => exact .inr ⟨_, _, _, _, ht, hf, .inr ⟨_, _, ho, x, ha, hn, hl⟩⟩
  · rintro ((⟨hn, hl⟩ | ⟨k, e, ho, x, ha, hn, hl⟩) | ⟨s, fl, r, f, ht, hf, ⟨hn, hl⟩ | ⟨k, e, ho, x, ha, hn, hl⟩⟩)
    · exact ⟨_, .term, hn, hl⟩
    · exact ⟨x, .inTerm ho ha, hn, hl⟩
    · exact ⟨_, .follow ht hf, hn, hl⟩
    · exact ⟨x, .inFollow ht hf ho ha, hn, hl⟩

theorem argsIn_nil (u : Use) : ¬ ArgsIn c .nil u := by
  rintro ⟨e, h, _⟩; cases h

theorem eachIn_nil (u : Use) : ¬ EachIn c .nil u := by
  rintro ⟨e, h, _⟩; cases h

theorem eachIn_cons (e : Expr) (es : Exprs) (u : Use) :
    EachIn c (.cons e es) u ↔ NamedIn c none e u.1 u.2 ∨ EachIn c es u := by
  unfold EachIn
  simp only [Exprs.toList, List.mem_cons]
  constructor
  · rintro ⟨x, rfl | hx, hn⟩
    · exact .inl hn
    · exact .inr ⟨x, hx, hn⟩
  · rintro (hn | ⟨x, hx, hn⟩)
    · exact ⟨e, .inl rfl, hn⟩
    · exact ⟨x, .inr hx, hn⟩

theorem argsIn_cons (e : Expr) (es : Exprs) (u : Use) :
    ArgsIn c (.cons e es) u ↔ (∃ v, ArgValue e v ∧ NamedIn c none v u.1 u.2) ∨ ArgsIn c es u := by
  unfold ArgsIn
  simp only [Exprs.toList, List.mem_cons]
  constructor
  · rintro ⟨x, rfl | hx, hn⟩
    · exact .inl hn
    · exact .inr ⟨x, hx, hn⟩
  · rintro (hn | ⟨x, hx, hn⟩)
    · exact ⟨e, .inl rfl, hn⟩
    · exact ⟨x, .inr hx, hn⟩

theorem argIn_keyword {x y : Expr} (hk : Key x) (u : Use) :
    (∃ v, ArgValue (.assign true x y) v ∧ NamedIn c none v u.1 u.2) ↔ NamedIn c none y u.1 u.2 := by
  constructor
  · rintro ⟨v, hv, hn⟩
    cases hv with
    | keyword _ => exact hn
    | plain h => exact absurd hk (h _ _ rfl)
  · intro hn; exact ⟨y, .keyword hk, hn⟩

theorem argIn_plain {e : Expr} (he : ∀ x y, e = .assign true x y → ¬ Key x) (u : Use) :
    (∃ v, ArgValue e v ∧ NamedIn c none v u.1 u.2) ↔ NamedIn c none e u.1 u.2 := by
  constructor
  · rintro ⟨v, hv, hn⟩
    cases hv with
    | keyword hk => exact absurd hk (he _ _ rfl)
    | plain h => exact hn
  · intro hn; exact ⟨e, .plain he, hn⟩

/-- What the variables of a path of type `i` use. -/
def VarUses (i : Nat) (vs : Vars) (l : Loc) (u : Use) : Prop :=
  (∃ n e j d, (n, e) ∈ vs.toList ∧ VarOn c.tree i n j d ∧ u = (.var j n, l)) ∨ VarsIn c i vs u

theorem varHint_iff (t : Tree) (i : Nat) (n : Ident) (h : Option Nat) : VarHint t i n h ↔
    h = match varDecl t i n with
      | some (_, d) => (staticType t d.path).basic t
      | none => none := by
  cases hv : varDecl t i n with
  | some x =>
    obtain ⟨j, d⟩ := x
    have hV := (varDecl_iff ..).1 hv
    simp only []
    constructor
    · intro hh
      cases hh with
      | declared h1 h2 h3 =>
        rw [(varDecl_iff ..).2 h1] at hv; cases hv
        rw [(staticType_iff ..).1 h2] at h3
        exact (hintOf_iff ..).1 h3
      | unknown h1 => exact absurd hV (h1 _ _)
    · intro hh; exact .declared hV ((staticType_iff ..).2 rfl) ((hintOf_iff ..).2 hh)
  | none =>
    have hV := (varDecl_none ..).1 hv
    simp only []
    constructor
    · intro hh
      cases hh with
      | declared h1 _ _ => exact absurd h1 (hV _ _)
      | unknown _ => rfl
    · rintro rfl; exact .unknown hV

theorem varUses_cons (i : Nat) (n : Ident) (e : Expr) (vs : Vars) (l : Loc) (u : Use) :
    VarUses c i (.cons n e vs) l u ↔
      ((∃ j d, VarOn c.tree i n j d ∧ u = (.var j n, l)) ∨ ∃ h, VarHint c.tree i n h ∧ NamedIn c h e u.1 u.2) ∨
      VarUses c i vs l u := by
  unfold VarUses VarsIn
  simp only [Vars.toList, List.mem_cons, Prod.mk.injEq]
  constructor
  · rintro (⟨m, x, j, d, ⟨rfl, rfl⟩ | hm, hv, hu⟩ | ⟨m, x, h, ⟨rfl, rfl⟩ | hm, hv, hu⟩)
    · exact .inl (.inl ⟨j, d, hv, hu⟩)
    · exact .inr (.inl ⟨m, x, j, d, hm, hv, hu⟩)
    · exact .inl (.inr ⟨h, hv, hu⟩)
    · exact .inr (.inr ⟨m, x, h, hm, hv, hu⟩)
  · rintro ((⟨j, d, hv, hu⟩ | ⟨h, hv, hu⟩) | (⟨m, x, j, d, hm, hv, hu⟩ | ⟨m, x, h, hm, hv, hu⟩))
    · exact .inl ⟨n, e, j, d, .inl ⟨rfl, rfl⟩, hv, hu⟩
    · exact .inr ⟨n, e, h, .inl ⟨rfl, rfl⟩, hv, hu⟩
    · exact .inl ⟨m, x, j, d, .inr hm, hv, hu⟩
    · exact .inr ⟨m, x, h, .inr hm, hv, hu⟩

/-- What a path with variables uses. -/
theorem prefab_iff (l : Loc) (p : List (PathOp × Ident)) (vs : Vars) (us : Nat → List Use)
    (hus : ∀ i u, u ∈ us i ↔ VarUses c i vs l u) (u : Use) :
    u ∈ visitPrefab c l p us ↔
      (PrefabSym c p vs u.1 ∧ l = u.2) ∨ ∃ i, Resolves c p (.type i) ∧ VarsIn c i vs u := by
  obtain ⟨y, l'⟩ := u
  unfold visitPrefab
  cases hn : c.nav p with
  | none =>
    have hN := (resolves_none ..).1 hn
    simp only [List.not_mem_nil, false_iff]
    rintro (⟨h, _⟩ | ⟨i, h, _⟩)
    · cases h with
      | type h => exact hN _ h
      | var h _ _ => exact hN _ h
      | proc h _ => exact hN _ h
    · exact hN _ h
  | some v =>
    have hN := (resolves_iff ..).1 hn
    have hU : ∀ w, Resolves c p w → w = v := fun w hw => by
      rw [(resolves_iff ..).2 hw] at hn; cases hn; rfl
    cases v with
    | proc q =>
      simp only []
      rw [useProc_iff]
      constructor
      · rintro ⟨j, hj, hu⟩
        cases hu
        exact .inl ⟨.proc hN hj, rfl⟩
      · rintro (⟨h, rfl⟩ | ⟨i, h, _⟩)
        · cases h with
          | type h => cases hU _ h
          | var h _ _ => cases hU _ h
          | proc h hj => cases hU _ h; exact ⟨_, hj, rfl⟩
        · cases hU _ h
    | type i =>
      simp only [List.mem_cons]
      rw [hus]
      constructor
      · rintro (hu | ⟨n, e, j, d, hm, hv, hu⟩ | hv)
        · cases hu; exact .inl ⟨.type hN, rfl⟩
        · cases hu; exact .inl ⟨.var hN hm hv, rfl⟩
        · exact .inr ⟨i, hN, hv⟩
      · rintro (⟨h, rfl⟩ | ⟨k, h, hv⟩)
        · cases h with
          | type h => cases hU _ h; exact .inl rfl
          | var h hm hv => cases hU _ h; exact .inr (.inl ⟨_, _, _, _, hm, hv, rfl⟩)
          | proc h hj => cases hU _ h
        · cases hU _ h; exact .inr (.inr hv)

mutual

/-- **C85**: the uses recorded for an expression are exactly the symbols named in it, at the places where they are named. -/
theorem visitExpr_uses : ∀ (e : Expr) (l : Loc) (h : Option Nat) (u : Use),
    u ∈ (visitExpr c l h e).2 ↔ NamedIn c h e u.1 u.2
  | .base tl t fs, l, h, u => by
    rw [namedIn_base, visitExpr.eq_def]
    simp only [List.mem_append]
    rw [visitTerm_uses t, visitFollows_uses fs]
    refine or_congr Iff.rfl ⟨?_, ?_⟩
    · rintro ⟨fl, r, f, ha, hu⟩
      exact ⟨_, fl, r, f, (visitTerm_type c t tl _ _).2 rfl, ha, hu⟩
    · rintro ⟨s, fl, r, f, ht, ha, hu⟩
      rw [(visitTerm_type c t tl _ _).1 ht] at ha
      exact ⟨fl, r, f, ha, hu⟩
  | .binary true x y, l, h, u => by
    rw [visitExpr]
    simp only [List.mem_append]
    rw [visitExpr_uses x, visitExpr_uses y]
    unfold NamedIn
    constructor
    · rintro (⟨s, ha, hn⟩ | ⟨s, ha, hn⟩)
      · exact ⟨s, .orLeft ha, hn⟩
      · exact ⟨s, .orRight ha, hn⟩
    · rintro ⟨s, ha, hn⟩
      cases ha with
      | orLeft ha => exact .inl ⟨s, ha, hn⟩
      | orRight ha => exact .inr ⟨s, ha, hn⟩
  | .binary false x y, l, h, u => by
    rw [visitExpr]
    simp only [List.mem_append]
    rw [visitExpr_uses x, visitExpr_uses y]
    unfold NamedIn
    constructor
    · rintro (⟨s, ha, hn⟩ | ⟨s, ha, hn⟩)
      · exact ⟨s, .left ha, hn⟩
      · exact ⟨s, .right ha, hn⟩
    · rintro ⟨s, ha, hn⟩
      cases ha with
      | left ha => exact .inl ⟨s, ha, hn⟩
      | right ha => exact .inr ⟨s, ha, hn⟩
  | .assign op x y, l, h, u => by
    rw [visitExpr]
    simp only [List.mem_append]
    rw [visitExpr_uses x, visitExpr_uses y]
    unfold NamedIn
    constructor
    · rintro (⟨s, ha, hn⟩ | ⟨s, ha, hn⟩)
      · exact ⟨s, .target ha, hn⟩
      · exact ⟨s, .value ((visitExpr_type c x l _ _).2 rfl) ((hintOf_iff ..).2 rfl) ha, hn⟩
    · rintro ⟨s, ha, hn⟩
      cases ha with
      | target ha => exact .inl ⟨s, ha, hn⟩
      | value hx hh ha =>
        rw [(visitExpr_type c x l _ _).1 hx, hintOf_iff] at hh
        subst hh
        exact .inr ⟨s, ha, hn⟩
  | .ternary k x y, l, h, u => by
    rw [visitExpr]
    simp only [List.mem_append]
    rw [visitExpr_uses k, visitExpr_uses x, visitExpr_uses y]
    unfold NamedIn
    constructor
    · rintro ((⟨s, ha, hn⟩ | ⟨s, ha, hn⟩) | ⟨s, ha, hn⟩)
      · exact ⟨s, .cond ha, hn⟩
      · exact ⟨s, .yes ha, hn⟩
      · exact ⟨s, .no ha, hn⟩
    · rintro ⟨s, ha, hn⟩
      cases ha with
      | cond ha => exact .inl (.inl ⟨s, ha, hn⟩)
      | yes ha => exact .inl (.inr ⟨s, ha, hn⟩)
      | no ha => exact .inr ⟨s, ha, hn⟩

theorem visitTerm_uses : ∀ (t : Term) (l : Loc) (h : Option Nat) (u : Use),
    u ∈ (visitTerm c l h t).2 ↔ InSite c (.term l h t) u
  | .plain, l, h, u => by
    rw [visitTerm, inSite_iff]
    simp only [List.not_mem_nil, false_iff]
    rintro (⟨h, _⟩ | ⟨_, _, _, h, _⟩ | ⟨_, h, _⟩ | ⟨_, _, h, _⟩ | ⟨_, h, _⟩) <;> cases h
  | .string s, l, h, u => by
    rw [visitTerm, inSite_iff]
    simp only [List.not_mem_nil, false_iff]
    rintro (⟨h, _⟩ | ⟨_, _, _, h, _⟩ | ⟨_, h, _⟩ | ⟨_, _, h, _⟩ | ⟨_, h, _⟩) <;> cases h
  | .expr e, l, h, u => by
    rw [visitTerm, inSite_iff, visitExpr_uses e]
    constructor
    · intro hn; exact .inr (.inl ⟨_, _, _, rfl, hn⟩)
    · rintro (⟨h, _⟩ | ⟨_, _, _, h, hn⟩ | ⟨_, h, _⟩ | ⟨_, _, h, _⟩ | ⟨_, h, _⟩) <;> cases h
      exact hn
  | .prefab p vs, l, h, u => by
    rw [visitTerm, inSite_iff]
    simp only []
    rw [prefab_iff c l p vs _ (fun i u => visitVars_uses vs l i u)]
    constructor
    · rintro (⟨hp, hl⟩ | ⟨i, hr, hv⟩)
      · exact .inl ⟨.prefab hp, hl⟩
      · exact .inr (.inr (.inr (.inl ⟨i, vs, .prefab hr, hv⟩)))
    · rintro (⟨h, hl⟩ | ⟨_, _, _, h, hn⟩ | ⟨_, h, _⟩ | ⟨_, _, h, hv⟩ | ⟨_, h, _⟩)
      · cases h with | prefab h => exact .inl ⟨h, hl⟩
      · cases h
      · cases h
      · cases h with | prefab h => exact .inr ⟨_, h, hv⟩
      · cases h
  | .interp es, l, h, u => by
    rw [visitTerm, inSite_iff]
    simp only []
    rw [visitEach_uses es]
    constructor
    · rintro ⟨e, he, hn⟩; exact .inr (.inr (.inr (.inr ⟨e, .interp he, hn⟩)))
    · rintro (⟨h, _⟩ | ⟨_, _, _, h, _⟩ | ⟨_, h, _⟩ | ⟨_, _, h, _⟩ | ⟨_, h, hn⟩) <;> cases h
      exact ⟨_, by assumption, hn⟩
  | .ident n, l, h, u => by
    rw [visitTerm, inSite_iff, visitIdent_uses]
    constructor
    · rintro ⟨hn, hl⟩; exact .inl ⟨.name hn, hl⟩
    · rintro (⟨h, hl⟩ | ⟨_, _, _, h, _⟩ | ⟨_, h, _⟩ | ⟨_, _, h, _⟩ | ⟨_, h, hn⟩)
      · cases h with | name h => exact ⟨h, hl⟩
      all_goals cases h
  | .call n es, l, h, u => by
    rw [visitTerm, inSite_iff]
    cases hp : c.tree.getProc c.ty n with
    | none =>
      have hP := (getProc_none _ _).1 hp
      simp only [List.not_mem_nil, false_iff]
      rintro (⟨h, hl⟩ | ⟨_, _, _, h, _⟩ | ⟨_, h, _⟩ | ⟨_, _, h, _⟩ | ⟨_, h, hn⟩)
      · generalize u.1 = y at h
        cases h with | call h _ => exact hP _ h
      · cases h
      · cases h with | call h => exact hP _ h
      · cases h
      · cases h
    | some p =>
      have hP := (getProc_iff _ _ _).1 hp
      simp only [List.mem_append]
      rw [useProc_iff, visitArgs_uses es, Verif.Typing.defines_name hP]
      constructor
      · rintro (⟨j, hj, rfl⟩ | ha)
        · exact .inl ⟨.call hP hj, rfl⟩
        · exact .inr (.inr (.inl ⟨es, .call hP, ha⟩))
      · rintro (⟨h, hl⟩ | ⟨_, _, _, h, _⟩ | ⟨_, h, ha⟩ | ⟨_, _, h, _⟩ | ⟨_, h, hn⟩)
        · obtain ⟨y, l'⟩ := u
          cases h with
          | call _ hj => cases hl; exact .inl ⟨_, hj, rfl⟩
        · cases h
        · cases h; exact .inr ha
        · cases h
        · cases h
  | .selfCall es, l, h, u => by
    rw [visitTerm, inSite_iff]
    cases hp : c.proc with
    | none =>
      simp only [List.not_mem_nil, false_iff]
      rintro (⟨h, hl⟩ | ⟨_, _, _, h, _⟩ | ⟨_, h, _⟩ | ⟨_, _, h, _⟩ | ⟨_, h, hn⟩)
      · cases h
      · cases h
      · cases h with | selfCall h => rw [hp] at h; cases h
      · cases h
      · cases h
    | some p =>
      simp only []
      rw [visitArgs_uses es]
      constructor
      · intro ha; exact .inr (.inr (.inl ⟨es, .selfCall hp, ha⟩))
      · rintro (⟨h, hl⟩ | ⟨_, _, _, h, _⟩ | ⟨_, h, ha⟩ | ⟨_, _, h, _⟩ | ⟨_, h, hn⟩) <;> cases h
        exact ha
  | .parentCall es, l, h, u => by
    rw [visitTerm, inSite_iff]
    cases hp : c.proc.bind c.tree.parentProc with
    | none =>
      simp only [List.not_mem_nil, false_iff]
      rintro (⟨h, hl⟩ | ⟨_, _, _, h, _⟩ | ⟨_, h, _⟩ | ⟨_, _, h, _⟩ | ⟨_, h, hn⟩)
      · cases h
      · cases h
      · cases h with
        | parentCall h h' =>
          rw [h, Option.bind_some, (Verif.Typing.parentProc_iff _ _).2 h'] at hp
          cases hp
      · cases h
      · cases h
    | some q =>
      obtain ⟨p, h1, h2⟩ := Option.bind_eq_some_iff.1 hp
      simp only []
      rw [visitArgs_uses es]
      constructor
      · intro ha; exact .inr (.inr (.inl ⟨es, .parentCall h1 ((Verif.Typing.parentProc_iff _ _).1 h2), ha⟩))
      · rintro (⟨h, hl⟩ | ⟨_, _, _, h, _⟩ | ⟨_, h, ha⟩ | ⟨_, _, h, _⟩ | ⟨_, h, hn⟩) <;> cases h
        exact ha
  | .newImplicit es, l, none, u => by
    rw [visitTerm, inSite_iff]
    simp only [List.not_mem_nil, false_iff]
    rintro (⟨h, _⟩ | ⟨_, _, _, h, _⟩ | ⟨_, h, _⟩ | ⟨_, _, h, _⟩ | ⟨_, h, _⟩) <;> cases h
  | .newImplicit es, l, some i, u => by
    rw [visitTerm, inSite_iff]
    cases hp : c.tree.getProc i "New" with
    | none =>
      have hP := (getProc_none _ _).1 hp
      simp only [List.not_mem_nil, false_iff]
      rintro (⟨h, _⟩ | ⟨_, _, _, h, _⟩ | ⟨_, h, _⟩ | ⟨_, _, h, _⟩ | ⟨_, h, _⟩)
      · cases h
      · cases h
      · cases h with | newImplicit h => exact hP _ h
      · cases h
      · cases h
    | some p =>
      have hP := (getProc_iff _ _ _).1 hp
      simp only []
      rw [visitArgs_uses es]
      constructor
      · intro ha; exact .inr (.inr (.inl ⟨es, .newImplicit hP, ha⟩))
      · rintro (⟨h, hl⟩ | ⟨_, _, _, h, _⟩ | ⟨_, h, ha⟩ | ⟨_, _, h, _⟩ | ⟨_, h, hn⟩) <;> cases h
        exact ha
  | .newPrefab p vs es, l, h, u => by
    rw [inSite_iff]
    have key : u ∈ (visitTerm c l h (.newPrefab p vs es)).2 ↔
        u ∈ (visitPrefab c l p fun i => visitVars c l i vs) ∨
        (∃ v q, Resolves c p v ∧ Defines c.tree v.ty "New" q ∧ u ∈ visitArgs c l es) := by
      rw [visitTerm]
      cases hn : c.nav p with
      | none =>
        have hN := (resolves_none ..).1 hn
        simp only []
        constructor
        · exact .inl
        · rintro (hu | ⟨v, q, hr, _⟩)
          · exact hu
          · exact absurd hr (hN _)
      | some v =>
        have hN := (resolves_iff ..).1 hn
        have hU : ∀ w, Resolves c p w → w = v := fun w hw => by
          rw [(resolves_iff ..).2 hw] at hn; cases hn; rfl
        simp only []
        cases hp : c.tree.getProc v.ty "New" with
        | none =>
          have hP := (getProc_none _ _).1 hp
          simp only []
          constructor
          · exact .inl
          · rintro (hu | ⟨w, q, hr, hd, _⟩)
            · exact hu
            · cases hU _ hr; exact absurd hd (hP _)
        | some q =>
          have hP := (getProc_iff _ _ _).1 hp
          simp only [List.mem_append]
          refine or_congr Iff.rfl ⟨fun hu => ⟨v, q, hN, hP, hu⟩, ?_⟩
          rintro ⟨_, _, _, _, hu⟩
          exact hu
    rw [key, prefab_iff c l p vs _ (fun i u => visitVars_uses vs l i u), visitArgs_uses es]
    constructor
    · rintro ((⟨hp, hl⟩ | ⟨i, hr, hv⟩) | ⟨v, q, hr, hd, ha⟩)
      · exact .inl ⟨.newPrefab hp, hl⟩
      · exact .inr (.inr (.inr (.inl ⟨i, vs, .newPrefab hr, hv⟩)))
      · exact .inr (.inr (.inl ⟨es, .newPrefab hr hd, ha⟩))
    · rintro (⟨h, hl⟩ | ⟨_, _, _, h, hn⟩ | ⟨_, h, ha⟩ | ⟨_, _, h, hv⟩ | ⟨_, h, _⟩)
      · cases h with | newPrefab h => exact .inl (.inl ⟨h, hl⟩)
      · cases h
      · cases h with | newPrefab hr hd => exact .inr ⟨_, _, hr, hd, ha⟩
      · cases h with | newPrefab h => exact .inl (.inr ⟨_, h, hv⟩)
      · cases h
  | .newMini n fs es, l, h, u => by
    rw [visitTerm, inSite_iff]
    simp only [List.mem_append]
    rw [visitIdent_uses, fieldSyms_iff]
    constructor
    · rintro (⟨hn, hl⟩ | ⟨hf, hl⟩)
      · exact .inl ⟨.mini hn, hl⟩
      · exact .inl ⟨.miniField ((visitIdent_type c l n _).2 rfl) hf, hl⟩
    · rintro (⟨h, hl⟩ | ⟨_, _, _, h, _⟩ | ⟨_, h, _⟩ | ⟨_, _, h, _⟩ | ⟨_, h, hn⟩)
      · cases h with
        | mini h => exact .inl ⟨h, hl⟩
        | miniField hn hf =>
          rw [(visitIdent_type c l n _).1 hn] at hf
          exact .inr ⟨hf, hl⟩
      all_goals cases h
  | .list es, l, h, u => by
    rw [visitTerm, inSite_iff]
    simp only []
    rw [visitArgs_uses es]
    constructor
    · intro ha; exact .inr (.inr (.inl ⟨es, .list, ha⟩))
    · rintro (⟨h, hl⟩ | ⟨_, _, _, h, _⟩ | ⟨_, h, ha⟩ | ⟨_, _, h, _⟩ | ⟨_, h, hn⟩) <;> cases h
      exact ha
  | .locate es fs, l, h, u => by
    rw [visitTerm, inSite_iff]
    simp only [List.mem_append]
    rw [visitArgs_uses es, visitEach_uses fs]
    constructor
    · rintro (ha | ⟨e, he, hn⟩)
      · exact .inr (.inr (.inl ⟨es, .locate, ha⟩))
      · exact .inr (.inr (.inr (.inr ⟨e, .locate he, hn⟩)))
    · rintro (⟨h, hl⟩ | ⟨_, _, _, h, _⟩ | ⟨_, h, ha⟩ | ⟨_, _, h, _⟩ | ⟨_, h, hn⟩) <;> cases h
      · exact .inl ha
      · exact .inr ⟨_, by assumption, hn⟩
  | .input es fs, l, h, u => by
    rw [visitTerm, inSite_iff]
    simp only [List.mem_append]
    rw [visitArgs_uses es, visitEach_uses fs]
    constructor
    · rintro (ha | ⟨e, he, hn⟩)
      · exact .inr (.inr (.inl ⟨es, .input, ha⟩))
      · exact .inr (.inr (.inr (.inr ⟨e, .input he, hn⟩)))
    · rintro (⟨h, hl⟩ | ⟨_, _, _, h, _⟩ | ⟨_, h, ha⟩ | ⟨_, _, h, _⟩ | ⟨_, h, hn⟩) <;> cases h
      · exact .inl ha
      · exact .inr ⟨_, by assumption, hn⟩
  | .pick es, l, h, u => by
    rw [visitTerm, inSite_iff]
    simp only []
    rw [visitEach_uses es]
    constructor
    · rintro ⟨e, he, hn⟩; exact .inr (.inr (.inr (.inr ⟨e, .pick he, hn⟩)))
    · rintro (⟨h, _⟩ | ⟨_, _, _, h, _⟩ | ⟨_, h, _⟩ | ⟨_, _, h, _⟩ | ⟨_, h, hn⟩) <;> cases h
      exact ⟨_, by assumption, hn⟩
  | .dynCall es fs, l, h, u => by
    rw [visitTerm, inSite_iff]
    simp only [List.mem_append]
    rw [visitArgs_uses es, visitArgs_uses fs]
    constructor
    · rintro (ha | ha)
      · exact .inr (.inr (.inl ⟨es, .dynLeft, ha⟩))
      · exact .inr (.inr (.inl ⟨fs, .dynRight, ha⟩))
    · rintro (⟨h, hl⟩ | ⟨_, _, _, h, _⟩ | ⟨_, h, ha⟩ | ⟨_, _, h, _⟩ | ⟨_, h, hn⟩) <;> cases h
      · exact .inl ha
      · exact .inr ha
  | .extCall es f fs, l, h, u => by
    rw [visitTerm, inSite_iff]
    simp only [List.mem_append]
    rw [visitEach_uses es, visitExpr_uses f, visitArgs_uses fs]
    constructor
    · rintro ((⟨e, he, hn⟩ | hn) | ha)
      · exact .inr (.inr (.inr (.inr ⟨e, .lib he, hn⟩)))
      · exact .inr (.inr (.inr (.inr ⟨f, .fn, hn⟩)))
      · exact .inr (.inr (.inl ⟨fs, .ext, ha⟩))
    · rintro (⟨h, hl⟩ | ⟨_, _, _, h, _⟩ | ⟨_, h, ha⟩ | ⟨_, _, h, _⟩ | ⟨_, h, hn⟩)
      · cases h
      · cases h
      · cases h; exact .inr ha
      · cases h
      · cases h with
        | lib he => exact .inl (.inl ⟨_, he, hn⟩)
        | fn => exact .inl (.inr hn)
  | .globalCall n es, l, h, u => by
    rw [visitTerm, inSite_iff]
    cases hp : c.tree.getProc 0 n with
    | none =>
      have hP := (getProc_none _ _).1 hp
      simp only []
      rw [visitArgs_uses es]
      constructor
      · intro ha; exact .inr (.inr (.inl ⟨es, .globalCall, ha⟩))
      · rintro (⟨h, hl⟩ | ⟨_, _, _, h, _⟩ | ⟨_, h, ha⟩ | ⟨_, _, h, _⟩ | ⟨_, h, hn⟩)
        · generalize u.1 = y at h
          cases h with | globalCall h _ => exact absurd h (hP _)
        · cases h
        · cases h; exact ha
        · cases h
        · cases h
    | some p =>
      have hP := (getProc_iff _ _ _).1 hp
      simp only [List.mem_append]
      rw [useProc_iff, visitArgs_uses es, Verif.Typing.defines_name hP]
      constructor
      · rintro (⟨j, hj, rfl⟩ | ha)
        · exact .inl ⟨.globalCall hP hj, rfl⟩
        · exact .inr (.inr (.inl ⟨es, .globalCall, ha⟩))
      · rintro (⟨h, hl⟩ | ⟨_, _, _, h, _⟩ | ⟨_, h, ha⟩ | ⟨_, _, h, _⟩ | ⟨_, h, hn⟩)
        · obtain ⟨y, l'⟩ := u
          cases h with
          | globalCall _ hj => cases hl; exact .inl ⟨_, hj, rfl⟩
        · cases h
        · cases h; exact .inr ha
        · cases h
        · cases h
  | .globalIdent n, l, h, u => by
    rw [visitTerm, inSite_iff]
    obtain ⟨y, l'⟩ := u
    cases hv : varDecl c.tree 0 n with
    | none =>
      have hV := (varDecl_none ..).1 hv
      simp only [List.not_mem_nil, false_iff]
      rintro (⟨h, hl⟩ | ⟨_, _, _, h, _⟩ | ⟨_, h, ha⟩ | ⟨_, _, h, _⟩ | ⟨_, h, hn⟩)
      · cases h with | global h => exact hV _ _ h
      all_goals cases h
    | some x =>
      obtain ⟨j, d⟩ := x
      have hV := (varDecl_iff ..).1 hv
      simp only [List.mem_singleton]
      constructor
      · intro hu; cases hu; exact .inl ⟨.global hV, rfl⟩
      · rintro (⟨h, hl⟩ | ⟨_, _, _, h, _⟩ | ⟨_, h, ha⟩ | ⟨_, _, h, _⟩ | ⟨_, h, hn⟩)
        · cases h with
          | global h => rw [(varDecl_iff ..).2 h] at hv; cases hv; cases hl; rfl
        all_goals cases h
  | .typeMacro, l, h, u => by
    rw [visitTerm, inSite_iff]
    obtain ⟨y, l'⟩ := u
    simp only [List.mem_singleton]
    constructor
    · intro hu; cases hu; exact .inl ⟨.typeMacro, rfl⟩
    · rintro (⟨h, hl⟩ | ⟨_, _, _, h, _⟩ | ⟨_, h, ha⟩ | ⟨_, _, h, _⟩ | ⟨_, h, hn⟩) <;> cases h
      cases hl; rfl
  | .procMacro, l, h, u => by
    rw [visitTerm, inSite_iff]
    obtain ⟨y, l'⟩ := u
    cases hp : c.proc with
    | none =>
      simp only [List.not_mem_nil, false_iff]
      rintro (⟨h, hl⟩ | ⟨_, _, _, h, _⟩ | ⟨_, h, _⟩ | ⟨_, _, h, _⟩ | ⟨_, h, hn⟩)
      · cases h with | procMacro h _ => rw [hp] at h; cases h
      all_goals cases h
    | some p =>
      simp only []
      rw [useProc_iff]
      constructor
      · rintro ⟨j, hj, hu⟩; cases hu; exact .inl ⟨.procMacro hp hj, rfl⟩
      · rintro (⟨h, hl⟩ | ⟨_, _, _, h, _⟩ | ⟨_, h, ha⟩ | ⟨_, _, h, _⟩ | ⟨_, h, hn⟩)
        · cases h with
          | procMacro h hj => rw [hp] at h; cases h; cases hl; exact ⟨_, hj, rfl⟩
        all_goals cases h
  | .impliedType, l, none, u => by
    rw [visitTerm, inSite_iff]
    simp only [List.not_mem_nil, false_iff]
    rintro (⟨h, _⟩ | ⟨_, _, _, h, _⟩ | ⟨_, h, _⟩ | ⟨_, _, h, _⟩ | ⟨_, h, _⟩) <;> cases h
  | .impliedType, l, some i, u => by
    rw [visitTerm, inSite_iff]
    obtain ⟨y, l'⟩ := u
    simp only [List.mem_singleton]
    constructor
    · intro hu; cases hu; exact .inl ⟨.implied, rfl⟩
    · rintro (⟨h, hl⟩ | ⟨_, _, _, h, _⟩ | ⟨_, h, ha⟩ | ⟨_, _, h, _⟩ | ⟨_, h, hn⟩) <;> cases h
      cases hl; rfl

theorem visitVars_uses : ∀ (vs : Vars) (l : Loc) (i : Nat) (u : Use), u ∈ visitVars c l i vs ↔ VarUses c i vs l u
  | .nil, l, i, u => by
    rw [visitVars]
    unfold VarUses VarsIn
    simp only [Vars.toList, List.not_mem_nil, false_iff]
    rintro (⟨_, _, _, _, h, _⟩ | ⟨_, _, _, h, _⟩) <;> exact h
  | .cons n e vs, l, i, u => by
    rw [varUses_cons, visitVars, List.mem_append, visitVars_uses vs]
    refine or_congr ?_ Iff.rfl
    have hh := varHint_iff c.tree i n
    cases hv : varDecl c.tree i n with
    | some x =>
      obtain ⟨j, d⟩ := x
      have hV := (varDecl_iff ..).1 hv
      rw [hv] at hh
      simp only [List.mem_cons] at hh ⊢
      rw [visitExpr_uses e]
      constructor
      · rintro (hu | hn)
        · exact .inl ⟨j, d, hV, hu⟩
        · exact .inr ⟨_, (hh _).2 rfl, hn⟩
      · rintro (⟨j', d', h, hu⟩ | ⟨k, hk, hn⟩)
        · rw [(varDecl_iff ..).2 h] at hv; cases hv; exact .inl hu
        · rw [hh] at hk; subst hk; exact .inr hn
    | none =>
      have hV := (varDecl_none ..).1 hv
      rw [hv] at hh
      simp only [] at hh ⊢
      rw [visitExpr_uses e]
      constructor
      · intro hn; exact .inr ⟨_, (hh _).2 rfl, hn⟩
      · rintro (⟨j', d', h, hu⟩ | ⟨k, hk, hn⟩)
        · exact absurd h (hV _ _)
        · rw [hh] at hk; subst hk; exact hn

theorem visitFollows_uses : ∀ (fs : Follows) (s : STy) (u : Use),
    u ∈ (visitFollows c s fs).2 ↔ ∃ fl r f, Along c s fs fl r f ∧ InSite c (.follow fl r f) u
  | .nil, s, u => by
    rw [visitFollows]
    simp only [List.not_mem_nil, false_iff]
    rintro ⟨_, _, _, h, _⟩
    cases h
  | .cons l f fs, s, u => by
    rw [visitFollows]
    simp only [List.mem_append]
    rw [visitFollow_uses f, visitFollows_uses fs]
    constructor
    · rintro (hu | ⟨fl, r, g, ha, hu⟩)
      · exact ⟨l, s, f, .head, hu⟩
      · exact ⟨fl, r, g, .tail ((visitFollow_type c l s f _).2 rfl) ha, hu⟩
    · rintro ⟨fl, r, g, ha, hu⟩
      cases ha with
      | head => exact .inl hu
      | tail hf ha =>
        rw [(visitFollow_type c l s f _).1 hf] at ha
        exact .inr ⟨fl, r, g, ha, hu⟩

theorem visitFollow_uses : ∀ (f : Follow) (l : Loc) (s : STy) (u : Use),
    u ∈ (visitFollow c l s f).2 ↔ InSite c (.follow l s f) u
  | .unary, l, s, u => by
    rw [visitFollow, inSite_iff]
    simp only [List.not_mem_nil, false_iff]
    rintro (⟨h, _⟩ | ⟨_, _, _, h, _⟩ | ⟨_, h, _⟩ | ⟨_, _, h, _⟩ | ⟨_, h, _⟩) <;> cases h
  | .index e, l, s, u => by
    rw [visitFollow.eq_def, inSite_iff]
    simp only []
    rw [visitExpr_uses e]
    constructor
    · intro hn; exact .inr (.inr (.inr (.inr ⟨e, .index, hn⟩)))
    · rintro (⟨h, _⟩ | ⟨_, _, _, h, _⟩ | ⟨_, h, _⟩ | ⟨_, _, h, _⟩ | ⟨_, h, hn⟩) <;> cases h
      exact hn
  | .field n, l, s, u => by
    rw [visitFollow, inSite_iff, (visitField_spec c l s n).2]
    constructor
    · rintro ⟨⟨i, j, d, hb, hv, he⟩, hl⟩
      obtain ⟨y, l'⟩ := u
      cases he
      exact .inl ⟨.field hb hv, hl⟩
    · rintro (⟨h, hl⟩ | ⟨_, _, _, h, _⟩ | ⟨_, h, _⟩ | ⟨_, _, h, _⟩ | ⟨_, h, hn⟩)
      · obtain ⟨y, l'⟩ := u
        cases h with
        | field hb hv => exact ⟨⟨_, _, _, hb, hv, rfl⟩, hl⟩
      all_goals cases h
  | .call n es, l, s, u => by
    rw [inSite_iff]
    have key : u ∈ (visitFollow c l s (.call n es)).2 ↔
        (∃ i p, Basic c.tree s i ∧ Defines c.tree i n p ∧ u ∈ useProc c l i n) ∨ u ∈ visitArgs c l es := by
      rw [visitFollow]
      cases hb : s.basic c.tree with
      | none =>
        have hB := (basic_none ..).1 hb
        simp only []
        constructor
        · exact .inr
        · rintro (⟨i, _, h, _⟩ | h)
          · exact absurd h (hB _)
          · exact h
      | some i =>
        have hB := (basic_iff ..).1 hb
        have hU : ∀ k, Basic c.tree s k → k = i := fun k hk => by
          rw [(basic_iff ..).2 hk] at hb; cases hb; rfl
        simp only []
        cases hp : c.tree.getProc i n with
        | none =>
          have hP := (getProc_none _ _).1 hp
          simp only []
          constructor
          · exact .inr
          · rintro (⟨k, _, h, hd, _⟩ | h)
            · cases hU _ h; exact absurd hd (hP _)
            · exact h
        | some p =>
          have hP := (getProc_iff _ _ _).1 hp
          simp only [List.mem_append]
          rw [Verif.Typing.defines_name hP]
          refine or_congr ⟨fun hu => ⟨i, p, hB, hP, hu⟩, ?_⟩ Iff.rfl
          rintro ⟨k, _, h, _, hu⟩
          cases hU _ h; exact hu
    rw [key, visitArgs_uses es]
    constructor
    · rintro (⟨i, p, hb, hd, hu⟩ | ha)
      · obtain ⟨j, hj, rfl⟩ := (useProc_iff ..).1 hu
        exact .inl ⟨.method hb hd hj, rfl⟩
      · exact .inr (.inr (.inl ⟨es, .method, ha⟩))
    · rintro (⟨h, hl⟩ | ⟨_, _, _, h, _⟩ | ⟨_, h, ha⟩ | ⟨_, _, h, _⟩ | ⟨_, h, hn⟩)
      · obtain ⟨y, l'⟩ := u
        cases h with
        | method hb hd hj => cases hl; exact .inl ⟨_, _, hb, hd, (useProc_iff ..).2 ⟨_, hj, rfl⟩⟩
      · cases h
      · cases h; exact .inr ha
      · cases h
      · cases h
  | .procRef n, l, s, u => by
    rw [visitFollow, inSite_iff]
    obtain ⟨y, l'⟩ := u
    cases hb : s.basic c.tree with
    | none =>
      have hB := (basic_none ..).1 hb
      simp only [List.not_mem_nil, false_iff]
      rintro (⟨h, hl⟩ | ⟨_, _, _, h, _⟩ | ⟨_, h, _⟩ | ⟨_, _, h, _⟩ | ⟨_, h, hn⟩)
      · cases h with | procRef h _ => exact hB _ h
      all_goals cases h
    | some i =>
      have hB := (basic_iff ..).1 hb
      simp only []
      rw [useProc_iff]
      constructor
      · rintro ⟨j, hj, hu⟩; cases hu; exact .inl ⟨.procRef hB hj, rfl⟩
      · rintro (⟨h, hl⟩ | ⟨_, _, _, h, _⟩ | ⟨_, h, ha⟩ | ⟨_, _, h, _⟩ | ⟨_, h, hn⟩)
        · cases h with
          | procRef h hj => rw [(basic_iff ..).2 h] at hb; cases hb; cases hl; exact ⟨_, hj, rfl⟩
        all_goals cases h

theorem visitEach_uses : ∀ (es : Exprs) (l : Loc) (u : Use), u ∈ visitEach c l es ↔ EachIn c es u
  | .nil, l, u => by
    rw [visitEach]
    exact ⟨nofun, fun h => absurd h (eachIn_nil c u)⟩
  | .cons e es, l, u => by
    rw [visitEach, List.mem_append, eachIn_cons, visitExpr_uses e, visitEach_uses es]

theorem visitArgs_uses : ∀ (es : Exprs) (l : Loc) (u : Use), u ∈ visitArgs c l es ↔ ArgsIn c es u
  | .nil, l, u => by
    rw [visitArgs]
    exact ⟨nofun, fun h => absurd h (argsIn_nil c u)⟩
  | .cons (.assign true x y) es, l, u => by
    rw [visitArgs, List.mem_append, argsIn_cons, visitArgs_uses es]
    refine or_congr ?_ Iff.rfl
    by_cases hk : Key x
    · rw [if_pos ((isKey_iff x).2 hk), argIn_keyword c hk, visitExpr_uses y]
    · rw [if_neg (fun h => hk ((isKey_iff x).1 h)), argIn_plain c (by rintro _ _ ⟨⟩; exact hk),
        visitExpr_uses (.assign true x y)]
  | .cons (.assign false x y) es, l, u => by
    rw [visitArgs, List.mem_append, argsIn_cons, visitArgs_uses es, argIn_plain c (e := (.assign false x y)) nofun,
      visitExpr_uses (.assign false x y)]
    nofun
  | .cons (.base tl t fs) es, l, u => by
    rw [visitArgs, List.mem_append, argsIn_cons, visitArgs_uses es, argIn_plain c (e := (.base tl t fs)) nofun,
      visitExpr_uses (.base tl t fs)]
    nofun
  | .cons (.binary op x y) es, l, u => by
    rw [visitArgs, List.mem_append, argsIn_cons, visitArgs_uses es, argIn_plain c (e := (.binary op x y)) nofun,
      visitExpr_uses (.binary op x y)]
    nofun
  | .cons (.ternary k x y) es, l, u => by
    rw [visitArgs, List.mem_append, argsIn_cons, visitArgs_uses es, argIn_plain c (e := (.ternary k x y)) nofun,
      visitExpr_uses (.ternary k x y)]
    nofun

end

end Verif.Refs
