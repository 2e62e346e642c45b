import Verif.Typing.Lookup
import Verif.Typing.KwProps
import Verif.Refs.Spec

/-!
# The lookups and static types of "Find References" meet their specification
-/

namespace Verif.Refs

open Verif.Typing (Ident Loc PathOp Tree VarDecl Proc modifiers Defines ParentOf chain_none chain_some)

theorem varDecl_iff (t : Tree) (i : Nat) (n : Ident) (j : Nat) (d : VarDecl) :
    varDecl t i n = some (j, d) ↔ VarOn t i n j d := by
  induction i using t.induct with
  | h0 i h =>
    unfold varDecl
    rw [chain_none h]
    simp only [List.findSome?_cons, List.findSome?_nil]
    constructor
    · intro hv
      cases he : t.vars i n with
      | none => rw [he] at hv; cases hv
      | some d' => rw [he] at hv; cases hv; exact .own he
    · intro hv
      cases hv with
      | own he => rw [he]; rfl
      | inherited _ hp _ => rw [h] at hp; cases hp
  | h1 i q h ih =>
    unfold varDecl at ih ⊢
    rw [chain_some h]
    simp only [List.findSome?_cons]
    cases he : t.vars i n with
    | none =>
      simp only [Option.map_none]
      rw [ih]
      constructor
      · exact .inherited he h
      · intro hv
        cases hv with
        | own he' => rw [he] at he'; cases he'
        | inherited _ hp hv => rw [h] at hp; cases hp; exact hv
    | some d' =>
      simp only [Option.map_some]
      constructor
      · intro hv; cases hv; exact .own he
      · intro hv
        cases hv with
        | own he' => rw [he] at he'; cases he'; rfl
        | inherited he' _ _ => rw [he] at he'; cases he'

theorem varDecl_none (t : Tree) (i : Nat) (n : Ident) : varDecl t i n = none ↔ ∀ j d, ¬ VarOn t i n j d := by
  constructor
  · intro h j d hv; rw [(varDecl_iff ..).2 hv] at h; cases h
  · intro h
    cases he : varDecl t i n with
    | none => rfl
    | some x => exact absurd ((varDecl_iff t i n x.1 x.2).1 he) (h _ _)

theorem procDecl_iff (t : Tree) (i : Nat) (n : Ident) (j : Nat) : procDecl t i n = some j ↔ ProcOn t i n j := by
  induction i using t.induct with
  | h0 i h =>
    unfold procDecl
    rw [chain_none h]
    simp only [List.find?_cons, List.find?_nil]
    constructor
    · intro hv
      cases he : t.kind i n with
      | none => rw [he] at hv; cases hv
      | some d' => rw [he] at hv; cases hv; exact .own (by rw [he]; nofun)
    · intro hv
      cases hv with
      | own he => rw [Option.isSome_iff_ne_none.2 he]
      | inherited _ hp _ => rw [h] at hp; cases hp
  | h1 i q h ih =>
    unfold procDecl at ih ⊢
    rw [chain_some h]
    simp only [List.find?_cons]
    cases he : t.kind i n with
    | none =>
      simp only [Option.isSome_none]
      rw [ih]
      constructor
      · exact .inherited he h
      · intro hv
        cases hv with
        | own he' => exact absurd he he'
        | inherited _ hp hv => rw [h] at hp; cases hp; exact hv
    | some d' =>
      simp only [Option.isSome_some]
      constructor
      · intro hv; cases hv; exact .own (by rw [he]; nofun)
      · intro hv
        cases hv with
        | own he' => rfl
        | inherited he' _ _ => rw [he] at he'; cases he'

theorem procDecl_none (t : Tree) (i : Nat) (n : Ident) : procDecl t i n = none ↔ ∀ j, ¬ ProcOn t i n j := by
  constructor
  · intro h j hv; rw [(procDecl_iff ..).2 hv] at h; cases h
  · intro h
    cases he : procDecl t i n with
    | none => rfl
    | some x => exact absurd ((procDecl_iff t i n x).1 he) (h _)

theorem procWord_iff (x : Ident) : (x == "proc" || x == "verb") = true ↔ ProcWord x := by
  unfold ProcWord
  rw [Bool.or_eq_true, beq_iff_eq, beq_iff_eq]

theorem leads_iff (c : Ctx) : ∀ (p : List (PathOp × Ident)) (i : Nat) (v : Nav), c.navFrom i p = some v ↔ Leads c i p v
  | [], i, v => by
    rw [Ctx.navFrom]
    constructor
    · intro h; cases h; exact .here
    · intro h; cases h; rfl
  | (op, x) :: rest, i, v => by
    rw [Ctx.navFrom.eq_def]
    simp only []
    by_cases hx : ProcWord x
    · rw [if_pos ((procWord_iff x).2 hx)]
      cases rest with
      | nil =>
        simp only []
        constructor
        · intro h; cases h; exact .group hx
        · intro h
          cases h with
          | group _ => rfl
          | step h _ _ => exact absurd hx h
      | cons y rest =>
        obtain ⟨op', n⟩ := y
        simp only []
        constructor
        · intro h
          obtain ⟨p, hp, rfl⟩ := Option.map_eq_some_iff.1 h
          exact .proc hx ((Verif.Typing.getProc_iff _ _ _).1 hp)
        · intro h
          cases h with
          | proc _ hd => rw [(Verif.Typing.getProc_iff _ _ _).2 hd]; rfl
          | step h _ _ => exact absurd hx h
    · rw [if_neg (fun h => hx ((procWord_iff x).1 h))]
      cases hn : c.navigate i op x with
      | none =>
        simp only [reduceCtorEq, false_iff]
        intro h
        cases h with
        | group h => exact hx h
        | proc h _ => exact hx h
        | step _ h _ => rw [hn] at h; cases h
      | some j =>
        simp only []
        rw [leads_iff c rest j v]
        constructor
        · exact .step hx hn
        · intro h
          cases h with
          | group h => exact absurd h hx
          | proc h _ => exact absurd h hx
          | step _ h hl => rw [hn] at h; cases h; exact hl

theorem resolves_iff (c : Ctx) (p : List (PathOp × Ident)) (v : Nav) : c.nav p = some v ↔ Resolves c p v := by
  by_cases hp : ∃ x rest, p = (.slash, x) :: rest
  · obtain ⟨x, rest, rfl⟩ := hp
    rw [show c.nav ((.slash, x) :: rest) = c.navFrom 0 ((.slash, x) :: rest) from rfl, leads_iff]
    constructor
    · exact .absolute
    · intro h
      cases h with
      | absolute h => exact h
      | relative h _ => exact absurd rfl (h _ _)
  · have hn : ∀ x rest, p ≠ (.slash, x) :: rest := fun x rest h => hp ⟨x, rest, h⟩
    have : c.nav p = c.navFrom c.ty p := by
      unfold Ctx.nav
      split
      · exact absurd rfl (hn _ _)
      · rfl
    rw [this, leads_iff]
    constructor
    · exact .relative hn
    · intro h
      cases h with
      | absolute h => exact absurd rfl (hn _ _)
      | relative _ h => exact h

theorem resolves_none (c : Ctx) (p : List (PathOp × Ident)) : c.nav p = none ↔ ∀ v, ¬ Resolves c p v := by
  constructor
  · intro h v hv; rw [(resolves_iff ..).2 hv] at h; cases h
  · intro h
    cases he : c.nav p with
    | none => rfl
    | some x => exact absurd ((resolves_iff c p x).1 he) (h _)

theorem staticType_iff (t : Tree) : ∀ (path : List Ident) (s : STy), PathIs t path s ↔ s = staticType t path
  | [], s => by
    rw [staticType]
    constructor
    · intro h; cases h; rfl
    · rintro rfl; exact .nothing
  | x :: rest, s => by
    rw [staticType.eq_def]
    simp only []
    by_cases hm : x ∈ modifiers
    · rw [if_pos (List.contains_iff_mem.2 hm), ← staticType_iff t rest]
      constructor
      · intro h
        cases h with
        | modifier _ h => exact h
        | list _ => exact absurd hm Verif.Typing.list_not_modifier
        | type h _ _ => exact absurd hm h
        | missing h _ _ => exact absurd hm h
      · exact .modifier hm
    · rw [if_neg (fun h => hm (List.contains_iff_mem.1 h))]
      by_cases hl : x = "list"
      · subst hl
        rw [if_pos (by simp)]
        constructor
        · intro h
          cases h with
          | modifier h _ => exact absurd h hm
          | list h => rw [(staticType_iff t rest _).1 h]
          | type _ h _ => exact absurd rfl h
          | missing _ h _ => exact absurd rfl h
        · rintro rfl
          exact .list ((staticType_iff t rest _).2 rfl)
      · rw [if_neg (by simpa using hl)]
        cases hf : t.find (x :: rest) with
        | some i =>
          simp only []
          constructor
          · intro h
            cases h with
            | modifier h _ => exact absurd h hm
            | list _ => exact absurd rfl hl
            | type _ _ h => rw [hf] at h; cases h; rfl
            | missing _ _ h => rw [hf] at h; cases h
          · rintro rfl; exact .type hm hl hf
        | none =>
          simp only []
          constructor
          · intro h
            cases h with
            | modifier h _ => exact absurd h hm
            | list _ => exact absurd rfl hl
            | type _ _ h => rw [hf] at h; cases h
            | missing _ _ h => rfl
          · rintro rfl; exact .missing hm hl hf

theorem basic_iff (t : Tree) (s : STy) (i : Nat) : s.basic t = some i ↔ Basic t s i := by
  cases s with
  | none =>
    constructor
    · intro h; cases h
    · intro h; cases h
  | type j =>
    constructor
    · intro h; cases h; exact .type _
    · intro h; cases h; rfl
  | list k =>
    constructor
    · intro h; cases h; exact .list _
    · intro h; cases h; rfl

theorem basic_none (t : Tree) (s : STy) : s.basic t = none ↔ ∀ i, ¬ Basic t s i := by
  constructor
  · intro h j hv; rw [(basic_iff ..).2 hv] at h; cases h
  · intro h
    cases he : s.basic t with
    | none => rfl
    | some x => exact absurd ((basic_iff t s x).1 he) (h _)

theorem hintOf_iff (t : Tree) (s : STy) (h : Option Nat) : HintOf t s h ↔ h = s.basic t := by
  constructor
  · intro hh
    cases hh with
    | some hb => exact ((basic_iff ..).2 hb).symm
    | none hb => exact ((basic_none ..).2 hb).symm
  · rintro rfl
    cases he : s.basic t with
    | some i => exact .some ((basic_iff ..).1 he)
    | none => exact .none ((basic_none ..).1 he)

theorem useType_iff (t : Tree) (l : Loc) : ∀ (s : STy) (u : Use), u ∈ useType t l s ↔ ∃ i, Mentions t s i ∧ u = (.type i, l)
  | .none, u => by
    rw [useType]
    constructor
    · intro h; cases h
    · rintro ⟨i, h, _⟩; cases h
  | .type j, u => by
    rw [useType, List.mem_singleton]
    constructor
    · intro h; exact ⟨j, .type _, h⟩
    · rintro ⟨i, h, hu⟩; cases h; exact hu
  | .list k, u => by
    rw [useType, List.mem_cons, useType_iff t l k]
    constructor
    · rintro (h | ⟨i, h, hu⟩)
      · exact ⟨_, .list _, h⟩
      · exact ⟨i, .elem h, hu⟩
    · rintro ⟨i, h, hu⟩
      cases h with
      | list _ => exact .inl hu
      | elem h => exact .inr ⟨i, h, hu⟩

theorem visitIdent_type (c : Ctx) (l : Loc) (n : Ident) (s : STy) : NameIs c n s ↔ s = (visitIdent c l n).1 := by
  unfold visitIdent
  cases hl : c.locals n with
  | some v =>
    simp only []
    constructor
    · intro h
      cases h with
      | «local» h => rw [hl] at h; cases h; rfl
      | var h _ _ => rw [hl] at h; cases h
      | unknown h _ => rw [hl] at h; cases h
    · rintro rfl; exact .local hl
  | none =>
    simp only []
    cases hv : varDecl c.tree c.ty n with
    | some x =>
      obtain ⟨j, d⟩ := x
      have hV := (varDecl_iff ..).1 hv
      simp only []
      constructor
      · intro h
        cases h with
        | «local» h => rw [hl] at h; cases h
        | var _ h hp => rw [(varDecl_iff ..).2 h] at hv; cases hv; exact (staticType_iff ..).1 hp
        | unknown _ h => exact absurd hV (h _ _)
      · intro h; exact .var hl hV ((staticType_iff ..).2 h)
    | none =>
      have hV := (varDecl_none ..).1 hv
      simp only []
      constructor
      · intro h
        cases h with
        | «local» h => rw [hl] at h; cases h
        | var _ h hp => exact absurd h (hV _ _)
        | unknown _ h => rfl
      · rintro rfl; exact .unknown hl hV

theorem visitIdent_uses (c : Ctx) (l : Loc) (n : Ident) (u : Use) :
    u ∈ (visitIdent c l n).2 ↔ NameSym c n u.1 ∧ l = u.2 := by
  obtain ⟨y, l'⟩ := u
  unfold visitIdent
  cases hl : c.locals n with
  | some v =>
    simp only [List.mem_singleton, Prod.mk.injEq]
    constructor
    · rintro ⟨rfl, rfl⟩; exact ⟨.local hl, rfl⟩
    · rintro ⟨h, rfl⟩
      cases h with
      | «local» h => rw [hl] at h; cases h; exact ⟨rfl, rfl⟩
      | var h _ => rw [hl] at h; cases h
  | none =>
    simp only []
    cases hv : varDecl c.tree c.ty n with
    | some x =>
      obtain ⟨j, d⟩ := x
      have hV := (varDecl_iff ..).1 hv
      simp only [List.mem_singleton, Prod.mk.injEq]
      constructor
      · rintro ⟨rfl, rfl⟩; exact ⟨.var hl hV, rfl⟩
      · rintro ⟨h, rfl⟩
        cases h with
        | «local» h => rw [hl] at h; cases h
        | var _ h => rw [(varDecl_iff ..).2 h] at hv; cases hv; exact ⟨rfl, rfl⟩
    | none =>
      have hV := (varDecl_none ..).1 hv
      simp only [List.not_mem_nil, false_iff]
      rintro ⟨h, _⟩
      cases h with
      | «local» h => rw [hl] at h; cases h
      | var _ h => exact hV _ _ h

/-- The variable that a field of a value of static type `s` stands for. -/
def FieldSym (c : Ctx) (s : STy) (n : Ident) (y : Sym) : Prop :=
  ∃ i j d, Basic c.tree s i ∧ VarOn c.tree i n j d ∧ y = .var j n

theorem visitField_spec (c : Ctx) (l : Loc) (s : STy) (n : Ident) :
    (∀ r, FieldIs c s n r ↔ r = (visitField c l s n).1) ∧
    ∀ u, u ∈ (visitField c l s n).2 ↔ FieldSym c s n u.1 ∧ l = u.2 := by
  unfold visitField FieldSym
  cases hb : s.basic c.tree with
  | none =>
    have hB := (basic_none ..).1 hb
    simp only []
    refine ⟨fun r => ⟨fun h => ?_, ?_⟩, fun u => ?_⟩
    · cases h with
      | var h _ _ => exact absurd h (hB _)
      | unknown _ => rfl
    · rintro rfl; exact .unknown fun i _ _ h => absurd h (hB i)
    · simp only [List.not_mem_nil, false_iff]
      rintro ⟨⟨i, _, _, h, _⟩, _⟩
      exact hB i h
  | some i =>
    have hB := (basic_iff ..).1 hb
    have hU : ∀ k, Basic c.tree s k → k = i := fun k hk => by
      rw [(basic_iff ..).2 hk] at hb; cases hb; rfl
    simp only []
    cases hv : varDecl c.tree i n with
    | some x =>
      obtain ⟨j, d⟩ := x
      have hV := (varDecl_iff ..).1 hv
      simp only []
      refine ⟨fun r => ⟨fun h => ?_, fun h => .var hB hV ((staticType_iff ..).2 h)⟩, fun u => ?_⟩
      · cases h with
        | var hb' h hp =>
          cases hU _ hb'
          rw [(varDecl_iff ..).2 h] at hv; cases hv; exact (staticType_iff ..).1 hp
        | unknown h => exact absurd hV (h _ _ _ hB)
      · obtain ⟨y, l'⟩ := u
        simp only [List.mem_singleton, Prod.mk.injEq]
        constructor
        · rintro ⟨rfl, rfl⟩; exact ⟨⟨i, j, d, hB, hV, rfl⟩, rfl⟩
        · rintro ⟨⟨i', j', d', hb', hv', rfl⟩, rfl⟩
          cases hU _ hb'
          rw [(varDecl_iff ..).2 hv'] at hv; cases hv; exact ⟨rfl, rfl⟩
    | none =>
      have hV := (varDecl_none ..).1 hv
      simp only []
      refine ⟨fun r => ⟨fun h => ?_, ?_⟩, fun u => ?_⟩
      · cases h with
        | var hb' h hp => cases hU _ hb'; exact absurd h (hV _ _)
        | unknown h => rfl
      · rintro rfl
        exact .unknown fun k j d hk hv' => by cases hU _ hk; exact hV _ _ hv'
      · simp only [List.not_mem_nil, false_iff]
        rintro ⟨⟨k, j, d, hk, hv', _⟩, _⟩
        cases hU _ hk; exact hV _ _ hv'

theorem fieldSyms_iff (c : Ctx) (l : Loc) : ∀ (ns : List Ident) (s : STy) (u : Use),
    u ∈ visitFields c l s ns ↔ FieldSyms c s ns u.1 ∧ l = u.2
  | [], s, u => by
    rw [visitFields]
    constructor
    · intro h; cases h
    · rintro ⟨h, _⟩; generalize u.1 = y at h; cases h
  | n :: ns, s, u => by
    obtain ⟨y, l'⟩ := u
    rw [visitFields]
    simp only [List.mem_append]
    rw [(visitField_spec c l s n).2, fieldSyms_iff c l ns]
    simp only []
    constructor
    · rintro (⟨⟨i, j, d, hb, hv, rfl⟩, rfl⟩ | ⟨h, rfl⟩)
      · exact ⟨.head hb hv, rfl⟩
      · exact ⟨.tail (((visitField_spec c l s n).1 _).2 rfl) h, rfl⟩
    · rintro ⟨h, rfl⟩
      cases h with
      | head hb hv => exact .inl ⟨⟨_, _, _, hb, hv, rfl⟩, rfl⟩
      | tail hf h =>
        rw [((visitField_spec c l s n).1 _).1 hf] at h
        exact .inr ⟨h, rfl⟩

theorem useProc_iff (c : Ctx) (l : Loc) (i : Nat) (n : Ident) (u : Use) :
    u ∈ useProc c l i n ↔ ∃ j, ProcOn c.tree i n j ∧ u = (.proc j n, l) := by
  unfold useProc
  cases h : procDecl c.tree i n with
  | some j =>
    have hj := (procDecl_iff ..).1 h
    simp only [List.mem_singleton]
    constructor
    · intro hu; exact ⟨j, hj, hu⟩
    · rintro ⟨k, hk, hu⟩
      rw [(procDecl_iff ..).2 hk] at h; cases h; exact hu
  | none =>
    have hj := (procDecl_none ..).1 h
    simp only [List.not_mem_nil, false_iff]
    rintro ⟨k, hk, _⟩
    exact hj k hk

theorem isKey_iff (e : Expr) : e.isKey = true ↔ Key e := by
  constructor
  · intro h
    unfold Expr.isKey at h
    split at h
    · exact .ident _ _
    · exact .string _ _
    · cases h
  · intro h; cases h <;> rfl

/-- Every argument has one value. -/
theorem argValue_exists (e : Expr) : ∃ v, ArgValue e v := by
  by_cases h : ∃ x y, e = .assign true x y ∧ Key x
  · obtain ⟨x, y, rfl, hk⟩ := h
    exact ⟨y, .keyword hk⟩
  · exact ⟨e, .plain fun x y he hk => h ⟨x, y, he, hk⟩⟩

theorem visitFollow_type (c : Ctx) (l : Loc) (s : STy) (f : Follow) (r : STy) :
    FollowIs c s f r ↔ r = (visitFollow c l s f).1 := by
  cases f with
  | unary =>
    constructor
    · intro h; cases h; rw [visitFollow]
    · intro h; rw [visitFollow] at h; subst h; exact .unary
  | index e =>
    rw [visitFollow.eq_def]
    simp only []
    cases s with
    | list k =>
      constructor
      · intro h
        cases h with
        | elem => rfl
        | index h => exact absurd rfl (h _)
      · intro h; cases h; exact .elem
    | none =>
      constructor
      · intro h; cases h; rfl
      · intro h; cases h; exact .index nofun
    | type i =>
      constructor
      · intro h; cases h; rfl
      · intro h; cases h; exact .index nofun
  | field n =>
    rw [visitFollow, ← (visitField_spec c l s n).1]
    constructor
    · intro h; cases h with | field h => exact h
    · exact .field
  | call n es =>
    have : (visitFollow c l s (.call n es)).1 = .none := by
      rw [visitFollow]; split
      · split <;> rfl
      · rfl
    rw [this]
    constructor
    · intro h; cases h; rfl
    · rintro rfl; exact .call
  | procRef n =>
    have : (visitFollow c l s (.procRef n)).1 = .none := by
      rw [visitFollow]; split <;> rfl
    rw [this]
    constructor
    · intro h; cases h; rfl
    · rintro rfl; exact .procRef

theorem visitFollows_type (c : Ctx) : ∀ (fs : Follows) (s r : STy), FollowsIs c s fs r ↔ r = (visitFollows c s fs).1
  | .nil, s, r => by
    rw [visitFollows]
    constructor
    · intro h; cases h; rfl
    · rintro rfl; exact .nil
  | .cons l f fs, s, r => by
    rw [visitFollows]
    simp only []
    rw [← visitFollows_type c fs]
    constructor
    · intro h
      cases h with
      | cons h hs => rw [(visitFollow_type c l _ _ _).1 h] at hs; exact hs
    · intro h
      exact .cons ((visitFollow_type c l _ _ _).2 rfl) h

theorem visitTerm_untyped (c : Ctx) (l : Loc) (h : Option Nat) {t : Term} (hu : Untyped t) :
    (visitTerm c l h t).1 = .none := by
  cases hu <;> rw [visitTerm] <;> first | rfl | (split <;> rfl)

mutual

theorem visitExpr_type (c : Ctx) : ∀ (e : Expr) (l : Loc) (h : Option Nat) (s : STy),
    ExprIs c h e s ↔ s = (visitExpr c l h e).1
  | .base tl t .nil, l, h, s => by
    rw [visitExpr]
    simp only [visitFollows]
    rw [← visitTerm_type c t]
    constructor
    · intro hh; cases hh with | term hh => exact hh
    · exact .term
  | .base tl t (.cons fl f fs), l, h, s => by
    rw [visitExpr]
    simp only []
    rw [← visitFollows_type]
    constructor
    · intro hh
      cases hh with
      | follows ht hf => rw [(visitTerm_type c t tl _ _).1 ht] at hf; exact hf
    · intro hf
      exact .follows ((visitTerm_type c t tl _ _).2 rfl) hf
  | .binary true x y, l, h, s => by
    rw [visitExpr]
    constructor
    · intro hh; cases hh; rfl
    · rintro rfl; exact .binary
  | .binary false x y, l, h, s => by
    rw [visitExpr]
    constructor
    · intro hh; cases hh; rfl
    · rintro rfl; exact .binary
  | .assign op x y, l, h, s => by
    rw [visitExpr]
    simp only []
    rw [← visitExpr_type c y]
    constructor
    · intro hh
      cases hh with
      | assign hx hh hy =>
        rw [(visitExpr_type c x l _ _).1 hx, hintOf_iff] at hh
        subst hh
        exact hy
    · intro hy
      exact .assign ((visitExpr_type c x l _ _).2 rfl) ((hintOf_iff ..).2 rfl) hy
  | .ternary k x y, l, h, s => by
    rw [visitExpr]
    simp only []
    rw [← visitExpr_type c x]
    constructor
    · intro hh; cases hh with | ternary hh => exact hh
    · exact .ternary

theorem visitTerm_type (c : Ctx) : ∀ (t : Term) (l : Loc) (h : Option Nat) (s : STy),
    TermIs c h t s ↔ s = (visitTerm c l h t).1
  | .expr e, l, h, s => by
    rw [visitTerm, ← visitExpr_type c e]
    constructor
    · intro hh
      cases hh with
      | paren hh => exact hh
      | untyped hu => cases hu
    · exact .paren
  | .ident n, l, h, s => by
    rw [visitTerm, ← visitIdent_type c l]
    constructor
    · intro hh
      cases hh with
      | name hh => exact hh
      | untyped hu => cases hu
    · exact .name
  | .newImplicit es, l, h, s => by
    rw [visitTerm.eq_def]
    cases h with
    | none =>
      simp only []
      constructor
      · intro hh; cases hh <;> rfl
      · rintro rfl; exact .newUnknown
    | some i =>
      have : (visitTerm c l (some i) (.newImplicit es)).1 = .type i := by
        rw [visitTerm]; cases c.tree.getProc i "New" <;> rfl
      rw [visitTerm.eq_def] at this
      rw [this]
      constructor
      · intro hh
        cases hh with
        | newImplicit => rfl
        | untyped hu => cases hu
      · rintro rfl; exact .newImplicit
  | .newPrefab p vs es, l, h, s => by
    rw [visitTerm]
    cases hn : c.nav p with
    | none =>
      have hN := (resolves_none ..).1 hn
      simp only []
      constructor
      · intro hh
        cases hh with
        | newPrefab hr => exact absurd hr (hN _)
        | newNothing _ => rfl
        | untyped hu => rfl
      · rintro rfl; exact .newNothing hN
    | some v =>
      have hN := (resolves_iff ..).1 hn
      have : (visitTerm c l h (.newPrefab p vs es)).1 = .type v.ty := by
        rw [visitTerm, hn]; simp only []; cases c.tree.getProc v.ty "New" <;> rfl
      rw [visitTerm, hn] at this
      rw [this]
      constructor
      · intro hh
        cases hh with
        | newPrefab hr => rw [(resolves_iff ..).2 hr] at hn; cases hn; rfl
        | newNothing hr => exact absurd hN (hr _)
        | untyped hu => cases hu
      · rintro rfl; exact .newPrefab hN
  | .list es, l, h, s => by
    rw [visitTerm]
    constructor
    · intro hh
      cases hh with
      | list => rfl
      | untyped hu => cases hu
    · rintro rfl; exact .list
  | .globalIdent n, l, h, s => by
    rw [visitTerm]
    cases hv : varDecl c.tree 0 n with
    | some x =>
      obtain ⟨j, d⟩ := x
      have hV := (varDecl_iff ..).1 hv
      simp only []
      constructor
      · intro hh
        cases hh with
        | global h hp => rw [(varDecl_iff ..).2 h] at hv; cases hv; exact (staticType_iff ..).1 hp
        | noGlobal h => exact absurd hV (h _ _)
        | untyped hu => cases hu
      · intro h; exact .global hV ((staticType_iff ..).2 h)
    | none =>
      have hV := (varDecl_none ..).1 hv
      simp only []
      constructor
      · intro hh
        cases hh with
        | global h hp => exact absurd h (hV _ _)
        | noGlobal h => rfl
        | untyped hu => cases hu
      · rintro rfl; exact .noGlobal hV
  | .impliedType, l, h, s => by
    rw [visitTerm.eq_def]
    cases h with
    | none =>
      simp only []
      constructor
      · intro hh; cases hh <;> rfl
      · rintro rfl; exact .notImplied
    | some i =>
      simp only []
      constructor
      · intro hh
        cases hh with
        | implied => rfl
        | untyped hu => cases hu
      · rintro rfl; exact .implied
  | .plain, l, h, s => by
    rw [visitTerm_untyped c l h .plain]
    exact ⟨fun hh => by cases hh; rfl, by rintro rfl; exact .untyped .plain⟩
  | .string n, l, h, s => by
    rw [visitTerm_untyped c l h (.string _)]
    exact ⟨fun hh => by cases hh; rfl, by rintro rfl; exact .untyped (.string _)⟩
  | .prefab p vs, l, h, s => by
    rw [visitTerm_untyped c l h (.prefab _ _)]
    exact ⟨fun hh => by cases hh; rfl, by rintro rfl; exact .untyped (.prefab _ _)⟩
  | .interp es, l, h, s => by
    rw [visitTerm_untyped c l h (.interp _)]
    exact ⟨fun hh => by cases hh; rfl, by rintro rfl; exact .untyped (.interp _)⟩
  | .call n es, l, h, s => by
    rw [visitTerm_untyped c l h (.call _ _)]
    exact ⟨fun hh => by cases hh; rfl, by rintro rfl; exact .untyped (.call _ _)⟩
  | .selfCall es, l, h, s => by
    rw [visitTerm_untyped c l h (.selfCall _)]
    exact ⟨fun hh => by cases hh; rfl, by rintro rfl; exact .untyped (.selfCall _)⟩
  | .parentCall es, l, h, s => by
    rw [visitTerm_untyped c l h (.parentCall _)]
    exact ⟨fun hh => by cases hh; rfl, by rintro rfl; exact .untyped (.parentCall _)⟩
  | .newMini n fs es, l, h, s => by
    rw [visitTerm_untyped c l h (.newMini _ _ _)]
    exact ⟨fun hh => by cases hh; rfl, by rintro rfl; exact .untyped (.newMini _ _ _)⟩
  | .locate es fs, l, h, s => by
    rw [visitTerm_untyped c l h (.locate _ _)]
    exact ⟨fun hh => by cases hh; rfl, by rintro rfl; exact .untyped (.locate _ _)⟩
  | .input es fs, l, h, s => by
    rw [visitTerm_untyped c l h (.input _ _)]
    exact ⟨fun hh => by cases hh; rfl, by rintro rfl; exact .untyped (.input _ _)⟩
  | .pick es, l, h, s => by
    rw [visitTerm_untyped c l h (.pick _)]
    exact ⟨fun hh => by cases hh; rfl, by rintro rfl; exact .untyped (.pick _)⟩
  | .dynCall es fs, l, h, s => by
    rw [visitTerm_untyped c l h (.dynCall _ _)]
    exact ⟨fun hh => by cases hh; rfl, by rintro rfl; exact .untyped (.dynCall _ _)⟩
  | .extCall es f fs, l, h, s => by
    rw [visitTerm_untyped c l h (.extCall _ _ _)]
    exact ⟨fun hh => by cases hh; rfl, by rintro rfl; exact .untyped (.extCall _ _ _)⟩
  | .globalCall n es, l, h, s => by
    rw [visitTerm_untyped c l h (.globalCall _ _)]
    exact ⟨fun hh => by cases hh; rfl, by rintro rfl; exact .untyped (.globalCall _ _)⟩
  | .typeMacro, l, h, s => by
    rw [visitTerm_untyped c l h .typeMacro]
    exact ⟨fun hh => by cases hh; rfl, by rintro rfl; exact .untyped .typeMacro⟩
  | .procMacro, l, h, s => by
    rw [visitTerm_untyped c l h .procMacro]
    exact ⟨fun hh => by cases hh; rfl, by rintro rfl; exact .untyped .procMacro⟩

end

end Verif.Refs
