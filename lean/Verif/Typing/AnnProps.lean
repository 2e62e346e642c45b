import Verif.Typing.Calls
import Verif.Typing.AnnWords

/-!
# Return type annotations are read as documented
-/

namespace Verif.Typing

theorem paramIndex_iff (ps : List Ident) (n : Ident) (i : Nat) : paramIndex ps n = some i ↔ FirstParam ps n i := by
  induction ps generalizing i with
  | nil => simp [paramIndex, FirstParam]
  | cons p ps ih =>
    unfold paramIndex
    by_cases h : n = p
    · subst h
      rw [if_pos (by simp)]
      constructor
      · intro h; cases h; exact ⟨rfl, fun j hj => absurd hj (Nat.not_lt_zero _)⟩
      · rintro ⟨_, h2⟩
        cases i with
        | zero => rfl
        | succ i => exact absurd rfl (h2 0 (Nat.succ_pos _))
    · rw [if_neg (by simpa using h)]
      simp only [Option.map_eq_some_iff]
      constructor
      · rintro ⟨j, hj, rfl⟩
        obtain ⟨h1, h2⟩ := (ih j).1 hj
        refine ⟨by simpa using h1, fun k hk => ?_⟩
        cases k with
        | zero => simp only [List.getElem?_cons_zero, ne_eq, Option.some.injEq]; exact fun e => h e.symm
        | succ k => simpa using h2 k (by omega)
      · rintro ⟨h1, h2⟩
        cases i with
        | zero => simp only [List.getElem?_cons_zero, Option.some.injEq] at h1; exact absurd h1.symm h
        | succ i =>
          refine ⟨i, (ih i).2 ⟨by simpa using h1, fun k hk => ?_⟩, rfl⟩
          have := h2 (k + 1) (by omega)
          simpa using this

/-! ## The follows -/

theorem compileIndex_iff (x y : TExpr) (e : Expr) :
    compileIndex x e = .ok y ↔ IsUnderscore e ∧ ∃ n i k, x = .paramPath n i k ∧ y = .paramPath n i (k + 1) := by
  constructor
  · intro h
    unfold compileIndex at h
    split at h
    · rename_i n he
      split at h
      · rename_i hn
        have hu : IsUnderscore e := by
          cases e with
          | base l t fs =>
            cases fs with
            | nil =>
              simp only [Expr.asTerm, Option.some.injEq] at he
              exact ⟨l, by rw [he, beq_iff_eq.1 hn]⟩
            | cons _ _ _ => simp [Expr.asTerm] at he
          | _ => simp [Expr.asTerm] at he
        split at h
        · cases h; exact ⟨hu, _, _, _, rfl, rfl⟩
        · cases h
      · cases h
    · cases h
  · rintro ⟨⟨l, rfl⟩, n, i, k, rfl, rfl⟩
    rfl

theorem compileField_iff (x y : TExpr) (f : Ident) :
    compileField x f = .ok y ↔ f = "type" ∧ ∃ n i k, x = .paramPath n i k ∧ y = .paramStatic n i k := by
  constructor
  · intro h
    unfold compileField at h
    split at h
    · rename_i hn
      split at h
      · cases h; exact ⟨beq_iff_eq.1 hn, _, _, _, rfl, rfl⟩
      · cases h
    · cases h
  · rintro ⟨rfl, n, i, k, rfl, rfl⟩
    rfl

/-- After something else than a parameter, nothing may follow. -/
theorem compileFollows_other (x y : TExpr) (hx : ∀ n i k, x ≠ .paramPath n i k) (fs : Follows) :
    compileFollows x fs = .ok y ↔ fs = .nil ∧ y = x := by
  cases fs with
  | nil =>
    simp only [compileFollows, Except.ok.injEq, true_and]
    exact eq_comm
  | cons l f fs =>
    constructor
    · intro h
      exfalso
      unfold compileFollows at h
      cases hf : compileFollow x f with
      | error e => rw [hf] at h; cases h
      | ok z =>
        cases f with
        | index e => obtain ⟨_, n, i, k, rfl, _⟩ := (compileIndex_iff x z e).1 hf; exact hx _ _ _ rfl
        | field a n => obtain ⟨_, n, i, k, rfl, _⟩ := (compileField_iff x z n).1 hf; exact hx _ _ _ rfl
        | _ => cases hf
    · rintro ⟨h, _⟩; cases h

theorem compileFollows_param (n : Ident) (i : Nat) : ∀ (fs : Follows) (j : Nat) (y : TExpr),
    compileFollows (.paramPath n i j) fs = .ok y ↔
      (∃ k, Indices fs k ∧ y = .paramPath n i (j + k)) ∨ (∃ k, IndicesType fs k ∧ y = .paramStatic n i (j + k))
  | .nil, j, y => by
    constructor
    · intro h; cases h; exact .inl ⟨0, .none, rfl⟩
    · rintro (⟨k, h, rfl⟩ | ⟨k, h, rfl⟩)
      · cases h; rfl
      · cases h
  | .cons l f fs, j, y => by
    constructor
    · intro h
      unfold compileFollows at h
      cases hf : compileFollow (.paramPath n i j) f with
      | error e => rw [hf] at h; cases h
      | ok z =>
        rw [hf] at h
        cases f with
        | index e =>
          obtain ⟨hu, n', i', k', h1, rfl⟩ := (compileIndex_iff (.paramPath n i j) z e).1 hf
          cases h1
          rcases (compileFollows_param n i fs _ y).1 h with ⟨k, hk, rfl⟩ | ⟨k, hk, rfl⟩
          · exact .inl ⟨k + 1, .more hu hk, by rw [Nat.add_assoc, Nat.add_comm 1]⟩
          · exact .inr ⟨k + 1, .more hu hk, by rw [Nat.add_assoc, Nat.add_comm 1]⟩
        | field a f =>
          obtain ⟨rfl, n', i', k', h1, rfl⟩ := (compileField_iff (.paramPath n i j) z f).1 hf
          cases h1
          obtain ⟨rfl, rfl⟩ := (compileFollows_other _ y (fun _ _ _ h => by cases h) fs).1 h
          exact .inr ⟨0, .type, rfl⟩
        | _ => cases hf
    · rintro (⟨k, h, rfl⟩ | ⟨k, h, rfl⟩)
      · cases h with
        | @more _ e _ k hu hk =>
          have h1 := (compileIndex_iff (.paramPath n i j) _ e).2 ⟨hu, _, _, _, rfl, rfl⟩
          simp only [compileFollows, compileFollow, h1]
          exact (compileFollows_param n i fs _ _).2 (.inl ⟨k, hk, by rw [Nat.add_assoc, Nat.add_comm 1]⟩)
      · cases h with
        | type => rfl
        | @more _ e _ k hu hk =>
          have h1 := (compileIndex_iff (.paramPath n i j) _ e).2 ⟨hu, _, _, _, rfl, rfl⟩
          simp only [compileFollows, compileFollow, h1]
          exact (compileFollows_param n i fs _ _).2 (.inr ⟨k, hk, by rw [Nat.add_assoc, Nat.add_comm 1]⟩)

/-! ## The compiler -/

variable {t : Tree} {params : List Ident}

theorem compile_base (l : Loc) (x : Term) (fs : Follows) (y : TExpr) :
    compileExpr t params (.base l x fs) = .ok y ↔ ∃ z, compileTerm t params x = .ok z ∧ compileFollows z fs = .ok y := by
  simp only [compileExpr]
  cases compileTerm t params x with
  | error e => simp
  | ok z => simp

theorem compile_or (a b : Expr) (y : TExpr) :
    compileExpr t params (.binary .or a b) = .ok y ↔
      ∃ x z, compileExpr t params a = .ok x ∧ compileExpr t params b = .ok z ∧ y = .cond x x z := by
  simp only [compileExpr]
  cases compileExpr t params a with
  | error e => simp
  | ok x =>
    cases compileExpr t params b with
    | error e => simp
    | ok z => simp [eq_comm]

theorem compile_and (a b : Expr) (y : TExpr) :
    compileExpr t params (.binary .and a b) = .ok y ↔
      ∃ x z, compileExpr t params a = .ok x ∧ compileExpr t params b = .ok z ∧ y = .cond x z x := by
  simp only [compileExpr]
  cases compileExpr t params a with
  | error e => simp
  | ok x =>
    cases compileExpr t params b with
    | error e => simp
    | ok z => simp [eq_comm]

theorem compile_ternary (c a b : Expr) (y : TExpr) :
    compileExpr t params (.ternary c a b) = .ok y ↔
      ∃ w x z, compileExpr t params c = .ok w ∧ compileExpr t params a = .ok x ∧ compileExpr t params b = .ok z ∧
        y = .cond w x z := by
  simp only [compileExpr]
  cases compileExpr t params c with
  | error e => simp
  | ok w =>
    cases compileExpr t params a with
    | error e => simp
    | ok x =>
      cases compileExpr t params b with
      | error e => simp
      | ok z => simp [eq_comm]

theorem compile_param (n : Ident) (y : TExpr) :
    compileTerm t params (.ident n) = .ok y ↔ ∃ i, FirstParam params n i ∧ y = .paramPath n i 0 := by
  simp only [compileTerm, compileParam]
  cases h : paramIndex params n with
  | none =>
    simp only [reduceCtorEq, false_iff]
    rintro ⟨i, hi, _⟩
    rw [(paramIndex_iff _ _ _).2 hi] at h
    cases h
  | some i =>
    simp only [Except.ok.injEq]
    constructor
    · rintro rfl; exact ⟨i, (paramIndex_iff _ _ _).1 h, rfl⟩
    · rintro ⟨j, hj, rfl⟩
      rw [(paramIndex_iff _ _ _).2 hj] at h
      cases h; rfl

theorem compile_prefab (ps : List (PathOp × Ident)) (y : TExpr) :
    compileTerm t params (.prefab ps) = .ok y ↔ ∃ s, PathType t (ps.map Prod.snd) (some s) ∧ y = .static s := by
  simp only [compileTerm, compilePath, pathNames]
  cases h : t.staticType (ps.map Prod.snd) with
  | error e =>
    simp only [reduceCtorEq, false_iff]
    rintro ⟨s, hs, _⟩
    rw [((staticType_iff _).1 s).2 hs] at h
    cases h
  | ok s =>
    simp only [Except.ok.injEq]
    constructor
    · rintro rfl; exact ⟨s, ((staticType_iff _).1 s).1 h, rfl⟩
    · rintro ⟨s', hs, rfl⟩
      rw [((staticType_iff _).1 s').2 hs] at h
      cases h; rfl

/-- The compiled form of an annotation, rule by rule. -/
inductive Comp (t : Tree) (params : List Ident) : Expr → TExpr → Prop
  | ref {e : Expr} {n : Ident} {i k : Nat} : Ref params e n i k → Comp t params e (.paramPath n i k)
  | refType {e : Expr} {n : Ident} {i k : Nat} : RefType params e n i k → Comp t params e (.paramStatic n i k)
  | null {l : Loc} : Comp t params (.base l .null .nil) (.static .none)
  | path {l : Loc} {ps : List (PathOp × Ident)} {s : STy} :
      PathType t (ps.map Prod.snd) (some s) → Comp t params (.base l (.prefab ps) .nil) (.static s)
  | paren {l : Loc} {e : Expr} {x : TExpr} : Comp t params e x → Comp t params (.base l (.expr e) .nil) x
  | or {a b : Expr} {x y : TExpr} : Comp t params a x → Comp t params b y → Comp t params (.binary .or a b) (.cond x x y)
  | and {a b : Expr} {x y : TExpr} : Comp t params a x → Comp t params b y → Comp t params (.binary .and a b) (.cond x y x)
  | ternary {c a b : Expr} {w x y : TExpr} :
      Comp t params c w → Comp t params a x → Comp t params b y → Comp t params (.ternary c a b) (.cond w x y)

theorem compile_ref {e : Expr} {n : Ident} {i k : Nat} (h : Ref params e n i k) :
    compileExpr t params e = .ok (.paramPath n i k) := by
  induction h with
  | param hp hi =>
    exact (compile_base _ _ _ _).2 ⟨_, (compile_param _ _).2 ⟨_, hp, rfl⟩,
      (compileFollows_param _ _ _ _ _).2 (.inl ⟨_, hi, by rw [Nat.zero_add]⟩)⟩
  | paren _ hi ih =>
    exact (compile_base _ _ _ _).2 ⟨_, ih, (compileFollows_param _ _ _ _ _).2 (.inl ⟨_, hi, rfl⟩)⟩

theorem compile_refType {e : Expr} {n : Ident} {i k : Nat} (h : RefType params e n i k) :
    compileExpr t params e = .ok (.paramStatic n i k) := by
  induction h with
  | param hp hi =>
    exact (compile_base _ _ _ _).2 ⟨_, (compile_param _ _).2 ⟨_, hp, rfl⟩,
      (compileFollows_param _ _ _ _ _).2 (.inr ⟨_, hi, by rw [Nat.zero_add]⟩)⟩
  | paren h hi =>
    exact (compile_base _ _ _ _).2 ⟨_, compile_ref h, (compileFollows_param _ _ _ _ _).2 (.inr ⟨_, hi, rfl⟩)⟩
  | whole _ ih => exact (compile_base _ _ _ _).2 ⟨_, ih, rfl⟩

theorem compile_of_comp {e : Expr} {x : TExpr} (h : Comp t params e x) : compileExpr t params e = .ok x := by
  induction h with
  | ref h => exact compile_ref h
  | refType h => exact compile_refType h
  | null => rfl
  | path h => exact (compile_base _ _ _ _).2 ⟨_, (compile_prefab _ _).2 ⟨_, h, rfl⟩, rfl⟩
  | paren _ ih => exact (compile_base _ _ _ _).2 ⟨_, ih, rfl⟩
  | or _ _ ih1 ih2 => exact (compile_or _ _ _).2 ⟨_, _, ih1, ih2, rfl⟩
  | and _ _ ih1 ih2 => exact (compile_and _ _ _).2 ⟨_, _, ih1, ih2, rfl⟩
  | ternary _ _ _ ih1 ih2 ih3 => exact (compile_ternary _ _ _ _).2 ⟨_, _, _, ih1, ih2, ih3, rfl⟩

/-- A reference to a parameter is compiled by these rules only. -/
theorem comp_paramPath {e : Expr} {n : Ident} {i k : Nat} (h : Comp t params e (.paramPath n i k)) : Ref params e n i k := by
  generalize hx : TExpr.paramPath n i k = x at h
  induction h with
  | ref h => cases hx; exact h
  | refType _ => cases hx
  | null => cases hx
  | path _ => cases hx
  | paren _ ih => exact Ref.paren (k := 0) (ih hx) .none
  | or _ _ _ _ => cases hx
  | and _ _ _ _ => cases hx
  | ternary _ _ _ _ _ _ => cases hx

theorem comp_of_compile : ∀ (e : Expr) (x : TExpr), compileExpr t params e = .ok x → Comp t params e x
  | .base l (.ident n) fs, x, h => by
    obtain ⟨z, h1, h2⟩ := (compile_base _ _ _ _).1 h
    obtain ⟨i, hi, rfl⟩ := (compile_param _ _).1 h1
    rcases (compileFollows_param _ _ _ _ _).1 h2 with ⟨k, hk, rfl⟩ | ⟨k, hk, rfl⟩
    · exact .ref (by rw [Nat.zero_add]; exact .param hi hk)
    · exact .refType (by rw [Nat.zero_add]; exact .param hi hk)
  | .base l (.expr e) fs, x, h => by
    obtain ⟨z, h1, h2⟩ := (compile_base _ _ _ _).1 h
    have ih := comp_of_compile e z h1
    by_cases hz : ∃ n i k, z = .paramPath n i k
    · obtain ⟨n, i, j, rfl⟩ := hz
      have hr := comp_paramPath ih
      rcases (compileFollows_param _ _ _ _ _).1 h2 with ⟨k, hk, rfl⟩ | ⟨k, hk, rfl⟩
      · exact .ref (.paren hr hk)
      · exact .refType (.paren hr hk)
    · obtain ⟨rfl, rfl⟩ := (compileFollows_other _ _ (fun n i k hh => hz ⟨n, i, k, hh⟩) fs).1 h2
      exact .paren ih
  | .base l .null fs, x, h => by
    obtain ⟨z, h1, h2⟩ := (compile_base _ _ _ _).1 h
    cases h1
    obtain ⟨rfl, rfl⟩ := (compileFollows_other _ _ (fun _ _ _ h => by cases h) fs).1 h2
    exact .null
  | .base l (.prefab ps) fs, x, h => by
    obtain ⟨z, h1, h2⟩ := (compile_base _ _ _ _).1 h
    obtain ⟨s, hs, rfl⟩ := (compile_prefab _ _).1 h1
    obtain ⟨rfl, rfl⟩ := (compileFollows_other _ _ (fun _ _ _ h => by cases h) fs).1 h2
    exact .path hs
  | .binary .or a b, x, h => by
    obtain ⟨y, z, h1, h2, rfl⟩ := (compile_or _ _ _).1 h
    exact .or (comp_of_compile a y h1) (comp_of_compile b z h2)
  | .binary .and a b, x, h => by
    obtain ⟨y, z, h1, h2, rfl⟩ := (compile_and _ _ _).1 h
    exact .and (comp_of_compile a y h1) (comp_of_compile b z h2)
  | .ternary c a b, x, h => by
    obtain ⟨w, y, z, h1, h2, h3, rfl⟩ := (compile_ternary _ _ _ _).1 h
    exact .ternary (comp_of_compile c w h1) (comp_of_compile a y h2) (comp_of_compile b z h3)

theorem accepted_of_comp {e : Expr} {x : TExpr} (h : Comp t params e x) : Accepted t params e := by
  induction h with
  | ref h => exact .ref h
  | refType h => exact .refType h
  | null => exact .null
  | path h => exact .path h
  | paren _ ih => exact .paren ih
  | or _ _ ih1 ih2 => exact .or ih1 ih2
  | and _ _ ih1 ih2 => exact .and ih1 ih2
  | ternary _ _ _ ih1 ih2 ih3 => exact .ternary ih1 ih2 ih3

theorem comp_of_accepted {e : Expr} (h : Accepted t params e) : ∃ x, Comp t params e x := by
  induction h with
  | ref h => exact ⟨_, .ref h⟩
  | refType h => exact ⟨_, .refType h⟩
  | null => exact ⟨_, .null⟩
  | path h => exact ⟨_, .path h⟩
  | paren _ ih => obtain ⟨x, hx⟩ := ih; exact ⟨x, .paren hx⟩
  | or _ _ ih1 ih2 => obtain ⟨x, hx⟩ := ih1; obtain ⟨y, hy⟩ := ih2; exact ⟨_, .or hx hy⟩
  | and _ _ ih1 ih2 => obtain ⟨x, hx⟩ := ih1; obtain ⟨y, hy⟩ := ih2; exact ⟨_, .and hx hy⟩
  | ternary _ _ _ ih1 ih2 ih3 =>
    obtain ⟨w, hw⟩ := ih1; obtain ⟨x, hx⟩ := ih2; obtain ⟨y, hy⟩ := ih3; exact ⟨_, .ternary hw hx hy⟩

/-- **C98.** Exactly the documented forms are accepted. -/
theorem compile_accepts (e : Expr) : (∃ x, compileExpr t params e = .ok x) ↔ Accepted t params e := by
  constructor
  · rintro ⟨x, h⟩; exact accepted_of_comp (comp_of_compile e x h)
  · intro h; obtain ⟨x, hx⟩ := comp_of_accepted h; exact ⟨x, compile_of_comp hx⟩

variable {given : Ident → Nat → Option An → Prop}

theorem means_det {get : Ident → Nat → Option An} (hg : ∀ n i r, get n i = r ↔ given n i r) {x : TExpr} {r r' : Option STy}
    (h : Means t given x r) (h' : Means t given x r') : r = r' := by
  obtain ⟨h1, h2, _⟩ := eval_iff t get given hg x
  cases r with
  | none =>
    cases r' with
    | none => rfl
    | some s => obtain ⟨p, hp⟩ := h2.1 h; rw [(h1 s).2 h'] at hp; cases hp
  | some s =>
    have hs := (h1 s).2 h
    cases r' with
    | none => obtain ⟨p, hp⟩ := h2.1 h'; rw [hs] at hp; cases hp
    | some s' => have := (h1 s').2 h'; rw [hs] at this; cases this; rfl

theorem reads_of_means {get : Ident → Nat → Option An} (hg : ∀ n i r, get n i = r ↔ given n i r) {e : Expr} {x : TExpr}
    (h : Comp t params e x) : ∀ r, Means t given x r → AnnReads t params given e r := by
  induction h with
  | ref h =>
    intro r hm
    cases hm with
    | path h1 h2 h3 => exact .value h h1 h2 h3
    | noPath h1 h2 => exact .noValue h h1 h2
    | noArg h1 => exact .missing h h1
  | refType h =>
    intro r hm
    cases hm with
    | typeOf h1 h2 => exact .typeOf h h1 h2
    | typeOfNone h1 => exact .typeOfMissing h h1
  | null => intro r hm; cases hm; exact .null
  | path h => intro r hm; cases hm; exact .path h
  | paren _ ih => intro r hm; exact .paren (ih r hm)
  | or _ _ ih1 ih2 =>
    intro r hm
    cases hm with
    | yes h1 h2 h3 =>
      have := means_det hg h1 h3
      subst this
      exact .orLeft (ih1 _ h3) h2
    | no h1 h2 => exact .orRight (ih1 _ h1) (ih2 _ h2)
    | bad h1 => exact .orBad (ih1 _ h1)
  | and _ _ ih1 ih2 =>
    intro r hm
    cases hm with
    | yes h1 h2 h3 => exact .andRight (ih1 _ h1) h2 (ih2 _ h3)
    | no h1 h2 =>
      have := means_det hg h1 h2
      subst this
      exact .andLeft (ih1 _ h1)
    | bad h1 => exact .andBad (ih1 _ h1)
  | ternary _ _ _ ih1 ih2 ih3 =>
    intro r hm
    cases hm with
    | yes h1 h2 h3 => exact .then (ih1 _ h1) h2 (ih2 _ h3)
    | no h1 h2 => exact .else (ih1 _ h1) (ih3 _ h2)
    | bad h1 => exact .ternaryBad (ih1 _ h1)

theorem means_of_reads {e : Expr} {r : Option STy} (h : AnnReads t params given e r) :
    ∀ x, compileExpr t params e = .ok x → Means t given x r := by
  induction h with
  | null => intro x hx; cases hx; exact .static _
  | path h =>
    intro x hx
    rw [compile_of_comp (.path h)] at hx
    cases hx; exact .static _
  | paren _ ih =>
    intro x hx
    obtain ⟨z, h1, h2⟩ := (compile_base _ _ _ _).1 hx
    cases h2
    exact ih _ h1
  | value h h1 h2 h3 => intro x hx; rw [compile_ref h] at hx; cases hx; exact .path h1 h2 h3
  | noValue h h1 h2 => intro x hx; rw [compile_ref h] at hx; cases hx; exact .noPath h1 h2
  | missing h h1 => intro x hx; rw [compile_ref h] at hx; cases hx; exact .noArg h1
  | typeOf h h1 h2 => intro x hx; rw [compile_refType h] at hx; cases hx; exact .typeOf h1 h2
  | typeOfMissing h h1 => intro x hx; rw [compile_refType h] at hx; cases hx; exact .typeOfNone h1
  | orLeft _ hs ih =>
    intro x hx
    obtain ⟨y, z, h1, h2, rfl⟩ := (compile_or _ _ _).1 hx
    exact .yes (ih _ h1) hs (ih _ h1)
  | orRight _ _ ih1 ih2 =>
    intro x hx
    obtain ⟨y, z, h1, h2, rfl⟩ := (compile_or _ _ _).1 hx
    exact .no (ih1 _ h1) (ih2 _ h2)
  | orBad _ ih =>
    intro x hx
    obtain ⟨y, z, h1, h2, rfl⟩ := (compile_or _ _ _).1 hx
    exact .bad (ih _ h1)
  | andRight _ hs _ ih1 ih2 =>
    intro x hx
    obtain ⟨y, z, h1, h2, rfl⟩ := (compile_and _ _ _).1 hx
    exact .yes (ih1 _ h1) hs (ih2 _ h2)
  | andLeft _ ih =>
    intro x hx
    obtain ⟨y, z, h1, h2, rfl⟩ := (compile_and _ _ _).1 hx
    exact .no (ih _ h1) (ih _ h1)
  | andBad _ ih =>
    intro x hx
    obtain ⟨y, z, h1, h2, rfl⟩ := (compile_and _ _ _).1 hx
    exact .bad (ih _ h1)
  | «then» _ hs _ ih1 ih2 =>
    intro x hx
    obtain ⟨w, y, z, h1, h2, h3, rfl⟩ := (compile_ternary _ _ _ _).1 hx
    exact .yes (ih1 _ h1) hs (ih2 _ h2)
  | «else» _ _ ih1 ih2 =>
    intro x hx
    obtain ⟨w, y, z, h1, h2, h3, rfl⟩ := (compile_ternary _ _ _ _).1 hx
    exact .no (ih1 _ h1) (ih2 _ h3)
  | ternaryBad _ ih =>
    intro x hx
    obtain ⟨w, y, z, h1, h2, h3, rfl⟩ := (compile_ternary _ _ _ _).1 hx
    exact .bad (ih _ h1)

/-- **C98.** What an accepted annotation evaluates to in a call is what it stands for. -/
theorem annotation_means {get : Ident → Nat → Option An} (hg : ∀ n i r, get n i = r ↔ given n i r) {e : Expr} {x : TExpr}
    (h : compileExpr t params e = .ok x) :
    (∀ s, x.eval t get = .ok s ↔ AnnReads t params given e (some s)) ∧
    ((∃ p, x.eval t get = .error p) ↔ AnnReads t params given e none) := by
  obtain ⟨h1, h2, _⟩ := eval_iff t get given hg x
  have hc := comp_of_compile e x h
  constructor
  · intro s
    rw [h1]
    exact ⟨reads_of_means hg hc _, fun hr => means_of_reads hr x h⟩
  · rw [← h2]
    exact ⟨reads_of_means hg hc _, fun hr => means_of_reads hr x h⟩

/-! ## Which annotation counts -/

variable {g : Returns} {p : Proc}

theorem asTerm_prefab {e : Expr} {ps : List (PathOp × Ident)} : e.asTerm = some (.prefab ps) ↔ RawPath e ps := by
  constructor
  · intro h
    cases e with
    | base l x fs =>
      cases fs with
      | nil => simp only [Expr.asTerm, Option.some.injEq] at h; exact ⟨l, by rw [h]⟩
      | cons _ _ _ => simp [Expr.asTerm] at h
    | _ => simp [Expr.asTerm] at h
  · rintro ⟨l, rfl⟩; rfl

theorem annotate_raw {e : Expr} {ps : List (PathOp × Ident)} (h : RawPath e ps) :
    ∃ r, PathType t (ps.map Prod.snd) r ∧ (annotate t params e).1 = some (.static (r.getD .none)) ∧
      ((annotate t params e).2 = none ↔ r ≠ none) := by
  unfold annotate
  rw [asTerm_prefab.2 h]
  simp only [pathNames]
  obtain ⟨h1, h2, _⟩ := staticType_iff (t := t) (ps.map Prod.snd)
  cases hs : t.staticType (ps.map Prod.snd) with
  | ok s => exact ⟨some s, (h1 s).1 hs, rfl, by simp⟩
  | error q => exact ⟨none, h2.2 ⟨q, hs⟩, rfl, by simp⟩

theorem annotate_other {e : Expr} (h : ∀ ps, ¬ RawPath e ps) :
    annotate t params e = match compileExpr t params e with
      | .ok x => (some x, none)
      | .error err => (none, some err) := by
  unfold annotate
  split
  · rename_i ps hp
    exact absurd (asTerm_prefab.1 hp) (h ps)
  · rfl

/-- An entry is made exactly for the settings that count. -/
theorem annotate_counts (e : Expr) :
    (annotate t params e).1.isSome = true ↔ (∃ ps, RawPath e ps) ∨ Accepted t params e := by
  by_cases h : ∃ ps, RawPath e ps
  · obtain ⟨ps, hp⟩ := h
    obtain ⟨r, _, h2, _⟩ := annotate_raw (t := t) (params := params) hp
    rw [h2]
    exact ⟨fun _ => .inl ⟨ps, hp⟩, fun _ => rfl⟩
  · rw [annotate_other (fun ps hp => h ⟨ps, hp⟩), ← compile_accepts]
    cases hc : compileExpr t params e with
    | ok x => simp
    | error x => simp [h]

theorem gatherLoop_fst (cur : Option TExpr) (ss : List Setting) :
    (∃ pre s post, ss = pre ++ s :: post ∧ s.name = returnSetting ∧ (annotate t params s.value).1.isSome = true ∧
      (∀ y ∈ post, ¬ (y.name = returnSetting ∧ (annotate t params y.value).1.isSome = true)) ∧
      (gatherLoop t params cur ss).1 = (annotate t params s.value).1) ∨
    ((∀ y ∈ ss, ¬ (y.name = returnSetting ∧ (annotate t params y.value).1.isSome = true)) ∧
      (gatherLoop t params cur ss).1 = cur) := by
  induction ss generalizing cur with
  | nil => exact .inr ⟨by simp, rfl⟩
  | cons s ss ih =>
    unfold gatherLoop
    by_cases hn : s.name = returnSetting
    · rw [if_pos (by simpa using hn)]
      simp only []
      cases ha : (annotate t params s.value).1 with
      | none =>
        rcases ih cur with ⟨pre, s', post, rfl, h1, h2, h3, h4⟩ | ⟨h1, h2⟩
        · exact .inl ⟨s :: pre, s', post, rfl, h1, h2, h3, h4⟩
        · refine .inr ⟨?_, h2⟩
          intro y hy
          rcases List.mem_cons.1 hy with rfl | hy
          · rintro ⟨_, h⟩; rw [ha] at h; cases h
          · exact h1 y hy
      | some x =>
        rcases ih (some x) with ⟨pre, s', post, rfl, h1, h2, h3, h4⟩ | ⟨h1, h2⟩
        · exact .inl ⟨s :: pre, s', post, rfl, h1, h2, h3, h4⟩
        · exact .inl ⟨[], s, ss, rfl, hn, by rw [ha]; rfl, h1, by rw [ha]; exact h2⟩
    · rw [if_neg (by simpa using hn)]
      rcases ih cur with ⟨pre, s', post, rfl, h1, h2, h3, h4⟩ | ⟨h1, h2⟩
      · exact .inl ⟨s :: pre, s', post, rfl, h1, h2, h3, h4⟩
      · refine .inr ⟨?_, h2⟩
        intro y hy
        rcases List.mem_cons.1 hy with rfl | hy
        · rintro ⟨h, _⟩; exact hn h
        · exact h1 y hy

theorem counts_iff (s : Setting) :
    (s.name = returnSetting ∧ (annotate g.tree (g.tree.info p).params s.value).1.isSome = true) ↔ Counts g p s := by
  rw [annotate_counts]
  rfl

theorem declOf_iff (g : Returns) (i : Nat) (n : Ident) (d : DeclReturn) :
    ((g.tree.chain i).findSome? fun j => g.declares j n) = some d ↔ DeclaresReturn g i n d := by
  induction i using g.tree.induct with
  | h0 i h =>
    rw [chain_none h]
    simp only [List.findSome?_cons, List.findSome?_nil]
    constructor
    · intro hv
      cases hd : g.declares i n with
      | none => rw [hd] at hv; cases hv
      | some d' => rw [hd] at hv; cases hv; exact .own hd
    · intro hv
      cases hv with
      | own h => rw [h]
      | inherited _ hp _ => rw [h] at hp; cases hp
  | h1 i q h ih =>
    rw [chain_some h]
    simp only [List.findSome?_cons]
    constructor
    · intro hv
      cases hd : g.declares i n with
      | none => rw [hd] at hv; exact .inherited hd h (ih.1 hv)
      | some d' => rw [hd] at hv; cases hv; exact .own hd
    · intro hv
      cases hv with
      | own h => rw [h]
      | inherited h1 hp h2 => rw [h1]; rw [h] at hp; cases hp; exact ih.2 h2

/-- The declared return type. -/
theorem declared_some (g : Returns) (p : Proc) (x : TExpr) :
    g.declared p = some x ↔ ∃ d s, DeclaresReturn g p.ty p.name d ∧ DeclType g.tree d s ∧ x = .static s := by
  unfold Returns.declared Returns.declOf
  cases hd : (g.tree.chain p.ty).findSome? fun j => g.declares j p.name with
  | none =>
    simp only [reduceCtorEq, false_iff]
    rintro ⟨d, s, h1, _⟩
    rw [(declOf_iff g _ _ d).2 h1] at hd
    cases hd
  | some d =>
    have hD := (declOf_iff g _ _ d).1 hd
    have huniq : ∀ d', DeclaresReturn g p.ty p.name d' → d' = d := by
      intro d' h'
      rw [(declOf_iff g _ _ d').2 h'] at hd
      cases hd; rfl
    cases d with
    | words b =>
      simp only [Option.map_eq_some_iff, Option.bind_eq_some_iff]
      constructor
      · rintro ⟨i, ⟨q, h1, h2⟩, rfl⟩
        obtain ⟨ws, rfl⟩ := typePath_words b q h1
        exact ⟨_, _, hD, .words ((wordsPath_iff ws q).1 h1) h2, rfl⟩
      · rintro ⟨d', s, h1, h2, rfl⟩
        have := huniq d' h1
        subst this
        cases h2 with
        | words h3 h4 => exact ⟨_, ⟨_, (wordsPath_iff _ _).2 h3, h4⟩, rfl⟩
    | path q =>
      simp only []
      obtain ⟨e1, e2, _⟩ := staticType_iff (t := g.tree) q
      constructor
      · intro h
        cases hs : g.tree.staticType q with
        | ok s => rw [hs] at h; cases h; exact ⟨_, _, hD, .path ((e1 s).1 hs), rfl⟩
        | error _ => rw [hs] at h; cases h
      · rintro ⟨d', s, h1, h2, rfl⟩
        have := huniq d' h1
        subst this
        cases h2 with
        | path h3 => rw [(e1 _).2 h3]

/-- **C98.** Settings are refused exactly when they are not of the documented forms or name a type that does not exist. -/
theorem gather_silent (g : Returns) (p : Proc) (ss : List Setting) (h : g.code p = some ss) :
    (g.gather p).2 = [] ↔
      ∀ s ∈ ss, s.name = "SpacemanDMM_return_type" → Accepted g.tree (g.tree.info p).params s.value := by
  have key : ∀ (cur : Option TExpr), (gatherLoop g.tree (g.tree.info p).params cur ss).2 = [] ↔
      ∀ s ∈ ss, s.name = "SpacemanDMM_return_type" → Accepted g.tree (g.tree.info p).params s.value := by
    clear h
    induction ss with
    | nil => simp [gatherLoop]
    | cons s ss ih =>
      intro cur
      unfold gatherLoop
      by_cases hn : s.name = returnSetting
      · rw [if_pos (by simpa using hn)]
        simp only [List.append_eq_nil_iff, List.mem_cons, forall_eq_or_imp]
        rw [ih]
        have hs : (annotate g.tree (g.tree.info p).params s.value).2.toList = [] ↔
            Accepted g.tree (g.tree.info p).params s.value := by
          by_cases hr : ∃ ps, RawPath s.value ps
          · obtain ⟨ps, hp⟩ := hr
            obtain ⟨r, h1, _, h3⟩ := annotate_raw (t := g.tree) (params := (g.tree.info p).params) hp
            rw [Option.toList_eq_nil_iff, h3]
            obtain ⟨l, hl⟩ := hp
            rw [hl]
            constructor
            · intro hr
              cases r with
              | none => exact absurd rfl hr
              | some s' => exact .path h1
            · rintro ha rfl
              obtain ⟨x, hx⟩ := (compile_accepts _).2 ha
              obtain ⟨z, h4, _⟩ := (compile_base _ _ _ _).1 hx
              obtain ⟨s', h5, _⟩ := (compile_prefab _ _).1 h4
              obtain ⟨q, h6⟩ := (staticType_iff (t := g.tree) (ps.map Prod.snd)).2.1.1 h1
              rw [((staticType_iff _).1 s').2 h5] at h6
              cases h6
          · rw [annotate_other (fun ps hp => hr ⟨ps, hp⟩), ← compile_accepts]
            cases hc : compileExpr g.tree (g.tree.info p).params s.value with
            | ok x => simp
            | error x => simp
        rw [hs]
        constructor
        · rintro ⟨h1, h2⟩; exact ⟨fun _ => h1, h2⟩
        · rintro ⟨h1, h2⟩; exact ⟨h1 hn, h2⟩
      · rw [if_neg (by simpa using hn), ih]
        simp only [List.mem_cons, forall_eq_or_imp]
        exact ⟨fun h => ⟨fun h' => absurd h' hn, h⟩, fun h => h.2⟩
  unfold Returns.gather
  rw [h]
  exact key _

/-! ## The type of a call -/

theorem last_unique {α : Type} {P : α → Prop} : ∀ {pre pre' : List α} {s s' : α} {post post' : List α},
    pre ++ s :: post = pre' ++ s' :: post' → P s → P s' → (∀ x ∈ post, ¬ P x) → (∀ x ∈ post', ¬ P x) → s = s'
  | [], [], s, s', post, post', h, _, _, _, _ => by
    simp only [List.nil_append, List.cons.injEq] at h; exact h.1
  | [], b :: pre', s, s', post, post', h, _, h2, h3, _ => by
    simp only [List.nil_append, List.cons_append, List.cons.injEq] at h
    exact absurd h2 (h3 s' (by rw [h.2]; simp))
  | a :: pre, [], s, s', post, post', h, h1, _, _, h4 => by
    simp only [List.nil_append, List.cons_append, List.cons.injEq] at h
    exact absurd h1 (h4 s (by rw [← h.2]; simp))
  | a :: pre, b :: pre', s, s', post, post', h, h1, h2, h3, h4 => by
    simp only [List.cons_append, List.cons.injEq] at h
    exact last_unique h.2 h1 h2 h3 h4

theorem annotation_unique {e e' : Expr} (h : Annotation g p e) (h' : Annotation g p e') : e = e' := by
  obtain ⟨pre, s, post, h1, rfl, h3, h4⟩ := h
  obtain ⟨pre', s', post', h1', rfl, h3', h4'⟩ := h'
  rw [h1] at h1'
  rw [last_unique (P := Counts g p) (Option.some.inj h1') h3 h3' h4 h4']

theorem declaresReturn_unique {i : Nat} {n : Ident} {d d' : DeclReturn} (h : DeclaresReturn g i n d)
    (h' : DeclaresReturn g i n d') : d = d' := by
  have := (declOf_iff g i n d).2 h
  rw [(declOf_iff g i n d').2 h'] at this
  cases this; rfl

/-- The entry of a definition in the table. -/
theorem table_cases (g : Returns) (p : Proc) :
    (∃ e, Annotation g p e ∧ g.table p = (annotate g.tree (g.tree.info p).params e).1 ∧ (g.table p).isSome = true) ∨
    ((∀ e, ¬ Annotation g p e) ∧ ∃ ss x, g.code p = some ss ∧ g.declared p = some x ∧ g.table p = some x) ∨
    ((∀ e, ¬ Annotation g p e) ∧ (g.code p = none ∨ g.declared p = none) ∧ g.table p = g.initial p) := by
  unfold Returns.table Returns.gather
  cases hc : g.code p with
  | none =>
    refine .inr (.inr ⟨?_, .inl rfl, rfl⟩)
    rintro e ⟨pre, s, post, h, _⟩
    rw [hc] at h; cases h
  | some ss =>
    simp only []
    rcases gatherLoop_fst (t := g.tree) (params := (g.tree.info p).params)
      (match g.declared p with | some x => some x | none => g.initial p) ss with
        ⟨pre, s, post, rfl, h1, h2, h3, h4⟩ | ⟨h1, h2⟩
    · refine .inl ⟨s.value, ⟨pre, s, post, hc, rfl, (counts_iff s).1 ⟨h1, h2⟩, fun y hy hcy => h3 y hy ((counts_iff y).2 hcy)⟩,
        h4, (congrArg Option.isSome h4).trans h2⟩
    · have hno : ∀ e, ¬ Annotation g p e := by
        rintro e ⟨pre, s, post, h, _, h5, _⟩
        rw [hc] at h
        cases h
        exact h1 s (by simp) ((counts_iff s).2 h5)
      cases hd : g.declared p with
      | some x => rw [hd] at h2; exact .inr (.inl ⟨hno, ss, x, rfl, rfl, h2⟩)
      | none => rw [hd] at h2; exact .inr (.inr ⟨hno, .inr rfl, h2⟩)

/-- What the entry evaluates to is the documented type. -/
theorem table_reads {get : Ident → Nat → Option An} (hg : ∀ n i r, get n i = r ↔ given n i r) (g : Returns) (p : Proc) :
    (∀ x, g.table p = some x → (∀ s, x.eval g.tree get = .ok s ↔ CallReads g p given (some s)) ∧
      ((∃ q, x.eval g.tree get = .error q) ↔ CallReads g p given none)) ∧
    (g.table p = none → ∀ r, CallReads g p given r ↔ r = some .none) := by
  rcases table_cases g p with ⟨e, ha, ht, hs⟩ | ⟨hno, ss, x, hc, hd, ht⟩ | ⟨hno, hcd, ht⟩
  · refine ⟨fun x hx => ?_, fun h => by rw [h] at hs; cases hs⟩
    rw [hx] at ht
    by_cases hr : ∃ ps, RawPath e ps
    · obtain ⟨ps, hp⟩ := hr
      obtain ⟨r, h1, h2, _⟩ := annotate_raw (t := g.tree) (params := (g.tree.info p).params) hp
      rw [h2] at ht
      cases ht
      have huniq : ∀ r', PathType g.tree (ps.map Prod.snd) r' → r' = r := by
        intro r' h'
        obtain ⟨e1, e2, _⟩ := staticType_iff (t := g.tree) (ps.map Prod.snd)
        cases hst : g.tree.staticType (ps.map Prod.snd) with
        | ok s =>
          have key : ∀ r, PathType g.tree (ps.map Prod.snd) r → r = some s := by
            intro r hr
            cases r with
            | none => obtain ⟨q, hq⟩ := e2.1 hr; rw [hst] at hq; cases hq
            | some s' => have := (e1 s').2 hr; rw [hst] at this; cases this; rfl
          rw [key r' h', key r h1]
        | error q =>
          have key : ∀ r, PathType g.tree (ps.map Prod.snd) r → r = none := by
            intro r hr
            cases r with
            | none => rfl
            | some s' => have := (e1 s').2 hr; rw [hst] at this; cases this
          rw [key r' h', key r h1]
      have hall : ∀ r', CallReads g p given r' ↔ r' = some (r.getD .none) := by
        intro r'
        constructor
        · intro h
          cases h with
          | raw ha' hp' h1' =>
            have := annotation_unique ha ha'
            subst this
            obtain ⟨l, rfl⟩ := hp
            obtain ⟨l', h3⟩ := hp'
            cases h3
            rw [huniq _ h1']
          | annotated ha' hn _ =>
            have := annotation_unique ha ha'
            subst this
            exact absurd hp (hn ps)
          | declared _ hn _ _ => exact absurd ha (hn e)
          | getStep hn _ _ => exact absurd ha (hn e)
          | untyped hn _ _ => exact absurd ha (hn e)
        · rintro rfl
          exact .raw ha hp h1
      refine ⟨fun s => ?_, ?_⟩
      · rw [hall]
        simp only [TExpr.eval, Except.ok.injEq, Option.some.injEq]
        exact eq_comm
      · rw [hall]
        simp [TExpr.eval]
    · have hr' : ∀ ps, ¬ RawPath e ps := fun ps hp => hr ⟨ps, hp⟩
      rw [annotate_other hr'] at ht
      cases hc : compileExpr g.tree (g.tree.info p).params e with
      | error err => rw [hc] at ht; cases ht
      | ok y =>
        rw [hc] at ht
        cases ht
        have hall : ∀ r', CallReads g p given r' ↔ AnnReads g.tree (g.tree.info p).params given e r' := by
          intro r'
          constructor
          · intro h
            cases h with
            | raw ha' hp' h1' =>
              have := annotation_unique ha ha'
              subst this
              exact absurd hp' (hr' _)
            | annotated ha' hn h =>
              have := annotation_unique ha ha'
              subst this
              exact h
            | declared _ hn _ _ => exact absurd ha (hn e)
            | getStep hn _ _ => exact absurd ha (hn e)
            | untyped hn _ _ => exact absurd ha (hn e)
          · intro h; exact .annotated ha hr' h
        have hm := annotation_means hg hc
        exact ⟨fun s => by rw [hall]; exact hm.1 s, by rw [hall]; exact hm.2⟩
  · refine ⟨fun y hy => ?_, fun h => by rw [h] at ht; cases ht⟩
    rw [hy] at ht
    cases ht
    obtain ⟨d, s, h1, h2, rfl⟩ := (declared_some g p x).1 hd
    have hall : ∀ r', CallReads g p given r' ↔ r' = some s := by
      intro r'
      constructor
      · intro h
        cases h with
        | raw ha _ _ => exact absurd ha (hno _)
        | annotated ha _ _ => exact absurd ha (hno _)
        | declared _ _ h3 h4 =>
          have := (declared_some g p _).2 ⟨_, _, h3, h4, rfl⟩
          rw [hd] at this
          cases this; rfl
        | getStep _ hn _ => exact absurd h2 (hn _ _ _ hc h1)
        | untyped _ hn _ => exact absurd h2 (hn _ _ _ hc h1)
      · rintro rfl
        exact .declared hc hno h1 h2
    refine ⟨fun s' => ?_, ?_⟩
    · rw [hall]
      simp only [TExpr.eval, Except.ok.injEq, Option.some.injEq]
      exact eq_comm
    · rw [hall]
      simp [TExpr.eval]
  · have hnd : ∀ ss d s, g.code p = some ss → DeclaresReturn g p.ty p.name d → ¬ DeclType g.tree d s := by
      intro ss d s h1 h2 h3
      rcases hcd with h | h
      · rw [h] at h1; cases h1
      · rw [(declared_some g p _).2 ⟨d, s, h2, h3, rfl⟩] at h; cases h
    unfold Returns.initial at ht
    split at ht
    · rename_i hgs
      rw [getProc_iff] at hgs
      refine ⟨fun y hy => ?_, fun h => by rw [h] at ht; cases ht⟩
      rw [hy] at ht
      cases ht
      have hall : ∀ r', CallReads g p given r' ↔ r' = some (.type (g.tree.expect "turf")) := by
        intro r'
        constructor
        · intro h
          cases h with
          | raw ha _ _ => exact absurd ha (hno _)
          | annotated ha _ _ => exact absurd ha (hno _)
          | declared h1 _ h3 h4 => exact absurd h4 (hnd _ _ _ h1 h3)
          | getStep _ _ _ => rfl
          | untyped _ _ h => exact absurd hgs h
        · rintro rfl
          exact .getStep hno hnd hgs
      refine ⟨fun s' => ?_, ?_⟩
      · rw [hall]
        simp only [TExpr.eval, Except.ok.injEq, Option.some.injEq]
        exact eq_comm
      · rw [hall]
        simp [TExpr.eval]
    · rename_i hgs
      rw [getProc_iff] at hgs
      refine ⟨fun y hy => (by rw [hy] at ht; exact absurd ht nofun), fun _ r => ?_⟩
      constructor
      · intro h
        cases h with
        | raw ha _ _ => exact absurd ha (hno _)
        | annotated ha _ _ => exact absurd ha (hno _)
        | declared h1 _ h3 h4 => exact absurd h4 (hnd _ _ _ h1 h3)
        | getStep _ _ h => exact absurd h hgs
        | untyped _ _ _ => rfl
      · rintro rfl
        exact .untyped hno hnd hgs

/-- **C98.** The static type of a call of a proc that is not built in is what its annotation or declaration stands for, and a
message comes exactly when that is the type of an argument that is a path to a type that does not exist. -/
theorem call_type (g : Returns) (c : Ctx) (ht : c.tree = g.tree) (hr : c.returns = g.table) (l : Loc) (p : Proc)
    (es : List Expr) (vs : List An) (hl : es.length = vs.length) (hb : ¬ (p.ty = 0 ∧ (g.tree.info p).builtin = true)) :
    (∀ s, CallReads g p (Given es vs) (some s) ↔ returnType c l p es vs = (.ofType s, [])) ∧
    (CallReads g p (Given es vs) none ↔ ∃ q, returnType c l p es vs = (.empty, say l (.undefinedType q))) := by
  have hg := argOf_iff hl
  obtain ⟨h1, h2⟩ := table_reads hg g p
  unfold returnType
  rw [ht, hr, if_neg (by simpa using hb)]
  cases htb : g.table p with
  | none =>
    have h3 := h2 htb
    simp only [An.ofType, An.empty, say]
    refine ⟨fun s => ?_, ?_⟩
    · rw [h3]
      simp only [Option.some.injEq, Prod.mk.injEq, An.mk.injEq, and_true]
      exact eq_comm
    · rw [h3]
      simp
  | some x =>
    obtain ⟨h3, h4⟩ := h1 x htb
    simp only [An.ofType, An.empty, say]
    cases he : x.eval g.tree (argOf es vs) with
    | ok s' =>
      refine ⟨fun s => ?_, ?_⟩
      · rw [← h3, he]
        simp
      · rw [← h4, he]
        simp
    | error q =>
      refine ⟨fun s => ?_, ?_⟩
      · rw [← h3, he]
        simp
      · rw [← h4, he]
        simp

/-- **C98.** The annotation of the parent proc does not count for an override that has none. -/
theorem override_not_annotated (g : Returns) (p : Proc) (ss : List Setting) (h : g.code p = some ss)
    (hno : ∀ s ∈ ss, s.name ≠ "SpacemanDMM_return_type")
    (hd : ∀ d, DeclaresReturn g p.ty p.name d → ∀ s, ¬ DeclType g.tree d s) (hs : ¬ Defines g.tree 0 "get_step" p)
    (given : Ident → Nat → Option An → Prop) : CallReads g p given (some .none) := by
  refine .untyped ?_ (fun _ d s _ h1 => hd d h1 s) hs
  rintro e ⟨pre, s, post, h1, _, h2, _⟩
  rw [h] at h1
  cases h1
  exact hno s (by simp) h2.1

end Verif.Typing
