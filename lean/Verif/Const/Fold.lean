import Verif.Const.Arith

/-!
# What constant expressions mean (C54) and the truthiness of expressions (C55)

The specification is a big-step relation `Folds`, which says what an expression means without saying how it is
computed.  `L t n m c` says that the name `n`, read on the type `t`, has the constant `c`.
-/

namespace Verif.Const

/-- null, zero and the empty string are false, anything else is true -/
def Truthy (c : Cst) : Prop :=
  (∀ h, c ≠ .null h) ∧ c ≠ .string [] ∧ ∀ s, c ≠ .float (.fin s 0)

/-- 1 for true and 0 for false -/
inductive IsFlag (p : Prop) : Cst → Prop where
  | yes : p → IsFlag p (.num 1)
  | no : ¬ p → IsFlag p (.num 0)

/-- the prefix operators that can be folded -/
inductive UnaryGives : UnaryOp → Cst → Cst → Prop where
  | neg (f : F32) : UnaryGives .neg (.float f) (.float f.neg)
  | bitNot (f : F32) : UnaryGives .bitNot (.float f) (.num ((2 ^ 24 - 1 - f.toU32 % 2 ^ 24 : Nat) : Int))
  | not {a c : Cst} : IsFlag (¬ Truthy a) c → UnaryGives .not a c

/-- the operators with two operands -/
inductive OpGives (lib : Lib) : BinaryOp → Cst → Cst → Cst → Prop where
  | add (x y : F32) : OpGives lib .add (.float x) (.float y) (.float (x.add y))
  | sub (x y : F32) : OpGives lib .sub (.float x) (.float y) (.float (x.sub y))
  | mul (x y : F32) : OpGives lib .mul (.float x) (.float y) (.float (x.mul y))
  | div (x y : F32) : OpGives lib .div (.float x) (.float y) (.float (x.div y))
  | mod (x y : F32) : OpGives lib .mod (.float x) (.float y) (.float (x.rem y))
  | floatMod (x y : F32) :
    OpGives lib .floatMod (.float x) (.float y) (.float (x.sub ((x.div y).floor.mul y)))
  | pow (x y : F32) : OpGives lib .pow (.float x) (.float y) (.float (lib.powf x y))
  | less {x y : F32} {c} : IsFlag (x.lt y = true) c → OpGives lib .less (.float x) (.float y) c
  | lessEq {x y : F32} {c} : IsFlag (x.le y = true) c → OpGives lib .lessEq (.float x) (.float y) c
  | greater {x y : F32} {c} : IsFlag (y.lt x = true) c → OpGives lib .greater (.float x) (.float y) c
  | greaterEq {x y : F32} {c} : IsFlag (y.le x = true) c → OpGives lib .greaterEq (.float x) (.float y) c
  | bit {op} {x y : F32} {r : Nat} : isBitOp op → bitSpec op x.toU32 y.toU32 = some r →
    OpGives lib op (.float x) (.float y) (.num ((r % 2 ^ 24 : Nat) : Int))
  | concat (a b : List Char) : OpGives lib .add (.string a) (.string b) (.string (a ++ b))
  | eq {a b c : Cst} : IsFlag (a.beq b = true) c → OpGives lib .eq a b c
  | notEq {a b c : Cst} : IsFlag (¬ a.beq b = true) c → OpGives lib .notEq a b c
  | and_true {a b : Cst} : Truthy a → OpGives lib .and a b b
  | and_false {a b : Cst} : ¬ Truthy a → OpGives lib .and a b a
  | or_true {a b : Cst} : Truthy a → OpGives lib .or a b a
  | or_false {a b : Cst} : ¬ Truthy a → OpGives lib .or a b b

abbrev Names := Nat → Ident → Bool → Cst → Prop

/-- what comes after a term -/
inductive FollowGives (env : Env) (L : Names) : Cst → Follow → Cst → Prop where
  | unary {op c c'} : UnaryGives op c c' → FollowGives env L c (.unary op) c'
  /-- a field of a typed `null` is the variable on that type -/
  | field {hint idx name c} : env.find (formatPath hint) = some idx → L idx name true c →
    FollowGives env L (.null (some hint)) (.field name) c
  /-- `/type::name` -/
  | staticField {path idx name c} : env.find (formatPath path) = some idx → L idx name false c →
    FollowGives env L (.prefab path .nil) (.staticField name) c
  /-- `/type::name()` is the path of the proc -/
  | procPlain {path idx name} : env.find (formatPath path) = some idx → env.getProc idx name = some none →
    FollowGives env L (.prefab path .nil) (.procReference name) (.prefab (pathFromStr (env.path idx) ++ [name]) .nil)
  | procKind {path idx name kind} : env.find (formatPath path) = some idx → env.getProc idx name = some (some kind) →
    FollowGives env L (.prefab path .nil) (.procReference name)
      (.prefab (pathFromStr (env.path idx) ++ [kind, name]) .nil)

inductive FollowsGive (env : Env) (L : Names) : Cst → List Follow → Cst → Prop where
  | nil {c} : FollowsGive env L c [] c
  | cons {c c' c'' f fs} : FollowGives env L c f c' → FollowsGive env L c' fs c'' → FollowsGive env L c (f :: fs) c''

/-- the entries of a map, in order; a later entry of the same name replaces the value of an earlier one -/
def mkVars (l : List (Ident × Cst)) : CVars := l.foldl (fun m p => m.insert p.1 p.2) .nil

/-- the path a prefab stands for: absolute paths are as written, others are searched from the current type -/
inductive PathGives (env : Env) (ty : Nat) : List (PathOp × Ident) → TreePath → Prop where
  | abs {path} : (∀ p ∈ path, p.1 = .slash) → PathGives env ty path (path.map (·.2))
  | nav {path p} : (∃ q ∈ path, q.1 ≠ .slash) → env.navigate ty path = some p → PathGives env ty path p

mutual
inductive Folds (lib : Lib) (env : Env) (L : Names) (ty : Nat) : Option TreePath → Expr → Cst → Prop where
  | base_nil {hint t c} : FoldsTerm lib env L ty hint t c → Folds lib env L ty hint (.base t []) c
  | base_cons {hint t f fs c c'} : FoldsTerm lib env L ty none t c → FollowsGive env L c (f :: fs) c' →
    Folds lib env L ty hint (.base t (f :: fs)) c'
  | binary {hint op l r a b c} : Folds lib env L ty none l a → Folds lib env L ty none r b →
    OpGives lib op a b c → Folds lib env L ty hint (.binary op l r) c
  | if_true {hint e a b v c} : Folds lib env L ty none e v → Truthy v → Folds lib env L ty hint a c →
    Folds lib env L ty hint (.ternary e a b) c
  | if_false {hint e a b v c} : Folds lib env L ty none e v → ¬ Truthy v → Folds lib env L ty hint b c →
    Folds lib env L ty hint (.ternary e a b) c
inductive FoldsTerm (lib : Lib) (env : Env) (L : Names) (ty : Nat) : Option TreePath → Term → Cst → Prop where
  | null {hint} : FoldsTerm lib env L ty hint .null (.null hint)
  | int {hint i} : FoldsTerm lib env L ty hint (.int i) (.num i)
  | float {hint f} : FoldsTerm lib env L ty hint (.float f) (.float f)
  | string {hint s} : FoldsTerm lib env L ty hint (.string s) (.string s)
  | resource {hint s} : FoldsTerm lib env L ty hint (.resource s) (.resource s)
  | expr {hint e c} : Folds lib env L ty hint e c → FoldsTerm lib env L ty hint (.expr e) c
  | type {hint} : FoldsTerm lib env L ty hint (.ident "type".toList) (.prefab (pathFromStr (env.path ty)) .nil)
  | typeMacro {hint} : FoldsTerm lib env L ty hint .typeMacro (.prefab (pathFromStr (env.path ty)) .nil)
  | parentType {hint p} : env.parent ty = some p →
    FoldsTerm lib env L ty hint (.ident "parent_type".toList) (.prefab (pathFromStr (env.path p)) .nil)
  | ident {hint name c} : name ≠ "type".toList → name ≠ "parent_type".toList → L ty name false c →
    FoldsTerm lib env L ty hint (.ident name) c
  | implied {p} : FoldsTerm lib env L ty (some p) .impliedType (.prefab p .nil)
  | prefab {hint path p vars vs} : FoldsVars lib env L ty vars vs → PathGives env ty path p →
    FoldsTerm lib env L ty hint (.prefab path vars) (.prefab p (mkVars vs))
  | new {hint path p vars vs args} : FoldsVars lib env L ty vars vs → PathGives env ty path p →
    FoldsTerm lib env L ty hint (.newPrefab path vars false args) (.newPrefab p (mkVars vs) false .nil)
  | newArgs {hint path p vars vs args as} : FoldsVars lib env L ty vars vs → PathGives env ty path p →
    FoldsArgs lib env L ty args as →
    FoldsTerm lib env L ty hint (.newPrefab path vars true args) (.newPrefab p (mkVars vs) true as)
  | newImplicit {hint args} : FoldsTerm lib env L ty hint (.newImplicit false args) (.newImplicit false .nil)
  | newImplicitArgs {hint args as} : FoldsArgs lib env L ty args as →
    FoldsTerm lib env L ty hint (.newImplicit true args) (.newImplicit true as)
  | list {hint args as} : FoldsArgs lib env L ty args as → FoldsTerm lib env L ty hint (.list args) (.list as)
  | call {hint name f args as} : constFn name = some f → FoldsArgs lib env L ty args as →
    FoldsTerm lib env L ty hint (.call name args) (.call f as)
  | trig {hint name f e x} : constFn name = none → trigFn lib name = some f → Folds lib env L ty none e (.float x) →
    FoldsTerm lib env L ty hint (.call name (.cons e .nil)) (.float (f x))
  | rgb {hint args as s} : 3 ≤ args.length → args.length ≤ 5 → FoldsArgs lib env L ty args as →
    rgbOf lib as.toList = .ok s → FoldsTerm lib env L ty hint (.call "rgb".toList args) (.string s)
  | nameof {hint e n} : e.nameof = some n →
    FoldsTerm lib env L ty hint (.call "nameof".toList (.cons e .nil)) (.string n)
inductive FoldsArgs (lib : Lib) (env : Env) (L : Names) (ty : Nat) : ExprList → CArgs → Prop where
  | nil : FoldsArgs lib env L ty .nil .nil
  | pos {e c rest as} : Folds lib env L ty none e c → FoldsArgs lib env L ty rest as →
    FoldsArgs lib env L ty (.cons e rest) (.pos c as)
  /-- `name = value`, where the name is not looked up -/
  | named {l n r v rest as} : l.kwIdent = some n → Folds lib env L ty none r v → FoldsArgs lib env L ty rest as →
    FoldsArgs lib env L ty (.cons (.assign true l r) rest) (.kw (.string n) v as)
  | keyed {l k r v rest as} : l.kwIdent = none → Folds lib env L ty none l k → Folds lib env L ty none r v →
    FoldsArgs lib env L ty rest as → FoldsArgs lib env L ty (.cons (.assign true l r) rest) (.kw k v as)
inductive FoldsVars (lib : Lib) (env : Env) (L : Names) (ty : Nat) : VarList → List (Ident × Cst) → Prop where
  | nil : FoldsVars lib env L ty .nil []
  | cons {n e c rest vs} : Folds lib env L ty none e c → FoldsVars lib env L ty rest vs →
    FoldsVars lib env L ty (.cons n e rest) ((n, c) :: vs)
end

/-! ## Computations as relations -/

inductive Gives (L : Names) {α : Type} : Comp α → α → Prop where
  | ret (a : α) : Gives L (.ret a) a
  | look {t n m k c a} : L t n m c → Gives L (k c) a → Gives L (.look t n m k) a

theorem gives_value {α : Type} (f : Nat → Ident → Bool → Option Cst) (p : Comp α) (a : α) :
    p.value f = some a ↔ Gives (fun t n m c => f t n m = some c) p a := by
  induction p with
  | ret b =>
    constructor
    · intro h
      simp only [Comp.value, Option.some.injEq] at h
      exact h ▸ .ret b
    · intro h; cases h; rfl
  | err e =>
    constructor
    · intro h; cases h
    · intro h; cases h
  | look t n m k ih =>
    simp only [Comp.value, Option.bind_eq_some_iff]
    constructor
    · rintro ⟨c, hc, h⟩
      exact .look hc ((ih c).1 h)
    · intro h
      cases h with
      | look hc h => exact ⟨_, hc, (ih _).2 h⟩

theorem gives_bind {α β : Type} {L : Names} (p : Comp α) (g : α → Comp β) (b : β) :
    Gives L (p.bind g) b ↔ ∃ a, Gives L p a ∧ Gives L (g a) b := by
  induction p with
  | ret a =>
    simp only [Comp.bind]
    constructor
    · intro h; exact ⟨a, .ret a, h⟩
    · rintro ⟨a', h1, h2⟩; cases h1; exact h2
  | err e =>
    simp only [Comp.bind]
    constructor
    · intro h; cases h
    · rintro ⟨a', h1, h2⟩; cases h1
  | look t n m k ih =>
    simp only [Comp.bind]
    constructor
    · intro h
      cases h with
      | look hc h =>
        obtain ⟨a, h1, h2⟩ := (ih _).1 h
        exact ⟨a, .look hc h1, h2⟩
    · rintro ⟨a, h1, h2⟩
      cases h1 with
      | look hc h1 => exact .look hc ((ih _).2 ⟨a, h1, h2⟩)

theorem gives_ret {α : Type} {L : Names} (a b : α) : Gives L (.ret a) b ↔ b = a := by
  constructor
  · intro h; cases h; rfl
  · rintro rfl; exact .ret b

theorem gives_err {α : Type} {L : Names} (e : Err) (b : α) : ¬ Gives L (.err e) b := by
  intro h; cases h

theorem gives_lift {α : Type} {L : Names} (r : Except Err α) (b : α) : Gives L (Comp.lift r) b ↔ r = .ok b := by
  cases r with
  | error e =>
    simp only [Comp.lift]
    constructor
    · intro h; cases h
    · intro h; cases h
  | ok a =>
    simp only [Comp.lift, gives_ret, Except.ok.injEq]
    exact eq_comm

theorem gives_mono {α : Type} {L L' : Names} (h : ∀ t n m c, L t n m c → L' t n m c) {p : Comp α} {a : α}
    (hp : Gives L p a) : Gives L' p a := by
  induction hp with
  | ret a => exact .ret a
  | look hc _ ih => exact .look (h _ _ _ _ hc) ih

/-- with names that get more and more values, a computation needs only finitely many -/
theorem gives_chain {α : Type} {L : Nat → Names} (hm : ∀ i j, i ≤ j → ∀ t n m c, L i t n m c → L j t n m c)
    {p : Comp α} {a : α} (hp : Gives (fun t n m c => ∃ i, L i t n m c) p a) : ∃ i, Gives (L i) p a := by
  induction hp with
  | ret a => exact ⟨0, .ret a⟩
  | look hc _ ih =>
    obtain ⟨i, hi⟩ := hc
    obtain ⟨j, hj⟩ := ih
    exact ⟨max i j, .look (hm i _ (le_max_left _ _) _ _ _ _ hi) (gives_mono (hm j _ (le_max_right _ _)) hj)⟩

/-! ## Operators -/

theorem toBool_iff (c : Cst) : c.toBool = true ↔ Truthy c := by
  unfold Truthy
  cases c with
  | null h => simp [Cst.toBool]
  | string s => cases s <;> simp [Cst.toBool]
  | float f => cases f <;> simp [Cst.toBool, F32.nonzero]
  | _ => simp [Cst.toBool]

theorem ofBool_flag (b : Bool) (c : Cst) (p : Prop) (h : b = true ↔ p) : c = .ofBool b ↔ IsFlag p c := by
  rw [ofBool_num]
  cases b with
  | true =>
    have hp : p := h.1 rfl
    constructor
    · rintro rfl; exact .yes hp
    · intro hf
      cases hf with
      | yes _ => rfl
      | no hn => exact absurd hp hn
  | false =>
    have hp : ¬ p := fun hp => by have := h.2 hp; cases this
    constructor
    · rintro rfl; exact .no hp
    · intro hf
      cases hf with
      | yes hy => exact absurd hy hp
      | no _ => rfl

theorem unary_gives (op : UnaryOp) (a c : Cst) : unary op a = .ok c ↔ UnaryGives op a c := by
  constructor
  · intro h
    cases op with
    | neg =>
      cases a <;> simp only [unary, reduceCtorEq, Except.ok.injEq] at h
      exact h ▸ .neg _
    | bitNot =>
      cases a with
      | float f =>
        rw [bit_not_folds] at h
        cases h
        exact .bitNot f
      | _ => simp only [unary, reduceCtorEq] at h
    | not =>
      have h' : c = .ofBool !a.toBool := by cases a <;> exact (Except.ok.inj h).symm
      exact .not ((ofBool_flag _ _ _ (by rw [← toBool_iff]; simp)).1 h')
    | _ => cases a <;> simp only [unary, reduceCtorEq] at h
  · intro h
    cases h with
    | neg f => rfl
    | bitNot f => rw [bit_not_folds]
    | not hf =>
      have h' := (ofBool_flag (!a.toBool) c _ (by rw [← toBool_iff]; simp)).2 hf
      subst h'
      cases a <;> rfl

theorem binary_eq (lib : Lib) (a b : Cst) : binary lib .eq a b = .ok (.ofBool (a.beq b)) := by
  cases a <;> cases b <;> rfl
theorem binary_notEq (lib : Lib) (a b : Cst) : binary lib .notEq a b = .ok (.ofBool !(a.beq b)) := by
  cases a <;> cases b <;> rfl
theorem binary_and (lib : Lib) (a b : Cst) : binary lib .and a b = .ok (if a.toBool then b else a) := by
  cases a <;> cases b <;> first | rfl | skip
  rename_i x y
  simp only [binary, binaryFloat, Cst.toBool]
  exact congrArg Except.ok (apply_ite Cst.float _ _ _)
theorem binary_or (lib : Lib) (a b : Cst) : binary lib .or a b = .ok (if a.toBool then a else b) := by
  cases a <;> cases b <;> first | rfl | skip
  rename_i x y
  simp only [binary, binaryFloat, Cst.toBool]
  exact congrArg Except.ok (apply_ite Cst.float _ _ _)

theorem binary_other (lib : Lib) (op : BinaryOp) (a b c : Cst) (h : binary lib op a b = .ok c) :
    op = .eq ∨ op = .notEq ∨ op = .and ∨ op = .or ∨ (∃ x y, op = .add ∧ a = .string x ∧ b = .string y) ∨
      ∃ x y, a = .float x ∧ b = .float y := by
  by_cases h1 : op = .eq
  · exact Or.inl h1
  by_cases h2 : op = .notEq
  · exact Or.inr (Or.inl h2)
  by_cases h3 : op = .and
  · exact Or.inr (Or.inr (Or.inl h3))
  by_cases h4 : op = .or
  · exact Or.inr (Or.inr (Or.inr (Or.inl h4)))
  have hany : ∀ l r c, binaryAny op l r ≠ .ok c := by
    intro l r c
    cases op <;> simp_all [binaryAny]
  right; right; right; right
  cases a <;> cases b <;> first
    | exact absurd h (hany _ _ _)
    | exact Or.inr ⟨_, _, rfl, rfl⟩
    | (rename_i x y
       simp only [binary] at h
       by_cases ha : op = .add
       · exact Or.inl ⟨x, y, ha, rfl, rfl⟩
       · rw [if_neg ha] at h
         exact absurd h (hany _ _ _))

theorem op_gives (lib : Lib) (op : BinaryOp) (a b c : Cst) : binary lib op a b = .ok c ↔ OpGives lib op a b c := by
  constructor
  · intro h
    rcases binary_other lib op a b c h with rfl | rfl | rfl | rfl | ⟨x, y, rfl, rfl, rfl⟩ | ⟨x, y, rfl, rfl⟩
    · rw [binary_eq] at h
      exact .eq ((ofBool_flag _ _ _ Iff.rfl).1 (Except.ok.inj h).symm)
    · rw [binary_notEq] at h
      exact .notEq ((ofBool_flag _ _ _ (by simp)).1 (Except.ok.inj h).symm)
    · rw [binary_and] at h
      have h := Except.ok.inj h
      by_cases ht : Truthy a
      · rw [if_pos ((toBool_iff a).2 ht)] at h
        subst h
        exact .and_true ht
      · rw [if_neg (fun hx => ht ((toBool_iff a).1 hx))] at h
        subst h
        exact .and_false ht
    · rw [binary_or] at h
      have h := Except.ok.inj h
      by_cases ht : Truthy a
      · rw [if_pos ((toBool_iff a).2 ht)] at h
        subst h
        exact .or_true ht
      · rw [if_neg (fun hx => ht ((toBool_iff a).1 hx))] at h
        subst h
        exact .or_false ht
    · simp only [binary, if_true] at h
      cases h
      exact .concat x y
    · by_cases hb : isBitOp op
      · rw [bit_ops_fold lib op hb] at h
        cases hs : bitSpec op x.toU32 y.toU32 with
        | none => rw [hs] at h; cases h
        | some r =>
          rw [hs] at h
          cases h
          exact .bit hb hs
      · simp only [binary] at h
        cases op <;> first
          | (exfalso; simp [isBitOp] at hb; done)
          | (simp only [binaryFloat, Except.ok.injEq, reduceCtorEq] at h)
        · subst h; exact .add x y
        · subst h; exact .sub x y
        · subst h; exact .mul x y
        · subst h; exact .div x y
        · subst h; exact .pow x y
        · subst h; exact .mod x y
        · subst h; exact .floatMod x y
        · exact .eq ((ofBool_flag _ _ _ Iff.rfl).1 h.symm)
        · exact .notEq ((ofBool_flag _ _ _ (by simp [Cst.beq])).1 h.symm)
        · exact .less ((ofBool_flag _ _ _ Iff.rfl).1 h.symm)
        · exact .greater ((ofBool_flag _ _ _ Iff.rfl).1 h.symm)
        · exact .lessEq ((ofBool_flag _ _ _ Iff.rfl).1 h.symm)
        · exact .greaterEq ((ofBool_flag _ _ _ Iff.rfl).1 h.symm)
        · by_cases ht : Truthy (.float x)
          · have hx : x.nonzero = true := (toBool_iff (.float x)).2 ht
            rw [if_pos hx] at h
            subst h
            exact .and_true ht
          · have hx : ¬ x.nonzero = true := fun hx => ht ((toBool_iff (.float x)).1 hx)
            rw [if_neg hx] at h
            subst h
            exact .and_false ht
        · by_cases ht : Truthy (.float x)
          · have hx : x.nonzero = true := (toBool_iff (.float x)).2 ht
            rw [if_pos hx] at h
            subst h
            exact .or_true ht
          · have hx : ¬ x.nonzero = true := fun hx => ht ((toBool_iff (.float x)).1 hx)
            rw [if_neg hx] at h
            subst h
            exact .or_false ht
  · intro h
    cases h with
    | less hf => exact congrArg Except.ok ((ofBool_flag _ _ _ Iff.rfl).2 hf).symm
    | lessEq hf => exact congrArg Except.ok ((ofBool_flag _ _ _ Iff.rfl).2 hf).symm
    | greater hf => exact congrArg Except.ok ((ofBool_flag _ _ _ Iff.rfl).2 hf).symm
    | greaterEq hf => exact congrArg Except.ok ((ofBool_flag _ _ _ Iff.rfl).2 hf).symm
    | bit hb hs => rw [bit_ops_fold lib op hb, hs]
    | eq hf => rw [binary_eq, ((ofBool_flag _ _ _ Iff.rfl).2 hf).symm]
    | notEq hf => rw [binary_notEq, ((ofBool_flag _ _ _ (by simp)).2 hf).symm]
    | and_true ht => rw [binary_and, if_pos ((toBool_iff a).2 ht)]
    | and_false ht => rw [binary_and, if_neg (fun hx => ht ((toBool_iff a).1 hx))]
    | or_true ht => rw [binary_or, if_pos ((toBool_iff a).2 ht)]
    | or_false ht => rw [binary_or, if_neg (fun hx => ht ((toBool_iff a).1 hx))]
    | _ => rfl

/-! ## Expressions -/

variable {lib : Lib} {env : Env} {L : Names} {ty : Nat}

theorem follow_gives (c : Cst) (f : Follow) (c' : Cst) :
    Gives L (follow (treeCtx lib env ty) c f) c' ↔ FollowGives env L c f c' := by
  constructor
  · intro h
    cases f with
    | field name =>
      simp only [follow] at h
      split at h
      · rename_i hint
        split at h
        · rename_i idx hi
          simp only [lookup, treeCtx] at h
          cases h with
          | look hl hr =>
            cases hr
            exact .field hi hl
        · exact absurd h (gives_err _ _)
      · exact absurd h (gives_err _ _)
    | unary op =>
      simp only [follow, gives_lift] at h
      exact .unary ((unary_gives _ _ _).1 h)
    | staticField name =>
      simp only [follow] at h
      split at h
      · rename_i path
        simp only [treeCtx] at h
        split at h
        · rename_i idx hi
          simp only [lookup] at h
          cases h with
          | look hl hr =>
            cases hr
            exact .staticField hi hl
        · exact absurd h (gives_err _ _)
      · exact absurd h (gives_err _ _)
    | procReference name =>
      simp only [follow] at h
      split at h
      · rename_i path
        simp only [treeCtx] at h
        split at h
        · rename_i idx hi
          unfold procRef at h
          cases hp : env.getProc idx name with
          | none => rw [hp] at h; exact absurd h (gives_err _ _)
          | some kind =>
            rw [hp] at h
            cases kind with
            | none => cases h; exact .procPlain hi hp
            | some k => cases h; exact .procKind hi hp
        · exact absurd h (gives_err _ _)
      · exact absurd h (gives_err _ _)
    | other => exact absurd h (gives_err _ _)
  · intro h
    cases h with
    | unary hu =>
      simp only [follow, gives_lift]
      exact (unary_gives _ _ _).2 hu
    | field hi hl =>
      simp only [follow, treeCtx, Option.bind_some, hi, lookup]
      exact .look hl (.ret _)
    | staticField hi hl =>
      simp only [follow, treeCtx, hi, lookup]
      exact .look hl (.ret _)
    | procPlain hi hp =>
      simp only [follow, treeCtx, hi, procRef, hp]
      exact .ret _
    | procKind hi hp =>
      simp only [follow, treeCtx, hi, procRef, hp]
      exact .ret _

theorem follows_give (fs : List Follow) (c c' : Cst) :
    Gives L (follows (treeCtx lib env ty) c fs) c' ↔ FollowsGive env L c fs c' := by
  induction fs generalizing c with
  | nil =>
    simp only [follows, gives_ret]
    constructor
    · rintro rfl; exact .nil
    · intro h; cases h; rfl
  | cons f fs ih =>
    simp only [follows, gives_bind, follow_gives, ih]
    constructor
    · rintro ⟨a, h1, h2⟩; exact .cons h1 h2
    · intro h
      cases h with
      | cons h1 h2 => exact ⟨_, h1, h2⟩

theorem path_gives (path : List (PathOp × Ident)) (p : TreePath) :
    prefabPath (treeCtx lib env ty) path = .ok p ↔ PathGives env ty path p := by
  unfold prefabPath
  by_cases h : (path.all fun p => p.1 = .slash) = true
  · rw [if_pos h]
    have h' : ∀ p ∈ path, p.1 = .slash := by simpa using h
    constructor
    · intro h2; cases h2; exact .abs h'
    · intro h2
      cases h2 with
      | abs _ => rfl
      | nav hq _ =>
        obtain ⟨q, hq, hn⟩ := hq
        exact absurd (h' q hq) hn
  · rw [if_neg h]
    have h' : ∃ q ∈ path, q.1 ≠ .slash := by
      by_contra hc
      push Not at hc
      exact h (by simpa using hc)
    simp only [treeCtx]
    constructor
    · intro h2
      split at h2
      · cases h2
      · rename_i p' hp
        cases h2
        exact .nav h' hp
    · intro h2
      cases h2 with
      | abs ha =>
        obtain ⟨q, hq, hn⟩ := h'
        exact absurd (ha q hq) hn
      | nav _ hp => rw [hp]

theorem ident_gives (hint : Option TreePath) (name : Ident) (c : Cst) :
    Gives L (identTerm (treeCtx lib env ty) name) c ↔ FoldsTerm lib env L ty hint (.ident name) c := by
  unfold identTerm
  by_cases h1 : name = "type".toList
  · rw [if_pos h1, h1]
    simp only [ownType, treeCtx, gives_ret]
    constructor
    · rintro rfl; exact .type
    · intro h
      generalize hn : "type".toList = n at h
      cases h with
      | type => rfl
      | parentType _ => exact absurd hn (by decide +kernel)
      | ident hx _ _ => exact absurd hn.symm hx
  · rw [if_neg h1]
    by_cases h2 : name = "parent_type".toList
    · rw [if_pos h2, h2]
      simp only [treeCtx]
      cases hp : env.parent ty with
      | none =>
        constructor
        · intro h; exact absurd h (gives_err _ _)
        · intro h
          generalize hn : "parent_type".toList = n at h
          cases h with
          | type => exact absurd hn (by decide +kernel)
          | parentType hp' => rw [hp] at hp'; cases hp'
          | ident _ hx _ => exact absurd hn.symm hx
      | some p =>
        simp only [gives_ret]
        constructor
        · rintro rfl; exact .parentType hp
        · intro h
          generalize hn : "parent_type".toList = n at h
          cases h with
          | type => exact absurd hn (by decide +kernel)
          | parentType hp' => rw [hp] at hp'; cases hp'; rfl
          | ident _ hx _ => exact absurd hn.symm hx
    · rw [if_neg h2]
      simp only [lookup, treeCtx]
      constructor
      · intro h
        cases h with
        | look hl hr =>
          cases hr
          exact .ident h1 h2 hl
      · intro h
        cases h with
        | type => exact absurd rfl h1
        | parentType _ => exact absurd rfl h2
        | ident _ _ hl => exact .look hl (.ret _)

theorem call_inv {hint : Option TreePath} {name : Ident} {args : ExprList} {c : Cst}
    (h : FoldsTerm lib env L ty hint (.call name args) c) :
    (∃ f as, constFn name = some f ∧ FoldsArgs lib env L ty args as ∧ c = .call f as) ∨
    (∃ f e x, constFn name = none ∧ trigFn lib name = some f ∧ args = .cons e .nil ∧
      Folds lib env L ty none e (.float x) ∧ c = .float (f x)) ∨
    (∃ as s, name = "rgb".toList ∧ 3 ≤ args.length ∧ args.length ≤ 5 ∧ FoldsArgs lib env L ty args as ∧
      rgbOf lib as.toList = .ok s ∧ c = .string s) ∨
    (∃ e n, name = "nameof".toList ∧ args = .cons e .nil ∧ e.nameof = some n ∧ c = .string n) := by
  cases h with
  | call h1 h2 => exact Or.inl ⟨_, _, h1, h2, rfl⟩
  | trig h1 h2 h3 => exact Or.inr (Or.inl ⟨_, _, _, h1, h2, rfl, h3, rfl⟩)
  | rgb h1 h2 h3 h4 => exact Or.inr (Or.inr (Or.inl ⟨_, _, rfl, h1, h2, h3, h4, rfl⟩))
  | nameof h1 => exact Or.inr (Or.inr (Or.inr ⟨_, _, rfl, rfl, h1, rfl⟩))

theorem constFn_rgb : constFn "rgb".toList = none := by decide +kernel
theorem constFn_nameof : constFn "nameof".toList = none := by decide +kernel
theorem trigFn_rgb : trigFn lib "rgb".toList = none := by
  unfold trigFn
  rw [if_neg (by decide +kernel), if_neg (by decide +kernel), if_neg (by decide +kernel), if_neg (by decide +kernel)]
theorem trigFn_nameof : trigFn lib "nameof".toList = none := by
  unfold trigFn
  rw [if_neg (by decide +kernel), if_neg (by decide +kernel), if_neg (by decide +kernel), if_neg (by decide +kernel)]

theorem single_some {args : ExprList} {e : Expr} : args.single = some e ↔ args = .cons e .nil := by
  cases args with
  | nil => simp [ExprList.single]
  | cons e' r => cases r <;> simp [ExprList.single]

theorem lazy_gives (name : Ident) (arg : Option Expr) (c : Cst) :
    Gives L (lazyCall (treeCtx lib env ty) name arg) c ↔
      name = "nameof".toList ∧ ∃ e n, arg = some e ∧ e.nameof = some n ∧ c = .string n := by
  unfold lazyCall
  simp only [treeCtx, Option.isSome_none, Bool.and_false, Bool.false_eq_true, if_false]
  by_cases h : name = "nameof".toList
  · rw [if_pos h]
    cases arg with
    | none =>
      simp only [Option.bind_none]
      constructor
      · intro hg; exact absurd hg (gives_err _ _)
      · rintro ⟨_, e, n, h', _⟩; cases h'
    | some e =>
      simp only [Option.bind_some]
      cases hn : e.nameof with
      | none =>
        simp only
        constructor
        · intro hg; exact absurd hg (gives_err _ _)
        · rintro ⟨_, e', n, h', hn', _⟩
          cases h'
          rw [hn] at hn'
          cases hn'
      | some n =>
        simp only [gives_ret]
        constructor
        · rintro rfl; exact ⟨h, e, n, rfl, hn, rfl⟩
        · rintro ⟨_, e', n', h', hn', rfl⟩
          cases h'
          rw [hn] at hn'
          cases hn'
          rfl
  · rw [if_neg h]
    constructor
    · intro hg; exact absurd hg (gives_err _ _)
    · rintro ⟨h', _⟩; exact absurd h' h

theorem trig_gives (f : F32 → F32) (a c : Cst) : Gives L (trigResult f a) c ↔ ∃ x, a = .float x ∧ c = .float (f x) := by
  cases a <;> simp only [trigResult, gives_ret, Cst.float.injEq, reduceCtorEq, false_and, exists_false, iff_false,
    exists_eq_left'] <;> exact gives_err _ _

theorem pos_inv {e : Expr} {rest : ExprList} {as : CArgs} (he : ∀ l r, e ≠ .assign true l r)
    (h : FoldsArgs lib env L ty (.cons e rest) as) :
    ∃ c as', as = .pos c as' ∧ Folds lib env L ty none e c ∧ FoldsArgs lib env L ty rest as' := by
  cases h with
  | pos h1 h2 => exact ⟨_, _, rfl, h1, h2⟩
  | named _ _ _ => exact absurd rfl (he _ _)
  | keyed _ _ _ _ => exact absurd rfl (he _ _)

theorem call_gives (hint : Option TreePath) (name : Ident) (args : ExprList) (c : Cst)
    (hargs : ∀ as, Gives L (evalArgs (treeCtx lib env ty) args) as ↔ FoldsArgs lib env L ty args as)
    (he : ∀ e r, args = .cons e r → ∀ c, Gives L (evalExpr (treeCtx lib env ty) none e) c ↔ Folds lib env L ty none e c) :
    Gives L (evalTerm (treeCtx lib env ty) hint (.call name args)) c ↔ FoldsTerm lib env L ty hint (.call name args) c := by
  rw [evalTerm]
  cases hf : constFn name with
  | some f =>
    simp only [gives_bind, hargs, gives_ret]
    constructor
    · rintro ⟨as, ha, rfl⟩; exact .call hf ha
    · intro h
      rcases call_inv h with ⟨f', as, h1, h2, rfl⟩ | ⟨f', e, x, h1, _⟩ | ⟨as, s, rfl, _⟩ | ⟨e, n, rfl, _⟩
      · rw [hf] at h1; cases h1; exact ⟨_, h2, rfl⟩
      · rw [hf] at h1; cases h1
      · rw [constFn_rgb] at hf; cases hf
      · rw [constFn_nameof] at hf; cases hf
  | none =>
    simp only
    have htr : trigFn (treeCtx lib env ty).lib name = trigFn lib name := rfl
    rw [htr]
    cases hg : trigFn lib name with
    | some g =>
      simp only
      have hno : ∀ c, (∀ e, args ≠ .cons e .nil) → ¬ FoldsTerm lib env L ty hint (.call name args) c := by
        intro c hn h
        rcases call_inv h with ⟨f', as, h1, h2, rfl⟩ | ⟨f', e, x, h1, _, h3, _⟩ | ⟨as, s, rfl, _⟩ | ⟨e, n, rfl, _⟩
        · rw [hf] at h1; cases h1
        · exact hn e h3
        · rw [trigFn_rgb] at hg; cases hg
        · rw [trigFn_nameof] at hg; cases hg
      match args with
      | .nil =>
        constructor
        · intro h; exact absurd h (gives_err _ _)
        · intro h; exact absurd h (hno c (by simp))
      | .cons e (.cons e' r) =>
        constructor
        · intro h; exact absurd h (gives_err _ _)
        · intro h; exact absurd h (hno c (by simp))
      | .cons e .nil =>
        simp only [gives_bind, he e .nil rfl, trig_gives]
        constructor
        · rintro ⟨a, h1, x, rfl, rfl⟩
          exact .trig hf hg h1
        · intro h
          rcases call_inv h with ⟨f', as, h1, h2, rfl⟩ | ⟨f', e', x, h1, h2, h3, h4, h5⟩ | ⟨as, s, rfl, _⟩ | ⟨e, n, rfl, _⟩
          · rw [hf] at h1; cases h1
          · cases h3
            rw [hg] at h2
            cases h2
            exact ⟨_, h4, x, rfl, h5⟩
          · rw [trigFn_rgb] at hg; cases hg
          · rw [trigFn_nameof] at hg; cases hg
    | none =>
      simp only
      by_cases hr : name = "rgb".toList
      · rw [if_pos hr]
        by_cases hl : args.length = 3 ∨ args.length = 4 ∨ args.length = 5
        · rw [if_pos hl]
          simp only [gives_bind, hargs, gives_lift, gives_ret]
          constructor
          · rintro ⟨as, ha, s, hs, rfl⟩
            rw [hr]
            exact .rgb (by omega) (by omega) ha hs
          · intro h
            rcases call_inv h with ⟨f', as, h1, h2, rfl⟩ | ⟨f', e, x, h1, h2, _⟩ | ⟨as, s, _, _, _, h3, h4, rfl⟩ | ⟨e, n, h1, _⟩
            · rw [hf] at h1; cases h1
            · rw [hg] at h2; cases h2
            · exact ⟨as, h3, s, h4, rfl⟩
            · rw [hr] at h1
              exact absurd h1 (by decide +kernel)
        · rw [if_neg hl]
          constructor
          · intro h; exact absurd h (gives_err _ _)
          · intro h
            rcases call_inv h with ⟨f', as, h1, h2, rfl⟩ | ⟨f', e, x, h1, h2, _⟩ | ⟨as, s, _, h1, h2, h3, h4, rfl⟩ | ⟨e, n, h1, _⟩
            · rw [hf] at h1; cases h1
            · rw [hg] at h2; cases h2
            · omega
            · rw [hr] at h1
              exact absurd h1 (by decide +kernel)
      · rw [if_neg hr, lazy_gives]
        constructor
        · rintro ⟨rfl, e, n, ha, hn, rfl⟩
          rw [single_some] at ha
          rw [ha]
          exact .nameof hn
        · intro h
          rcases call_inv h with ⟨f', as, h1, h2, rfl⟩ | ⟨f', e, x, h1, h2, _⟩ | ⟨as, s, h1, _⟩ | ⟨e, n, h1, h2, h3, rfl⟩
          · rw [hf] at h1; cases h1
          · rw [hg] at h2; cases h2
          · exact absurd h1 hr
          · exact ⟨h1, e, n, single_some.2 h2, h3, rfl⟩

mutual
theorem fold_expr (e : Expr) (hint : Option TreePath) (c : Cst) :
    Gives L (evalExpr (treeCtx lib env ty) hint e) c ↔ Folds lib env L ty hint e c := by
  match e with
  | .base t [] =>
    simp only [evalExpr, List.isEmpty_nil, if_true, gives_bind, fold_term t, follows_give]
    constructor
    · rintro ⟨a, h1, h2⟩
      cases h2
      exact .base_nil h1
    · intro h
      cases h with
      | base_nil h => exact ⟨_, h, .nil⟩
  | .base t (f :: fs) =>
    simp only [evalExpr, List.isEmpty_cons, Bool.false_eq_true, if_false, gives_bind, fold_term t, follows_give]
    constructor
    · rintro ⟨a, h1, h2⟩
      exact .base_cons h1 h2
    · intro h
      cases h with
      | base_cons h h2 => exact ⟨_, h, h2⟩
  | .binary op l r =>
    simp only [evalExpr, gives_bind, fold_expr l, fold_expr r, gives_lift, op_gives]
    constructor
    · rintro ⟨a, h1, b, h2, h3⟩
      exact .binary h1 h2 h3
    · intro h
      cases h with
      | binary h1 h2 h3 => exact ⟨_, h1, _, h2, h3⟩
  | .ternary x a b =>
    simp only [evalExpr, gives_bind, fold_expr x]
    constructor
    · rintro ⟨v, h1, h2⟩
      by_cases ht : Truthy v
      · rw [if_pos ((toBool_iff v).2 ht), fold_expr a] at h2
        exact .if_true h1 ht h2
      · rw [if_neg (fun hx => ht ((toBool_iff v).1 hx)), fold_expr b] at h2
        exact .if_false h1 ht h2
    · intro h
      cases h with
      | if_true h1 ht h2 => exact ⟨_, h1, by rw [if_pos ((toBool_iff _).2 ht), fold_expr a]; exact h2⟩
      | if_false h1 ht h2 =>
        exact ⟨_, h1, by rw [if_neg (fun hx => ht ((toBool_iff _).1 hx)), fold_expr b]; exact h2⟩
  | .assign p l r =>
    simp only [evalExpr]
    constructor
    · intro h; exact absurd h (gives_err _ _)
    · intro h; cases h
theorem fold_term (t : Term) (hint : Option TreePath) (c : Cst) :
    Gives L (evalTerm (treeCtx lib env ty) hint t) c ↔ FoldsTerm lib env L ty hint t c := by
  match t with
  | .null =>
    simp only [evalTerm, gives_ret]
    constructor
    · rintro rfl; exact .null
    · intro h; cases h; rfl
  | .newPrefab path vars true args =>
    simp only [evalTerm, if_true, gives_bind, gives_lift, path_gives, fold_vars vars, fold_args args, gives_ret]
    constructor
    · rintro ⟨vs, ⟨l, hl, rfl⟩, p, hp, as, ha, rfl⟩
      exact .newArgs hl hp ha
    · intro h
      cases h with
      | newArgs hl hp ha => exact ⟨_, ⟨_, hl, rfl⟩, _, hp, _, ha, rfl⟩
  | .newPrefab path vars false args =>
    simp only [evalTerm, Bool.false_eq_true, if_false, gives_bind, gives_lift, path_gives, fold_vars vars, gives_ret]
    constructor
    · rintro ⟨vs, ⟨l, hl, rfl⟩, p, hp, rfl⟩
      exact .new hl hp
    · intro h
      cases h with
      | new hl hp => exact ⟨_, ⟨_, hl, rfl⟩, _, hp, rfl⟩
  | .newImplicit true args =>
    simp only [evalTerm, if_true, gives_bind, fold_args args, gives_ret]
    constructor
    · rintro ⟨as, ha, rfl⟩; exact .newImplicitArgs ha
    · intro h
      cases h with
      | newImplicitArgs ha => exact ⟨_, ha, rfl⟩
  | .newImplicit false args =>
    simp only [evalTerm, Bool.false_eq_true, if_false, gives_ret]
    constructor
    · rintro rfl; exact .newImplicit
    · intro h; cases h; rfl
  | .newMini =>
    constructor
    · intro h; exact absurd h (gives_err _ _)
    · intro h; cases h
  | .list args =>
    simp only [evalTerm, gives_bind, fold_args args, gives_ret]
    constructor
    · rintro ⟨as, ha, rfl⟩; exact .list ha
    · intro h
      cases h with
      | list ha => exact ⟨_, ha, rfl⟩
  | .call name args =>
    exact call_gives hint name args c (fold_args args) (by
      match args with
      | .nil => intro e r h; cases h
      | .cons e0 r0 => intro e r h c; cases h; exact fold_expr e0 none c)
  | .prefab path vars =>
    simp only [evalTerm, gives_bind, gives_lift, path_gives, fold_vars vars, gives_ret]
    constructor
    · rintro ⟨vs, ⟨l, hl, rfl⟩, p, hp, rfl⟩
      exact .prefab hl hp
    · intro h
      cases h with
      | prefab hl hp => exact ⟨_, ⟨_, hl, rfl⟩, _, hp, rfl⟩
  | .ident name =>
    simp only [evalTerm]
    exact ident_gives hint name c
  | .string s =>
    simp only [evalTerm, gives_ret]
    constructor
    · rintro rfl; exact .string
    · intro h; cases h; rfl
  | .resource s =>
    simp only [evalTerm, gives_ret]
    constructor
    · rintro rfl; exact .resource
    · intro h; cases h; rfl
  | .int i =>
    simp only [evalTerm, gives_ret]
    constructor
    · rintro rfl; exact .int
    · intro h; cases h; rfl
  | .float f =>
    simp only [evalTerm, gives_ret]
    constructor
    · rintro rfl; exact .float
    · intro h; cases h; rfl
  | .expr e =>
    simp only [evalTerm, fold_expr e]
    constructor
    · intro h; exact .expr h
    · intro h
      cases h with
      | expr h => exact h
  | .typeMacro =>
    simp only [evalTerm, ownType, treeCtx, gives_ret]
    constructor
    · rintro rfl; exact .typeMacro
    · intro h; cases h; rfl
  | .impliedType =>
    cases hint with
    | none =>
      constructor
      · intro h; exact absurd h (gives_err _ _)
      · intro h; cases h
    | some p =>
      simp only [evalTerm, gives_ret]
      constructor
      · rintro rfl; exact .implied
      · intro h; cases h; rfl
  | .globalIdent n =>
    constructor
    · intro h; exact absurd h (gives_err _ _)
    · intro h; cases h
  | .other =>
    constructor
    · intro h; exact absurd h (gives_err _ _)
    · intro h; cases h
theorem fold_args (l : ExprList) (as : CArgs) :
    Gives L (evalArgs (treeCtx lib env ty) l) as ↔ FoldsArgs lib env L ty l as := by
  match l with
  | .nil =>
    simp only [evalArgs, gives_ret]
    constructor
    · rintro rfl; exact .nil
    · intro h; cases h; rfl
  | .cons (.assign true a b) rest =>
    simp only [evalArgs, gives_bind, fold_expr b, fold_args rest, gives_ret]
    constructor
    · rintro ⟨k, h1, v, h2, as', h3, rfl⟩
      cases hk : a.kwIdent with
      | some i =>
        rw [hk] at h1
        cases h1
        exact .named hk h2 h3
      | none =>
        rw [hk] at h1
        exact .keyed hk ((fold_expr a none k).1 h1) h2 h3
    · intro h
      cases h with
      | pos h1 _ => cases h1
      | named hk h2 h3 => exact ⟨_, by rw [hk]; exact .ret _, _, h2, _, h3, rfl⟩
      | keyed hk h1 h2 h3 => exact ⟨_, by rw [hk]; exact (fold_expr a none _).2 h1, _, h2, _, h3, rfl⟩
  | .cons (.assign false a b) rest =>
    simp only [evalArgs, evalExpr, gives_bind]
    constructor
    · rintro ⟨_, h, _⟩; exact absurd h (gives_err _ _)
    · intro h
      obtain ⟨_, _, _, h1, _⟩ := pos_inv (by simp) h
      cases h1
  | .cons (.base t fs) rest =>
    rw [evalArgs]
    · simp only [gives_bind, fold_expr (.base t fs), fold_args rest, gives_ret]
      constructor
      · rintro ⟨k, h1, as', h3, rfl⟩; exact .pos h1 h3
      · intro h
        obtain ⟨_, _, rfl, h1, h2⟩ := pos_inv (by simp) h
        exact ⟨_, h1, _, h2, rfl⟩
    · simp
  | .cons (.binary op a b) rest =>
    rw [evalArgs]
    · simp only [gives_bind, fold_expr (.binary op a b), fold_args rest, gives_ret]
      constructor
      · rintro ⟨k, h1, as', h3, rfl⟩; exact .pos h1 h3
      · intro h
        obtain ⟨_, _, rfl, h1, h2⟩ := pos_inv (by simp) h
        exact ⟨_, h1, _, h2, rfl⟩
    · simp
  | .cons (.ternary x a b) rest =>
    rw [evalArgs]
    · simp only [gives_bind, fold_expr (.ternary x a b), fold_args rest, gives_ret]
      constructor
      · rintro ⟨k, h1, as', h3, rfl⟩; exact .pos h1 h3
      · intro h
        obtain ⟨_, _, rfl, h1, h2⟩ := pos_inv (by simp) h
        exact ⟨_, h1, _, h2, rfl⟩
    · simp
theorem fold_vars (l : VarList) (acc m : CVars) :
    Gives L (evalVars (treeCtx lib env ty) l acc) m ↔
      ∃ vs, FoldsVars lib env L ty l vs ∧ m = vs.foldl (fun m p => m.insert p.1 p.2) acc := by
  match l with
  | .nil =>
    simp only [evalVars, gives_ret]
    constructor
    · rintro rfl; exact ⟨[], .nil, rfl⟩
    · rintro ⟨vs, h, rfl⟩; cases h; rfl
  | .cons n e rest =>
    simp only [evalVars, gives_bind, fold_expr e, fold_vars rest]
    constructor
    · rintro ⟨c, h1, vs, h2, rfl⟩
      exact ⟨(n, c) :: vs, .cons h1 h2, rfl⟩
    · rintro ⟨vs, h, rfl⟩
      cases h with
      | cons h1 h2 => exact ⟨_, h1, _, h2, rfl⟩
end

/-- what a name stands for: the value of the variable it resolves to -/
def namesOf (lib : Lib) (env : Env) : Names := fun t n _ c => ∃ k, resolve env t n = some k ∧ Value lib env k c

/-- **C54** the value of a variable is what its defining expression means, by the rules of `Folds`, when the names in
it stand for their values -/
theorem variable_folds (k : Key) (d : Decl) (v : Var) (e : Expr) (c : Cst) (hd : env.decl k.1 k.2 = some d)
    (hv : env.var k = some v) (hc : v.const = none) (he : v.expr = some e) (hev : d.evaluable = true) :
    Value lib env k c ↔
      Folds lib env (namesOf lib env) k.1 (if d.typePath.isEmpty then none else some d.typePath) e c := by
  rw [← fold_expr]
  change _ ↔ Gives _ (defComp lib env k d e) c
  have hat : ∀ n, valueAt false lib env (n + 1) k = some c ↔
      Gives (fun t name _ c' => (resolve env t name).bind (valueAt false lib env n) = some c')
        (defComp lib env k d e) c := by
    intro n
    rw [← gives_value]
    simp only [valueAt, hd, hv, hc, he, hev, if_true, Bool.false_and, Bool.false_eq_true, if_false]
  constructor
  · rintro ⟨n, h⟩
    cases n with
    | zero => simp [valueAt] at h
    | succ n =>
      refine gives_mono ?_ ((hat n).1 h)
      intro t name _ c' h'
      obtain ⟨k', h1, h2⟩ := Option.bind_eq_some_iff.1 h'
      exact ⟨k', h1, n, h2⟩
  · intro h
    obtain ⟨i, hi⟩ := gives_chain (L := fun n t name _ c' => (resolve env t name).bind (valueAt false lib env n) = some c')
      (by
        intro i j hij t name _ c' h'
        obtain ⟨k', h1, h2⟩ := Option.bind_eq_some_iff.1 h'
        exact Option.bind_eq_some_iff.2 ⟨k', h1, valueAt_mono i j hij k' c' h2⟩)
      (gives_mono (by
        rintro t name _ c' ⟨k', h1, n, h2⟩
        exact ⟨n, Option.bind_eq_some_iff.2 ⟨k', h1, h2⟩⟩) h)
    exact ⟨i + 1, (hat i).2 hi⟩

/-- **C54** an expression means at most one constant -/
theorem folds_unique (f : Nat → Ident → Bool → Option Cst) (hint : Option TreePath) (e : Expr) (c c' : Cst)
    (h : Folds lib env (fun t n m c => f t n m = some c) ty hint e c)
    (h' : Folds lib env (fun t n m c => f t n m = some c) ty hint e c') : c = c' := by
  rw [← fold_expr, ← gives_value] at h h'
  rw [h] at h'
  exact Option.some.inj h'

/-! ## Truthiness (ast.rs) -/

mutual
/-- `Expression::is_truthy` (ast.rs:1049-1090) -/
def Expr.isTruthy : Expr → Option Bool
  | .base t fs =>
    match t.isTruthy with
    | none => none
    | some b => nots b fs
  | .binary op l r =>
    match l.isTruthy, r.isTruthy with
    | some a, some b =>
      match op with
      | .and => some (a && b)
      | .or => some (a || b)
      | _ => none
    | _, _ => none
  | .assign plain _ r =>
    if plain then
      match r with
      | .base t [] => t.isTruthy
      | _ => none
    else none
  | .ternary c a b =>
    match c.isTruthy with
    | none => none
    | some true => a.isTruthy
    | some false => b.isTruthy
/-- `Term::is_truthy` (ast.rs:1218-1249); the interpolated string is one of the terms `other`, for which the model
says nothing -/
def Term.isTruthy : Term → Option Bool
  | .null => some false
  | .int i => some (decide (i ≠ 0))
  | .float f => some f.nonzero
  | .string s => some (!s.isEmpty)
  | .prefab _ _ => some true
  | .newImplicit _ _ => some true
  | .newPrefab _ _ _ _ => some true
  | .newMini => some true
  | .list _ => some true
  | .expr e => e.isTruthy
  | _ => none
/-- the loop over the follows: only `!` is known -/
def nots : Bool → List Follow → Option Bool
  | b, [] => some b
  | b, .unary .not :: fs => nots (!b) fs
  | _, _ => none
end

theorem F32.nonzero_ofInt (i : Int) : (F32.ofInt i).nonzero = decide (i ≠ 0) := by
  unfold F32.ofInt F32.ofRat
  by_cases h : i = 0
  · subst h; simp [F32.nonzero]
  · have hq : (i : ℚ) ≠ 0 := by exact_mod_cast h
    rw [if_neg hq]
    have habs : |(i : ℚ)| = ((i.natAbs : Nat) : ℚ) := by
      rw [← Int.cast_abs, Int.abs_eq_natAbs, Int.cast_natCast]
    have hn : i.natAbs ≠ 0 := by omega
    rw [habs]
    unfold F32.ofMag
    have hq' : ((i.natAbs : Nat) : ℚ) ≠ 0 := by exact_mod_cast hn
    rw [if_neg hq']
    have hu := F32.ulp_pos ((i.natAbs : Nat) : ℚ)
    have hle : F32.ulp ((i.natAbs : Nat) : ℚ) ≤ ((i.natAbs : Nat) : ℚ) := by
      unfold F32.ulp
      rw [F32.expo_nat _ hn]
      have h1 : (2 : ℚ) ^ (Nat.log2 i.natAbs : Int) ≤ ((i.natAbs : Nat) : ℚ) := by
        rw [zpow_natCast]
        exact_mod_cast Nat.log2_self_le hn
      refine le_trans (zpow_le_zpow_right₀ (by norm_num) ?_) h1
      have : (0 : Int) ≤ (Nat.log2 i.natAbs : Int) := by positivity
      omega
    have h1 : 1 ≤ ((i.natAbs : Nat) : ℚ) / F32.ulp ((i.natAbs : Nat) : ℚ) := (one_le_div hu).2 hle
    have h2 : 1 ≤ F32.roundEven (((i.natAbs : Nat) : ℚ) / F32.ulp ((i.natAbs : Nat) : ℚ)) := by
      unfold F32.roundEven
      have : 1 ≤ ⌊((i.natAbs : Nat) : ℚ) / F32.ulp ((i.natAbs : Nat) : ℚ)⌋.toNat := by
        have : (1 : Int) ≤ ⌊((i.natAbs : Nat) : ℚ) / F32.ulp ((i.natAbs : Nat) : ℚ)⌋ := Int.le_floor.2 (by exact_mod_cast h1)
        omega
      simp only
      split_ifs <;> omega
    have h3 : (F32.roundEven (((i.natAbs : Nat) : ℚ) / F32.ulp ((i.natAbs : Nat) : ℚ)) : ℚ) * F32.ulp ((i.natAbs : Nat) : ℚ) ≠ 0 := by
      refine mul_ne_zero ?_ hu.ne'
      exact_mod_cast (by omega : F32.roundEven (((i.natAbs : Nat) : ℚ) / F32.ulp ((i.natAbs : Nat) : ℚ)) ≠ 0)
    simp only
    split_ifs
    · simp [F32.nonzero, h]
    · exact (decide_eq_true h3).trans (decide_eq_true h).symm

theorem nots_folds (fs : List Follow) (b r : Bool) (c c' : Cst) (h : nots b fs = some r) (hb : b = c.toBool)
    (hf : FollowsGive env L c fs c') : r = c'.toBool := by
  induction fs generalizing b c with
  | nil =>
    cases hf
    simp only [nots, Option.some.injEq] at h
    exact h ▸ hb
  | cons f fs ih =>
    cases hf with
    | cons h1 h2 =>
      unfold nots at h
      split at h
      · rename_i heq
        cases heq
      · rename_i heq
        simp only [List.cons.injEq] at heq
        obtain ⟨rfl, rfl⟩ := heq
        cases h1 with
        | unary hu =>
          cases hu with
          | not hfl =>
            refine ih _ _ h ?_ h2
            have := (ofBool_flag (!c.toBool) _ _ (by rw [← toBool_iff]; simp)).2 hfl
            rw [this, hb]
            cases c.toBool <;> decide +kernel
      · cases h

mutual
theorem truthy_expr (e : Expr) (hint : Option TreePath) (b : Bool) (c : Cst) (h : e.isTruthy = some b)
    (hf : Folds lib env L ty hint e c) : b = c.toBool := by
  match e, hf with
  | .base t [], .base_nil ht =>
    simp only [Expr.isTruthy] at h
    cases hb : t.isTruthy with
    | none => rw [hb] at h; cases h
    | some b' =>
      rw [hb] at h
      simp only [nots, Option.some.injEq] at h
      subst h
      exact truthy_term t _ _ _ hb ht
  | .base t (f :: fs), .base_cons ht hfs =>
    simp only [Expr.isTruthy] at h
    cases hb : t.isTruthy with
    | none => rw [hb] at h; cases h
    | some b' =>
      rw [hb] at h
      exact nots_folds _ _ _ _ _ h (truthy_term t _ _ _ hb ht) hfs
  | .binary op l r, .binary h1 h2 h3 =>
    simp only [Expr.isTruthy] at h
    cases ha : l.isTruthy with
    | none => rw [ha] at h; cases h
    | some a' =>
      cases hb : r.isTruthy with
      | none => rw [ha, hb] at h; cases h
      | some b' =>
        rw [ha, hb] at h
        have e1 := truthy_expr l _ _ _ ha h1
        have e2 := truthy_expr r _ _ _ hb h2
        cases h3 with
        | and_true ht =>
          rw [(toBool_iff _).2 ht] at e1
          subst e1
          simp only [Bool.true_and, Option.some.injEq] at h
          exact h ▸ e2
        | and_false ht =>
          have : ¬ a' = true := fun hx => ht ((toBool_iff _).1 (e1 ▸ hx))
          simp only [Bool.not_eq_true] at this
          rw [this] at e1
          subst this
          simp only [Bool.false_and, Option.some.injEq] at h
          rw [← h]; exact e1
        | or_true ht =>
          rw [(toBool_iff _).2 ht] at e1
          subst e1
          simp only [Bool.true_or, Option.some.injEq] at h
          rw [← h, (toBool_iff _).2 ht]
        | or_false ht =>
          have : ¬ a' = true := fun hx => ht ((toBool_iff _).1 (e1 ▸ hx))
          simp only [Bool.not_eq_true] at this
          subst this
          simp only [Bool.false_or, Option.some.injEq] at h
          exact h ▸ e2
        | bit hb' => rcases hb' with rfl | rfl | rfl | rfl | rfl <;> cases h
        | _ => cases h
  | .ternary x y z, .if_true h1 ht h2 =>
    simp only [Expr.isTruthy] at h
    cases ha : x.isTruthy with
    | none => rw [ha] at h; cases h
    | some a' =>
      have e1 := truthy_expr x _ _ _ ha h1
      rw [(toBool_iff _).2 ht] at e1
      rw [ha, e1] at h
      exact truthy_expr y _ _ _ h h2
  | .ternary x y z, .if_false h1 ht h2 =>
    simp only [Expr.isTruthy] at h
    cases ha : x.isTruthy with
    | none => rw [ha] at h; cases h
    | some a' =>
      have e1 := truthy_expr x _ _ _ ha h1
      have : a' = false := by
        rw [e1]
        exact Bool.eq_false_iff.2 fun hx => ht ((toBool_iff _).1 hx)
      rw [ha, this] at h
      exact truthy_expr z _ _ _ h h2
theorem truthy_term (t : Term) (hint : Option TreePath) (b : Bool) (c : Cst) (h : t.isTruthy = some b)
    (hf : FoldsTerm lib env L ty hint t c) : b = c.toBool := by
  match t, hf with
  | .null, .null => simp only [Term.isTruthy, Option.some.injEq] at h; exact h ▸ rfl
  | .int i, .int =>
    simp only [Term.isTruthy, Option.some.injEq] at h
    rw [← h]
    exact (F32.nonzero_ofInt i).symm
  | .float f, .float => simp only [Term.isTruthy, Option.some.injEq] at h; exact h ▸ rfl
  | .string s, .string => simp only [Term.isTruthy, Option.some.injEq] at h; exact h ▸ rfl
  | .expr e, .expr he => exact truthy_expr e _ _ _ h he
  | .prefab _ _, .prefab _ _ => simp only [Term.isTruthy, Option.some.injEq] at h; exact h ▸ rfl
  | .newPrefab _ _ _ _, .new _ _ => simp only [Term.isTruthy, Option.some.injEq] at h; exact h ▸ rfl
  | .newPrefab _ _ _ _, .newArgs _ _ _ => simp only [Term.isTruthy, Option.some.injEq] at h; exact h ▸ rfl
  | .newImplicit _ _, .newImplicit => simp only [Term.isTruthy, Option.some.injEq] at h; exact h ▸ rfl
  | .newImplicit _ _, .newImplicitArgs _ => simp only [Term.isTruthy, Option.some.injEq] at h; exact h ▸ rfl
  | .list _, .list _ => simp only [Term.isTruthy, Option.some.injEq] at h; exact h ▸ rfl
end

/-- **C55** when the linter takes an expression for always true or always false, and the expression has a constant
value, then the value is so -/
theorem is_truthy_sound (e : Expr) (hint : Option TreePath) (b : Bool) (c : Cst) (h : e.isTruthy = some b)
    (hf : Folds lib env L ty hint e c) : b = true ↔ Truthy c := by
  rw [truthy_expr e hint b c h hf, toBool_iff]

namespace Demo

/-- `c = a * b` on the subtype: both names are found, `a` on the parent -/
example : ∃ c, Folds lib0 env0 (namesOf lib0 env0) 2 none (.binary .mul (ref "a") (ref "b")) c :=
  ⟨_, (variable_folds (2, "c".toList) plain _ _ _ rfl rfl rfl rfl rfl).1 ⟨3, rfl⟩⟩

/-- `"" || (null ? x : "a" + "b")` is `"ab"` although `x` has no value -/
def sample : Expr :=
  .binary .or (.base (.string []) [])
    (.base (.expr (.ternary (.base .null []) (ref "x")
      (.binary .add (.base (.string ['a']) []) (.base (.string ['b']) [])))) [])

theorem sample_folds : Folds lib0 env0 (namesOf lib0 env0) 1 none sample (.string ['a', 'b']) :=
  .binary (.base_nil .string)
    (.base_nil (.expr (.if_false (.base_nil .null) (fun h => h.1 _ rfl)
      (.binary (.base_nil .string) (.base_nil .string) (.concat ['a'] ['b'])))))
    (.or_false fun h => h.2.1 rfl)

/-- `!(1 && "x") || 0` is known to be false, and its value is 0 -/
def dull : Expr :=
  .binary .or (.base (.expr (.binary .and (num 1) (.base (.string ['x']) []))) [.unary .not]) (num 0)

example : dull.isTruthy = some false := by rfl
theorem dull_folds : Folds lib0 env0 (namesOf lib0 env0) 1 none dull (.num 0) := by
  refine .binary (a := .num 0) (b := .num 0)
    (.base_cons (c := .string ['x']) (.expr (.binary (.base_nil .int) (.base_nil .string) (.and_true ?_)))
      (.cons (.unary (.not (.no fun h => h ?_))) .nil))
    (.base_nil .int) (.or_false fun h => h.2.2 false ?_)
  · rw [← toBool_iff]; exact F32.nonzero_ofInt 1
  · rw [← toBool_iff]; rfl
  · simp [Cst.num, F32.ofInt, F32.ofRat]
example : ¬ Truthy (.num 0) := fun h => by
  have := (is_truthy_sound dull none false _ rfl dull_folds).2 h
  cases this

end Demo

end Verif.Const
