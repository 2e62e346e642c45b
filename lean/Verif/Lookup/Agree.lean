import Verif.Lookup.Main

/-!
# The symbol under the cursor, Go to Type Definition, Signature Help and hovers, and how they agree
-/

namespace Verif.Lookup

open Verif.Typing (Ident Loc PathOp)
open Verif.Refs (Sym)

variable (W : World)

/-! ### The symbol under the cursor -/

theorem last_fold {α : Type} (a : Place) (f : Ann → Option α) (R : Ann → α → Prop) (hR : ∀ x y, f x = some y ↔ R x y)
    (r : Option α) : a.foldl (fun r x => (f x.2).or r) r = r ∧ (∀ z ∈ a, ∀ y, ¬ R z.2 y) ∨
      ∃ y, a.foldl (fun r x => (f x.2).or r) r = some y ∧ Last a R y := by
  induction a generalizing r with
  | nil => exact .inl ⟨rfl, nofun⟩
  | cons x a ih =>
    rw [List.foldl_cons]
    rcases ih ((f x.2).or r) with ⟨h1, h2⟩ | ⟨y, h1, pre, l, e, post, rfl, h2, h3⟩
    · rw [h1]
      cases hf : f x.2 with
      | some y => exact .inr ⟨y, rfl, [], x.1, x.2, a, rfl, (hR _ _).1 hf, h2⟩
      | none =>
        refine .inl ⟨rfl, ?_⟩
        intro z hz y h
        cases hz with
        | head => rw [(hR _ _).2 h] at hf; cases hf
        | tail _ hz => exact h2 z hz y h
    · exact .inr ⟨y, h1, x :: pre, l, e, post, rfl, h2, h3⟩

theorem last_unique {α : Type} {a : Place} {R : Ann → α → Prop} (hu : ∀ x y y', R x y → R x y' → y = y') {y y' : α}
    (h : Last a R y) (h' : Last a R y') : y = y' := by
  obtain ⟨pre, l, x, post, rfl, h1, h2⟩ := h
  obtain ⟨pre', l', x', post', he, h1', h2'⟩ := h'
  induction pre generalizing pre' with
  | nil =>
    cases pre' with
    | nil => cases he; exact hu _ _ _ h1 h1'
    | cons z pre' =>
      cases he
      exact absurd h1' (h2 (l', x') (by simp) y')
  | cons z pre ih =>
    cases pre' with
    | nil =>
      cases he
      exact absurd h1 (h2' (l, x) (by simp) y)
    | cons z' pre' =>
      rw [List.cons_append, List.cons_append] at he
      exact ih pre' (List.cons.inj he).2

theorem last_iff {α : Type} (a : Place) (f : Ann → Option α) (R : Ann → α → Prop) (hR : ∀ x y, f x = some y ↔ R x y) (y : α) :
    a.foldl (fun r x => (f x.2).or r) none = some y ↔ Last a R y := by
  have hu : ∀ x y y', R x y → R x y' → y = y' := by
    intro x y y' h h'
    have h1 := (hR _ _).2 h
    rw [(hR _ _).2 h'] at h1
    cases h1; rfl
  rcases last_fold a f R hR none with ⟨h1, h2⟩ | ⟨z, h1, h2⟩
  · rw [h1]
    constructor
    · intro h; cases h
    · rintro ⟨pre, l, x, post, rfl, h, _⟩
      exact absurd h (h2 (l, x) (List.mem_append_right _ (.head _)) y)
  · rw [h1]
    constructor
    · intro h; cases h; exact h2
    · intro h; rw [last_unique hu h2 h]

theorem below_decl (n : Ident) (i j : Nat) {α : Type} (mk : Nat → α) (hmk : ∀ x y, mk x = mk y → x = y) :
    ((W.lineBelow i).findSome? fun j => ((W.procs j).lookup n).bind fun q => q.decl.map fun _ => mk j) = some (mk j) ↔
      Nearest W false (DeclaresProc W n) i j := by
  refine (nearest_findSome W false (fun j => ((W.procs j).lookup n).bind fun q => q.decl.map fun _ => mk j) i (mk j)).trans ?_
  constructor
  · rintro ⟨k, hn, hk⟩
    obtain ⟨q, hq, hk⟩ := Option.bind_eq_some_iff.1 hk
    obtain ⟨v, hv, hk⟩ := Option.map_eq_some_iff.1 hk
    have := hmk _ _ hk
    subst this
    exact (nearest_congr W fun k => declaresProc_iff W n k (mk k)).1 hn
  · intro hn
    refine ⟨j, (nearest_congr W fun k => declaresProc_iff W n k (mk k)).2 hn, ?_⟩
    obtain ⟨q, v, hq, hv⟩ := nearest_holds W hn
    rw [hq]; simp [hv]

theorem declaresVar_iff (n : Ident) (k : Nat) {α : Type} (g : List Ident → α) :
    (((W.vars k).lookup n).bind fun v => v.decl.map g).isSome = true ↔ ∃ p, DeclaresVar W n k p := by
  unfold DeclaresVar
  cases (W.vars k).lookup n with
  | none => simp
  | some v => cases hv : v.decl <;> simp [hv]

theorem symbolOf_iff (a : Place) (e : Ann) (s : Sym) : W.symbolOf a e = some s ↔ Means W a e s := by
  have hh := (home_iff W a _).1 rfl
  cases e with
  | «variable» p =>
    simp only [World.symbolOf]
    rcases List.eq_nil_or_concat p with rfl | ⟨p, n, rfl⟩
    · constructor
      · intro h; cases h
      · intro h
        generalize he : Ann.«variable» [] = e at h
        cases h with
        | «variable» _ _ => exact absurd (Ann.«variable».inj he) (by simp)
        | _ => cases he
    · rw [List.concat_eq_append]
      simp only [List.getLast?_concat, List.dropLast_concat, Option.map_eq_some_iff]
      constructor
      · rintro ⟨⟨j, path⟩, hd, rfl⟩
        exact .«variable» ((walk_iff ..).1 rfl) ((varDecl_iff ..).1 hd)
      · intro h
        generalize he : Ann.«variable» (p ++ [n]) = e at h
        cases h with
        | «variable» hw hd =>
          obtain ⟨rfl, he2⟩ := List.append_inj' (Ann.«variable».inj he) rfl
          cases he2
          rw [(walk_iff ..).2 hw]
          exact ⟨_, (varDecl_iff ..).2 hd, rfl⟩
        | _ => cases he
  | procHeader p idx =>
    simp only [World.symbolOf]
    rcases List.eq_nil_or_concat p with rfl | ⟨p, n, rfl⟩
    · constructor
      · intro h; cases h
      · intro h
        generalize he : Ann.procHeader [] idx = e at h
        cases h with
        | header _ _ => exact absurd (Ann.procHeader.inj he).1 (by simp)
        | _ => cases he
    · rw [List.concat_eq_append]
      simp only [List.getLast?_concat, List.dropLast_concat, Option.map_eq_some_iff]
      constructor
      · rintro ⟨j, hd, rfl⟩
        exact .header ((walk_iff ..).1 rfl) ((procDecl_iff ..).1 hd)
      · intro h
        generalize he : Ann.procHeader (p ++ [n]) idx = e at h
        cases h with
        | header hw hd =>
          obtain ⟨he1, rfl⟩ := Ann.procHeader.inj he
          obtain ⟨rfl, he2⟩ := List.append_inj' he1 rfl
          cases he2
          rw [(walk_iff ..).2 hw]
          exact ⟨_, (procDecl_iff ..).2 hd, rfl⟩
        | _ => cases he
  | treePath absolute p =>
    simp only [World.symbolOf, Option.map_eq_some_iff]
    constructor
    · rintro ⟨i, hi, rfl⟩
      exact .treePath ((fullPath_iff ..).1 rfl) ((typeByPath_iff ..).1 hi)
    · intro h
      cases h with
      | treePath hf ht =>
        rw [(fullPath_iff ..).2 hf]
        exact ⟨_, (typeByPath_iff ..).2 ht, rfl⟩
  | typePath p =>
    simp only [World.symbolOf]
    constructor
    · intro h
      rcases ht : W.typePath a p with _ | ⟨i, d, _ | ⟨n, k⟩⟩
      · rw [ht] at h; cases h
      · rw [ht] at h
        cases d with
        | none => cases h; exact .pathType ((pathTy_iff ..).1 ht)
        | some _ => cases h
      · rw [ht] at h
        have hp := (pathTy_iff ..).1 ht
        cases d with
        | none => cases hp
        | some verb =>
          obtain ⟨j, hj, rfl⟩ := Option.map_eq_some_iff.1 h
          exact .pathProc hp ((procDecl_iff ..).1 hj)
    · intro h
      cases h with
      | pathType h => rw [(pathTy_iff ..).2 h]
      | pathProc h hd =>
        rw [(pathTy_iff ..).2 h]
        exact Option.map_eq_some_iff.2 ⟨_, (procDecl_iff ..).2 hd, rfl⟩
  | unscopedCall n =>
    simp only [World.symbolOf, Option.map_eq_some_iff]
    constructor
    · rintro ⟨j, hj, rfl⟩; exact .call hh ((procDecl_iff ..).1 hj)
    · intro h
      cases h with
      | call hi hj =>
        rw [home_unique W hh hi]
        exact ⟨_, (procDecl_iff ..).2 hj, rfl⟩
  | unscopedVar n =>
    simp only [World.symbolOf]
    constructor
    · intro h
      cases hu : W.unscoped a (W.context a).1 (W.context a).2 n with
      | var i =>
        rw [hu] at h
        obtain ⟨⟨j, path⟩, hd, rfl⟩ := Option.map_eq_some_iff.1 h
        exact .var ((unscoped_var ..).1 hu) ((varDecl_iff ..).1 hd)
      | param _ _ _ => rw [hu] at h; cases h
      | «local» _ _ => rw [hu] at h; cases h
      | none => rw [hu] at h; cases h
    · intro h
      cases h with
      | var hv hd =>
        rw [(unscoped_var ..).2 hv]
        exact Option.map_eq_some_iff.2 ⟨_, (varDecl_iff ..).2 hd, rfl⟩
  | scopedCall priors n =>
    simp only [World.symbolOf, Option.bind_eq_some_iff]
    constructor
    · rintro ⟨i, hi, h⟩
      have : ∃ j, s = .proc j n := by
        obtain ⟨_, j, _, _, hj, _⟩ := List.findSome?_eq_some_iff.1 h
        obtain ⟨q, _, hj⟩ := Option.bind_eq_some_iff.1 hj
        obtain ⟨_, _, rfl⟩ := Option.map_eq_some_iff.1 hj
        exact ⟨j, rfl⟩
      obtain ⟨j, rfl⟩ := this
      exact .scopedCall ((scoped_iff ..).1 hi)
        ((below_decl W n i j (fun j => Sym.proc j n) (fun x y h => by cases h; rfl)).1 h)
    · intro h
      cases h with
      | scopedCall hi hj =>
        exact ⟨_, (scoped_iff ..).2 hi, (below_decl W n _ _ (fun j => Sym.proc j n) (fun x y h => by cases h; rfl)).2 hj⟩
  | scopedVar priors n =>
    simp only [World.symbolOf, Option.bind_eq_some_iff]
    constructor
    · rintro ⟨i, hi, h⟩
      obtain ⟨j, hn, hj⟩ := (nearest_findSome W false (fun j => ((W.vars j).lookup n).bind fun v => v.decl.map fun _ => Sym.var j n)
        i s).1 h
      obtain ⟨v, _, hj⟩ := Option.bind_eq_some_iff.1 hj
      obtain ⟨_, _, rfl⟩ := Option.map_eq_some_iff.1 hj
      exact .scopedVar ((scoped_iff ..).1 hi) ((nearest_congr W fun k => declaresVar_iff W n k _).1 hn)
    · intro h
      cases h with
      | scopedVar hi hj =>
        refine ⟨_, (scoped_iff ..).2 hi, ?_⟩
        refine (nearest_findSome W false (fun j => ((W.vars j).lookup n).bind fun v => v.decl.map fun _ => Sym.var j n)
          _ _).2 ⟨_, (nearest_congr W fun k => declaresVar_iff W n k _).2 hj, ?_⟩
        obtain ⟨p, v, hv, hp⟩ := nearest_holds W hj
        rw [hv]; simp [hp]
  | _ =>
    constructor
    · intro h; cases h
    · intro h; cases h

/-- **The symbol under the cursor, which Find References looks for, is that of the last name at the place that stands for
one.** -/
theorem symbolAt_iff (a : Place) (s : Sym) : W.symbolAt a = some s ↔ Last a (Means W a) s :=
  last_iff a (W.symbolOf a) (Means W a) (symbolOf_iff W a) s

/-! ### Go to Type Definition -/

theorem typePathOf_iff (a : Place) (e : Ann) (p : List Ident) : W.typePathOf a e = some p ↔ TypePathOf W a e p := by
  cases e with
  | unscopedVar n =>
    have : W.typePathOf a (.unscopedVar n) = W.pathOf a n := rfl
    rw [this, pathOf_iff]
    exact ⟨.unscoped, fun h => by cases h with | unscoped h => exact h⟩
  | scopedVar priors n =>
    simp only [World.typePathOf, Option.bind_eq_some_iff]
    have hid : ∀ k, (((W.vars k).lookup n).bind fun v => v.decl) = ((W.vars k).lookup n).bind fun v => v.decl.map id := by
      intro k; simp
    constructor
    · rintro ⟨i, hi, h⟩
      obtain ⟨j, hn, hj⟩ := (nearest_findSome W false (fun j => ((W.vars j).lookup n).bind fun v => v.decl) i p).1 h
      obtain ⟨v, hv, hp⟩ := Option.bind_eq_some_iff.1 hj
      exact .«scoped» ((scoped_iff ..).1 hi) ((nearest_congr W fun k => by rw [hid]; exact declaresVar_iff W n k id).1 hn) ⟨v, hv, hp⟩
    · intro h
      cases h with
      | «scoped» hi hn hd =>
        refine ⟨_, (scoped_iff ..).2 hi, ?_⟩
        refine (nearest_findSome W false (fun j => ((W.vars j).lookup n).bind fun v => v.decl) _ p).2
          ⟨_, (nearest_congr W fun k => by rw [hid]; exact declaresVar_iff W n k id).2 hn, ?_⟩
        obtain ⟨v, hv, hp⟩ := hd
        rw [hv]; exact hp
  | _ =>
    constructor
    · intro h; cases h
    · intro h; cases h

/-- **Go to Type Definition leads to the declared type of the variable, if it has one.** -/
theorem gotoType_iff (a : Place) (i : Nat) :
    W.gotoType a = some i ↔ ∃ p, p ≠ [] ∧ Last a (TypePathOf W a) p ∧ TypeAt W p i := by
  have hfold : ∀ (l : Place) (r : Option (List Ident)),
      l.foldl (fun r x => (W.typePathOf a x.2).getD r) (r.getD []) =
        (l.foldl (fun r x => (W.typePathOf a x.2).or r) r).getD [] := by
    intro l
    induction l with
    | nil => intro r; rfl
    | cons x l ih =>
      intro r
      rw [List.foldl_cons, List.foldl_cons, ← ih]
      cases W.typePathOf a x.2 <;> rfl
  have hl := last_iff a (W.typePathOf a) (TypePathOf W a) (typePathOf_iff W a)
  unfold World.gotoType
  have h0 := hfold a none
  rw [Option.getD_none] at h0
  rw [h0]
  cases hf : a.foldl (fun r x => (W.typePathOf a x.2).or r) none with
  | none =>
    constructor
    · intro h; cases h
    · rintro ⟨p, _, hp, _⟩
      rw [(hl p).2 hp] at hf; cases hf
  | some p =>
    cases p with
    | nil =>
      constructor
      · intro h; cases h
      · rintro ⟨p, hne, hp, _⟩
        rw [(hl p).2 hp] at hf; cases hf; exact absurd rfl hne
    | cons x p =>
      simp only [Option.getD_some]
      rw [typeByPath_iff]
      constructor
      · intro h; exact ⟨x :: p, by simp, (hl _).1 hf, h⟩
      · rintro ⟨p', _, hp, ht⟩
        rw [(hl p').2 hp] at hf; cases hf; exact ht

/-! ### Signature Help -/

/-- The forms. -/
def IsArguments : Ann → Prop | .arguments _ _ _ => True | _ => False
/-- The forms. -/
def IsArgument : Ann → Prop | .argument _ => True | _ => False

/-- **Signature Help shows the proc that is called, and the argument that the cursor is in.** -/
theorem signature_iff (a : Place) (j : Nat) (n : Ident) (k : Nat) :
    W.signature a = some (j, n, k) ↔ ∃ l priors idx i, Earliest a IsArguments l (.arguments priors n idx) ∧
      ScopedTy W a priors i ∧ Nearest W (priors = []) (HasProc W n) i j ∧
      ((∃ l', Earliest a IsArgument l' (.argument k)) ∨ (∀ x ∈ a, ¬ IsArgument x.2) ∧ k = idx) := by
  have hargs : ∀ p m i, first a (fun | .arguments priors n idx => some (priors, n, idx) | _ => none) = some (p, m, i) ↔
      ∃ l, Earliest a IsArguments l (.arguments p m i) := by
    intro p m i
    unfold first
    rw [earliest_findSome a IsArguments _ (fun x => by obtain ⟨l, x⟩ := x; cases x <;> simp [IsArguments])]
    constructor
    · rintro ⟨l, x, he, h⟩
      cases x with
      | arguments _ _ _ => cases h; exact ⟨l, he⟩
      | _ => cases h
    · rintro ⟨l, he⟩; exact ⟨l, _, he, rfl⟩
  have harg : ∀ i, first a (fun | .argument i => some i | _ => none) = some i ↔ ∃ l, Earliest a IsArgument l (.argument i) := by
    intro i
    unfold first
    rw [earliest_findSome a IsArgument _ (fun x => by obtain ⟨l, x⟩ := x; cases x <;> simp [IsArgument])]
    constructor
    · rintro ⟨l, x, he, h⟩
      cases x with
      | argument _ => cases h; exact ⟨l, he⟩
      | _ => cases h
    · rintro ⟨l, he⟩; exact ⟨l, _, he, rfl⟩
  have hnone : first a (fun | .argument i => some i | _ => none) = none ↔ ∀ x ∈ a, ¬ IsArgument x.2 := by
    unfold first
    rw [List.findSome?_eq_none_iff]
    refine forall_congr' fun x => forall_congr' fun _ => ?_
    obtain ⟨l, x⟩ := x
    cases x <;> simp [IsArgument]
  have hidx : ∀ idx, (first a (fun | .argument i => some i | _ => none)).getD idx = k ↔
      ((∃ l', Earliest a IsArgument l' (.argument k)) ∨ (∀ x ∈ a, ¬ IsArgument x.2) ∧ k = idx) := by
    intro idx
    cases h : first a (fun | .argument i => some i | _ => none) with
    | some i =>
      rw [Option.getD_some]
      constructor
      · rintro rfl; exact .inl ((harg _).1 h)
      · rintro (h' | ⟨h', _⟩)
        · rw [(harg _).2 h'] at h; cases h; rfl
        · rw [hnone.2 h'] at h; cases h
    | none =>
      rw [Option.getD_none]
      constructor
      · rintro rfl; exact .inr ⟨hnone.1 h, rfl⟩
      · rintro (h' | ⟨_, h'⟩)
        · rw [(harg _).2 h'] at h; cases h
        · exact h'.symm
  have hline : ∀ (priors : List Ident) (i : Nat),
      (if priors = [] then W.line i else W.lineBelow i) = W.lineOf (decide (priors = [])) i := by
    intro priors i
    unfold World.lineOf
    by_cases h : priors = [] <;> simp [h]
  unfold World.signature
  cases h : first a (fun | .arguments priors n idx => some (priors, n, idx) | _ => none) with
  | none =>
    constructor
    · intro h; cases h
    · rintro ⟨l, priors, idx, i, he, _⟩
      rw [(hargs ..).2 ⟨l, he⟩] at h; cases h
  | some x =>
    obtain ⟨priors, m, idx⟩ := x
    obtain ⟨l, he⟩ := (hargs ..).1 h
    simp only [hline, Option.bind_eq_some_iff, Option.map_eq_some_iff, Prod.mk.injEq]
    constructor
    · rintro ⟨i, hi, j', hj, rfl, rfl, hk⟩
      exact ⟨l, priors, idx, i, he, (scoped_iff ..).1 hi, (procOn_iff ..).1 hj, (hidx idx).1 hk⟩
    · rintro ⟨l', priors', idx', i, he', hi, hj, hk⟩
      obtain ⟨_, h2⟩ := earliest_unique he he'
      cases h2
      exact ⟨i, (scoped_iff ..).2 hi, j, (procOn_iff ..).2 hj, rfl, rfl, (hidx idx).2 hk⟩

/-! ### Hovers -/

/-- The type has docs of its own for a variable. -/
def VarDocs (n : Ident) (i : Nat) : Prop := ∃ v, (W.vars i).lookup n = some v ∧ v.docs = true

/-- The type has docs of its own for a proc: with its latest definition. -/
def ProcDocs (n : Ident) (i : Nat) : Prop :=
  ∃ q ps, (W.procs i).lookup n = some q ∧ q.defs.getLast? = some (ps, true)

theorem fold_last (f : Nat → Bool) (l : List Nat) (r : Option Nat) (j : Nat) (hr : r ≠ some j ∨ r = none) :
    l.foldl (fun r k => if f k then some k else r) r = some j ↔
      ∃ pre post, l = pre ++ j :: post ∧ f j = true ∧ ∀ k ∈ post, f k = false := by
  have key : ∀ (l : List Nat) (r : Option Nat), l.foldl (fun r k => if f k then some k else r) r = some j ↔
      (∃ pre post, l = pre ++ j :: post ∧ f j = true ∧ ∀ k ∈ post, f k = false) ∨ (r = some j ∧ ∀ k ∈ l, f k = false) := by
    intro l
    induction l with
    | nil => intro r; simp
    | cons x l ih =>
      intro r
      rw [List.foldl_cons, ih]
      constructor
      · rintro (⟨pre, post, rfl, h1, h2⟩ | ⟨h1, h2⟩)
        · exact .inl ⟨x :: pre, post, rfl, h1, h2⟩
        · by_cases hx : f x = true
          · rw [if_pos hx] at h1; cases h1
            exact .inl ⟨[], l, rfl, hx, h2⟩
          · rw [if_neg hx] at h1
            refine .inr ⟨h1, fun k hk => ?_⟩
            cases hk with
            | head => simpa using hx
            | tail _ hk => exact h2 k hk
      · rintro (⟨pre, post, h, h1, h2⟩ | ⟨h1, h2⟩)
        · cases pre with
          | nil => cases h; exact .inr ⟨if_pos h1, h2⟩
          | cons y pre => cases h; exact .inl ⟨pre, post, rfl, h1, h2⟩
        · have hx := h2 x (.head _)
          exact .inr ⟨by rw [if_neg (by simp [hx])]; exact h1, fun k hk => h2 k (.tail _ hk)⟩
  rw [key]
  constructor
  · rintro (h | ⟨h, _⟩)
    · exact h
    · rcases hr with hr | hr
      · exact absurd h hr
      · rw [hr] at h; cases h
  · exact .inl

/-- **The docs shown for a variable are those of the farthest ancestor that has any.** -/
theorem hoverVar_docs (n : Ident) (l : List Nat) (j : Nat) :
    (W.hoverVar n l).2 = some j ↔ ∃ pre post, l = pre ++ j :: post ∧ VarDocs W n j ∧ ∀ k ∈ post, ¬ VarDocs W n k := by
  have hf : ∀ k, (((W.vars k).lookup n).map VarEntry.docs).getD false = true ↔ VarDocs W n k := by
    intro k
    unfold VarDocs
    cases (W.vars k).lookup n <;> simp
  have he : (W.hoverVar n l).2 =
      l.foldl (fun r k => if (((W.vars k).lookup n).map VarEntry.docs).getD false then some k else r) none := by
    unfold World.hoverVar
    simp only []
    congr 1
    funext r k
    cases (W.vars k).lookup n <;> simp
  rw [he, fold_last _ l none j (.inr rfl)]
  simp only [hf, ← Bool.not_eq_true]

/-- **The same for a proc.** -/
theorem hoverProc_docs (n : Ident) (l : List Nat) (j : Nat) :
    (W.hoverProc n l).2 = some j ↔ ∃ pre post, l = pre ++ j :: post ∧ ProcDocs W n j ∧ ∀ k ∈ post, ¬ ProcDocs W n k := by
  have hf : ∀ k, (((W.procs k).lookup n).map fun q => (q.defs.getLast?.map Prod.snd).getD false).getD false = true ↔
      ProcDocs W n k := by
    intro k
    unfold ProcDocs
    cases (W.procs k).lookup n with
    | none => simp
    | some q =>
      simp only [Option.map_some, Option.getD_some, Option.some.injEq, exists_and_left, exists_eq_left']
      cases q.defs.getLast? with
      | none => simp
      | some x => obtain ⟨ps, b⟩ := x; simp
  have he : (W.hoverProc n l).2 = l.foldl (fun r k =>
      if (((W.procs k).lookup n).map fun q => (q.defs.getLast?.map Prod.snd).getD false).getD false then some k else r) none := by
    unfold World.hoverProc
    simp only []
    congr 1
    funext r k
    cases (W.procs k).lookup n <;> simp
  rw [he, fold_last _ l none j (.inr rfl)]
  simp only [hf, ← Bool.not_eq_true]

/-- The hover lists the types that declare it, nearest first. -/
theorem hover_lists (n : Ident) (l : List Nat) (j : Nat) :
    (j ∈ (W.hoverVar n l).1 ↔ j ∈ l ∧ ∃ p, DeclaresVar W n j p) ∧ (j ∈ (W.hoverProc n l).1 ↔ j ∈ l ∧ DeclaresProc W n j) ∧
      List.Sublist (W.hoverVar n l).1 l ∧ List.Sublist (W.hoverProc n l).1 l := by
  unfold World.hoverVar World.hoverProc
  refine ⟨?_, ?_, List.filter_sublist, List.filter_sublist⟩
  · rw [List.mem_filter]
    refine and_congr Iff.rfl ?_
    unfold DeclaresVar
    cases (W.vars j).lookup n with
    | none => simp
    | some v => cases hv : v.decl <;> simp [hv]
  · rw [List.mem_filter]
    refine and_congr Iff.rfl ?_
    unfold DeclaresProc
    cases (W.procs j).lookup n with
    | none => simp
    | some v => cases hv : v.decl <;> simp [hv]

/-! ### Completing a name and then going to it -/

/-- The annotations of what is around a place, as opposed to the name that is there. -/
def isFrame : Ann → Bool
  | .procBody _ _ | .treeBlock _ | .localVar _ _ => true
  | _ => false

/-- What is around a place. -/
def around (a : Place) : Place := a.filter fun x => isFrame x.2

theorem findSome_around {α : Type} (a : Place) (f : Loc × Ann → Option α) (h : ∀ x, isFrame x.2 = false → f x = none) :
    a.findSome? f = (around a).findSome? f := by
  unfold around
  induction a with
  | nil => rfl
  | cons x a ih =>
    by_cases hx : isFrame x.2 = true
    · rw [List.filter_cons_of_pos (p := fun x : Loc × Ann => isFrame x.2) hx, List.findSome?_cons, List.findSome?_cons, ih]
    · rw [List.filter_cons_of_neg (p := fun x : Loc × Ann => isFrame x.2) hx, List.findSome?_cons, h x (by simpa using hx), ih]

theorem first_around {α : Type} (a : Place) (f : Ann → Option α) (h : ∀ x, isFrame x = false → f x = none) :
    first a f = first (around a) f := findSome_around a _ fun x hx => h x.2 hx

theorem context_around {a b : Place} (h : around a = around b) : W.context a = W.context b := by
  have key : ∀ {α : Type} (f : Ann → Option α), (∀ x, isFrame x = false → f x = none) → first a f = first b f := by
    intro α f hf
    rw [first_around a f hf, h, ← first_around b f hf]
  rw [context_eq, context_eq]
  unfold World.bodyTy bodyName
  rw [key, key]
  all_goals
    intro x hx
    cases x <;> first | rfl | cases hx

theorem unscoped_around {a b : Place} (h : around a = around b) (ty : Option Nat) (proc : Option (Ident × Nat)) (n : Ident) :
    W.unscoped a ty proc n = W.unscoped b ty proc n := by
  have key : ∀ {α : Type} (f : Loc × Ann → Option α), (∀ x, isFrame x.2 = false → f x = none) →
      a.findSome? f = b.findSome? f := by
    intro α f hf
    rw [findSome_around a f hf, h, ← findSome_around b f hf]
  unfold World.unscoped
  rw [key]
  rintro ⟨l, x⟩ hx
  cases x <;> first | rfl | cases hx

theorem scoped_around {a b : Place} (h : around a = around b) (priors : List Ident) : W.scoped a priors = W.scoped b priors := by
  cases priors with
  | nil => unfold World.scoped; rw [context_around W h]
  | cons x rest =>
    unfold World.scoped
    simp only [context_around W h, unscoped_around W h]

theorem localNames_around {a b : Place} (h : around a = around b) : localNames a = localNames b := by
  have : ∀ a : Place, localNames a = localNames (around a) := by
    intro a
    unfold localNames around
    induction a with
    | nil => rfl
    | cons x a ih =>
      obtain ⟨l, x⟩ := x
      by_cases hx : isFrame x = true
      · rw [List.filter_cons_of_pos (p := fun x : Loc × Ann => isFrame x.2) hx, List.filterMap_cons, List.filterMap_cons, ih]
      · rw [List.filter_cons_of_neg (p := fun x : Loc × Ann => isFrame x.2) hx, List.filterMap_cons, ← ih]
        cases x <;> first | rfl | exact absurd rfl hx
  rw [this a, h, ← this b]

/-- **After `a.b.`, a variable or proc is offered exactly if going to `a.b.name` leads to it.**  The two places have the same
surroundings: the one where the name is missing, and the one where it has been filled in. -/
theorem complete_then_goto (q : Ident → Ident → Bool) (a b : Place) (hw : ∀ y ∈ a, WellFormed y.2) (l : Loc)
    (priors : List Ident) (n : Ident) (j : Nat) (hq : q n "" = true) (ha : Earliest a IsError l (.missingIdent priors))
    (hab : around a = around b) :
    (Item.var j n ∈ W.completion q a ↔ W.gotoOf b (.scopedVar priors n) = some (.var j n)) ∧
      (Item.proc j n ∈ W.completion q a ↔ W.gotoOf b (.scopedCall priors n) = some (.proc j n)) := by
  have hs : ∀ i, ScopedTy W a priors i ↔ ScopedTy W b priors i := by
    intro i; rw [← scoped_iff, ← scoped_iff, scoped_around W hab]
  have hoff : ∀ x, Offered W q a x ↔ ∃ m, q m "" = true ∧ ScopedOffer W a priors m x := by
    intro x
    constructor
    · intro h
      cases h with
      | error he h hq =>
        obtain ⟨_, rfl⟩ := earliest_unique ha he
        cases h with | missingIdent h => exact ⟨_, hq, h⟩
      | name hno _ _ _ => exact absurd (earliest_mem ha).2 (hno _ (earliest_mem ha).1)
      | body hno _ _ _ _ => exact absurd (earliest_mem ha).2 (hno _ (earliest_mem ha).1)
      | tree hno _ _ _ _ _ => exact absurd (earliest_mem ha).2 (hno _ (earliest_mem ha).1)
    · rintro ⟨m, hq, h⟩; exact .error ha (.missingIdent h) hq
  rw [completion_iff W q a hw, completion_iff W q a hw, gotoOf_iff, gotoOf_iff, hoff, hoff]
  refine ⟨⟨?_, ?_⟩, ?_, ?_⟩
  · rintro ⟨m, _, h⟩
    cases h with
    | mk hi hm => cases hm with | var hn => exact .scopedVar ((hs _).1 hi) hn
  · intro h
    cases h with | scopedVar hi hn => exact ⟨n, hq, .mk ((hs _).2 hi) (.var hn)⟩
  · rintro ⟨m, _, h⟩
    cases h with
    | mk hi hm => cases hm with | proc hn => exact .scopedCall ((hs _).1 hi) hn
  · intro h
    cases h with | scopedCall hi hn => exact ⟨n, hq, .mk ((hs _).2 hi) (.proc hn)⟩

/-- **Where a name can start, everything offered can be gone to**: a local variable, a parameter unless a local variable has its
name, a variable unless one of these has its name, and a proc always. -/
theorem unscoped_then_goto (q : Ident → Bool) (a b : Place) (hab : around a = around b) (n : Ident) :
    (Item.local n ∈ W.unscopedItems q a → ∃ l, W.gotoOf b (.unscopedVar n) = some (.local l)) ∧
      (Item.param n ∈ W.unscopedItems q a → Item.local n ∉ W.unscopedItems q a →
        ∃ i m, W.gotoOf b (.unscopedVar n) = some (.param i m n)) ∧
      (∀ j, Item.var j n ∈ W.unscopedItems q a → Item.local n ∉ W.unscopedItems q a → Item.param n ∉ W.unscopedItems q a →
        W.gotoOf b (.unscopedVar n) = some (.var j n)) ∧
      (∀ j, Item.proc j n ∈ W.unscopedItems q a → W.gotoOf b (.unscopedCall n) = some (.proc j n)) := by
  have e : W.unscopedItems q a = W.unscopedItems q b := by
    unfold World.unscopedItems
    rw [context_around W hab, localNames_around hab]
  have hname : ∀ {m : Ident} {x : Item}, UnscopedOffer W b m x →
      x = .keyword m ∨ x = .local m ∨ x = .param m ∨ x = .macro m ∨ (∃ j, x = .var j m) ∨ ∃ j, x = .proc j m := by
    intro m x h
    cases h with
    | member _ hm => cases hm <;> simp
    | _ => simp
  have hlocal : ∀ l path, LocalAt b n l path → q n = true → Item.local n ∈ W.unscopedItems q b := by
    intro l path h hq
    exact (unscopedItems_iff ..).2 ⟨n, hq, .local (earliest_mem h).1⟩
  have hmem : ∀ {x}, x ∈ W.unscopedItems q b → ∀ m, (x = .local m ∨ x = .param m ∨ (∃ j, x = .var j m) ∨ ∃ j, x = .proc j m) →
      q m = true ∧ UnscopedOffer W b m x := by
    intro x h m hx
    obtain ⟨m', hq, ho⟩ := (unscopedItems_iff ..).1 h
    have : m' = m := by
      rcases hname ho with rfl | rfl | rfl | rfl | ⟨j, rfl⟩ | ⟨j, rfl⟩ <;>
        rcases hx with h | h | ⟨j', h⟩ | ⟨j', h⟩ <;> first | (cases h; rfl) | cases h
    subst this
    exact ⟨hq, ho⟩
  rw [e]
  simp only [gotoOf_iff]
  refine ⟨?_, ?_, ?_, ?_⟩
  · intro h
    obtain ⟨_, ho⟩ := hmem h n (.inl rfl)
    cases ho with
    | «local» hl =>
      rcases unscoped_cases W b n with ⟨l, path, hl', _⟩ | ⟨hno, _⟩ | ⟨_, hv, _⟩ | ⟨hno, _⟩
      · exact ⟨l, .local hl'⟩
      all_goals
        exfalso
        cases hf : b.findSome? (fun x => match x.2 with
          | .localVar path m => if m = n then some (x.1, path) else none | _ => none) with
        | some x => first | exact hno _ _ ((localAt_iff ..).1 hf) | exact hv.1 _ _ ((localAt_iff ..).1 hf)
        | none =>
          have := List.findSome?_eq_none_iff.1 hf _ hl
          simp at this
    | member _ hm => cases hm
  · intro h hno
    obtain ⟨hq, ho⟩ := hmem h n (.inr (.inl rfl))
    have hnl : ∀ l path, ¬ LocalAt b n l path := fun l path hl => hno (hlocal l path hl hq)
    generalize hx : Item.param n = x at ho
    cases ho with
    | @param ps p hps hp =>
      have hpa : ∃ p', ParamAt W b p.name p' := by
        have hm := (mem_params W b p).2 ⟨ps, hps, hp⟩
        cases hf : (W.paramsHere b).find? (fun p' => decide (p'.name = p.name)) with
        | some p' => exact ⟨p', (paramAt_iff ..).1 hf⟩
        | none =>
          have := List.find?_eq_none.1 hf p hm
          simp at this
      obtain ⟨p', hp'⟩ := hpa
      obtain ⟨body, m, idx, i, _, _, hb, hi, _⟩ := hps
      exact ⟨i, m, .param hnl hp' hb hi⟩
    | member _ hm => cases hm <;> cases hx
    | _ => cases hx
  · intro j h hno hnp
    obtain ⟨hq, ho⟩ := hmem h n (.inr (.inr (.inl ⟨j, rfl⟩)))
    have hnl : ∀ l path, ¬ LocalAt b n l path := fun l path hl => hno (hlocal l path hl hq)
    have hnp' : ∀ p, ¬ ParamAt W b n p := by
      rintro p ⟨ps, pre, post, hps, rfl, rfl, _⟩
      exact hnp ((unscopedItems_iff ..).2 ⟨_, hq, .param hps (by simp)⟩)
    cases ho with
    | member hi hm => cases hm with | var hn => exact .var ⟨hnl, hnp', _, hi, hn⟩
  · intro j h
    obtain ⟨hq, ho⟩ := hmem h n (.inr (.inr (.inr ⟨j, rfl⟩)))
    cases ho with
    | member hi hm => cases hm with | proc hn => exact .call hi hn

/-- **The symbol of a qualified name is declared where Go to Definition leads, or on an ancestor of that.** -/
theorem symbol_above_goto (a : Place) (priors : List Ident) (n : Ident) (j k : Nat)
    (hg : W.gotoOf a (.scopedVar priors n) = some (.var j n)) (hs : W.symbolOf a (.scopedVar priors n) = some (.var k n)) :
    Nearest W false (fun k => ∃ p, DeclaresVar W n k p) j k := by
  rw [gotoOf_iff] at hg
  rw [symbolOf_iff] at hs
  cases hg with
  | scopedVar hi hn =>
    cases hs with
    | scopedVar hi' hd =>
      have := scoped_unique W hi hi'
      subst this
      have hsub : ∀ k, (∃ p, DeclaresVar W n k p) → HasVar W n k := by
        rintro k ⟨p, v, hv, _⟩
        exact (lookup_isSome ..).1 (by rw [hv]; rfl)
      clear hi hi'
      induction hn with
      | here _ => exact hd
      | up hno hp _ _ ih =>
        cases hd with
        | here h => exact absurd (hsub _ h) hno
        | up _ hp' _ h => rw [hp] at hp'; cases hp'; exact ih h

/-! ### The symbol under the cursor is the one that the table of references has for the place -/

theorem varDecl_refs (i : Nat) (n : Ident) : (Refs.varDecl W.tree i n).map Prod.fst = (W.varDecl i n).map Prod.fst := by
  have : ∀ l : List Nat, (l.findSome? fun j => (W.tree.vars j n).map fun d => (j, d)).map Prod.fst =
      (l.findSome? fun j => ((W.vars j).lookup n).bind fun v => v.decl.map fun p => (j, p)).map Prod.fst := by
    intro l
    induction l with
    | nil => rfl
    | cons j l ih =>
      rw [List.findSome?_cons, List.findSome?_cons]
      have : W.tree.vars j n = ((W.vars j).lookup n).bind fun v => v.decl.map fun p => { path := p } := rfl
      rw [this]
      cases (W.vars j).lookup n with
      | none => exact ih
      | some v =>
        cases hv : v.decl with
        | none => simpa [hv] using ih
        | some p => simp [hv]
  exact this _

theorem procDecl_refs (i : Nat) (n : Ident) : Refs.procDecl W.tree i n = W.procDecl i n := by
  have : ∀ l : List Nat, (l.find? fun j => (W.tree.kind j n).isSome) =
      l.findSome? fun j => ((W.procs j).lookup n).bind fun q => q.decl.map fun _ => j := by
    intro l
    induction l with
    | nil => rfl
    | cons j l ih =>
      have hk : W.tree.kind j n = ((W.procs j).lookup n).bind fun q => q.decl.map fun v => if v then "verb" else "proc" := rfl
      have h0 : ((W.procs j).lookup n).bind (fun q => q.decl.map fun v => if v then "verb" else "proc") = none ∨
          ∃ x, ((W.procs j).lookup n).bind (fun q => q.decl.map fun v => if v then "verb" else "proc") = some x := by
        cases ((W.procs j).lookup n).bind (fun q => q.decl.map fun v => if v then "verb" else "proc") with
        | none => exact .inl rfl
        | some x => exact .inr ⟨x, rfl⟩
      rw [List.findSome?_cons]
      cases hq : (W.procs j).lookup n with
      | none =>
        rw [List.find?_cons_of_neg (by rw [hk, hq]; simp)]
        exact ih
      | some q =>
        cases hv : q.decl with
        | none =>
          rw [List.find?_cons_of_neg (by rw [hk, hq]; simp [hv])]
          simpa [hv] using ih
        | some v =>
          rw [List.find?_cons_of_pos (by rw [hk, hq]; simp [hv])]
          simp [hv]
  exact this _

theorem declOn_nearest {n : Ident} {h i j : Nat} {p : List Ident} (hn : Nearest W true (HasVar W n) h i) :
    DeclOn W n h j p ↔ DeclOn W n i j p := by
  have hsub : ∀ k, (∃ p, DeclaresVar W n k p) → HasVar W n k := by
    rintro k ⟨p, v, hv, _⟩
    exact (lookup_isSome ..).1 (by rw [hv]; rfl)
  induction hn with
  | here _ => exact Iff.rfl
  | up hno hp hr _ ih =>
    refine Iff.trans ?_ ih
    unfold DeclOn
    refine and_congr ⟨?_, ?_⟩ Iff.rfl
    · intro hd
      cases hd with
      | here h => exact absurd (hsub _ h) hno
      | up _ hp' _ h => rw [hp] at hp'; cases hp'; exact h
    · intro hd; exact .up (fun h => hno (hsub _ h)) hp hr hd

/-- **With the cursor on an unqualified variable of a type, Find References looks for the very symbol under which this
place is listed.** -/
theorem symbol_var_listed (a : Place) (n : Ident) (c : Refs.Ctx) (hc : c.tree = W.tree) (hty : Home W a c.ty)
    (hl : c.locals n = none) (hno : ∀ l path, ¬ LocalAt a n l path) (hnop : ∀ p, ¬ ParamAt W a n p) (l : Loc) (s : Sym) :
    W.symbolOf a (.unscopedVar n) = some s ↔ (s, l) ∈ (Refs.visitIdent c l n).2 := by
  have hd := varDecl_refs W c.ty n
  have hrec : (s, l) ∈ (Refs.visitIdent c l n).2 ↔ ∃ j p, W.varDecl c.ty n = some (j, p) ∧ s = .var j n := by
    unfold Refs.visitIdent
    rw [hl, hc]
    simp only []
    cases h1 : Refs.varDecl W.tree c.ty n with
    | none =>
      rw [h1] at hd
      cases h2 : W.varDecl c.ty n with
      | none => simp
      | some d => rw [h2] at hd; cases hd
    | some d =>
      rw [h1] at hd
      cases h2 : W.varDecl c.ty n with
      | none => rw [h2] at hd; cases hd
      | some d' =>
        obtain ⟨j, d⟩ := d
        obtain ⟨j', p⟩ := d'
        rw [h2] at hd
        simp only [Option.map_some, Option.some.injEq] at hd
        subst hd
        simp
  rw [hrec, symbolOf_iff]
  constructor
  · intro h
    cases h with
    | @var _ i j path hv hd =>
      obtain ⟨_, _, h, hh, hn⟩ := hv
      have := home_unique W hty hh
      subst this
      exact ⟨j, path, (varDecl_iff ..).2 ((declOn_nearest W hn).2 hd), rfl⟩
  · rintro ⟨j, p, hd, rfl⟩
    have hd := (varDecl_iff ..).1 hd
    have hsub : ∀ k, (∃ p, DeclaresVar W n k p) → HasVar W n k := by
      rintro k ⟨p, v, hv, _⟩
      exact (lookup_isSome ..).1 (by rw [hv]; rfl)
    have hex : ∃ i, Nearest W true (HasVar W n) c.ty i := by
      have : ∀ {x y}, Nearest W true (fun k => ∃ p, DeclaresVar W n k p) x y → ∃ i, Nearest W true (HasVar W n) x i := by
        intro x y h
        induction h with
        | here h => exact ⟨_, .here (hsub _ h)⟩
        | @up x q y hno hp hr _ ih =>
          obtain ⟨i, hi⟩ := ih
          by_cases hx : HasVar W n x
          · exact ⟨x, .here hx⟩
          · exact ⟨i, .up hx hp hr hi⟩
      exact this hd.1
    obtain ⟨i, hi⟩ := hex
    exact .var ⟨hno, hnop, _, hty, hi⟩ ((declOn_nearest W hi).1 hd)

/-- **The same for an unqualified call.** -/
theorem symbol_call_listed (a : Place) (n : Ident) (c : Refs.Ctx) (hc : c.tree = W.tree) (hty : Home W a c.ty) (l : Loc) (s : Sym) :
    W.symbolOf a (.unscopedCall n) = some s ↔ (s, l) ∈ Refs.useProc c l c.ty n := by
  unfold Refs.useProc
  rw [hc, procDecl_refs, show W.symbolOf a (.unscopedCall n) = (W.procDecl ((W.context a).1.getD 0) n).map fun j => .proc j n from rfl,
    (home_iff ..).2 hty]
  cases W.procDecl c.ty n with
  | none => simp
  | some j => simp [eq_comm]

/-- For a qualified name, what is found is what is listed; but a variable of the root is listed and not found. -/
theorem symbol_field_listed (a : Place) (priors : List Ident) (n : Ident) (i : Nat) (hi : ScopedTy W a priors i) (s : Sym)
    (h : W.symbolOf a (.scopedVar priors n) = some s) : (Refs.varDecl W.tree i n).map (fun d => Sym.var d.1 n) = some s := by
  rw [symbolOf_iff] at h
  cases h with
  | @scopedVar _ _ i' j hi' hn =>
    have := scoped_unique W hi hi'
    subst this
    have hup : ∀ {x y}, Nearest W false (fun k => ∃ p, DeclaresVar W n k p) x y →
        Nearest W true (fun k => ∃ p, DeclaresVar W n k p) x y := by
      intro x y h
      induction h with
      | here h => exact .here h
      | up hno hp _ _ ih => exact .up hno hp (.inl rfl) ih
    obtain ⟨p, hp⟩ := nearest_holds W hn
    have hd := (varDecl_iff W i n j p).2 ⟨hup hn, hp⟩
    have he := varDecl_refs W i n
    rw [hd] at he
    obtain ⟨d, hd', he⟩ := Option.map_eq_some_iff.1 he
    rw [hd']
    simp only [Option.map_some]
    exact congrArg some (congrArg (Sym.var · n) he)

end Verif.Lookup
