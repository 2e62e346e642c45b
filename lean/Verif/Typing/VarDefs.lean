import Verif.Typing.Lookup

/-!
# Model of the check of variable definitions, and what it reports (C83)

`crates/dreamchecker/src/lib.rs:1231-1310`.
-/

namespace Verif.Typing

/-- A variable of a type (objtree.rs:63-75): its declaration there, if it is declared there and not only given a value, and
whether the value is built in. -/
structure OwnVar where
  decl : Option VarDecl
  builtin : Bool := false

/-- The object tree with what `check_var_defs` reads. -/
structure VarTree extends Tree where
  /-- The types, in order. -/
  types : List Nat
  /-- `Type::vars` (objtree.rs:160). -/
  own : Nat → List (Ident × OwnVar)

/-- The three messages (lib.rs:1262-1305): the type, the variable and the ancestor. -/
inductive VarMsg
  | redeclares (i : Nat) (n : Ident) (p : Nat)
  | overridesFinal (i : Nat) (n : Ident) (p : Nat)
  | overridesPrivate (i : Nat) (n : Ident) (p : Nat)
  deriving DecidableEq

/-- The loop body for one variable and one ancestor (lib.rs:1243-1305). -/
def VarTree.checkVar (t : VarTree) (i p : Nat) (x : Ident × OwnVar) : List VarMsg :=
  if x.1 = "vars" then []
  else if t.path i = ["client"] ∧ x.1 = "parent_type" then []
  else match ((t.own p).lookup x.1).bind OwnVar.decl with
    | none => []
    | some d =>
      let rest :=
        (if d.isFinal then [.overridesFinal i x.1 p] else []) ++ (if d.isPrivate then [.overridesPrivate i x.1 p] else [])
      match x.2.decl with
      | none => rest
      | some _ => if x.2.builtin then [] else .redeclares i x.1 p :: rest

/-- The ancestors looked at (lib.rs:1235-1241): up to the root, without the type itself. -/
def VarTree.lookedAt (t : VarTree) (i : Nat) : List Nat :=
  ((t.chain i).takeWhile fun p => p ≠ 0).filter fun p => t.path p ≠ t.path i

/-- `check_var_defs` (lib.rs:1231-1310). -/
def VarTree.checkVarDefs (t : VarTree) : List VarMsg :=
  t.types.flatMap fun i => (t.lookedAt i).flatMap fun p => (t.own i).flatMap fun x => t.checkVar i p x

/-! ## Specification -/

/-- Variable `n` of type `i` as it stands there. -/
def VarTree.Has (t : VarTree) (i : Nat) (n : Ident) (v : OwnVar) : Prop := (n, v) ∈ t.own i

/-- An ancestor other than the root that declares a variable which the type has too. -/
structure Clash (t : VarTree) (i : Nat) (n : Ident) (v : OwnVar) (p : Nat) (d : VarDecl) : Prop where
  type : i ∈ t.types
  has : t.Has i n v
  above : Sub t.toTree i p
  other : p ≠ i
  notRoot : p ≠ 0
  declared : ∃ v', t.Has p n v' ∧ v'.decl = some d
  notVars : n ≠ "vars"
  notParent : ¬ (t.path i = ["client"] ∧ n = "parent_type")
  /-- A declaration in the built-in code is never reported. -/
  notBuiltin : v.decl = none ∨ v.builtin = false

/-- What is due. -/
inductive VarDue (t : VarTree) : VarMsg → Prop
  | redeclares {i : Nat} {n : Ident} {v : OwnVar} {p : Nat} {d d' : VarDecl} :
      Clash t i n v p d → v.decl = some d' → VarDue t (.redeclares i n p)
  | final {i : Nat} {n : Ident} {v : OwnVar} {p : Nat} {d : VarDecl} :
      Clash t i n v p d → d.isFinal = true → VarDue t (.overridesFinal i n p)
  | hidden {i : Nat} {n : Ident} {v : OwnVar} {p : Nat} {d : VarDecl} :
      Clash t i n v p d → d.isPrivate = true → VarDue t (.overridesPrivate i n p)

/-- What a tree is: variables are unique on a type, paths tell types apart, and the root has no parent. -/
structure VarTree.Ok (t : VarTree) : Prop where
  vars : ∀ i, ((t.own i).map Prod.fst).Nodup
  paths : ∀ i j, t.path i = t.path j → i = j
  root : t.parent 0 = none

/-! ## Proof -/

theorem looked_mem (t : Tree) (hr : t.parent 0 = none) (i j : Nat) :
    (j ∈ (t.chain i).takeWhile fun p => p ≠ 0) ↔ Sub t i j ∧ j ≠ 0 := by
  induction i using t.induct with
  | h0 i h =>
    rw [chain_none h]
    by_cases hi : i = 0
    · subst hi
      simp only [ne_eq, not_true_eq_false, decide_false, Bool.false_eq_true, not_false_eq_true, List.takeWhile_cons_of_neg,
        List.not_mem_nil, false_iff]
      rintro ⟨hs, h0⟩
      cases hs with
      | refl => exact h0 rfl
      | up hp _ => rw [h] at hp; cases hp
    · rw [List.takeWhile_cons_of_pos (by simpa using hi)]
      simp only [List.takeWhile_nil, List.mem_singleton]
      constructor
      · rintro rfl; exact ⟨.refl _, hi⟩
      · rintro ⟨hs, _⟩
        cases hs with
        | refl => rfl
        | up hp _ => rw [h] at hp; cases hp
  | h1 i q h ih =>
    have hi : i ≠ 0 := by rintro rfl; rw [hr] at h; cases h
    rw [chain_some h, List.takeWhile_cons_of_pos (by simpa using hi), List.mem_cons, ih]
    constructor
    · rintro (rfl | ⟨hs, h0⟩)
      · exact ⟨.refl _, hi⟩
      · exact ⟨.up h hs, h0⟩
    · rintro ⟨hs, h0⟩
      cases hs with
      | refl => exact .inl rfl
      | up hp hs => rw [h] at hp; cases hp; exact .inr ⟨hs, h0⟩

theorem lookup_mem {β : Type} {l : List (Ident × β)} (h : (l.map Prod.fst).Nodup) (n : Ident) (v : β) :
    l.lookup n = some v ↔ (n, v) ∈ l := by
  induction l with
  | nil => simp
  | cons x l ih =>
    obtain ⟨a, w⟩ := x
    rw [List.map_cons, List.nodup_cons] at h
    rw [List.lookup_cons, List.mem_cons, ← ih h.2]
    by_cases hk : n = a
    · subst hk
      simp only [beq_self_eq_true, Option.some.injEq, Prod.mk.injEq, true_and]
      constructor
      · rintro rfl; exact .inl rfl
      · rintro (rfl | h1)
        · rfl
        · exact absurd (List.mem_map.2 ⟨_, (ih h.2).1 h1, rfl⟩) h.1
    · simp [hk, beq_eq_false_iff_ne.2 hk]

theorem checkVar_mem (t : VarTree) (hok : t.Ok) (i p : Nat) (n : Ident) (v : OwnVar) (m : VarMsg) :
    m ∈ t.checkVar i p (n, v) ↔ n ≠ "vars" ∧ ¬ (t.path i = ["client"] ∧ n = "parent_type") ∧
      (v.decl = none ∨ v.builtin = false) ∧ ∃ d, (∃ v', t.Has p n v' ∧ v'.decl = some d) ∧
      ((∃ d', v.decl = some d') ∧ m = .redeclares i n p ∨ d.isFinal = true ∧ m = .overridesFinal i n p ∨
        d.isPrivate = true ∧ m = .overridesPrivate i n p) := by
  unfold VarTree.checkVar
  simp only
  by_cases h1 : n = "vars"
  · simp [h1]
  rw [if_neg h1]
  by_cases h2 : t.path i = ["client"] ∧ n = "parent_type"
  · simp [h2]
  rw [if_neg h2]
  have hd : ∀ d, ((t.own p).lookup n).bind OwnVar.decl = some d ↔ ∃ v', t.Has p n v' ∧ v'.decl = some d := by
    intro d
    rw [Option.bind_eq_some_iff]
    simp only [lookup_mem (hok.vars p), VarTree.Has]
  cases hb : ((t.own p).lookup n).bind OwnVar.decl with
  | none =>
    simp only [List.not_mem_nil, false_iff]
    rintro ⟨_, _, _, d, h, _⟩
    rw [(hd d).2 h] at hb
    cases hb
  | some d =>
    have hu : ∀ d', (∃ v', t.Has p n v' ∧ v'.decl = some d') ↔ d' = d := by
      intro d'
      rw [← hd, hb, Option.some.injEq, eq_comm]
    simp only [hu, exists_eq_left]
    cases hv : v.decl with
    | none => by_cases hf : d.isFinal = true <;> by_cases hp : d.isPrivate = true <;> simp [h1, h2, hf, hp]
    | some d' =>
      cases hbu : v.builtin with
      | true => simp
      | false => by_cases hf : d.isFinal = true <;> by_cases hp : d.isPrivate = true <;> simp [h1, h2, hf, hp]

/-- **C83**: what is reported about variable definitions, exactly. -/
theorem varDefs_iff (t : VarTree) (hok : t.Ok) (m : VarMsg) : m ∈ t.checkVarDefs ↔ VarDue t m := by
  unfold VarTree.checkVarDefs VarTree.lookedAt
  simp only [List.mem_flatMap, List.mem_filter, looked_mem t.toTree hok.root, Prod.exists, checkVar_mem t hok]
  have hpath : ∀ p i, decide (t.path p ≠ t.path i) = true ↔ p ≠ i := by
    intro p i
    rw [decide_eq_true_eq]
    exact not_congr ⟨hok.paths p i, fun h => by rw [h]⟩
  simp only [hpath]
  constructor
  · rintro ⟨i, hi, p, ⟨⟨hs, h0⟩, hne⟩, n, v, hv, h1, h2, h3, d, hd, hm⟩
    have hc : Clash t i n v p d := ⟨hi, hv, hs, hne, h0, hd, h1, h2, h3⟩
    rcases hm with ⟨⟨d', h4⟩, rfl⟩ | ⟨h4, rfl⟩ | ⟨h4, rfl⟩
    · exact .redeclares hc h4
    · exact .final hc h4
    · exact .hidden hc h4
  · intro h
    cases h with
    | redeclares hc h4 =>
      exact ⟨_, hc.type, _, ⟨⟨hc.above, hc.notRoot⟩, hc.other⟩, _, _, hc.has, hc.notVars, hc.notParent, hc.notBuiltin, _,
        hc.declared, .inl ⟨⟨_, h4⟩, rfl⟩⟩
    | final hc h4 =>
      exact ⟨_, hc.type, _, ⟨⟨hc.above, hc.notRoot⟩, hc.other⟩, _, _, hc.has, hc.notVars, hc.notParent, hc.notBuiltin, _,
        hc.declared, .inr (.inl ⟨h4, rfl⟩)⟩
    | hidden hc h4 =>
      exact ⟨_, hc.type, _, ⟨⟨hc.above, hc.notRoot⟩, hc.other⟩, _, _, hc.has, hc.notVars, hc.notParent, hc.notBuiltin, _,
        hc.declared, .inr (.inr ⟨h4, rfl⟩)⟩

/-- **C83**: a project without such a report: below the root every variable has one declaration on a line of inheritance, and
a lookup finds that one whatever subtype it starts from. -/
theorem varDefs_unique (t : VarTree) (hok : t.Ok) (h : t.checkVarDefs = [])
    (hvars : ∀ i n d, t.vars i n = some d ↔ ∃ v, t.Has i n v ∧ v.decl = some d)
    (hall : ∀ i n v, t.Has i n v → i ∈ t.types) (hbuiltin : ∀ i j n v v', t.Has i n v → v.builtin = true → Sub t.toTree i j → j ≠ i → t.Has j n v' → v'.decl = none)
    {i j : Nat} {n : Ident} {d : VarDecl} (hn : n ≠ "vars") (hn' : n ≠ "parent_type") (hij : Sub t.toTree i j)
    (hj : t.vars j n = some d) (h0 : j ≠ 0) : Declares t.toTree i n d := by
  induction hij with
  | refl j => exact .own hj
  | @up i p j hp hs ih =>
    cases hi : t.vars i n with
    | none => exact .inherited hi hp (ih hj h0)
    | some d' =>
      exfalso
      obtain ⟨v, h1, h2⟩ := (hvars i n d').1 hi
      have hne : j ≠ i := by
        rintro rfl
        have hrank : ∀ a b, Sub t.toTree a b → t.rank b ≤ t.rank a := by
          intro a b hab
          induction hab with
          | refl => exact Nat.le.refl
          | up hp _ ih => have := t.rank_lt _ _ hp; omega
        have := hrank _ _ hs
        have := t.rank_lt _ _ hp
        omega
      have hb : v.builtin = false := by
        cases hb : v.builtin with
        | false => rfl
        | true =>
          obtain ⟨v', h3, h4⟩ := (hvars j n d).1 hj
          rw [hbuiltin i j n v v' h1 hb (.up hp hs) hne h3] at h4
          cases h4
      have : VarMsg.redeclares i n j ∈ t.checkVarDefs := (varDefs_iff t hok _).2
        (.redeclares ⟨hall i n v h1, h1, .up hp hs, hne, h0, (hvars j n d).1 hj, hn, fun hx => hn' hx.2,
          .inr hb⟩ h2)
      rw [h] at this
      cases this

/-- `/a` (1) declares `x`, final, and `y`; `/a/b` (2) gives `x` a value and declares `y` again. -/
def varDemo : VarTree where
  parent := fun
    | 1 => some 0
    | 2 => some 1
    | _ => none
  rank := fun
    | 1 => 1
    | 2 => 2
    | _ => 0
  rank_lt := by
    intro c p h
    match c, h with
    | 1, h => cases h; decide
    | 2, h => cases h; decide
  path := fun
    | 0 => []
    | 1 => ["a"]
    | i + 2 => "a" :: List.replicate (i + 1) "b"
  find := fun _ => none
  nav := fun _ _ => none
  vars := fun i n =>
    if i = 1 ∧ n = "x" then some { path := [], isFinal := true }
    else if (i = 1 ∨ i = 2) ∧ n = "y" then some { path := [] } else none
  procs := fun _ _ => []
  kind := fun _ _ => none
  types := [0, 1, 2]
  own := fun
    | 1 => [("x", ⟨some { path := [], isFinal := true }, false⟩), ("y", ⟨some { path := [] }, false⟩)]
    | 2 => [("x", ⟨none, false⟩), ("y", ⟨some { path := [] }, false⟩)]
    | _ => []

theorem varDemo_ok : varDemo.Ok where
  vars := by
    intro i
    match i with
    | 0 => simp [varDemo]
    | 1 => simp [varDemo]
    | 2 => simp [varDemo]
    | i + 3 => simp [varDemo]
  paths := by
    intro i j h
    match i, j, h with
    | 0, 0, _ => rfl
    | 1, 1, _ => rfl
    | 0, 1, h => cases h
    | 1, 0, h => cases h
    | 0, j + 2, h => cases h
    | i + 2, 0, h => cases h
    | 1, j + 2, h => simp [varDemo, List.replicate] at h
    | i + 2, 1, h => simp [varDemo, List.replicate] at h
    | i + 2, j + 2, h =>
      have h' : List.replicate (i + 1) "b" = List.replicate (j + 1) "b" := (List.cons.inj h).2
      have := congrArg List.length h'
      simp at this
      omega
  root := rfl

theorem varDemo_reports : varDemo.checkVarDefs = [.overridesFinal 2 "x" 1, .redeclares 2 "y" 1] := by decide +kernel

/-- The same where `/a/b` gives `y` a value. -/
def varDemo' : VarTree :=
  { varDemo with
    vars := fun i n =>
      if i = 1 ∧ n = "x" then some { path := [] } else if i = 1 ∧ n = "y" then some { path := [] } else none
    own := fun
      | 1 => [("x", ⟨some { path := [] }, false⟩), ("y", ⟨some { path := [] }, false⟩)]
      | 2 => [("x", ⟨none, false⟩), ("y", ⟨none, false⟩)]
      | _ => [] }

theorem varDemo'_none : varDemo'.checkVarDefs = [] := by decide +kernel

/-- The hypotheses of `varDefs_unique` hold in it. -/
example : Declares varDemo'.toTree 2 "y" { path := [] } := by
  refine varDefs_unique varDemo' ⟨?_, varDemo_ok.paths, rfl⟩ varDemo'_none ?_ ?_ ?_ (by decide) (by decide)
    (.up (p := 1) rfl (.refl _)) rfl (by decide)
  · intro i
    match i with
    | 0 => simp [varDemo', varDemo]
    | 1 => simp [varDemo', varDemo]
    | 2 => simp [varDemo', varDemo]
    | i + 3 => simp [varDemo', varDemo]
  · intro i n d
    match i with
    | 0 => simp [varDemo', varDemo, VarTree.Has]
    | 1 =>
      by_cases hx : n = "x"
      · subst hx; simp [varDemo', VarTree.Has]
      · by_cases hy : n = "y"
        · subst hy; simp [varDemo', VarTree.Has]
        · simp [varDemo', VarTree.Has, hx, hy]
    | 2 => simp [varDemo', VarTree.Has]; rintro v (⟨-, rfl⟩ | ⟨-, rfl⟩) <;> simp
    | i + 3 => simp [varDemo', varDemo, VarTree.Has]
  · intro i n v h
    match i, h with
    | 0, h => cases h
    | 1, _ => decide
    | 2, _ => decide
    | i + 3, h => cases h
  · intro i j n v v' h hb
    match i, h with
    | 0, h => cases h
    | 1, h => simp [varDemo', VarTree.Has] at h; rcases h with ⟨-, rfl⟩ | ⟨-, rfl⟩ <;> cases hb
    | 2, h => simp [varDemo', VarTree.Has] at h; rcases h with ⟨-, rfl⟩ | ⟨-, rfl⟩ <;> cases hb
    | i + 3, h => cases h

end Verif.Typing
