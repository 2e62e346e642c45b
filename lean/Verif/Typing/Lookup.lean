import Verif.Typing.Spec

/-!
# The lookups of the model are those of the specification
-/

namespace Verif.Typing

variable {t : Tree}

/-- More fuel than the rank of a type does not change its chain. -/
theorem chainFrom_eq (t : Tree) : ∀ (n i : Nat), t.rank i ≤ n → chainFrom t.parent n i = t.chain i := by
  intro n
  induction n using Nat.strongRecOn with
  | _ n ih =>
    intro i hi
    unfold Tree.chain
    cases hp : t.parent i with
    | none => cases n <;> cases hr : t.rank i <;> simp [chainFrom, hp]
    | some p =>
      have hlt := t.rank_lt i p hp
      obtain ⟨m, rfl⟩ : ∃ m, n = m + 1 := ⟨n - 1, by omega⟩
      obtain ⟨k, hk⟩ : ∃ k, t.rank i = k + 1 := ⟨t.rank i - 1, by omega⟩
      rw [hk]
      simp only [chainFrom, hp]
      congr 1
      rw [ih m (by omega) p (by omega)]
      have := ih k (by omega) p (by omega)
      rw [this]

theorem chain_none {i : Nat} (h : t.parent i = none) : t.chain i = [i] := by
  unfold Tree.chain
  cases t.rank i <;> simp [chainFrom, h]

theorem chain_some {i p : Nat} (h : t.parent i = some p) : t.chain i = i :: t.chain p := by
  have hlt := t.rank_lt i p h
  obtain ⟨k, hk⟩ : ∃ k, t.rank i = k + 1 := ⟨t.rank i - 1, by omega⟩
  rw [← chainFrom_eq t (k + 1) i (by omega)]
  simp only [chainFrom, h]
  rw [chainFrom_eq t k p (by omega)]

/-- Induction along the ancestors of a type. -/
theorem Tree.induct (t : Tree) {P : Nat → Prop} (h0 : ∀ i, t.parent i = none → P i)
    (h1 : ∀ i p, t.parent i = some p → P p → P i) (i : Nat) : P i := by
  generalize hr : t.rank i = r
  induction r using Nat.strongRecOn generalizing i with
  | _ r ih =>
    cases hp : t.parent i with
    | none => exact h0 i hp
    | some p => exact h1 i p hp (ih (t.rank p) (hr ▸ t.rank_lt i p hp) p rfl)

theorem isSubtype_iff (i j : Nat) : t.isSubtype i j = true ↔ Sub t i j := by
  unfold Tree.isSubtype
  simp only [List.contains_iff_mem]
  induction i using t.induct with
  | h0 i h =>
    rw [chain_none h]
    constructor
    · intro hm
      simp only [List.mem_singleton] at hm
      subst hm
      exact .refl _
    · intro hs
      cases hs with
      | refl => simp
      | up hp _ => rw [h] at hp; cases hp
  | h1 i p h ih =>
    rw [chain_some h]
    constructor
    · intro hm
      rcases List.mem_cons.1 hm with rfl | hm
      · exact .refl _
      · exact .up h (ih.1 hm)
    · intro hs
      cases hs with
      | refl => simp
      | up hp hs => rw [h] at hp; cases hp; exact List.mem_cons_of_mem _ (ih.2 hs)

theorem isSubtype_false (i j : Nat) : t.isSubtype i j = false ↔ ¬ Sub t i j := by
  rw [← isSubtype_iff]
  simp

theorem varDecl_iff (i : Nat) (n : Ident) (d : VarDecl) : t.varDecl i n = some d ↔ Declares t i n d := by
  unfold Tree.varDecl
  induction i using t.induct with
  | h0 i h =>
    rw [chain_none h]
    simp only [List.findSome?_cons, List.findSome?_nil]
    constructor
    · intro hv
      cases hd : t.vars i n with
      | none => rw [hd] at hv; cases hv
      | some d' => rw [hd] at hv; cases hv; exact .own hd
    · intro hv
      cases hv with
      | own hd => rw [hd]
      | inherited _ hp _ => rw [h] at hp; cases hp
  | h1 i p h ih =>
    rw [chain_some h]
    simp only [List.findSome?_cons]
    cases hd : t.vars i n with
    | none =>
      simp only []
      rw [ih]
      constructor
      · exact fun hv => .inherited hd h hv
      · intro hv
        cases hv with
        | own hd' => rw [hd] at hd'; cases hd'
        | inherited _ hp hv => rw [h] at hp; cases hp; exact hv
    | some d' =>
      simp only []
      constructor
      · intro hv; cases hv; exact .own hd
      · intro hv
        cases hv with
        | own hd' => rw [hd] at hd'; exact hd'
        | inherited hn _ _ => rw [hd] at hn; cases hn

theorem varDecl_none (i : Nat) (n : Ident) : t.varDecl i n = none ↔ ∀ d, ¬ Declares t i n d := by
  constructor
  · intro h d hd
    rw [(varDecl_iff i n d).2 hd] at h
    cases h
  · intro h
    cases hv : t.varDecl i n with
    | none => rfl
    | some d => exact absurd ((varDecl_iff i n d).1 hv) (h d)

theorem ownProc_none (i : Nat) (n : Ident) : t.ownProc i n = none ↔ t.procs i n = [] := by
  unfold Tree.ownProc
  split <;> simp_all

theorem ownProc_some (i : Nat) (n : Ident) (p : Proc) :
    t.ownProc i n = some p ↔ ∃ k, (t.procs i n).length = k + 1 ∧ p = ⟨i, n, k⟩ := by
  unfold Tree.ownProc
  split
  · rename_i h; simp [h]
  · rename_i x l h
    simp only [h, Option.some.injEq, List.length_cons]
    constructor
    · rintro rfl; exact ⟨_, rfl, rfl⟩
    · rintro ⟨k, hk, rfl⟩; simp_all

theorem getProc_iff (i : Nat) (n : Ident) (p : Proc) : t.getProc i n = some p ↔ Defines t i n p := by
  unfold Tree.getProc
  induction i using t.induct with
  | h0 i h =>
    rw [chain_none h]
    simp only [List.findSome?_cons, List.findSome?_nil]
    constructor
    · intro hv
      cases hd : t.ownProc i n with
      | none => rw [hd] at hv; cases hv
      | some d' =>
        rw [hd] at hv; cases hv
        obtain ⟨k, hk, rfl⟩ := (ownProc_some i n _).1 hd
        exact .own hk
    · intro hv
      cases hv with
      | own hd => rw [(ownProc_some i n _).2 ⟨_, hd, rfl⟩]
      | inherited _ hp _ => rw [h] at hp; cases hp
  | h1 i q h ih =>
    rw [chain_some h]
    simp only [List.findSome?_cons]
    cases hd : t.ownProc i n with
    | none =>
      simp only []
      rw [ih]
      constructor
      · exact fun hv => .inherited ((ownProc_none i n).1 hd) h hv
      · intro hv
        cases hv with
        | own hd' => rw [(ownProc_none i n).1 hd] at hd'; simp at hd'
        | inherited _ hp hv => rw [h] at hp; cases hp; exact hv
    | some d' =>
      simp only []
      obtain ⟨k, hk, rfl⟩ := (ownProc_some i n _).1 hd
      constructor
      · intro hv; cases hv; exact .own hk
      · intro hv
        cases hv with
        | own hd' => rw [hk] at hd'; cases hd'; rfl
        | inherited hn _ _ => rw [hn] at hk; simp at hk

theorem getProc_none (i : Nat) (n : Ident) : t.getProc i n = none ↔ ∀ p, ¬ Defines t i n p := by
  constructor
  · intro h d hd
    rw [(getProc_iff i n d).2 hd] at h
    cases h
  · intro h
    cases hv : t.getProc i n with
    | none => rfl
    | some d => exact absurd ((getProc_iff i n d).1 hv) (h d)

theorem parentProc_iff (p q : Proc) : t.parentProc p = some q ↔ ParentOf t p q := by
  obtain ⟨i, n, k⟩ := p
  unfold Tree.parentProc
  cases k with
  | zero =>
    simp only [Option.bind_eq_some_iff]
    constructor
    · rintro ⟨j, hj, h⟩; exact .inherited hj ((getProc_iff _ _ _).1 h)
    · intro h
      cases h with
      | inherited hj h => exact ⟨_, hj, (getProc_iff _ _ _).2 h⟩
  | succ k =>
    simp only [Option.some.injEq]
    constructor
    · rintro rfl; exact .earlier
    · intro h; cases h; rfl

theorem parentProc_none (p : Proc) : t.parentProc p = none ↔ ∀ q, ¬ ParentOf t p q := by
  constructor
  · intro h d hd
    rw [(parentProc_iff p d).2 hd] at h
    cases h
  · intro h
    cases hv : t.parentProc p with
    | none => rfl
    | some d => exact absurd ((parentProc_iff p d).1 hv) (h d)

theorem list_not_modifier : ("list" : Ident) ∉ modifiers := by decide

theorem staticType_iff (path : List Ident) :
    (∀ s, t.staticType path = .ok s ↔ PathType t path (some s)) ∧
    (PathType t path none ↔ ∃ p, t.staticType path = .error p) ∧
    (∀ p, t.staticType path = .error p ↔ Missing t path p) := by
  induction path with
  | nil =>
    refine ⟨fun s => ?_, ?_, fun p => ?_⟩
    · constructor
      · intro h; cases h; exact .nothing
      · intro h; cases h; rfl
    · constructor
      · intro h; cases h
      · rintro ⟨p, h⟩; cases h
    · constructor
      · intro h; cases h
      · intro h; cases h
  | cons x rest ih =>
    obtain ⟨ih1, ih2, ih3⟩ := ih
    by_cases hm : x ∈ modifiers
    · have hx : x ≠ "list" := by rintro rfl; exact list_not_modifier hm
      have he : t.staticType (x :: rest) = t.staticType rest := by
        simp [Tree.staticType, hm]
      rw [he]
      refine ⟨fun s => ?_, ?_, fun p => ?_⟩
      · rw [ih1]
        constructor
        · exact .modifier hm
        · intro h
          cases h with
          | modifier _ h => exact h
          | list _ => exact absurd rfl hx
          | type hn _ _ => exact absurd hm hn
      · rw [← ih2]
        constructor
        · intro h
          cases h with
          | modifier _ h => exact h
          | listMissing _ => exact absurd rfl hx
          | missing hn _ _ => exact absurd hm hn
        · exact .modifier hm
      · rw [ih3]
        constructor
        · exact .modifier hm
        · intro h
          cases h with
          | modifier _ h => exact h
          | list _ => exact absurd rfl hx
          | here hn _ _ => exact absurd hm hn
    · by_cases hx : x = "list"
      · subst hx
        have he : t.staticType ("list" :: rest) = match t.staticType rest with
            | .ok k => .ok (.list k)
            | .error e => .error e := by
          simp [Tree.staticType, hm]
          cases t.staticType rest <;> rfl
        rw [he]
        refine ⟨fun s => ?_, ?_, fun p => ?_⟩
        · constructor
          · intro h
            cases hs : t.staticType rest with
            | error e => rw [hs] at h; cases h
            | ok k => rw [hs] at h; cases h; exact .list ((ih1 k).1 hs)
          · intro h
            cases h with
            | modifier hn _ => exact absurd hn hm
            | list h => rw [(ih1 _).2 h]
            | type _ hn _ => exact absurd rfl hn
        · constructor
          · intro h
            cases h with
            | modifier hn _ => exact absurd hn hm
            | listMissing h => obtain ⟨p, hp⟩ := ih2.1 h; exact ⟨p, by rw [hp]⟩
            | missing _ hn _ => exact absurd rfl hn
          · rintro ⟨p, h⟩
            cases hs : t.staticType rest with
            | error e => exact .listMissing (ih2.2 ⟨e, hs⟩)
            | ok k => rw [hs] at h; cases h
        · constructor
          · intro h
            cases hs : t.staticType rest with
            | error e => rw [hs] at h; cases h; exact .list ((ih3 _).1 hs)
            | ok k => rw [hs] at h; cases h
          · intro h
            cases h with
            | modifier hn _ => exact absurd hn hm
            | list h => rw [(ih3 _).2 h]
            | here _ hn _ => exact absurd rfl hn
      · have he : t.staticType (x :: rest) = match t.find (x :: rest) with
            | some i => .ok (.type i)
            | none => .error (x :: rest) := by
          simp [Tree.staticType, hm, hx]
          cases t.find (x :: rest) <;> rfl
        rw [he]
        refine ⟨fun s => ?_, ?_, fun p => ?_⟩
        · constructor
          · intro h
            cases hs : t.find (x :: rest) with
            | none => rw [hs] at h; cases h
            | some i => rw [hs] at h; cases h; exact .type hm hx hs
          · intro h
            cases h with
            | modifier hn _ => exact absurd hn hm
            | list h => exact absurd rfl hx
            | type _ _ h => rw [h]
        · constructor
          · intro h
            cases h with
            | modifier hn _ => exact absurd hn hm
            | listMissing h => exact absurd rfl hx
            | missing _ _ h => exact ⟨_, by rw [h]⟩
          · rintro ⟨p, h⟩
            cases hs : t.find (x :: rest) with
            | none => exact .missing hm hx hs
            | some i => rw [hs] at h; cases h
        · constructor
          · intro h
            cases hs : t.find (x :: rest) with
            | none => rw [hs] at h; cases h; exact .here hm hx hs
            | some i => rw [hs] at h; cases h
          · intro h
            cases h with
            | modifier hn _ => exact absurd hn hm
            | list h => exact absurd rfl hx
            | here _ _ h => rw [h]

theorem basic_iff (s : STy) (i : Nat) : s.basic t = some i ↔ Basic t s i := by
  constructor
  · intro h
    cases s with
    | none => cases h
    | type j => cases h; exact .type _
    | list k => cases h; exact .list _
    | proc => cases h
  · intro h; cases h <;> rfl

theorem basic_none (s : STy) : s.basic t = none ↔ ∀ i, ¬ Basic t s i := by
  constructor
  · intro h i hi
    rw [(basic_iff s i).2 hi] at h
    cases h
  · intro h
    cases hb : s.basic t with
    | none => rfl
    | some i => exact absurd ((basic_iff s i).1 hb) (h i)

theorem hintOf_iff (s : STy) (h : Option Nat) : HintOf t s h ↔ h = s.basic t := by
  constructor
  · intro hh
    cases hh with
    | some hb => exact ((basic_iff _ _).2 hb).symm
    | none hb => exact ((basic_none _).2 hb).symm
  · rintro rfl
    cases hb : s.basic t with
    | none => exact .none ((basic_none s).1 hb)
    | some i => exact .some ((basic_iff s i).1 hb)

theorem isList_iff (s : STy) : s.isList t = true ↔ IsList t s := by
  constructor
  · intro h
    cases s with
    | none => cases h
    | type j => exact .type (by simpa [STy.isList] using h)
    | list k => exact .list _
    | proc => cases h
  · intro h
    cases h with
    | list k => rfl
    | type h => simp [STy.isList, h]

end Verif.Typing
