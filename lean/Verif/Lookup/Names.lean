import Verif.Typing.Lookup
import Verif.Lookup.Spec

/-!
# Lookups find what the specification says
-/

namespace Verif.Lookup

open Verif.Typing (Ident Loc PathOp Tree chain_none chain_some)
open Verif.Refs (Sym)

variable (W : World)

/-! ### Lines of inheritance -/

theorem line_none {i : Nat} (h : W.parent i = none) : W.line i = [i] := chain_none (t := W.tree) h

theorem line_some {i p : Nat} (h : W.parent i = some p) : W.line i = i :: W.line p := chain_some (t := W.tree) h

theorem line_head (i : Nat) : ∃ js, W.line i = i :: js := by
  cases h : W.parent i with
  | none => exact ⟨[], line_none W h⟩
  | some p => exact ⟨_, line_some W h⟩

theorem below_none {i : Nat} (h : W.parent i = none) : W.lineBelow i = [i] := by
  unfold World.lineBelow; rw [line_none W h]; rfl

theorem below_root {i : Nat} (h : W.parent i = some 0) : W.lineBelow i = [i] := by
  unfold World.lineBelow; rw [line_some W h]
  obtain ⟨js, hj⟩ := line_head W 0
  rw [hj]; rfl

theorem below_some {i p : Nat} (h : W.parent i = some p) (hp : p ≠ 0) : W.lineBelow i = i :: W.lineBelow p := by
  unfold World.lineBelow; rw [line_some W h]
  obtain ⟨js, hj⟩ := line_head W p
  rw [hj]
  simp only []
  rw [List.takeWhile_cons_of_pos (by simpa using hp)]

theorem induct {P : Nat → Prop} (h0 : ∀ i, W.parent i = none → P i)
    (h1 : ∀ i p, W.parent i = some p → P p → P i) (i : Nat) : P i := W.tree.induct h0 h1 i

/-- A line, with or without the root. -/
def World.lineOf (root : Bool) (i : Nat) : List Nat := if root then W.line i else W.lineBelow i

theorem nearest_find (root : Bool) (f : Nat → Bool) (i j : Nat) :
    (W.lineOf root i).find? f = some j ↔ Nearest W root (fun k => f k = true) i j := by
  induction i using induct W with
  | h0 i h =>
    have hl : W.lineOf root i = [i] := by unfold World.lineOf; split; exact line_none W h; exact below_none W h
    rw [hl]
    constructor
    · intro hf
      have := List.find?_some hf
      have hm := List.mem_of_find?_eq_some hf
      rw [List.mem_singleton] at hm
      subst hm
      exact .here this
    · intro hn
      cases hn with
      | here hh => simp [hh]
      | up _ hp _ _ => rw [h] at hp; cases hp
  | h1 i p h ih =>
    by_cases hr : root = true ∨ p ≠ 0
    · have hl : W.lineOf root i = i :: W.lineOf root p := by
        unfold World.lineOf
        cases root with
        | true => exact line_some W h
        | false => exact below_some W h (hr.resolve_left (by simp))
      rw [hl]
      cases hf : f i with
      | true =>
        rw [List.find?_cons_of_pos hf]
        constructor
        · intro he; cases he; exact .here hf
        · intro hn
          cases hn with
          | here _ => rfl
          | up hno _ _ _ => exact absurd hf hno
      | false =>
        rw [List.find?_cons_of_neg (by simp [hf]), ih]
        constructor
        · intro hn; exact .up (by simp [hf]) h hr hn
        · intro hn
          cases hn with
          | here hh => rw [hf] at hh; cases hh
          | up _ hp _ hn => rw [h] at hp; cases hp; exact hn
    · obtain ⟨h1, h2⟩ := not_or.1 hr
      have h2' : p = 0 := Classical.byContradiction fun hne => h2 hne
      subst h2'
      have h1' : root = false := by simpa using h1
      subst h1'
      have hl : W.lineOf false i = [i] := below_root W h
      rw [hl]
      constructor
      · intro hf
        have := List.find?_some hf
        have hm := List.mem_of_find?_eq_some hf
        rw [List.mem_singleton] at hm
        subst hm
        exact .here this
      · intro hn
        cases hn with
        | here hh => simp [hh]
        | up _ hp hr' _ =>
          rw [h] at hp; cases hp
          rcases hr' with hr' | hr'
          · cases hr'
          · exact absurd rfl hr'

theorem nearest_congr {root : Bool} {P Q : Nat → Prop} (h : ∀ k, P k ↔ Q k) {i j : Nat} :
    Nearest W root P i j ↔ Nearest W root Q i j := by
  have : P = Q := funext fun k => propext (h k)
  rw [this]

theorem nearest_holds {root : Bool} {P : Nat → Prop} {i j : Nat} (h : Nearest W root P i j) : P j := by
  induction h with
  | here h => exact h
  | up _ _ _ _ ih => exact ih

theorem nearest_unique {root : Bool} {P : Nat → Prop} {i j k : Nat} (h : Nearest W root P i j)
    (h' : Nearest W root P i k) : j = k := by
  induction h with
  | here h =>
    cases h' with
    | here _ => rfl
    | up hn _ _ _ => exact absurd h hn
  | up hn hp _ _ ih =>
    cases h' with
    | here h => exact absurd h hn
    | up _ hp' _ h' => rw [hp] at hp'; cases hp'; exact ih h'

/-- `findSome?` along a line. -/
theorem nearest_findSome {α : Type} (root : Bool) (f : Nat → Option α) (i : Nat) (x : α) :
    (W.lineOf root i).findSome? f = some x ↔ ∃ j, Nearest W root (fun k => (f k).isSome = true) i j ∧ f j = some x := by
  have key : ∀ l : List Nat, l.findSome? f = (l.find? fun k => (f k).isSome).bind f := by
    intro l
    induction l with
    | nil => rfl
    | cons k l ih =>
      cases hf : f k with
      | none => rw [List.findSome?_cons_of_isNone (by simp [hf]), List.find?_cons_of_neg (by simp [hf]), ih]
      | some y =>
        rw [List.findSome?_cons_of_isSome (by simp [hf]), List.find?_cons_of_pos (by simp [hf])]; rfl
  rw [key, Option.bind_eq_some_iff]
  exact exists_congr fun j => and_congr (nearest_find W root _ i j) Iff.rfl

theorem lookup_isSome {α : Type} (l : List (Ident × α)) (n : Ident) : (l.lookup n).isSome = true ↔ ∃ v, (n, v) ∈ l := by
  induction l with
  | nil => simp
  | cons x l ih =>
    obtain ⟨m, v⟩ := x
    rw [List.lookup_cons]
    by_cases h : n = m
    · subst h; simp
    · rw [beq_eq_false_iff_ne.2 h]
      simp only [ih, List.mem_cons, Prod.mk.injEq]
      constructor
      · rintro ⟨v, hv⟩; exact ⟨v, .inr hv⟩
      · rintro ⟨v, hv | hv⟩
        · exact absurd hv.1 h
        · exact ⟨v, hv⟩

theorem varOn_iff (root : Bool) (n : Ident) (i j : Nat) :
    W.varOn n (W.lineOf root i) = some j ↔ Nearest W root (HasVar W n) i j := by
  unfold World.varOn
  rw [nearest_find]
  exact nearest_congr W fun k => lookup_isSome _ _

theorem procOn_iff (root : Bool) (n : Ident) (i j : Nat) :
    W.procOn n (W.lineOf root i) = some j ↔ Nearest W root (HasProc W n) i j := by
  unfold World.procOn
  rw [nearest_find]
  exact nearest_congr W fun k => lookup_isSome _ _

theorem varDecl_iff (i : Nat) (n : Ident) (j : Nat) (p : List Ident) :
    W.varDecl i n = some (j, p) ↔ DeclOn W n i j p := by
  unfold World.varDecl DeclOn
  have h := nearest_findSome W true (fun j => ((W.vars j).lookup n).bind fun v => v.decl.map fun p => (j, p)) i (j, p)
  refine (show _ ↔ _ from h).trans ?_
  have hd : ∀ k, (((W.vars k).lookup n).bind fun v => v.decl.map fun p => (k, p)).isSome = true ↔ ∃ p, DeclaresVar W n k p := by
    intro k
    unfold DeclaresVar
    cases (W.vars k).lookup n with
    | none => simp
    | some v => cases hv : v.decl <;> simp [hv]
  have he : ∀ k, (((W.vars k).lookup n).bind fun v => v.decl.map fun p => (k, p)) = some (j, p) ↔ k = j ∧ DeclaresVar W n j p := by
    intro k
    unfold DeclaresVar
    constructor
    · intro h
      obtain ⟨v, hv, h⟩ := Option.bind_eq_some_iff.1 h
      obtain ⟨p', hp, h⟩ := Option.map_eq_some_iff.1 h
      cases h
      exact ⟨rfl, v, hv, hp⟩
    · rintro ⟨rfl, v, hv, hp⟩
      rw [hv]; simp [hp]
  constructor
  · rintro ⟨k, hn, hk⟩
    obtain ⟨rfl, hk⟩ := (he k).1 hk
    exact ⟨(nearest_congr W hd).1 hn, hk⟩
  · rintro ⟨hn, hk⟩
    exact ⟨j, (nearest_congr W hd).2 hn, (he j).2 ⟨rfl, hk⟩⟩

theorem declaresProc_iff (n : Ident) (k : Nat) {α : Type} (x : α) :
    (((W.procs k).lookup n).bind fun q => q.decl.map fun _ => x).isSome = true ↔ DeclaresProc W n k := by
  unfold DeclaresProc
  cases (W.procs k).lookup n with
  | none => simp
  | some q => cases hq : q.decl <;> simp [hq]

theorem procDecl_iff (i : Nat) (n : Ident) (j : Nat) : W.procDecl i n = some j ↔ Nearest W true (DeclaresProc W n) i j := by
  unfold World.procDecl
  have h := nearest_findSome W true (fun j => ((W.procs j).lookup n).bind fun q => q.decl.map fun _ => j) i j
  refine (show _ ↔ _ from h).trans ?_
  constructor
  · rintro ⟨k, hn, hk⟩
    obtain ⟨q, hq, hk⟩ := Option.bind_eq_some_iff.1 hk
    obtain ⟨v, hv, hk⟩ := Option.map_eq_some_iff.1 hk
    cases hk
    exact (nearest_congr W fun k => declaresProc_iff W n k k).1 hn
  · intro hn
    refine ⟨j, (nearest_congr W fun k => declaresProc_iff W n k k).2 hn, ?_⟩
    obtain ⟨q, v, hq, hv⟩ := nearest_holds W hn
    rw [hq]; simp [hv]

/-! ### Paths -/

theorem approx_down (i : Nat) (p : List Ident) (j : Nat) : W.approx i false p = (true, j) ↔ Down W i p j := by
  induction p generalizing i with
  | nil =>
    unfold World.approx
    constructor
    · intro h; cases h; exact .here
    · intro h; cases h; rfl
  | cons x rest ih =>
    unfold World.approx
    cases hc : (W.children i).lookup x with
    | none =>
      simp only []
      constructor
      · intro h; cases h
      · intro h; cases h with | step h _ => rw [hc] at h; cases h
    | some k =>
      simp only [Bool.and_false, Bool.false_eq_true, if_false]
      rw [ih]
      constructor
      · exact .step hc
      · intro h; cases h with | step h h' => rw [hc] at h; cases h; exact h'

theorem typeByPath_iff (p : List Ident) (i : Nat) : W.typeByPath p = some i ↔ TypeAt W p i := by
  have key : W.typeByPath p = some i ↔ W.approx 0 true p = (true, i) := by
    unfold World.typeByPath
    obtain ⟨b, j⟩ := W.approx 0 true p
    cases b <;> simp
  rw [key]
  cases p with
  | nil =>
    unfold World.approx
    constructor
    · intro h; cases h; exact .down nofun .here
    · intro h
      cases h with | down _ h => cases h; rfl
  | cons x rest =>
    by_cases hx : x = "list"
    · subst hx
      unfold World.approx
      constructor
      · intro h
        cases hc : (W.children 0).lookup "list" with
        | none => rw [hc] at h; cases h
        | some j => rw [hc] at h; cases h; exact .list hc
      · intro h
        cases h with
        | list h => rw [h]; rfl
        | down h _ => exact absurd rfl h
    · have : W.approx 0 true (x :: rest) = W.approx 0 false (x :: rest) := by
        unfold World.approx
        cases (W.children 0).lookup x with
        | none => rfl
        | some j => simp only [beq_eq_false_iff_ne.2 hx, Bool.false_and]
      rw [this, approx_down]
      constructor
      · intro h; exact .down (by simpa using hx) h
      · intro h
        cases h with
        | list _ => exact absurd rfl hx
        | down _ h => exact h

theorem typeAt_unique {p : List Ident} {i j : Nat} (h : TypeAt W p i) (h' : TypeAt W p j) : i = j := by
  have := (typeByPath_iff W p i).2 h
  rw [(typeByPath_iff W p j).2 h'] at this
  cases this; rfl

/-! ### The place -/

theorem earliest_findSome {α : Type} (a : Place) (P : Ann → Prop) (f : Loc × Ann → Option α)
    (hf : ∀ x : Loc × Ann, P x.2 ↔ (f x).isSome = true) (r : α) :
    a.findSome? f = some r ↔ ∃ l x, Earliest a P l x ∧ f (l, x) = some r := by
  unfold Earliest
  rw [List.findSome?_eq_some_iff]
  constructor
  · rintro ⟨l1, ⟨l, x⟩, l2, rfl, h1, h2⟩
    refine ⟨l, x, ⟨l1, l2, rfl, (hf (l, x)).2 (by rw [h1]; rfl), ?_⟩, h1⟩
    intro y hy hp
    have := (hf y).1 hp
    rw [h2 y hy] at this
    cases this
  · rintro ⟨l, x, ⟨pre, post, rfl, hp, hno⟩, h⟩
    refine ⟨pre, (l, x), post, rfl, h, ?_⟩
    intro y hy
    cases he : f y with
    | none => rfl
    | some z => exact absurd ((hf y).2 (by rw [he]; rfl)) (hno y hy)

theorem inBody_iff (a : Place) (p : List Ident) (idx : Nat) :
    first a (fun | .procBody p idx => some (p, idx) | _ => none) = some (p, idx) ↔ InBody a p idx := by
  unfold first InBody
  rw [earliest_findSome a IsBody _ (fun x => by obtain ⟨l, x⟩ := x; cases x <;> simp [IsBody])]
  constructor
  · rintro ⟨l, x, he, h⟩
    cases x with
    | procBody p' idx' => cases h; exact ⟨l, he⟩
    | _ => cases h
  · rintro ⟨l, he⟩; exact ⟨l, _, he, rfl⟩

theorem inBlock_iff (a : Place) (p : List Ident) :
    first a (fun | .treeBlock p => some p | _ => none) = some p ↔ InBlock a p := by
  unfold first InBlock
  rw [earliest_findSome a IsBlock _ (fun x => by obtain ⟨l, x⟩ := x; cases x <;> simp [IsBlock])]
  constructor
  · rintro ⟨l, x, he, h⟩
    cases x with
    | treeBlock p' => cases h; exact ⟨l, he⟩
    | _ => cases h
  · rintro ⟨l, he⟩; exact ⟨l, _, he, rfl⟩

theorem localAt_iff (a : Place) (n : Ident) (l : Loc) (path : List Ident) :
    a.findSome? (fun x => match x.2 with | .localVar path m => if m = n then some (x.1, path) else none | _ => none)
      = some (l, path) ↔ LocalAt a n l path := by
  unfold LocalAt
  rw [earliest_findSome a (IsLocal n) _ (fun x => by
    obtain ⟨l, x⟩ := x
    cases x <;> simp only [IsLocal, Option.isSome_none, Bool.false_eq_true]
    rename_i m
    by_cases h : m = n <;> simp [h])]
  constructor
  · rintro ⟨l', x, he, h⟩
    cases x with
    | localVar path' m =>
      simp only [] at h
      by_cases hm : m = n
      · rw [if_pos hm] at h; cases h; rw [hm] at he; exact he
      · rw [if_neg hm] at h; cases h
    | _ => cases h
  · intro he; exact ⟨l, _, he, by simp⟩

theorem chop_iff (words p q : List Ident) : chop words p = q ↔ Chopped words p q := by
  unfold chop
  rcases List.eq_nil_or_concat p with rfl | ⟨q', k, rfl⟩
  · simp only [List.getLast?_nil]
    constructor
    · rintro rfl; exact .plain fun q' k h => by cases q' <;> cases h
    · intro h
      generalize hp : ([] : List Ident) = p at h
      cases h with
      | word _ => rename_i k _; cases q <;> cases hp
      | plain _ => rfl
  · rw [List.concat_eq_append]
    simp only [List.getLast?_append, List.getLast?_singleton, Option.some_or, List.dropLast_concat, List.contains_iff_mem]
    by_cases hk : k ∈ words
    · rw [if_pos hk]
      constructor
      · rintro rfl; exact .word hk
      · intro h
        generalize hp : q' ++ [k] = p at h
        cases h with
        | word _ => exact (List.append_inj' hp rfl).1
        | plain hno => exact absurd hk (hno q' k hp.symm)
    · rw [if_neg hk]
      constructor
      · rintro rfl
        refine .plain fun q k' h => ?_
        obtain ⟨_, h2⟩ := List.append_inj' h rfl
        cases h2; exact hk
      · intro h
        generalize hp : q' ++ [k] = p at h
        cases h with
        | word hk' => obtain ⟨_, h2⟩ := List.append_inj' hp rfl; cases h2; exact absurd hk' hk
        | plain _ => rfl

theorem inBody_unique {a : Place} {p q : List Ident} {x y : Nat} (h : InBody a p x) (h' : InBody a q y) : p = q ∧ x = y := by
  have h1 := (inBody_iff ..).2 h
  rw [(inBody_iff ..).2 h'] at h1
  cases h1; exact ⟨rfl, rfl⟩

theorem inBlock_unique {a : Place} {p q : List Ident} (h : InBlock a p) (h' : InBlock a q) : p = q := by
  have h1 := (inBlock_iff ..).2 h
  rw [(inBlock_iff ..).2 h'] at h1
  cases h1; rfl

/-- The type found for the proc around the place. -/
def World.bodyTy (a : Place) : Option Nat :=
  match first a (fun | .procBody p idx => some (p, idx) | _ => none) with
  | none => none
  | some (p, _) =>
    match p.getLast? with
    | some _ => W.typeByPath (chop ["proc", "verb"] p.dropLast)
    | none => W.typeByPath []

theorem bodyTy_iff (a : Place) (i : Nat) : W.bodyTy a = some i ↔ BodyOwner W a i := by
  unfold World.bodyTy
  constructor
  · intro h
    cases hb : first a (fun | .procBody p idx => some (p, idx) | _ => none) with
    | none => rw [hb] at h; cases h
    | some x =>
      obtain ⟨p, idx⟩ := x
      have hb' := (inBody_iff ..).1 hb
      rw [hb] at h
      rcases List.eq_nil_or_concat p with rfl | ⟨q, k, rfl⟩
      · exact .empty hb' ((typeByPath_iff ..).1 h)
      · rw [List.concat_eq_append] at h hb'
        simp only [List.getLast?_append, List.getLast?_singleton, Option.some_or, List.dropLast_concat] at h
        exact .named hb' ((chop_iff ..).1 rfl) ((typeByPath_iff ..).1 h)
  · intro h
    cases h with
    | named hb hc ht =>
      rw [(inBody_iff ..).2 hb]
      simp only [List.getLast?_append, List.getLast?_singleton, Option.some_or, List.dropLast_concat]
      rw [(chop_iff ..).2 hc]; exact (typeByPath_iff ..).2 ht
    | empty hb ht =>
      rw [(inBody_iff ..).2 hb]
      exact (typeByPath_iff ..).2 ht

/-- The name and number of the definition of the proc around the place. -/
def bodyName (a : Place) : Option (Ident × Nat) :=
  match first a (fun | .procBody p idx => some (p, idx) | _ => none) with
  | none => none
  | some (p, idx) => p.getLast?.map fun n => (n, idx)

theorem bodyName_iff (a : Place) (n : Ident) (idx : Nat) : bodyName a = some (n, idx) ↔ ∃ p, InBody a (p ++ [n]) idx := by
  unfold bodyName
  constructor
  · intro h
    cases hb : first a (fun | .procBody p idx => some (p, idx) | _ => none) with
    | none => rw [hb] at h; cases h
    | some x =>
      obtain ⟨p, idx'⟩ := x
      have hb' := (inBody_iff ..).1 hb
      rw [hb] at h
      rcases List.eq_nil_or_concat p with rfl | ⟨q, k, rfl⟩
      · cases h
      · rw [List.concat_eq_append] at h hb'
        simp only [List.getLast?_append, List.getLast?_singleton, Option.some_or, Option.map_some] at h
        cases h
        exact ⟨q, hb'⟩
  · rintro ⟨p, hb⟩
    rw [(inBody_iff ..).2 hb]
    simp

theorem context_eq (a : Place) : W.context a = ((match W.bodyTy a with
    | some i => some i
    | none => match first a (fun | .treeBlock p => some p | _ => none) with
      | some p => W.typeByPath (chop ["proc", "verb", "var"] p)
      | none => none), bodyName a) := by
  unfold World.context World.bodyTy bodyName
  cases first a (fun | .procBody p idx => some (p, idx) | _ => none) with
  | none => rfl
  | some x =>
    obtain ⟨p, idx⟩ := x
    simp only []
    cases p.getLast? <;> rfl

theorem owner_iff (a : Place) (i : Nat) : (W.context a).1 = some i ↔ Owner W a i := by
  rw [context_eq]
  cases hb : W.bodyTy a with
  | some j =>
    have hb' := (bodyTy_iff W a j).1 hb
    simp only []
    constructor
    · intro h; cases h; exact .body hb'
    · intro h
      cases h with
      | body h => rw [← hb]; exact (bodyTy_iff W a i).2 h
      | block hno _ _ _ => exact absurd hb' (hno j)
  | none =>
    have hno : ∀ j, ¬ BodyOwner W a j := by
      intro j h; rw [(bodyTy_iff W a j).2 h] at hb; cases hb
    simp only []
    cases ht : first a (fun | .treeBlock p => some p | _ => none) with
    | none =>
      simp only []
      constructor
      · intro h; cases h
      · intro h
        cases h with
        | body h => exact absurd h (hno i)
        | block _ hp _ _ => rw [(inBlock_iff ..).2 hp] at ht; cases ht
    | some p =>
      simp only []
      rw [typeByPath_iff]
      constructor
      · intro h; exact .block hno ((inBlock_iff ..).1 ht) ((chop_iff ..).1 rfl) h
      · intro h
        cases h with
        | body h => exact absurd h (hno i)
        | block _ hp hc h =>
          rw [(inBlock_iff ..).2 hp] at ht; cases ht
          rw [(chop_iff ..).2 hc]; exact h

theorem home_iff (a : Place) (i : Nat) : (W.context a).1.getD 0 = i ↔ Home W a i := by
  cases h : (W.context a).1 with
  | some j =>
    have hj := (owner_iff W a j).1 h
    constructor
    · rintro rfl; exact .owner hj
    · intro hh
      cases hh with
      | owner hi => rw [(owner_iff W a i).2 hi] at h; cases h; rfl
      | root hno => exact absurd hj (hno j)
  | none =>
    constructor
    · rintro rfl; exact .root fun i hi => by rw [(owner_iff W a i).2 hi] at h; cases h
    · intro hh
      cases hh with
      | owner hi => rw [(owner_iff W a i).2 hi] at h; cases h
      | root hno => rfl

theorem home_unique {a : Place} {i j : Nat} (h : Home W a i) (h' : Home W a j) : i = j :=
  ((home_iff W a i).2 h).symm.trans ((home_iff W a j).2 h')

theorem context_name (a : Place) : (W.context a).2 = bodyName a := by rw [context_eq]

/-! ### Unqualified names -/

/-- The parameters at the place. -/
def World.paramsHere (a : Place) : List Param := W.params ((W.context a).1.getD 0) (W.context a).2

theorem params_cases (a : Place) : (∃ ps, ParamsAt W a ps ∧ W.paramsHere a = ps) ∨
    ((∀ ps, ¬ ParamsAt W a ps) ∧ W.paramsHere a = []) := by
  unfold World.paramsHere
  rw [context_name]
  have hh := (home_iff W a _).1 rfl
  cases hn : bodyName a with
  | none =>
    refine .inr ⟨?_, rfl⟩
    rintro ps ⟨p, n, idx, i, q, d, hb, _⟩
    rw [(bodyName_iff a n idx).2 ⟨p, hb⟩] at hn; cases hn
  | some x =>
    obtain ⟨n, idx⟩ := x
    obtain ⟨p, hb⟩ := (bodyName_iff a n idx).1 hn
    have huniq : ∀ ps, ParamsAt W a ps → ∃ q d, (W.procs ((W.context a).1.getD 0)).lookup n = some q ∧ q.defs[idx]? = some (ps, d) := by
      rintro ps ⟨p', n', idx', i, q, d, hb', hi, hq, hd⟩
      obtain ⟨h1, rfl⟩ := inBody_unique hb hb'
      obtain ⟨_, h2⟩ := List.append_inj' h1 rfl
      cases h2
      rw [home_unique W hh hi]
      exact ⟨q, d, hq, hd⟩
    show (∃ ps, _ ∧ (match (W.procs ((W.context a).1.getD 0)).lookup n with
      | some q => ((q.defs[idx]?).map Prod.fst).getD []
      | none => []) = ps) ∨ _ ∧ (match (W.procs ((W.context a).1.getD 0)).lookup n with
      | some q => ((q.defs[idx]?).map Prod.fst).getD []
      | none => []) = []
    cases hq : (W.procs ((W.context a).1.getD 0)).lookup n with
    | none =>
      refine .inr ⟨?_, rfl⟩
      intro ps hps
      obtain ⟨q, d, hq', _⟩ := huniq ps hps
      rw [hq] at hq'; cases hq'
    | some q =>
      cases hd : q.defs[idx]? with
      | none =>
        refine .inr ⟨?_, by simp [hd]⟩
        intro ps hps
        obtain ⟨q', d, hq', hd'⟩ := huniq ps hps
        rw [hq] at hq'; cases hq'
        rw [hd] at hd'; cases hd'
      | some x =>
        obtain ⟨ps, d⟩ := x
        exact .inl ⟨ps, ⟨p, n, idx, _, q, d, hb, hh, hq, hd⟩, by simp [hd]⟩

theorem paramsAt_unique {a : Place} {ps qs : List Param} (h : ParamsAt W a ps) (h' : ParamsAt W a qs) : ps = qs := by
  obtain ⟨p, n, idx, i, q, d, hb, hi, hq, hd⟩ := h
  obtain ⟨p', n', idx', i', q', d', hb', hi', hq', hd'⟩ := h'
  obtain ⟨h1, rfl⟩ := inBody_unique hb hb'
  obtain ⟨_, h2⟩ := List.append_inj' h1 rfl
  cases h2
  have := home_unique W hi hi'
  subst this
  rw [hq] at hq'; cases hq'
  rw [hd] at hd'; cases hd'
  rfl

theorem mem_params (a : Place) (p : Param) : p ∈ W.paramsHere a ↔ ∃ ps, ParamsAt W a ps ∧ p ∈ ps := by
  rcases params_cases W a with ⟨ps, h, he⟩ | ⟨h, he⟩
  · rw [he]
    constructor
    · intro hp; exact ⟨ps, h, hp⟩
    · rintro ⟨qs, hq, hp⟩; rw [paramsAt_unique W h hq]; exact hp
  · rw [he]
    constructor
    · intro hp; cases hp
    · rintro ⟨qs, hq, _⟩; exact absurd hq (h qs)

theorem paramAt_iff (a : Place) (n : Ident) (p : Param) :
    (W.paramsHere a).find? (fun p => p.name = n) = some p ↔ ParamAt W a n p := by
  unfold ParamAt
  constructor
  · intro h
    have hname := List.find?_some h
    rw [List.find?_eq_some_iff_append] at h
    obtain ⟨_, pre, post, he, hno⟩ := h
    rcases params_cases W a with ⟨ps, hp, hps⟩ | ⟨_, hnil⟩
    · refine ⟨ps, pre, post, hp, by rw [← hps]; exact he, by simpa using hname, ?_⟩
      intro x hx; simpa using hno x hx
    · rw [hnil] at he; cases pre <;> cases he
  · rintro ⟨ps, pre, post, hp, he, hn, hno⟩
    rcases params_cases W a with ⟨qs, hq, hqs⟩ | ⟨hno', _⟩
    · rw [List.find?_eq_some_iff_append]
      refine ⟨by simpa using hn, pre, post, ?_, fun x hx => by simpa using hno x hx⟩
      rw [hqs, ← paramsAt_unique W hp hq]; exact he
    · exact absurd hp (hno' ps)

/-- The four cases of an unqualified name. -/
theorem unscoped_cases (a : Place) (n : Ident) :
    (∃ l path, LocalAt a n l path ∧ W.unscoped a (W.context a).1 (W.context a).2 n = .local l path) ∨
    ((∀ l path, ¬ LocalAt a n l path) ∧ ∃ p, ParamAt W a n p ∧
      W.unscoped a (W.context a).1 (W.context a).2 n =
        .param ((W.context a).1.getD 0) (((W.context a).2.map Prod.fst).getD "") p) ∨
    (∃ j, VarAt W a n j ∧ W.unscoped a (W.context a).1 (W.context a).2 n = .var j) ∨
    ((∀ l path, ¬ LocalAt a n l path) ∧ (∀ p, ¬ ParamAt W a n p) ∧ (∀ j, ¬ VarAt W a n j) ∧
      W.unscoped a (W.context a).1 (W.context a).2 n = .none) := by
  unfold World.unscoped
  cases hl : a.findSome? (fun x => match x.2 with | .localVar path m => if m = n then some (x.1, path) else none | _ => none) with
  | some x =>
    obtain ⟨l, path⟩ := x
    exact .inl ⟨l, path, (localAt_iff ..).1 hl, rfl⟩
  | none =>
    have hno : ∀ l path, ¬ LocalAt a n l path := by
      intro l path h; rw [(localAt_iff ..).2 h] at hl; cases hl
    refine .inr ?_
    simp only []
    cases hp : (W.params ((W.context a).1.getD 0) (W.context a).2).find? (fun p => decide (p.name = n)) with
    | some p => exact .inl ⟨hno, p, (paramAt_iff W a n p).1 hp, rfl⟩
    | none =>
      have hnop : ∀ p, ¬ ParamAt W a n p := by
        intro p h
        have := (paramAt_iff W a n p).2 h
        unfold World.paramsHere at this
        rw [this] at hp; cases hp
      refine .inr ?_
      simp only []
      have hh := (home_iff W a _).1 rfl
      cases hv : (W.line ((W.context a).1.getD 0)).find? fun j => ((W.vars j).lookup n).isSome with
      | some j =>
        exact .inl ⟨j, ⟨hno, hnop, _, hh, (varOn_iff W true n _ j).1 hv⟩, rfl⟩
      | none =>
        refine .inr ⟨hno, hnop, ?_, rfl⟩
        rintro j ⟨_, _, i, hi, hj⟩
        rw [← home_unique W hh hi] at hj
        have := (varOn_iff W true n _ j).2 hj
        unfold World.varOn at this
        rw [show W.lineOf true ((W.context a).1.getD 0) = W.line ((W.context a).1.getD 0) from rfl, hv] at this
        cases this

theorem localAt_unique {a : Place} {n : Ident} {l l' : Loc} {p p' : List Ident} (h : LocalAt a n l p) (h' : LocalAt a n l' p') :
    l = l' ∧ p = p' := by
  have h1 := (localAt_iff ..).2 h
  rw [(localAt_iff ..).2 h'] at h1
  cases h1; exact ⟨rfl, rfl⟩

theorem paramAt_unique {a : Place} {n : Ident} {p q : Param} (h : ParamAt W a n p) (h' : ParamAt W a n q) : p = q := by
  have h1 := (paramAt_iff ..).2 h
  rw [(paramAt_iff ..).2 h'] at h1
  cases h1; rfl

theorem varAt_unique {a : Place} {n : Ident} {i j : Nat} (h : VarAt W a n i) (h' : VarAt W a n j) : i = j := by
  obtain ⟨_, _, x, hx, hi⟩ := h
  obtain ⟨_, _, y, hy, hj⟩ := h'
  have := home_unique W hx hy
  subst this
  exact nearest_unique W hi hj

theorem unscoped_var (a : Place) (n : Ident) (j : Nat) :
    W.unscoped a (W.context a).1 (W.context a).2 n = .var j ↔ VarAt W a n j := by
  rcases unscoped_cases W a n with ⟨l, path, h, he⟩ | ⟨h, p, hp, he⟩ | ⟨k, hk, he⟩ | ⟨h1, h2, h3, he⟩
  · rw [he]
    constructor
    · intro h; cases h
    · intro hv; exact absurd h (hv.1 l path)
  · rw [he]
    constructor
    · intro h; cases h
    · intro hv; exact absurd hp (hv.2.1 p)
  · rw [he]
    constructor
    · intro h; cases h; exact hk
    · intro hv; rw [varAt_unique W hk hv]
  · rw [he]
    constructor
    · intro h; cases h
    · intro hv; exact absurd hv (h3 j)

/-- The type path that the code finds for an unqualified name. -/
def World.pathOf (a : Place) (n : Ident) : Option (List Ident) :=
  match W.unscoped a (W.context a).1 (W.context a).2 n with
  | .param _ _ p => some p.path
  | .var j => (W.varDecl j n).map Prod.snd
  | .local _ path => some path
  | .none => none

theorem pathOf_iff (a : Place) (n : Ident) (path : List Ident) : W.pathOf a n = some path ↔ NamePath W a n path := by
  unfold World.pathOf
  rcases unscoped_cases W a n with ⟨l, path', h, he⟩ | ⟨h, p, hp, he⟩ | ⟨k, hk, he⟩ | ⟨h1, h2, h3, he⟩
  · rw [he]
    simp only []
    constructor
    · intro h'; cases h'; exact .local h
    · intro hn
      cases hn with
      | «local» h' => rw [(localAt_unique h h').2]
      | param hno _ => exact absurd h (hno l path')
      | var hv _ => exact absurd h (hv.1 l path')
  · rw [he]
    simp only []
    constructor
    · intro h'; cases h'; exact .param h hp
    · intro hn
      cases hn with
      | «local» h' => exact absurd h' (h _ _)
      | param _ hp' => rw [paramAt_unique W hp hp']
      | var hv _ => exact absurd hp (hv.2.1 p)
  · rw [he]
    simp only []
    rw [Option.map_eq_some_iff]
    constructor
    · rintro ⟨⟨j, p⟩, hd, rfl⟩
      exact .var hk ((varDecl_iff ..).1 hd)
    · intro hn
      cases hn with
      | «local» h' => exact absurd h' (hk.1 _ _)
      | param _ hp' => exact absurd hp' (hk.2.1 _)
      | var hv hd =>
        rw [varAt_unique W hv hk] at hd
        exact ⟨(_, path), (varDecl_iff ..).2 hd, rfl⟩
  · rw [he]
    simp only []
    constructor
    · intro h'; cases h'
    · intro hn
      cases hn with
      | «local» h' => exact absurd h' (h1 _ _)
      | param _ hp' => exact absurd hp' (h2 _)
      | var hv hd => exact absurd hv (h3 _)

/-! ### Qualified names -/

theorem fields_iff (i : Nat) (ns : List Ident) (j : Nat) : W.fields (some i) ns = some j ↔ FieldsTy W i ns j := by
  induction ns generalizing i with
  | nil =>
    unfold World.fields
    constructor
    · intro h; cases h; exact .nil
    · intro h; cases h; rfl
  | cons n ns ih =>
    rw [World.fields]
    cases hd : (W.varDecl i n).bind fun d => W.typeByPath d.2 with
    | none =>
      have hnone : W.fields none ns = none := by cases ns <;> rfl
      rw [hnone]
      constructor
      · intro h; cases h
      · intro h
        cases h with
        | cons h1 h2 _ =>
          rw [(varDecl_iff ..).2 h1] at hd
          simp only [Option.bind_some] at hd
          rw [(typeByPath_iff ..).2 h2] at hd; cases hd
    | some k =>
      rw [ih]
      obtain ⟨⟨j', p⟩, h1, h2⟩ := Option.bind_eq_some_iff.1 hd
      constructor
      · intro h; exact .cons ((varDecl_iff ..).1 h1) ((typeByPath_iff ..).1 h2) h
      · intro h
        cases h with
        | cons h1' h2' h3 =>
          rw [(varDecl_iff ..).2 h1'] at h1; cases h1
          rw [(typeByPath_iff ..).2 h2'] at h2; cases h2
          exact h3

/-- The type that the code finds for the first name. -/
def World.firstTy (a : Place) (x : Ident) : Option Nat :=
  if x = "args" then W.typeByPath ["list"]
  else if x = "global" then some 0
  else if x = "src" then (W.context a).1
  else if x = "usr" then W.typeByPath ["mob"]
  else if x = "caller" ∨ x = "callee" then W.typeByPath ["callee"]
  else (W.pathOf a x).bind W.typeByPath

theorem firstTy_iff (a : Place) (x : Ident) (i : Nat) : W.firstTy a x = some i ↔ FirstTy W a x i := by
  have notName : ∀ {n : Ident}, n ∈ fixedNames → n ∉ fixedNames → False := fun h h' => h' h
  unfold World.firstTy
  by_cases h1 : x = "args"
  · subst h1
    rw [if_pos rfl, typeByPath_iff]
    constructor
    · exact .args
    · intro h
      generalize hx : "args" = y at h
      cases h with
      | args h => exact h
      | name hn _ _ => subst hx; exact absurd (by decide) hn
      | _ => exact absurd hx (by decide)
  rw [if_neg h1]
  by_cases h2 : x = "global"
  · subst h2
    rw [if_pos rfl]
    constructor
    · intro h; cases h; exact .global
    · intro h
      generalize hx : "global" = y at h
      cases h with
      | global => rfl
      | name hn _ _ => subst hx; exact absurd (by decide) hn
      | _ => exact absurd hx (by decide)
  rw [if_neg h2]
  by_cases h3 : x = "src"
  · subst h3
    rw [if_pos rfl, owner_iff]
    constructor
    · exact .src
    · intro h
      generalize hx : "src" = y at h
      cases h with
      | src h => exact h
      | name hn _ _ => subst hx; exact absurd (by decide) hn
      | _ => exact absurd hx (by decide)
  rw [if_neg h3]
  by_cases h4 : x = "usr"
  · subst h4
    rw [if_pos rfl, typeByPath_iff]
    constructor
    · exact .usr
    · intro h
      generalize hx : "usr" = y at h
      cases h with
      | usr h => exact h
      | name hn _ _ => subst hx; exact absurd (by decide) hn
      | _ => exact absurd hx (by decide)
  rw [if_neg h4]
  by_cases h5 : x = "caller" ∨ x = "callee"
  · rw [if_pos h5, typeByPath_iff]
    rcases h5 with rfl | rfl
    · constructor
      · exact .caller
      · intro h
        generalize hx : "caller" = y at h
        cases h with
        | caller h => exact h
        | name hn _ _ => subst hx; exact absurd (by decide) hn
        | _ => exact absurd hx (by decide)
    · constructor
      · exact .callee
      · intro h
        generalize hx : "callee" = y at h
        cases h with
        | callee h => exact h
        | name hn _ _ => subst hx; exact absurd (by decide) hn
        | _ => exact absurd hx (by decide)
  rw [if_neg h5]
  obtain ⟨h5, h6⟩ := not_or.1 h5
  rw [Option.bind_eq_some_iff]
  constructor
  · rintro ⟨p, hp, ht⟩
    refine .name ?_ ((pathOf_iff ..).1 hp) ((typeByPath_iff ..).1 ht)
    simp only [fixedNames, List.mem_cons, List.not_mem_nil, or_false, not_or]
    exact ⟨h1, h2, h3, h4, h5, h6⟩
  · intro h
    cases h with
    | name hn hp ht => exact ⟨_, (pathOf_iff ..).2 hp, (typeByPath_iff ..).2 ht⟩
    | args => exact absurd rfl h1
    | global => exact absurd rfl h2
    | src => exact absurd rfl h3
    | usr => exact absurd rfl h4
    | caller => exact absurd rfl h5
    | callee => exact absurd rfl h6

theorem scoped_eq (a : Place) (x : Ident) (rest : List Ident) : W.scoped a (x :: rest) = W.fields (W.firstTy a x) rest := by
  rw [World.scoped]
  simp only [World.firstTy, World.pathOf]
  congr 1
  repeat (split; rfl)
  cases W.unscoped a (W.context a).1 (W.context a).2 x with
  | param i q p => rfl
  | var j => simp only []; cases W.varDecl j x <;> rfl
  | «local» l p => rfl
  | none => rfl

/-- `a.b.c` has the type that the specification gives. -/
theorem scoped_iff (a : Place) (priors : List Ident) (i : Nat) : W.scoped a priors = some i ↔ ScopedTy W a priors i := by
  cases priors with
  | nil =>
    rw [World.scoped, owner_iff]
    constructor
    · exact .nil
    · intro h; cases h with | nil h => exact h
  | cons x rest =>
    rw [scoped_eq]
    constructor
    · intro h
      cases hf : W.firstTy a x with
      | none => rw [hf] at h; cases rest <;> cases h
      | some j => rw [hf] at h; exact .cons ((firstTy_iff ..).1 hf) ((fields_iff ..).1 h)
    · intro h
      cases h with
      | cons h1 h2 => rw [(firstTy_iff ..).2 h1]; exact (fields_iff ..).2 h2

theorem scoped_unique {a : Place} {priors : List Ident} {i j : Nat} (h : ScopedTy W a priors i) (h' : ScopedTy W a priors j) :
    i = j := by
  have h1 := (scoped_iff ..).2 h
  rw [(scoped_iff ..).2 h'] at h1
  cases h1; rfl

end Verif.Lookup
