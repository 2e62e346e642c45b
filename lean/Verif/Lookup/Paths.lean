import Verif.Lookup.Props

/-!
# Paths lead where the specification says
-/

namespace Verif.Lookup

open Verif.Typing (Ident Loc PathOp)
open Verif.Refs (Sym)

variable (W : World)

theorem cut_iff {α : Type} (a : Place) (p q : List α) : cut a p = q ↔ CutAt a p q := by
  have hf : ∀ i, first a (fun | .inSequence i => some i | _ => none) = some i ↔ ∃ l, Earliest a IsPart l (.inSequence i) := by
    intro i
    unfold first
    rw [earliest_findSome a IsPart _ (fun x => by obtain ⟨l, x⟩ := x; cases x <;> simp [IsPart])]
    constructor
    · rintro ⟨l, x, he, h⟩
      cases x with
      | inSequence i' => cases h; exact ⟨l, he⟩
      | _ => cases h
    · rintro ⟨l, he⟩; exact ⟨l, _, he, rfl⟩
  have htake : ∀ i : Nat, p.take (min (i + 1) p.length) = p.take (i + 1) := by
    intro i
    by_cases h : i + 1 ≤ p.length
    · rw [Nat.min_eq_left h]
    · rw [Nat.min_eq_right (by omega), List.take_length, List.take_of_length_le (by omega)]
  unfold cut
  cases h : first a (fun | .inSequence i => some i | _ => none) with
  | some i =>
    obtain ⟨l, he⟩ := (hf i).1 h
    simp only [htake]
    constructor
    · rintro rfl; exact .part he
    · intro hc
      cases hc with
      | part he' =>
        rw [(hf _).2 ⟨_, he'⟩] at h; cases h; rfl
      | whole hno =>
        obtain ⟨pre, post, rfl, hp, _⟩ := he
        exact absurd hp (hno (l, .inSequence i) (by simp))
  | none =>
    simp only []
    constructor
    · rintro rfl
      refine .whole fun x hx hp => ?_
      unfold first at h
      have := List.findSome?_eq_none_iff.1 h x hx
      obtain ⟨l, x⟩ := x
      cases x <;> simp [IsPart] at hp this
    · intro hc
      cases hc with
      | part he' => rw [(hf _).2 ⟨_, he'⟩] at h; cases h
      | whole _ => rfl

/-- What comes after the first `var`. -/
def afterVar (p : List Ident) : List Ident := if p.contains "var" then (p.dropWhile (· ≠ "var")).tail else p

theorem dropWhile_var (p : List Ident) (h : "var" ∈ p) : ∃ pre q, p = pre ++ "var" :: q ∧ "var" ∉ pre ∧
    (p.dropWhile (· ≠ "var")).tail = q := by
  induction p with
  | nil => cases h
  | cons x p ih =>
    by_cases hx : x = "var"
    · subst hx; exact ⟨[], p, rfl, nofun, by simp⟩
    · have hp : "var" ∈ p := by cases h with | head => exact absurd rfl hx | tail _ h => exact h
      obtain ⟨pre, q, rfl, h1, h2⟩ := ih hp
      refine ⟨x :: pre, q, rfl, ?_, ?_⟩
      · intro hm; cases hm with | head => exact hx rfl | tail _ hm => exact h1 hm
      · rw [List.dropWhile_cons_of_pos (by simpa using hx)]; exact h2

theorem split_var {pre pre' q q' : List Ident} (h : pre ++ "var" :: q = pre' ++ "var" :: q') (h1 : "var" ∉ pre)
    (h2 : "var" ∉ pre') : q = q' := by
  induction pre generalizing pre' with
  | nil =>
    cases pre' with
    | nil => cases h; rfl
    | cons x pre' => cases h; exact absurd (.head _) h2
  | cons x pre ih =>
    cases pre' with
    | nil => cases h; exact absurd (.head _) h1
    | cons y pre' =>
      rw [List.cons_append, List.cons_append] at h
      exact ih (List.cons.inj h).2 (fun hm => h1 (.tail _ hm)) fun hm => h2 (.tail _ hm)

theorem afterVar_iff (p q : List Ident) : afterVar p = q ↔ AfterVar p q := by
  unfold afterVar
  by_cases h : "var" ∈ p
  · rw [if_pos (List.contains_iff_mem.2 h)]
    obtain ⟨pre, r, rfl, h1, h2⟩ := dropWhile_var p h
    rw [h2]
    constructor
    · rintro rfl; exact .cut h1
    · intro hc
      generalize hp : pre ++ "var" :: r = p at hc
      cases hc with
      | cut h1' => exact split_var hp h1 h1'
      | same hno => subst hp; exact absurd (by simp) hno
  · rw [if_neg (by simpa using h)]
    constructor
    · rintro rfl; exact .same h
    · intro hc
      cases hc with
      | cut _ => exact absurd (by simp) h
      | same _ => rfl

theorem dropLists_iff (p q : List Ident) :
    p.dropWhile (· = "list") = q ↔ ∃ k, p = List.replicate k "list" ++ q ∧ q.head? ≠ some "list" := by
  induction p with
  | nil =>
    constructor
    · rintro rfl; exact ⟨0, rfl, nofun⟩
    · rintro ⟨k, h, _⟩
      have := (List.append_eq_nil_iff.1 h.symm).2
      rw [this]; rfl
  | cons x p ih =>
    by_cases hx : x = "list"
    · subst hx
      rw [List.dropWhile_cons_of_pos (by simp), ih]
      constructor
      · rintro ⟨k, rfl, h⟩; exact ⟨k + 1, rfl, h⟩
      · rintro ⟨k, h1, h2⟩
        cases k with
        | zero =>
          rw [List.replicate_zero, List.nil_append] at h1
          rw [← h1] at h2; exact absurd rfl h2
        | succ k =>
          rw [List.replicate_succ, List.cons_append] at h1
          exact ⟨k, (List.cons.inj h1).2, h2⟩
    · rw [List.dropWhile_cons_of_neg (by simpa using hx)]
      constructor
      · rintro rfl; exact ⟨0, rfl, by simpa using hx⟩
      · rintro ⟨k, h1, h2⟩
        cases k with
        | zero => exact h1
        | succ k =>
          rw [List.replicate_succ, List.cons_append] at h1
          exact absurd (List.cons.inj h1).1 hx

theorem blockPath_iff (a : Place) (q : List Ident) :
    (match first a (fun | .treeBlock q => some q | _ => none) with
      | some q => afterVar q
      | none => []) = q ↔ BlockPath a q := by
  cases h : first a (fun | .treeBlock p => some p | _ => none) with
  | some b =>
    have hb := (inBlock_iff ..).1 h
    simp only [afterVar_iff]
    constructor
    · intro hv; exact .block hb hv
    · intro hp
      cases hp with
      | block hb' hv => rw [inBlock_unique hb hb']; exact hv
      | outside hno => exact absurd hb (hno b)
  | none =>
    simp only []
    constructor
    · rintro rfl
      refine .outside fun b hb => ?_
      cases h.symm.trans ((inBlock_iff ..).2 hb)
    · intro hp
      cases hp with
      | block hb' hv => cases h.symm.trans ((inBlock_iff ..).2 hb')
      | outside hno => rfl

/-- The path that a path in the tree is relative to, as the code finds it. -/
def blockPath (a : Place) : List Ident :=
  match first a (fun | .treeBlock q => some q | _ => none) with
  | some q => afterVar q
  | none => []

theorem combine_eq (a : Place) (absolute : Bool) (p : List Ident) : combine a absolute p =
    (if absolute = true ∨ "var" ∈ cut a p then [] else blockPath a) ++ (afterVar (cut a p)).dropWhile (· = "list") := by
  unfold combine afterVar blockPath
  by_cases h : "var" ∈ cut a p
  · have h' := List.contains_iff_mem.2 h
    simp only [h', if_true, h, or_true]
  · have h' : (cut a p).contains "var" = false := by simpa using h
    simp only [h', h, or_false, Bool.false_eq_true, if_false]
    rfl

theorem fullPath_iff (a : Place) (absolute : Bool) (p full : List Ident) :
    combine a absolute p = full ↔ FullPath a absolute p full := by
  rw [combine_eq]
  have hc := (cut_iff a p _).1 rfl
  have hd := (dropLists_iff (afterVar (cut a p)) _).1 rfl
  obtain ⟨k, hk, hh⟩ := hd
  by_cases h : absolute = true ∨ "var" ∈ cut a p
  · rw [if_pos h, List.nil_append]
    constructor
    · intro he
      rw [he] at hk hh
      exact .absolute hc h ((afterVar_iff ..).1 hk) hh
    · intro hf
      cases hf with
      | absolute hc' _ hv hh' =>
        rw [← (cut_iff ..).2 hc'] at hv
        exact (dropLists_iff ..).2 ⟨_, (afterVar_iff ..).2 hv, hh'⟩
      | relative hc' hv _ _ _ =>
        rw [(cut_iff ..).2 hc'] at h
        exact absurd h (by simp [hv])
  · rw [if_neg h]
    obtain ⟨h1, h2⟩ := not_or.1 h
    have h1' : absolute = false := by simpa using h1
    subst h1'
    have hs : afterVar (cut a p) = cut a p := (afterVar_iff ..).2 (.same h2)
    constructor
    · rintro rfl
      rw [hs] at hk hh ⊢
      exact .relative hc h2 hk hh ((blockPath_iff a _).1 rfl)
    · intro hf
      cases hf with
      | absolute hc' hv _ _ =>
        rw [← (cut_iff ..).2 hc'] at hv
        exact absurd (hv.resolve_left (by simp)) h2
      | relative hc' _ he hh' hb =>
        rw [show blockPath a = _ from (blockPath_iff a _).2 hb]
        congr 1
        exact (dropLists_iff ..).2 ⟨_, by rw [hs, (cut_iff ..).2 hc']; exact he, hh'⟩

/-! ### Down the tree -/

theorem down_snoc {i j : Nat} {p : List Ident} (h : Down W i p j) {q : List Ident} {k : Nat} (h' : Down W j q k) :
    Down W i (p ++ q) k := by
  induction h with
  | here => exact h'
  | step hc _ ih => exact .step hc (ih h')

theorem down_unique {i j k : Nat} {p : List Ident} (h : Down W i p j) (h' : Down W i p k) : j = k := by
  have h1 := (approx_down ..).2 h
  rw [(approx_down ..).2 h'] at h1
  cases h1; rfl

theorem approx_part (i : Nat) (p : List Ident) (j : Nat) :
    W.approx i false p = (false, j) ↔
      ∃ pre x rest, p = pre ++ x :: rest ∧ Down W i pre j ∧ (W.children j).lookup x = none := by
  induction p generalizing i with
  | nil =>
    unfold World.approx
    constructor
    · intro h; cases h
    · rintro ⟨pre, x, rest, h, _⟩; cases pre <;> cases h
  | cons y p ih =>
    unfold World.approx
    cases hc : (W.children i).lookup y with
    | none =>
      simp only []
      constructor
      · intro h; cases h; exact ⟨[], y, p, rfl, .here, hc⟩
      · rintro ⟨pre, x, rest, h, hd, hx⟩
        cases hd with
        | here => rfl
        | step hc' _ => cases h; rw [hc] at hc'; cases hc'
    | some k =>
      simp only [Bool.and_false, Bool.false_eq_true, if_false]
      rw [ih]
      constructor
      · rintro ⟨pre, x, rest, rfl, hd, hx⟩
        exact ⟨y :: pre, x, rest, rfl, .step hc hd, hx⟩
      · rintro ⟨pre, x, rest, h, hd, hx⟩
        cases hd with
        | here => cases h; rw [hc] at hx; cases hx
        | step hc' hd =>
          cases h
          rw [hc] at hc'; cases hc'
          exact ⟨_, x, rest, rfl, hd, hx⟩

theorem reach_iff (p : List Ident) (e : Bool) (i : Nat) : W.approx 0 true p = (e, i) ↔ Reach W p e i := by
  have key : W.typeByPath p = some i ↔ W.approx 0 true p = (true, i) := by
    unfold World.typeByPath
    obtain ⟨b, j⟩ := W.approx 0 true p
    cases b <;> simp
  cases e with
  | true =>
    rw [← key, typeByPath_iff]
    constructor
    · exact .all
    · intro h
      generalize hb : true = b at h
      cases h with
      | all h => exact h
      | part => cases hb
  | false =>
    have hroot : ∀ {q : List Ident} {j : Nat}, q.head? ≠ some "list" → (TypeAt W q j ↔ Down W 0 q j) := by
      intro q j hq
      constructor
      · intro h
        cases h with
        | list _ => exact absurd rfl hq
        | down _ h => exact h
      · exact .down hq
    have goal : W.approx 0 true p = (false, i) ↔
        ∃ pre x rest, p = pre ++ x :: rest ∧ pre.head? ≠ some "list" ∧ Down W 0 pre i ∧ (W.children i).lookup x = none := by
      cases p with
      | nil =>
        unfold World.approx
        constructor
        · intro h; cases h
        · rintro ⟨pre, x, rest, h, _⟩; cases pre <;> cases h
      | cons y rest =>
        by_cases hy : y = "list"
        · subst hy
          unfold World.approx
          cases hc : (W.children 0).lookup "list" with
          | none =>
            constructor
            · intro h; cases h; exact ⟨[], _, rest, rfl, nofun, .here, hc⟩
            · rintro ⟨pre, x, rest', h, hh, hd, hx⟩
              cases pre with
              | nil => cases hd; rfl
              | cons z pre => cases h; exact absurd rfl hh
          | some j =>
            constructor
            · intro h; cases h
            · rintro ⟨pre, x, rest', h, hh, hd, hx⟩
              cases pre with
              | nil => cases hd; cases h; rw [hc] at hx; cases hx
              | cons z pre => cases h; exact absurd rfl hh
        · have : W.approx 0 true (y :: rest) = W.approx 0 false (y :: rest) := by
            unfold World.approx
            cases (W.children 0).lookup y with
            | none => rfl
            | some j => simp only [beq_eq_false_iff_ne.2 hy, Bool.false_and]
          rw [this, approx_part]
          constructor
          · rintro ⟨pre, x, rest', h, hd, hx⟩
            refine ⟨pre, x, rest', h, ?_, hd, hx⟩
            cases pre with
            | nil => nofun
            | cons z pre => cases h; simpa using hy
          · rintro ⟨pre, x, rest', h, _, hd, hx⟩; exact ⟨pre, x, rest', h, hd, hx⟩
    rw [goal]
    constructor
    · rintro ⟨pre, x, rest, rfl, hh, hd, hx⟩
      exact .part ((hroot hh).2 hd) hh hx
    · intro h
      generalize hb : false = b at h
      cases h with
      | all h => cases hb
      | part ht hh hx => exact ⟨_, _, _, rfl, hh, (hroot hh).1 ht, hx⟩

theorem walk_spec (words : List Ident) (i : Nat) (p : List Ident) (j : Nat) :
    W.walk words i p = j ↔ ((∀ x ∈ p, x ∉ words) ∧ Down W i p j) ∨
      ∃ pre x rest, p = pre ++ x :: rest ∧ (∀ y ∈ pre, y ∉ words) ∧ Down W i pre j ∧
        (x ∈ words ∨ (W.children j).lookup x = none) := by
  induction p generalizing i with
  | nil =>
    unfold World.walk
    constructor
    · rintro rfl; exact .inl ⟨nofun, .here⟩
    · rintro (⟨_, h⟩ | ⟨pre, x, rest, h, _⟩)
      · cases h; rfl
      · cases pre <;> cases h
  | cons y p ih =>
    unfold World.walk
    by_cases hy : y ∈ words
    · rw [if_pos (List.contains_iff_mem.2 hy)]
      constructor
      · rintro rfl; exact .inr ⟨[], y, p, rfl, nofun, .here, .inl hy⟩
      · rintro (⟨h, _⟩ | ⟨pre, x, rest, h, hw, hd, _⟩)
        · exact absurd hy (h y (.head _))
        · cases pre with
          | nil => cases hd; rfl
          | cons z pre => cases h; exact absurd hy (hw _ (.head _))
    · rw [if_neg (by simpa using hy)]
      cases hc : (W.children i).lookup y with
      | none =>
        simp only []
        constructor
        · rintro rfl; exact .inr ⟨[], y, p, rfl, nofun, .here, .inr hc⟩
        · rintro (⟨_, h⟩ | ⟨pre, x, rest, h, hw, hd, _⟩)
          · cases h with | step h _ => rw [hc] at h; cases h
          · cases hd with
            | here => rfl
            | step h' _ => cases h; rw [hc] at h'; cases h'
      | some k =>
        simp only []
        rw [ih]
        constructor
        · rintro (⟨h, hd⟩ | ⟨pre, x, rest, rfl, hw, hd, hx⟩)
          · refine .inl ⟨?_, .step hc hd⟩
            intro x hx
            cases hx with | head => exact hy | tail _ hx => exact h x hx
          · refine .inr ⟨y :: pre, x, rest, rfl, ?_, .step hc hd, hx⟩
            intro x hx
            cases hx with | head => exact hy | tail _ hx => exact hw x hx
        · rintro (⟨h, hd⟩ | ⟨pre, x, rest, h, hw, hd, hx⟩)
          · cases hd with
            | step hc' hd =>
              rw [hc] at hc'; cases hc'
              exact .inl ⟨fun x hx => h x (.tail _ hx), hd⟩
          · cases hd with
            | here =>
              cases h
              rcases hx with hx | hx
              · exact absurd hx hy
              · rw [hc] at hx; cases hx
            | step hc' hd =>
              cases h
              rw [hc] at hc'; cases hc'
              exact .inr ⟨_, x, rest, rfl, fun x hx => hw x (.tail _ hx), hd, hx⟩

theorem walk_iff (words p : List Ident) (i : Nat) : W.walk words 0 p = i ↔ WalkTo W words p i := by
  rw [walk_spec]
  constructor
  · rintro (⟨h1, h2⟩ | ⟨pre, x, rest, rfl, h1, h2, h3⟩)
    · exact .all h1 h2
    · exact .part h1 h2 h3
  · intro h
    cases h with
    | all h1 h2 => exact .inl ⟨h1, h2⟩
    | part h1 h2 h3 => exact .inr ⟨_, _, _, rfl, h1, h2, h3⟩

/-! ### Paths in expressions -/

theorem follow_iff (i : Nat) (p : List (PathOp × Ident)) (j : Nat) (r : Option (Bool × List (PathOp × Ident))) :
    W.follow i p = (j, r) ↔ Followed W i p j r := by
  induction p generalizing i with
  | nil =>
    unfold World.follow
    constructor
    · intro h; cases h; exact .stop
    · intro h; cases h; rfl
  | cons y p ih =>
    obtain ⟨op, x⟩ := y
    unfold World.follow
    by_cases h1 : x = "proc"
    · subst h1
      rw [if_pos rfl]
      constructor
      · intro h; cases h; exact .proc
      · intro h
        generalize hx : "proc" = y at h
        cases h with
        | proc => rfl
        | verb => exact absurd hx (by decide)
        | missing h _ _ => exact absurd hx.symm h
        | step h _ _ _ => exact absurd hx.symm h
    rw [if_neg h1]
    by_cases h2 : x = "verb"
    · subst h2
      rw [if_pos rfl]
      constructor
      · intro h; cases h; exact .verb
      · intro h
        generalize hx : "verb" = y at h
        cases h with
        | verb => rfl
        | proc => exact absurd hx (by decide)
        | missing _ h _ => exact absurd hx.symm h
        | step _ h _ _ => exact absurd hx.symm h
    rw [if_neg h2]
    cases hn : W.navigate i op x with
    | none =>
      simp only []
      constructor
      · intro h; cases h; exact .missing h1 h2 hn
      · intro h
        cases h with
        | missing => rfl
        | proc => exact absurd rfl h1
        | verb => exact absurd rfl h2
        | step _ _ h _ => rw [hn] at h; cases h
    | some k =>
      simp only []
      rw [ih]
      constructor
      · exact .step h1 h2 hn
      · intro h
        cases h with
        | missing _ _ h => rw [hn] at h; cases h
        | proc => exact absurd rfl h1
        | verb => exact absurd rfl h2
        | step _ _ h h' => rw [hn] at h; cases h; exact h'

/-- A path without `/list`, as the code does it. -/
def unlist (p : List (PathOp × Ident)) : List (PathOp × Ident) :=
  match p with
  | (.slash, x) :: rest => if x = "list" ∧ rest ≠ [] then rest else p
  | _ => p

theorem unlist_iff (p q : List (PathOp × Ident)) : unlist p = q ↔ Unlisted p q := by
  have same : (∀ q, q ≠ [] → p ≠ (.slash, "list") :: q) → (p = q ↔ Unlisted p q) := by
    intro hno
    constructor
    · rintro rfl; exact .same hno
    · intro h
      cases h with
      | list hq => exact absurd rfl (hno _ hq)
      | same _ => rfl
  unfold unlist
  split
  · rename_i x rest
    by_cases h : x = "list" ∧ rest ≠ []
    · rw [if_pos h]
      obtain ⟨rfl, hr⟩ := h
      constructor
      · rintro rfl; exact .list hr
      · intro h
        cases h with
        | list _ => rfl
        | same hno => exact absurd rfl (hno rest hr)
    · rw [if_neg h]
      refine same fun q hq he => h ?_
      cases he; exact ⟨rfl, hq⟩
  · rename_i hno
    exact same fun q hq he => by subst he; exact hno _ _ rfl

/-- Where a path starts, as the code finds it. -/
def World.start (a : Place) (p : List (PathOp × Ident)) : Option Nat :=
  match p with
  | [] => some 0
  | (.colon, _) :: _ => none
  | (.slash, _) :: _ => some 0
  | (.dot, _) :: _ => some ((W.context a).1.getD 0)

theorem start_iff (a : Place) (p : List (PathOp × Ident)) (i : Nat) : W.start a p = some i ↔ Start W a p i := by
  unfold World.start
  split
  · constructor
    · intro h; cases h; exact .nil
    · intro h; cases h; rfl
  · constructor
    · intro h; cases h
    · intro h; cases h
  · constructor
    · intro h; cases h; exact .slash
    · intro h; cases h; rfl
  · constructor
    · intro h; cases h; exact .dot ((home_iff ..).1 rfl)
    · intro h; cases h with | dot h => rw [(home_iff ..).2 h]

/-- What the end of a path stands for, as the code finds it. -/
def World.result (r : Nat × Option (Bool × List (PathOp × Ident))) : PathResult :=
  match r with
  | (j, none) => ⟨j, none, none⟩
  | (j, some (verb, [])) => ⟨j, some verb, none⟩
  | (j, some (verb, (_, n) :: _)) =>
    ⟨j, some verb, ((W.line j).find? fun k => ((W.procs k).lookup n).isSome).map fun k => (n, k)⟩

theorem typePath_eq (a : Place) (p : List (PathOp × Ident)) :
    W.typePath a p = (W.start a (unlist (cut a p))).map fun i => W.result (W.follow i (unlist (cut a p))) := rfl

theorem pathTy_iff (a : Place) (p : List (PathOp × Ident)) (t : PathResult) :
    W.typePath a p = some t ↔ PathTy W a p t := by
  rw [typePath_eq, Option.map_eq_some_iff]
  have hc := (cut_iff a p _).1 rfl
  have hu := (unlist_iff (cut a p) _).1 rfl
  constructor
  · rintro ⟨i, hs, rfl⟩
    have hs' := (start_iff ..).1 hs
    rcases hf : W.follow i (unlist (cut a p)) with ⟨j, _ | ⟨verb, _ | ⟨⟨op, n⟩, rest⟩⟩⟩
    · exact .type hc hu hs' ((follow_iff ..).1 hf)
    · exact .decl hc hu hs' ((follow_iff ..).1 hf)
    · show PathTy W a p ⟨j, some verb, (W.procOn n (W.lineOf true j)).map fun k => (n, k)⟩
      cases hn : W.procOn n (W.lineOf true j) with
      | some k => exact .proc hc hu hs' ((follow_iff ..).1 hf) ((procOn_iff ..).1 hn)
      | none =>
        refine .unknown hc hu hs' ((follow_iff ..).1 hf) fun k hk => ?_
        rw [(procOn_iff ..).2 hk] at hn; cases hn
  · intro h
    have key : ∀ {c q : List (PathOp × Ident)} {i j : Nat} {r : Option (Bool × List (PathOp × Ident))},
        CutAt a p c → Unlisted c q → Start W a q i → Followed W i q j r →
        ∃ i, W.start a (unlist (cut a p)) = some i ∧ W.follow i (unlist (cut a p)) = (j, r) := by
      intro c q i j r h1 h2 h3 h4
      rw [(cut_iff ..).2 h1, (unlist_iff ..).2 h2]
      exact ⟨i, (start_iff ..).2 h3, (follow_iff ..).2 h4⟩
    cases h with
    | type h1 h2 h3 h4 =>
      obtain ⟨i, hs, hf⟩ := key h1 h2 h3 h4
      exact ⟨i, hs, by rw [hf]; rfl⟩
    | decl h1 h2 h3 h4 =>
      obtain ⟨i, hs, hf⟩ := key h1 h2 h3 h4
      exact ⟨i, hs, by rw [hf]; rfl⟩
    | @proc c q rest i' j k verb op n h1 h2 h3 h4 h5 =>
      obtain ⟨i, hs, hf⟩ := key h1 h2 h3 h4
      refine ⟨i, hs, ?_⟩
      rw [hf]
      show (⟨j, some verb, (W.procOn n (W.lineOf true j)).map fun k => (n, k)⟩ : PathResult) = _
      rw [(procOn_iff ..).2 h5]; rfl
    | @unknown c q rest i' j verb op n h1 h2 h3 h4 h5 =>
      obtain ⟨i, hs, hf⟩ := key h1 h2 h3 h4
      refine ⟨i, hs, ?_⟩
      rw [hf]
      show (⟨j, some verb, (W.procOn n (W.lineOf true j)).map fun k => (n, k)⟩ : PathResult) = _
      have : W.procOn n (W.lineOf true j) = none := by
        cases hn : W.procOn n (W.lineOf true j) with
        | none => rfl
        | some k => exact absurd ((procOn_iff ..).1 hn) (h5 k)
      rw [this]; rfl

end Verif.Lookup
