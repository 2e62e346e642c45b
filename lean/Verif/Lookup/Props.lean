import Verif.Lookup.Names

/-!
# What completion offers
-/

namespace Verif.Lookup

open Verif.Typing (Ident Loc PathOp)
open Verif.Refs (Sym)

variable (W : World)

/-! ### Members -/

/-- Whether the item stands for a variable or proc of a type, and which. -/
def Item.key : Item → Option (Bool × Ident)
  | .var _ n => some (false, n)
  | .proc _ n => some (true, n)
  | _ => none

theorem offer_seen (q : Ident → Bool) (k : Bool) (mk : Ident → Item) (l : List Ident) (r : Found) (k' : Bool) (m : Ident) :
    (k', m) ∈ (l.foldl (offer q k mk) r).1 ↔ (k', m) ∈ r.1 ∨ (k' = k ∧ m ∈ l) := by
  induction l generalizing r with
  | nil => simp
  | cons n l ih =>
    rw [List.foldl_cons, ih]
    unfold offer
    by_cases hs : (k, n) ∈ r.1
    · rw [if_pos hs]
      constructor
      · rintro (h | ⟨h1, h2⟩)
        · exact .inl h
        · exact .inr ⟨h1, .tail _ h2⟩
      · rintro (h | ⟨h1, h2⟩)
        · exact .inl h
        · cases h2 with
          | head => subst h1; exact .inl hs
          | tail _ h2 => exact .inr ⟨h1, h2⟩
    · rw [if_neg hs]
      simp only [List.mem_cons, Prod.mk.injEq]
      constructor
      · rintro ((⟨h1, h2⟩ | h) | ⟨h1, h2⟩)
        · exact .inr ⟨h1, .inl h2⟩
        · exact .inl h
        · exact .inr ⟨h1, .inr h2⟩
      · rintro (h | ⟨h1, h2 | h2⟩)
        · exact .inl (.inr h)
        · exact .inl (.inl ⟨h1, h2⟩)
        · exact .inr ⟨h1, h2⟩

theorem offer_items (q : Ident → Bool) (k : Bool) (mk : Ident → Item) (l : List Ident) (r : Found) (x : Item) :
    x ∈ (l.foldl (offer q k mk) r).2 ↔ x ∈ r.2 ∨ ∃ n ∈ l, (k, n) ∉ r.1 ∧ q n = true ∧ x = mk n := by
  induction l generalizing r with
  | nil => simp
  | cons n l ih =>
    rw [List.foldl_cons, ih]
    unfold offer
    by_cases hs : (k, n) ∈ r.1
    · rw [if_pos hs]
      constructor
      · rintro (h | ⟨m, h1, h2⟩)
        · exact .inl h
        · exact .inr ⟨m, .tail _ h1, h2⟩
      · rintro (h | ⟨m, h1, h2⟩)
        · exact .inl h
        · cases h1 with
          | head => exact absurd hs h2.1
          | tail _ h1 => exact .inr ⟨m, h1, h2⟩
    · rw [if_neg hs]
      have hx : x ∈ (if q n = true then r.2 ++ [mk n] else r.2) ↔ x ∈ r.2 ∨ (q n = true ∧ x = mk n) := by
        by_cases hq : q n = true
        · rw [if_pos hq]; simp [hq]
        · rw [if_neg hq]; simp [hq]
      simp only [hx, List.mem_cons, Prod.mk.injEq, true_and, not_or]
      constructor
      · rintro ((h | ⟨h1, h2⟩) | ⟨m, h1, ⟨_, h2⟩, h3⟩)
        · exact .inl h
        · exact .inr ⟨n, .inl rfl, hs, h1, h2⟩
        · exact .inr ⟨m, .inr h1, h2, h3⟩
      · rintro (h | ⟨m, h1 | h1, h2, h3⟩)
        · exact .inl (.inl h)
        · subst h1; exact .inl (.inr h3)
        · by_cases hmn : m = n
          · subst hmn; exact .inl (.inr h3)
          · exact .inr ⟨m, h1, ⟨hmn, h2⟩, h3⟩

theorem mem_names {α : Type} (l : List (Ident × α)) (n : Ident) : n ∈ l.map Prod.fst ↔ (l.lookup n).isSome = true := by
  rw [lookup_isSome]
  simp

theorem itemsTy_seen (q : Ident → Bool) (r : Found) (i : Nat) (k : Bool) (n : Ident) :
    (k, n) ∈ (W.itemsTy q r i).1 ↔
      (k, n) ∈ r.1 ∨ (k = false ∧ ((W.vars i).lookup n).isSome = true) ∨ (k = true ∧ ((W.procs i).lookup n).isSome = true) := by
  unfold World.itemsTy
  rw [offer_seen, offer_seen, mem_names, mem_names, or_assoc]

theorem itemsTy_items (q : Ident → Bool) (r : Found) (i : Nat) (x : Item) :
    x ∈ (W.itemsTy q r i).2 ↔
      x ∈ r.2 ∨ (∃ n, q n = true ∧ (false, n) ∉ r.1 ∧ ((W.vars i).lookup n).isSome = true ∧ x = .var i n) ∨
        ∃ n, q n = true ∧ (true, n) ∉ r.1 ∧ ((W.procs i).lookup n).isSome = true ∧ x = .proc i n := by
  unfold World.itemsTy
  rw [offer_items, offer_items]
  simp only [offer_seen, mem_names, Bool.true_eq_false, false_and, or_false, or_assoc]
  refine or_congr Iff.rfl (or_congr ?_ ?_) <;>
  · refine exists_congr fun n => ?_
    constructor
    · rintro ⟨h1, h2, h3, h4⟩; exact ⟨h3, h2, h1, h4⟩
    · rintro ⟨h3, h2, h1, h4⟩; exact ⟨h1, h2, h3, h4⟩

theorem varOn_pos {n : Ident} {i : Nat} (h : ((W.vars i).lookup n).isSome = true) (l : List Nat) :
    W.varOn n (i :: l) = some i := List.find?_cons_of_pos (p := fun j => ((W.vars j).lookup n).isSome) h

theorem varOn_neg {n : Ident} {i : Nat} (h : ¬ ((W.vars i).lookup n).isSome = true) (l : List Nat) :
    W.varOn n (i :: l) = W.varOn n l := List.find?_cons_of_neg (p := fun j => ((W.vars j).lookup n).isSome) h

theorem procOn_pos {n : Ident} {i : Nat} (h : ((W.procs i).lookup n).isSome = true) (l : List Nat) :
    W.procOn n (i :: l) = some i := List.find?_cons_of_pos (p := fun j => ((W.procs j).lookup n).isSome) h

theorem procOn_neg {n : Ident} {i : Nat} (h : ¬ ((W.procs i).lookup n).isSome = true) (l : List Nat) :
    W.procOn n (i :: l) = W.procOn n l := List.find?_cons_of_neg (p := fun j => ((W.procs j).lookup n).isSome) h

theorem members_fold (q : Ident → Bool) (l : List Nat) (r : Found) (x : Item) :
    x ∈ (l.foldl (W.itemsTy q) r).2 ↔
      x ∈ r.2 ∨ (∃ n j, q n = true ∧ (false, n) ∉ r.1 ∧ W.varOn n l = some j ∧ x = .var j n) ∨
        ∃ n j, q n = true ∧ (true, n) ∉ r.1 ∧ W.procOn n l = some j ∧ x = .proc j n := by
  induction l generalizing r with
  | nil => simp [World.varOn, World.procOn]
  | cons i l ih =>
    rw [List.foldl_cons, ih]
    simp only [itemsTy_seen, itemsTy_items, true_and, Bool.false_eq_true, Bool.true_eq_false, false_and, or_false, false_or,
      not_or]
    constructor
    · rintro ((h | ⟨n, h1, h2, h3, h4⟩ | ⟨n, h1, h2, h3, h4⟩) | ⟨n, j, h1, ⟨h2, h3⟩, h4, h5⟩ | ⟨n, j, h1, ⟨h2, h3⟩, h4, h5⟩)
      · exact .inl h
      · exact .inr (.inl ⟨n, i, h1, h2, varOn_pos W h3 l, h4⟩)
      · exact .inr (.inr ⟨n, i, h1, h2, procOn_pos W h3 l, h4⟩)
      · exact .inr (.inl ⟨n, j, h1, h2, by rw [varOn_neg W h3 l]; exact h4, h5⟩)
      · exact .inr (.inr ⟨n, j, h1, h2, by rw [procOn_neg W h3 l]; exact h4, h5⟩)
    · rintro (h | ⟨n, j, h1, h2, h3, h4⟩ | ⟨n, j, h1, h2, h3, h4⟩)
      · exact .inl (.inl h)
      · by_cases hi : ((W.vars i).lookup n).isSome = true
        · rw [varOn_pos W hi l] at h3; cases h3
          exact .inl (.inr (.inl ⟨n, h1, h2, hi, h4⟩))
        · rw [varOn_neg W hi l] at h3
          exact .inr (.inl ⟨n, j, h1, ⟨h2, hi⟩, h3, h4⟩)
      · by_cases hi : ((W.procs i).lookup n).isSome = true
        · rw [procOn_pos W hi l] at h3; cases h3
          exact .inl (.inr (.inr ⟨n, h1, h2, hi, h4⟩))
        · rw [procOn_neg W hi l] at h3
          exact .inr (.inr ⟨n, j, h1, ⟨h2, hi⟩, h3, h4⟩)

theorem members_iff (q : Ident → Bool) (root : Bool) (i : Nat) (x : Item) :
    x ∈ W.members q (W.lineOf root i) ↔ ∃ n, q n = true ∧ Member W root i n x := by
  unfold World.members
  rw [members_fold]
  simp only [List.not_mem_nil, false_or, not_false_eq_true, true_and]
  constructor
  · rintro (⟨n, j, h1, h2, rfl⟩ | ⟨n, j, h1, h2, rfl⟩)
    · exact ⟨n, h1, .var ((varOn_iff ..).1 h2)⟩
    · exact ⟨n, h1, .proc ((procOn_iff ..).1 h2)⟩
  · rintro ⟨n, h1, h⟩
    cases h with
    | var h => exact .inl ⟨n, _, h1, (varOn_iff ..).2 h, rfl⟩
    | proc h => exact .inr ⟨n, _, h1, (procOn_iff ..).2 h, rfl⟩

/-- What has been found is about names that were seen, each once. -/
def Tidy (r : Found) : Prop :=
  (r.2.map Item.key).Nodup ∧ ∀ x ∈ r.2, ∃ k ∈ r.1, x.key = some k

theorem offer_tidy (q : Ident → Bool) (k : Bool) (mk : Ident → Item) (hmk : ∀ n, (mk n).key = some (k, n)) (r : Found)
    (n : Ident) (h : Tidy r) : Tidy (offer q k mk r n) := by
  unfold offer
  by_cases hs : (k, n) ∈ r.1
  · rw [if_pos hs]; exact h
  · rw [if_neg hs]
    by_cases hq : q n = true
    · simp only [if_pos hq]
      refine ⟨?_, ?_⟩
      · rw [List.map_append, List.nodup_append]
        refine ⟨h.1, by simp, ?_⟩
        intro y hy z hz hyz
        simp only [List.map_cons, List.map_nil, List.mem_singleton] at hz
        obtain ⟨x, hx, rfl⟩ := List.mem_map.1 hy
        obtain ⟨k', hk', hx'⟩ := h.2 x hx
        rw [hz, hx', hmk] at hyz
        cases hyz
        exact hs hk'
      · intro x hx
        rcases List.mem_append.1 hx with hx | hx
        · obtain ⟨k', hk', hx'⟩ := h.2 x hx
          exact ⟨k', .tail _ hk', hx'⟩
        · rw [List.mem_singleton] at hx
          subst hx
          exact ⟨_, .head _, hmk n⟩
    · simp only [if_neg hq]
      refine ⟨h.1, ?_⟩
      intro x hx
      obtain ⟨k', hk', hx'⟩ := h.2 x hx
      exact ⟨k', .tail _ hk', hx'⟩

theorem offers_tidy (q : Ident → Bool) (k : Bool) (mk : Ident → Item) (hmk : ∀ n, (mk n).key = some (k, n)) (l : List Ident)
    (r : Found) (h : Tidy r) : Tidy (l.foldl (offer q k mk) r) := by
  induction l generalizing r with
  | nil => exact h
  | cons n l ih => exact ih _ (offer_tidy q k mk hmk r n h)

/-- No variable and no proc is offered twice. -/
theorem members_once (q : Ident → Bool) (l : List Nat) : ((W.members q l).map Item.key).Nodup := by
  have : ∀ (l : List Nat) (r : Found), Tidy r → Tidy (l.foldl (W.itemsTy q) r) := by
    intro l
    induction l with
    | nil => intro r h; exact h
    | cons i l ih =>
      intro r h
      refine ih _ ?_
      unfold World.itemsTy
      exact offers_tidy q true _ (fun _ => rfl) _ _ (offers_tidy q false _ (fun _ => rfl) _ _ h)
  exact (this l ([], []) ⟨by simp, nofun⟩).1

/-! ### The four kinds of completion -/

theorem scopedItems_iff (q : Ident → Bool) (a : Place) (priors : List Ident) (x : Item) :
    x ∈ W.scopedItems q a priors ↔ ∃ n, q n = true ∧ ScopedOffer W a priors n x := by
  unfold World.scopedItems
  constructor
  · intro h
    cases hs : W.scoped a priors with
    | none => rw [hs] at h; cases h
    | some i =>
      rw [hs] at h
      obtain ⟨n, hq, hm⟩ := (members_iff W q false i x).1 h
      exact ⟨n, hq, .mk ((scoped_iff ..).1 hs) hm⟩
  · rintro ⟨n, hq, h⟩
    cases h with
    | mk hs hm =>
      rw [(scoped_iff ..).2 hs]
      exact (members_iff W q false _ x).2 ⟨n, hq, hm⟩

theorem mem_keywords (q : Ident → Bool) (l : List Ident) (x : Item) :
    x ∈ keywords q l ↔ ∃ k, q k = true ∧ k ∈ l ∧ x = .keyword k := by
  unfold keywords
  simp only [List.mem_map, List.mem_filter]
  constructor
  · rintro ⟨k, ⟨h1, h2⟩, rfl⟩; exact ⟨k, h2, h1, rfl⟩
  · rintro ⟨k, h2, h1, rfl⟩; exact ⟨k, ⟨h1, h2⟩, rfl⟩

theorem mem_children (q : Ident → Bool) (i : Nat) (x : Item) :
    x ∈ W.childItems q i ↔ ∃ n j, q n = true ∧ (n, j) ∈ W.children i ∧ x = .type n j := by
  unfold World.childItems
  simp only [List.mem_map, List.mem_filter]
  constructor
  · rintro ⟨⟨n, j⟩, ⟨h1, h2⟩, rfl⟩; exact ⟨n, j, h2, h1, rfl⟩
  · rintro ⟨n, j, h2, h1, rfl⟩; exact ⟨(n, j), ⟨h1, h2⟩, rfl⟩

theorem mem_localNames (a : Place) (n : Ident) : n ∈ localNames a ↔ ∃ l path, (l, Ann.localVar path n) ∈ a := by
  unfold localNames
  rw [List.mem_filterMap]
  constructor
  · rintro ⟨⟨l, x⟩, hx, h⟩
    cases x with
    | localVar path m => cases h; exact ⟨l, path, hx⟩
    | _ => cases h
  · rintro ⟨l, path, h⟩; exact ⟨_, h, rfl⟩

theorem unscopedItems_iff (q : Ident → Bool) (a : Place) (x : Item) :
    x ∈ W.unscopedItems q a ↔ ∃ n, q n = true ∧ UnscopedOffer W a n x := by
  have hh := (home_iff W a _).1 rfl
  have e : W.unscopedItems q a = (if (W.context a).2.isSome then keywords q procKeywords else []) ++
    ((localNames a).filter q).map .local ++ (((W.paramsHere a).map Param.name).filter q).map .param ++
    (W.macros.filter q).map .macro ++ W.members q (W.lineOf true ((W.context a).1.getD 0)) := rfl
  rw [e]
  simp only [List.mem_append, List.mem_map, List.mem_filter, members_iff, mem_localNames]
  constructor
  · rintro ((((h | ⟨n, ⟨⟨l, p, hl⟩, hq⟩, rfl⟩) | ⟨n, ⟨⟨p, hp, rfl⟩, hq⟩, rfl⟩) | ⟨n, ⟨hm, hq⟩, rfl⟩) | ⟨n, hq, hm⟩)
    · by_cases hs : (W.context a).2.isSome = true
      · rw [if_pos hs] at h
        obtain ⟨k, hq, hk, rfl⟩ := (mem_keywords ..).1 h
        rw [context_name] at hs
        obtain ⟨⟨n, idx⟩, hn⟩ := Option.isSome_iff_exists.1 hs
        obtain ⟨p, hb⟩ := (bodyName_iff ..).1 hn
        exact ⟨k, hq, .keyword hb hk⟩
      · rw [if_neg hs] at h; cases h
    · exact ⟨n, hq, .local hl⟩
    · obtain ⟨ps, h1, h2⟩ := (mem_params ..).1 hp
      exact ⟨p.name, hq, .param h1 h2⟩
    · exact ⟨n, hq, .macro hm⟩
    · exact ⟨n, hq, .member hh hm⟩
  · rintro ⟨n, hq, h⟩
    cases h with
    | keyword hb hk =>
      have : (W.context a).2.isSome = true := by
        rw [context_name, (bodyName_iff ..).2 ⟨_, hb⟩]; rfl
      rw [if_pos this]
      exact .inl (.inl (.inl (.inl ((mem_keywords ..).2 ⟨_, hq, hk, rfl⟩))))
    | «local» h => exact .inl (.inl (.inl (.inr ⟨n, ⟨⟨_, _, h⟩, hq⟩, rfl⟩)))
    | param h1 h2 => exact .inl (.inl (.inr ⟨_, ⟨⟨_, (mem_params ..).2 ⟨_, h1, h2⟩, rfl⟩, hq⟩, rfl⟩))
    | «macro» h => exact .inl (.inr ⟨n, ⟨h, hq⟩, rfl⟩)
    | member hi hm =>
      rw [home_unique W hh hi]
      exact .inr ⟨n, hq, hm⟩

theorem treeItems_iff (q : Ident → Bool) (exact' : Bool) (i : Nat) (x : Item) :
    x ∈ W.treeItems q exact' i ↔ ∃ n, q n = true ∧ TreeOffer W exact' i n x := by
  have hm : x ∈ W.members q (W.line i) ↔ ∃ n, q n = true ∧ Member W true i n x := members_iff W q true i x
  unfold World.treeItems
  rw [List.mem_append, List.mem_append, mem_keywords]
  constructor
  · rintro ((⟨k, hq, hk, rfl⟩ | h) | h)
    · exact ⟨k, hq, .keyword hk⟩
    · cases exact' with
      | false => cases h
      | true =>
        obtain ⟨n, j, hq, hc, rfl⟩ := (mem_children ..).1 h
        exact ⟨n, hq, .child rfl hc⟩
    · by_cases hi : i = 0
      · rw [if_pos hi] at h; cases h
      · rw [if_neg hi] at h
        obtain ⟨n, hq, h⟩ := hm.1 h
        exact ⟨n, hq, .member hi h⟩
  · rintro ⟨n, hq, h⟩
    cases h with
    | keyword hk => exact .inl (.inl ⟨n, hq, hk, rfl⟩)
    | child he hc =>
      refine .inl (.inr ?_)
      rw [if_pos he]
      exact (mem_children ..).2 ⟨n, _, hq, hc, rfl⟩
    | member hi h =>
      refine .inr ?_
      rw [if_neg hi]
      exact hm.2 ⟨n, hq, h⟩

/-! ### Procs after `proc/` or `verb/` -/

theorem offerDecl_seen (q : Ident → Bool) (verb : Bool) (i : Nat) (l : List (Ident × ProcEntry)) (r : List Ident × List Item)
    (n : Ident) : n ∈ (l.foldl (offerDecl q verb i) r).1 ↔ n ∈ r.1 ∨ (l.lookup n).isSome = true := by
  induction l generalizing r with
  | nil => simp
  | cons p l ih =>
    obtain ⟨m, e⟩ := p
    rw [List.foldl_cons, ih, List.lookup_cons]
    unfold offerDecl
    by_cases hs : m ∈ r.1
    · rw [if_pos hs]
      by_cases h : n = m
      · subst h; simp [hs]
      · rw [beq_eq_false_iff_ne.2 h]
    · rw [if_neg hs]
      by_cases h : n = m
      · subst h; simp
      · rw [beq_eq_false_iff_ne.2 h]; simp [h]

theorem offerDecl_items (q : Ident → Bool) (verb : Bool) (i : Nat) (l : List (Ident × ProcEntry)) (r : List Ident × List Item)
    (x : Item) : x ∈ (l.foldl (offerDecl q verb i) r).2 ↔
      x ∈ r.2 ∨ ∃ n e, q n = true ∧ n ∉ r.1 ∧ l.lookup n = some e ∧ e.decl = some verb ∧ x = .proc i n := by
  induction l generalizing r with
  | nil => simp
  | cons p l ih =>
    obtain ⟨m, e⟩ := p
    rw [List.foldl_cons, ih]
    unfold offerDecl
    by_cases hs : m ∈ r.1
    · rw [if_pos hs]
      refine or_congr Iff.rfl (exists_congr fun n => exists_congr fun e' => and_congr Iff.rfl ?_)
      constructor
      · rintro ⟨h1, h2, h3⟩
        refine ⟨h1, ?_, h3⟩
        rw [List.lookup_cons, beq_eq_false_iff_ne.2 (fun h => h1 (by rw [h]; exact hs))]; exact h2
      · rintro ⟨h1, h2, h3⟩
        refine ⟨h1, ?_, h3⟩
        rw [List.lookup_cons, beq_eq_false_iff_ne.2 (fun h => h1 (by rw [h]; exact hs))] at h2; exact h2
    · rw [if_neg hs]
      have hx : x ∈ (match e.decl with
          | none => r.2
          | some v => if v ≠ verb then r.2 else if q m = true then r.2 ++ [Item.proc i m] else r.2) ↔
          x ∈ r.2 ∨ (q m = true ∧ e.decl = some verb ∧ x = .proc i m) := by
        cases he : e.decl with
        | none => simp
        | some v =>
          by_cases hv : v = verb
          · subst hv
            by_cases hq : q m = true <;> simp [hq]
          · simp [hv]
      show (x ∈ (match e.decl with
          | none => r.2
          | some v => if v ≠ verb then r.2 else if q m = true then r.2 ++ [Item.proc i m] else r.2) ∨ _) ↔ _
      rw [hx]
      constructor
      · rintro ((h | ⟨h1, h2, h3⟩) | ⟨n, e', h1, h2, h3, h4⟩)
        · exact .inl h
        · exact .inr ⟨m, e, h1, hs, by rw [List.lookup_cons, beq_self_eq_true], h2, h3⟩
        · obtain ⟨h2, h2'⟩ : n ≠ m ∧ n ∉ r.1 := by simpa using h2
          refine .inr ⟨n, e', h1, h2', ?_, h4⟩
          rw [List.lookup_cons, beq_eq_false_iff_ne.2 h2]; exact h3
      · rintro (h | ⟨n, e', h1, h2, h3, h4⟩)
        · exact .inl (.inl h)
        · by_cases hn : n = m
          · subst hn
            rw [List.lookup_cons, beq_self_eq_true] at h3; cases h3
            exact .inl (.inr ⟨h1, h4⟩)
          · rw [List.lookup_cons, beq_eq_false_iff_ne.2 hn] at h3
            exact .inr ⟨n, e', h1, by simp [hn, h2], h3, h4⟩

theorem decls_fold (q : Ident → Bool) (verb : Bool) (l : List Nat) (r : List Ident × List Item) (x : Item) :
    x ∈ (l.foldl (fun r j => (W.procs j).foldl (offerDecl q verb j) r) r).2 ↔
      x ∈ r.2 ∨ ∃ n j e, q n = true ∧ n ∉ r.1 ∧ W.procOn n l = some j ∧ (W.procs j).lookup n = some e ∧ e.decl = some verb ∧
        x = .proc j n := by
  induction l generalizing r with
  | nil => simp [World.procOn]
  | cons i l ih =>
    rw [List.foldl_cons, ih]
    simp only [offerDecl_seen, offerDecl_items, not_or]
    constructor
    · rintro ((h | ⟨n, e, h1, h2, h3, h4⟩) | ⟨n, j, e, h1, ⟨h2, h3⟩, h4, h5⟩)
      · exact .inl h
      · exact .inr ⟨n, i, e, h1, h2, procOn_pos W (by rw [h3]; rfl) l, h3, h4⟩
      · exact .inr ⟨n, j, e, h1, h2, by rw [procOn_neg W h3 l]; exact h4, h5⟩
    · rintro (h | ⟨n, j, e, h1, h2, h3, h4⟩)
      · exact .inl (.inl h)
      · by_cases hi : ((W.procs i).lookup n).isSome = true
        · rw [procOn_pos W hi l] at h3; cases h3
          exact .inl (.inr ⟨n, e, h1, h2, h4⟩)
        · rw [procOn_neg W hi l] at h3
          exact .inr ⟨n, j, e, h1, ⟨h2, hi⟩, h3, h4⟩

theorem pathItems_iff (q : Ident → Bool) (a : Place) (p : List (PathOp × Ident)) (x : Item) :
    x ∈ W.pathItems q a p ↔ ∃ n t, q n = true ∧ W.typePath a p = some t ∧ PathOffer W t n x := by
  unfold World.pathItems
  constructor
  · intro h
    rcases ht : W.typePath a p with _ | ⟨i, _ | verb, _ | s⟩
    · rw [ht] at h; cases h
    · rw [ht] at h
      rcases List.mem_append.1 h with h | h
      · obtain ⟨k, hq, hk, rfl⟩ := (mem_keywords ..).1 h
        exact ⟨k, _, hq, rfl, .keyword hk⟩
      · obtain ⟨n, j, hq, hc, rfl⟩ := (mem_children ..).1 h
        exact ⟨n, _, hq, rfl, .child hc⟩
    · rw [ht] at h; cases h
    · rw [ht] at h
      simp only [decls_fold, List.not_mem_nil, false_or, not_false_eq_true, true_and] at h
      obtain ⟨n, j, e, hq, hn, he, hd, rfl⟩ := h
      exact ⟨n, _, hq, rfl, .proc ((procOn_iff W false n i j).1 hn) he hd⟩
    · rw [ht] at h; cases h
  · rintro ⟨n, t, hq, ht, h⟩
    rw [ht]
    cases h with
    | keyword hk => exact List.mem_append.2 (.inl ((mem_keywords ..).2 ⟨n, hq, hk, rfl⟩))
    | child hc => exact List.mem_append.2 (.inr ((mem_children ..).2 ⟨n, _, hq, hc, rfl⟩))
    | proc hn he hd =>
      simp only [decls_fold, List.not_mem_nil, false_or, not_false_eq_true, true_and]
      exact ⟨n, _, _, hq, (procOn_iff W false n _ _).2 hn, he, hd, rfl⟩

end Verif.Lookup
