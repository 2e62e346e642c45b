import Verif.Lookup.Paths

/-!
# Completion, Go to Definition and the symbol under the cursor
-/

namespace Verif.Lookup

open Verif.Typing (Ident Loc PathOp)
open Verif.Refs (Sym)

variable (W : World)

/-! ### Completion -/

theorem snoc_cases {α : Type} {p : List α} (h : p ≠ []) : ∃ q x, p = q ++ [x] := by
  rcases List.eq_nil_or_concat p with rfl | ⟨q, x, rfl⟩
  · exact absurd rfl h
  · exact ⟨q, x, List.concat_eq_append⟩

theorem isError_iff (q : Ident → Ident → Bool) (a : Place) (e : Ann) :
    IsError e ↔ (W.errorItemsOf q a e).isSome = true := by
  cases e <;> simp [IsError, World.errorItemsOf]

theorem isName_iff (q : Ident → Ident → Bool) (a : Place) (e : Ann) : IsName e ↔ (W.itemsOf q a e).isSome = true := by
  cases e <;> simp [IsName, World.itemsOf]

theorem errorItems_iff (q : Ident → Ident → Bool) (a : Place) (e : Ann) (l : List Item) (h : W.errorItemsOf q a e = some l)
    (x : Item) : x ∈ l ↔ ∃ n, q n "" = true ∧ ErrorOffer W a e n x := by
  cases e with
  | missingIdent priors =>
    cases h
    rw [scopedItems_iff]
    refine exists_congr fun n => and_congr Iff.rfl ?_
    exact ⟨.missingIdent, fun h => by cases h with | missingIdent h => exact h⟩
  | incompleteTypePath p op =>
    cases h
    rw [pathItems_iff]
    constructor
    · rintro ⟨n, t, hq, ht, h⟩; exact ⟨n, hq, .typePath ((pathTy_iff ..).1 ht) h⟩
    · rintro ⟨n, hq, h⟩
      cases h with | typePath ht h => exact ⟨n, _, hq, (pathTy_iff ..).2 ht, h⟩
  | incompleteTreePath absolute p =>
    cases h
    rw [treeItems_iff]
    have hr := (reach_iff W (combine a absolute p) (W.approx 0 true (combine a absolute p)).1
      (W.approx 0 true (combine a absolute p)).2).1 rfl
    refine exists_congr fun n => and_congr Iff.rfl ?_
    constructor
    · intro h; exact .treePath ((fullPath_iff ..).1 rfl) hr h
    · intro h
      cases h with
      | treePath hf hr' h =>
        have := (fullPath_iff ..).2 hf
        subst this
        have := (reach_iff ..).2 hr'
        rw [this]; exact h
  | _ => cases h

theorem nameItems_iff (q : Ident → Ident → Bool) (a : Place) (e : Ann) (hw : WellFormed e) (l : List Item)
    (h : W.itemsOf q a e = some l) (x : Item) : x ∈ l ↔ ∃ query n, q n query = true ∧ NameOffer W a e query n x := by
  cases e with
  | treePath absolute p =>
    obtain ⟨p, query, rfl⟩ := snoc_cases hw
    cases h
    simp only [List.dropLast_concat, List.getLast?_concat, Option.getD_some]
    rw [treeItems_iff]
    have hr := (reach_iff W (combine a absolute p) (W.approx 0 true (combine a absolute p)).1
      (W.approx 0 true (combine a absolute p)).2).1 rfl
    constructor
    · rintro ⟨n, hq, h⟩
      exact ⟨query, n, hq, .treePath ((fullPath_iff ..).1 rfl) hr h⟩
    · rintro ⟨query', n, hq, h⟩
      generalize he : Ann.treePath absolute (p ++ [query]) = e at h
      cases h with
      | treePath hf hr' h =>
        obtain ⟨rfl, he1⟩ := Ann.treePath.inj he
        obtain ⟨rfl, he2⟩ := List.append_inj' he1 rfl
        cases he2
        have := (fullPath_iff ..).2 hf
        subst this
        have := (reach_iff ..).2 hr'
        rw [this]; exact ⟨n, hq, h⟩
      | _ => cases he
  | typePath p =>
    obtain ⟨p, ⟨op, query⟩, rfl⟩ := snoc_cases hw
    cases h
    simp only [List.dropLast_concat, List.getLast?_concat, Option.getD_some, Option.map_some]
    rw [pathItems_iff]
    constructor
    · rintro ⟨n, t, hq, ht, h⟩
      exact ⟨query, n, hq, .typePath ((pathTy_iff ..).1 ht) h⟩
    · rintro ⟨query', n, hq, h⟩
      generalize he : Ann.typePath (p ++ [(op, query)]) = e at h
      cases h with
      | typePath ht h =>
        obtain ⟨rfl, he2⟩ := List.append_inj' (Ann.typePath.inj he) rfl
        cases he2
        exact ⟨n, _, hq, (pathTy_iff ..).2 ht, h⟩
      | _ => cases he
  | unscopedCall m =>
    cases h
    rw [unscopedItems_iff]
    constructor
    · rintro ⟨n, hq, h⟩; exact ⟨m, n, hq, .unscopedCall h⟩
    · rintro ⟨query, n, hq, h⟩
      cases h with | unscopedCall h => exact ⟨n, hq, h⟩
  | unscopedVar m =>
    cases h
    rw [unscopedItems_iff]
    constructor
    · rintro ⟨n, hq, h⟩; exact ⟨m, n, hq, .unscopedVar h⟩
    · rintro ⟨query, n, hq, h⟩
      cases h with | unscopedVar h => exact ⟨n, hq, h⟩
  | scopedCall priors m =>
    cases h
    rw [scopedItems_iff]
    constructor
    · rintro ⟨n, hq, h⟩; exact ⟨m, n, hq, .scopedCall h⟩
    · rintro ⟨query, n, hq, h⟩
      cases h with | scopedCall h => exact ⟨n, hq, h⟩
  | scopedVar priors m =>
    cases h
    rw [scopedItems_iff]
    constructor
    · rintro ⟨n, hq, h⟩; exact ⟨m, n, hq, .scopedVar h⟩
    · rintro ⟨query, n, hq, h⟩
      cases h with | scopedVar h => exact ⟨n, hq, h⟩
  | _ => cases h

/-- The loop, if there is an error. -/
theorem loop_error (q : Ident → Ident → Bool) (a xs : Place) (r : Option (List Item)) (pre post : Place) (l : Loc) (e : Ann)
    (items : List Item) (h : xs = pre ++ (l, e) :: post) (hno : ∀ y ∈ pre, ¬ IsError y.2)
    (he : W.errorItemsOf q a e = some items) : W.itemsLoop q a xs r = some items := by
  subst h
  induction pre generalizing r with
  | nil => rw [List.nil_append, World.itemsLoop, he]
  | cons y pre ih =>
    have hy : W.errorItemsOf q a y.2 = none := by
      cases h : W.errorItemsOf q a y.2 with
      | none => rfl
      | some z => exact absurd ((isError_iff W q a y.2).2 (by rw [h]; rfl)) (hno y (.head _))
    rw [List.cons_append, World.itemsLoop, hy]
    cases W.itemsOf q a y.2 with
    | none => exact ih _ fun z hz => hno z (.tail _ hz)
    | some l => exact ih _ fun z hz => hno z (.tail _ hz)

/-- The loop, if there is none. -/
theorem loop_names (q : Ident → Ident → Bool) (a xs : Place) (r : Option (List Item)) (hno : ∀ y ∈ xs, ¬ IsError y.2) :
    W.itemsLoop q a xs r = xs.foldl (fun r y => match W.itemsOf q a y.2 with | some l => some (r.getD [] ++ l) | none => r) r := by
  induction xs generalizing r with
  | nil => rfl
  | cons y xs ih =>
    have hy : W.errorItemsOf q a y.2 = none := by
      cases h : W.errorItemsOf q a y.2 with
      | none => rfl
      | some z => exact absurd ((isError_iff W q a y.2).2 (by rw [h]; rfl)) (hno y (.head _))
    rw [World.itemsLoop, hy, List.foldl_cons]
    cases W.itemsOf q a y.2 with
    | none => exact ih _ fun z hz => hno z (.tail _ hz)
    | some l => exact ih _ fun z hz => hno z (.tail _ hz)

theorem fold_names (f : Ann → Option (List Item)) (xs : Place) (r : Option (List Item)) :
    (xs.foldl (fun r y => match f y.2 with | some l => some (r.getD [] ++ l) | none => r) r = none ↔
      r = none ∧ ∀ y ∈ xs, f y.2 = none) ∧
    ∀ x, x ∈ (xs.foldl (fun r y => match f y.2 with | some l => some (r.getD [] ++ l) | none => r) r).getD [] ↔
      x ∈ r.getD [] ∨ ∃ y ∈ xs, ∃ l, f y.2 = some l ∧ x ∈ l := by
  induction xs generalizing r with
  | nil => simp
  | cons y xs ih =>
    rw [List.foldl_cons]
    cases hf : f y.2 with
    | none =>
      obtain ⟨h1, h2⟩ := ih r
      refine ⟨?_, fun x => ?_⟩
      · simp only []
        rw [h1]
        simp only [List.mem_cons, forall_eq_or_imp, hf, true_and]
      · simp only []
        rw [h2]
        refine or_congr Iff.rfl ?_
        constructor
        · rintro ⟨z, hz, h⟩; exact ⟨z, .tail _ hz, h⟩
        · rintro ⟨z, hz, l, hl, hx⟩
          cases hz with
          | head => rw [hf] at hl; cases hl
          | tail _ hz => exact ⟨z, hz, l, hl, hx⟩
    | some l =>
      obtain ⟨h1, h2⟩ := ih (some (r.getD [] ++ l))
      refine ⟨?_, fun x => ?_⟩
      · simp only []
        rw [h1]
        constructor
        · rintro ⟨h, _⟩; cases h
        · rintro ⟨_, h⟩
          have := h y (.head _)
          rw [hf] at this; cases this
      · simp only []
        rw [h2, Option.getD_some, List.mem_append, or_assoc]
        refine or_congr Iff.rfl ?_
        constructor
        · rintro (h | ⟨z, hz, h⟩)
          · exact ⟨y, .head _, l, hf, h⟩
          · exact ⟨z, .tail _ hz, h⟩
        · rintro ⟨z, hz, l', hl, hx⟩
          cases hz with
          | head => rw [hf] at hl; cases hl; exact .inl hx
          | tail _ hz => exact .inr ⟨z, hz, l', hl, hx⟩

theorem exists_error (a : Place) (h : ¬ ∀ y ∈ a, ¬ IsError y.2) : ∃ l e, Earliest a IsError l e := by
  induction a with
  | nil => exact absurd nofun h
  | cons y a ih =>
    by_cases hy : IsError y.2
    · exact ⟨y.1, y.2, [], a, rfl, hy, nofun⟩
    · have : ¬ ∀ z ∈ a, ¬ IsError z.2 := by
        intro hz
        refine h fun z hm => ?_
        cases hm with
        | head => exact hy
        | tail _ hm => exact hz z hm
      obtain ⟨l, e, pre, post, rfl, h1, h2⟩ := ih this
      refine ⟨l, e, y :: pre, post, rfl, h1, fun z hz => ?_⟩
      cases hz with
      | head => exact hy
      | tail _ hz => exact h2 z hz

theorem earliest_unique {a : Place} {P : Ann → Prop} {l l' : Loc} {x x' : Ann} (h : Earliest a P l x) (h' : Earliest a P l' x') :
    l = l' ∧ x = x' := by
  obtain ⟨pre, post, rfl, hp, hno⟩ := h
  obtain ⟨pre', post', he, hp', hno'⟩ := h'
  induction pre generalizing pre' with
  | nil =>
    cases pre' with
    | nil => cases he; exact ⟨rfl, rfl⟩
    | cons y pre' => cases he; exact absurd hp (hno' _ (.head _))
  | cons y pre ih =>
    cases pre' with
    | nil => cases he; exact absurd hp' (hno _ (.head _))
    | cons y' pre' =>
      rw [List.cons_append, List.cons_append] at he
      obtain ⟨rfl, he2⟩ := List.cons.inj he
      exact ih (fun z hz => hno z (.tail _ hz)) pre' he2 fun z hz => hno' z (.tail _ hz)

theorem earliest_mem {a : Place} {P : Ann → Prop} {l : Loc} {x : Ann} (h : Earliest a P l x) : (l, x) ∈ a ∧ P x := by
  obtain ⟨pre, post, rfl, hp, _⟩ := h
  exact ⟨List.mem_append_right _ (.head _), hp⟩

/-- **Completion offers exactly what belongs there**: for the first place where something is missing; if nothing is missing,
for all the names at the place; and if there is none, for the proc or the block of declarations around it. -/
theorem completion_iff (q : Ident → Ident → Bool) (a : Place) (hw : ∀ y ∈ a, WellFormed y.2) (x : Item) :
    x ∈ W.completion q a ↔ Offered W q a x := by
  by_cases hno : ∀ y ∈ a, ¬ IsError y.2
  · unfold World.completion
    rw [loop_names W q a a none hno]
    obtain ⟨h1, h2⟩ := fold_names (W.itemsOf q a) a none
    by_cases hname : ∀ y ∈ a, ¬ IsName y.2
    · have : a.foldl (fun r y => match W.itemsOf q a y.2 with | some l => some (r.getD [] ++ l) | none => r) none = none := by
        refine h1.2 ⟨rfl, fun y hy => ?_⟩
        cases h : W.itemsOf q a y.2 with
        | none => rfl
        | some l => exact absurd ((isName_iff W q a y.2).2 (by rw [h]; rfl)) (hname y hy)
      rw [this]
      have hc : W.context a = ((W.context a).1, bodyName a) := by rw [← context_name W]
      have noName : ∀ {l e query n x}, (l, e) ∈ a → ¬ NameOffer W a e query n x := by
        intro l e query n x hm h
        have := hname _ hm
        cases h <;> exact this trivial
      cases hb : bodyName a with
      | some m =>
        obtain ⟨m, idx⟩ := m
        obtain ⟨p, hp⟩ := (bodyName_iff ..).1 hb
        rw [hb] at hc
        rw [hc]
        simp only []
        rw [unscopedItems_iff]
        constructor
        · rintro ⟨n, hq, h⟩; exact .body hno hname hp h hq
        · intro h
          cases h with
          | error he _ _ => exact absurd (earliest_mem he).2 (hno _ (earliest_mem he).1)
          | name _ hm h _ => exact absurd h (noName hm)
          | body _ _ _ h hq => exact ⟨_, hq, h⟩
          | tree _ _ hb _ _ _ => exact absurd hp (hb _ _ _)
      | none =>
        rw [hb] at hc
        rw [hc]
        simp only []
        have hnob : ∀ p m idx, ¬ InBody a (p ++ [m]) idx := by
          intro p m idx h
          rw [(bodyName_iff ..).2 ⟨p, h⟩] at hb; cases hb
        rw [treeItems_iff]
        constructor
        · rintro ⟨n, hq, h⟩; exact .tree hno hname hnob ((home_iff ..).1 rfl) h hq
        · intro h
          cases h with
          | error he _ _ => exact absurd (earliest_mem he).2 (hno _ (earliest_mem he).1)
          | name _ hm h _ => exact absurd h (noName hm)
          | body _ _ hp _ _ => exact absurd hp (hnob _ _ _)
          | tree _ _ _ hh h hq => rw [(home_iff ..).2 hh]; exact ⟨_, hq, h⟩
    · cases hf : a.foldl (fun r y => match W.itemsOf q a y.2 with | some l => some (r.getD [] ++ l) | none => r) none with
      | none =>
        refine absurd (fun y hy hn => ?_) hname
        have := (h1.1 hf).2 y hy
        have hn := (isName_iff W q a y.2).1 hn
        rw [this] at hn; cases hn
      | some items =>
        have h2 := h2 x
        rw [hf, Option.getD_some] at h2
        simp only []
        rw [h2]
        simp only [Option.getD_none, List.not_mem_nil, false_or]
        constructor
        · rintro ⟨⟨l, e⟩, hy, items, hi, hx⟩
          obtain ⟨query, n, hq, h⟩ := (nameItems_iff W q a e (hw _ hy) items hi x).1 hx
          exact .name hno hy h hq
        · intro h
          cases h with
          | error he _ _ => exact absurd (earliest_mem he).2 (hno _ (earliest_mem he).1)
          | @name l e query n _ _ hm h hq =>
            have : (W.itemsOf q a e).isSome = true := (isName_iff W q a e).1 (by cases h <;> trivial)
            obtain ⟨items, hi⟩ := Option.isSome_iff_exists.1 this
            exact ⟨_, hm, items, hi, (nameItems_iff W q a e (hw _ hm) items hi x).2 ⟨_, _, hq, h⟩⟩
          | body _ hn _ _ _ => exact absurd hn hname
          | tree _ hn _ _ _ _ => exact absurd hn hname
  · obtain ⟨l, e, he⟩ := exists_error a hno
    obtain ⟨pre, post, ha, hp, hpre⟩ := he
    have hs := (isError_iff W q a e).1 hp
    obtain ⟨items, hi⟩ := Option.isSome_iff_exists.1 hs
    unfold World.completion
    rw [loop_error W q a a none pre post l e items ha hpre hi]
    simp only []
    rw [errorItems_iff W q a e items hi]
    have he : Earliest a IsError l e := ⟨pre, post, ha, hp, hpre⟩
    constructor
    · rintro ⟨n, hq, h⟩; exact .error he h hq
    · intro h
      cases h with
      | error he' h hq =>
        obtain ⟨rfl, rfl⟩ := earliest_unique he he'
        exact ⟨_, hq, h⟩
      | name hno' _ _ _ => exact absurd hno' hno
      | body hno' _ _ _ _ => exact absurd hno' hno
      | tree hno' _ _ _ _ _ => exact absurd hno' hno

/-! ### Go to Definition -/

theorem gotoOf_iff (a : Place) (e : Ann) (t : Target) : W.gotoOf a e = some t ↔ Leads W a e t := by
  cases e with
  | treePath absolute p =>
    have hf := (fullPath_iff a absolute p _).1 rfl
    simp only [World.gotoOf]
    cases ht : W.typeByPath (combine a absolute p) with
    | some i =>
      constructor
      · intro h; cases h; exact .treeType hf ((typeByPath_iff ..).1 ht)
      · intro h
        cases h with
        | treeType hf' ht' =>
          rw [(fullPath_iff ..).2 hf', (typeByPath_iff ..).2 ht'] at ht
          cases ht; rfl
        | override hf' hno _ _ _ =>
          rw [(fullPath_iff ..).2 hf'] at ht
          exact absurd ((typeByPath_iff ..).1 ht) (hno i)
    | none =>
      simp only [ht]
      have hno : ∀ i, ¬ TypeAt W (combine a absolute p) i := by
        intro i h; rw [(typeByPath_iff ..).2 h] at ht; cases ht
      rcases List.eq_nil_or_concat (combine a absolute p) with hnil | ⟨full, n, hc⟩
      · simp only [hnil, List.getLast?_nil]
        constructor
        · intro h; cases h
        · intro h
          cases h with
          | treeType hf' ht' => rw [(fullPath_iff ..).2 hf'] at hno; exact absurd ht' (hno _)
          | override hf' _ _ _ _ =>
            have := (fullPath_iff ..).2 hf'
            rw [hnil] at this
            exact absurd this (by simp)
      · rw [List.concat_eq_append] at hc
        simp only [hc, List.getLast?_concat, List.dropLast_concat]
        rw [hc] at hf hno
        constructor
        · intro h
          obtain ⟨k, hk, h⟩ := Option.bind_eq_some_iff.1 h
          obtain ⟨i, hi, hk⟩ := Option.bind_eq_some_iff.1 hk
          obtain ⟨j, hj, rfl⟩ := Option.map_eq_some_iff.1 h
          exact .override hf hno ((typeByPath_iff ..).1 hi) hk ((procOn_iff W true n k j).1 hj)
        · intro h
          cases h with
          | treeType hf' ht' =>
            have := (fullPath_iff ..).2 hf'
            rw [hc] at this; subst this
            exact absurd ht' (hno _)
          | override hf' _ hi hk hj =>
            have := (fullPath_iff ..).2 hf'
            rw [hc] at this
            obtain ⟨rfl, hn⟩ := List.append_inj' this rfl
            cases hn
            rw [(typeByPath_iff ..).2 hi, Option.bind_some, hk, Option.bind_some,
              show W.procOn n (W.line _) = some _ from (procOn_iff W true n _ _).2 hj]
            rfl
  | typePath p =>
    simp only [World.gotoOf]
    constructor
    · intro h
      rcases ht : W.typePath a p with _ | ⟨i, d, _ | ⟨n, k⟩⟩
      · rw [ht] at h; cases h
      · rw [ht] at h
        cases d with
        | none => cases h; exact .pathType ((pathTy_iff ..).1 ht)
        | some _ => cases h
      · rw [ht] at h
        have hp := (pathTy_iff ..).1 ht
        cases d with
        | none => cases hp
        | some verb => cases h; exact .pathProc hp
    · intro h
      cases h with
      | pathType h => rw [(pathTy_iff ..).2 h]
      | pathProc h => rw [(pathTy_iff ..).2 h]
  | unscopedCall n =>
    simp only [World.gotoOf]
    have hh := (home_iff W a _).1 rfl
    rw [Option.map_eq_some_iff]
    constructor
    · rintro ⟨j, hj, rfl⟩; exact .call hh ((procOn_iff W true n _ j).1 hj)
    · intro h
      cases h with
      | call hi hj =>
        rw [home_unique W hh hi]
        exact ⟨_, (procOn_iff W true n _ _).2 hj, rfl⟩
  | unscopedVar n =>
    simp only [World.gotoOf]
    have hh := (home_iff W a _).1 rfl
    rcases unscoped_cases W a n with ⟨l, path, h, he⟩ | ⟨h, p, hp, he⟩ | ⟨k, hk, he⟩ | ⟨h1, h2, h3, he⟩
    · simp only [he]
      constructor
      · intro h'; cases h'; exact .local h
      · intro h'
        cases h' with
        | «local» h' => rw [(localAt_unique h h').1]
        | param hno _ _ _ => exact absurd h (hno l path)
        | var hv => exact absurd h (hv.1 l path)
    · simp only [he]
      have hp0 := hp
      obtain ⟨ps, pre, post, hps, _, hn, _⟩ := hp0
      obtain ⟨body, m, idx, i, q, d, hb, hi, hq, hd⟩ := hps
      have hm : (W.context a).2 = some (m, idx) := by rw [context_name]; exact (bodyName_iff ..).2 ⟨body, hb⟩
      rw [hm]
      constructor
      · intro h'
        cases h'
        rw [hn]
        exact .param h hp hb hh
      · intro h'
        cases h' with
        | «local» h' => exact absurd h' (h _ _)
        | param _ hp' hb' hi' =>
          obtain ⟨hbb, rfl⟩ := inBody_unique hb hb'
          obtain ⟨_, hmm⟩ := List.append_inj' hbb rfl
          cases hmm
          rw [hn, home_unique W hh hi']; rfl
        | var hv => exact absurd hp (hv.2.1 p)
    · simp only [he]
      constructor
      · intro h'; cases h'; exact .var hk
      · intro h'
        cases h' with
        | «local» h' => exact absurd h' (hk.1 _ _)
        | param _ hp' _ _ => exact absurd hp' (hk.2.1 _)
        | var hv => rw [varAt_unique W hk hv]
    · simp only [he]
      constructor
      · intro h'; cases h'
      · intro h'
        cases h' with
        | «local» h' => exact absurd h' (h1 _ _)
        | param _ hp' _ _ => exact absurd hp' (h2 _)
        | var hv => exact absurd hv (h3 _)
  | scopedCall priors n =>
    simp only [World.gotoOf]
    rw [Option.bind_eq_some_iff]
    constructor
    · rintro ⟨i, hi, h⟩
      obtain ⟨j, hj, rfl⟩ := Option.map_eq_some_iff.1 h
      exact .scopedCall ((scoped_iff ..).1 hi) ((procOn_iff W false n i j).1 hj)
    · intro h
      cases h with
      | scopedCall hi hj =>
        refine ⟨_, (scoped_iff ..).2 hi, ?_⟩
        rw [show W.procOn n (W.lineBelow _) = some _ from (procOn_iff W false n _ _).2 hj]; rfl
  | scopedVar priors n =>
    simp only [World.gotoOf]
    rw [Option.bind_eq_some_iff]
    constructor
    · rintro ⟨i, hi, h⟩
      obtain ⟨j, hj, rfl⟩ := Option.map_eq_some_iff.1 h
      exact .scopedVar ((scoped_iff ..).1 hi) ((varOn_iff W false n i j).1 hj)
    · intro h
      cases h with
      | scopedVar hi hj =>
        refine ⟨_, (scoped_iff ..).2 hi, ?_⟩
        rw [show W.varOn n (W.lineBelow _) = some _ from (varOn_iff W false n _ _).2 hj]; rfl
  | parentCall =>
    simp only [World.gotoOf]
    have hc : W.context a = ((W.context a).1, bodyName a) := by rw [← context_name W]
    constructor
    · intro h
      rw [hc] at h
      cases ho : (W.context a).1 with
      | none => rw [ho] at h; cases h
      | some i =>
        have ho' := (owner_iff ..).1 ho
        cases hb : bodyName a with
        | none => rw [ho, hb] at h; cases h
        | some x =>
          obtain ⟨n, idx⟩ := x
          obtain ⟨p, hp⟩ := (bodyName_iff ..).1 hb
          rw [ho, hb] at h
          cases idx with
          | zero =>
            obtain ⟨k, hk, h⟩ := Option.bind_eq_some_iff.1 h
            obtain ⟨j, hj, rfl⟩ := Option.map_eq_some_iff.1 h
            exact .parent ho' hp hk ((procOn_iff W true n k j).1 hj)
          | succ k =>
            obtain ⟨q, hq, h⟩ := Option.bind_eq_some_iff.1 h
            by_cases hk : k < q.defs.length
            · rw [if_pos hk] at h; cases h
              exact .earlier ho' hp hq hk
            · rw [if_neg hk] at h; cases h
    · intro h
      rw [hc]
      cases h with
      | parent ho hp hk hj =>
        rw [(owner_iff ..).2 ho, (bodyName_iff ..).2 ⟨_, hp⟩]
        show (W.parent _).bind _ = _
        rw [hk, Option.bind_some, show W.procOn _ (W.line _) = some _ from (procOn_iff W true _ _ _).2 hj]; rfl
      | earlier ho hp hq hk =>
        rw [(owner_iff ..).2 ho, (bodyName_iff ..).2 ⟨_, hp⟩]
        show ((W.procs _).lookup _).bind _ = _
        rw [hq, Option.bind_some, if_pos hk]
  | macroUse n l =>
    simp only [World.gotoOf]
    constructor
    · intro h; cases h; exact .macro
    · intro h; cases h; rfl
  | _ =>
    constructor
    · intro h; cases h
    · intro h; cases h

/-- **Go to Definition leads to exactly what the names at the place stand for.** -/
theorem goto_iff (a : Place) (t : Target) : t ∈ W.goto a ↔ ∃ x ∈ a, Leads W a x.2 t := by
  unfold World.goto
  rw [List.mem_filterMap]
  exact exists_congr fun x => and_congr Iff.rfl (gotoOf_iff W a x.2 t)

end Verif.Lookup
