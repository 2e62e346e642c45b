import Verif.Typing.Lookup

/-!
# Arguments and return types of calls: the model agrees with the specification
-/

namespace Verif.Typing

variable {es : List Expr} {vs : List An}

theorem positional_iff : ∀ (es : List Expr) (vs : List An) (i : Nat) (a : An),
    (positional es vs)[i]? = some a ↔ Positional es vs i a := by
  intro es
  induction es with
  | nil =>
    intro vs i a
    constructor
    · intro h; simp [positional] at h
    · intro h; cases h
  | cons e es ih =>
    intro vs i a
    cases vs with
    | nil =>
      constructor
      · intro h; simp [positional] at h
      · intro h; cases h
    | cons b vs =>
      cases hk : e.kwarg with
      | none =>
        have he : positional (e :: es) (b :: vs) = b :: positional es vs := by simp [positional, hk]
        rw [he]
        cases i with
        | zero =>
          simp only [List.getElem?_cons_zero, Option.some.injEq]
          constructor
          · rintro rfl; exact .first hk
          · intro h
            cases h with
            | first _ => rfl
            | skip hn _ => exact absurd hk hn
        | succ i =>
          simp only [List.getElem?_cons_succ]
          rw [ih]
          constructor
          · exact .next hk
          · intro h
            cases h with
            | skip hn _ => exact absurd hk hn
            | next _ h => exact h
      | some n =>
        have he : positional (e :: es) (b :: vs) = positional es vs := by simp [positional, hk]
        rw [he, ih]
        have hne : e.kwarg ≠ none := by rw [hk]; nofun
        constructor
        · exact .skip hne
        · intro h
          cases h with
          | first hn => exact absurd hn hne
          | skip _ h => exact h
          | next hn _ => exact absurd hn hne

theorem positional_none (i : Nat) : (positional es vs)[i]? = none ↔ ∀ a, ¬ Positional es vs i a := by
  constructor
  · intro h a ha
    rw [(positional_iff es vs i a).2 ha] at h
    cases h
  · intro h
    cases hp : (positional es vs)[i]? with
    | none => rfl
    | some a => exact absurd ((positional_iff es vs i a).1 hp) (h a)

/-- Finding the last element of a list that meets a condition. -/
theorem find_reverse {α : Type} (p : α → Bool) (l : List α) (x : α) :
    l.reverse.find? p = some x ↔ ∃ pre post, l = pre ++ x :: post ∧ p x = true ∧ ∀ y ∈ post, p y = false := by
  rw [List.find?_eq_some_iff_append]
  constructor
  · rintro ⟨hp, as, bs, h, hn⟩
    refine ⟨bs.reverse, as.reverse, ?_, hp, ?_⟩
    · have := congrArg List.reverse h
      simpa using this
    · intro y hy
      simpa using hn y (by simpa using hy)
  · rintro ⟨pre, post, rfl, hp, hn⟩
    refine ⟨hp, post.reverse, pre.reverse, by simp, ?_⟩
    intro y hy
    simpa using hn y (by simpa using hy)

theorem named_iff (n : Ident) (a : An) (e : Expr) : named es vs n = some (a, e) ↔ Named es vs n a e := by
  unfold named Named
  simp only [Option.map_eq_some_iff, find_reverse]
  constructor
  · rintro ⟨⟨e', a'⟩, ⟨pre, post, h, hk, hn⟩, heq⟩
    cases heq
    exact ⟨pre, post, h, by simpa using hk, fun x hx => by simpa using hn x hx⟩
  · rintro ⟨pre, post, h, hk, hn⟩
    exact ⟨(e, a), ⟨pre, post, h, by simpa using hk, fun x hx => by simpa using hn x hx⟩, rfl⟩

theorem named_none (hl : es.length = vs.length) (n : Ident) : named es vs n = none ↔ Unnamed es n := by
  unfold named Unnamed
  simp only [Option.map_eq_none_iff, List.find?_eq_none, List.mem_reverse, beq_iff_eq]
  constructor
  · intro h e he
    obtain ⟨k, hk, rfl⟩ := List.mem_iff_getElem.1 he
    have hk' : k < (es.zip vs).length := by simp; omega
    have := h _ (List.getElem_mem hk')
    simpa using this
  · rintro h ⟨e, a⟩ hx
    exact h e (List.of_mem_zip hx).1

theorem argOf_iff (hl : es.length = vs.length) (n : Ident) (i : Nat) (r : Option An) :
    argOf es vs n i = r ↔ Given es vs n i r := by
  unfold argOf
  cases hn : named es vs n with
  | some x =>
    obtain ⟨a, e⟩ := x
    have hN := (named_iff n a e).1 hn
    have hU : ¬ Unnamed es n := by
      rw [← named_none hl]; rw [hn]; nofun
    constructor
    · rintro rfl; exact .named hN
    · intro h
      cases h with
      | named h => have := (named_iff n _ _).2 h; rw [hn] at this; cases this; rfl
      | positional h _ => exact absurd h hU
      | missing h _ => exact absurd h hU
  | none =>
    have hU := (named_none hl n).1 hn
    simp only []
    constructor
    · intro h
      cases r with
      | some a => exact .positional hU ((positional_iff _ _ _ _).1 h)
      | none => exact .missing hU ((positional_none _).1 h)
    · intro h
      cases h with
      | named h => have := (named_iff n _ _).2 h; rw [hn] at this; cases this
      | positional _ h => exact (positional_iff _ _ _ _).2 h
      | missing _ h => exact (positional_none _).2 h

/-- What a return type annotation evaluates to. -/
theorem element_iff : ∀ (k : Nat) (s r : STy), Element s k r ↔ r = s.strips k
  | 0, s, r => by
    constructor
    · intro h; cases h; rfl
    · rintro rfl; exact .zero
  | k + 1, s, r => by
    rw [STy.strips]
    constructor
    · intro h
      cases h with
      | list h => exact (element_iff k _ r).1 h
      | other h1 h2 =>
        have : s.strip = .none := by
          cases s with
          | list e => exact absurd rfl (h1 e)
          | _ => rfl
        rw [this]
        exact (element_iff k _ r).1 h2
    · intro h
      cases s with
      | list e => exact .list ((element_iff k _ r).2 h)
      | _ => exact .other nofun ((element_iff k _ r).2 h)

theorem eval_iff (t : Tree) (get : Ident → Nat → Option An) (given : Ident → Nat → Option An → Prop)
    (hg : ∀ n i r, get n i = r ↔ given n i r) (x : TExpr) :
    (∀ s, x.eval t get = .ok s ↔ Means t given x (some s)) ∧
    (Means t given x none ↔ ∃ p, x.eval t get = .error p) ∧
    (∀ p, x.eval t get = .error p ↔ MeansMissing t given x p) := by
  induction x with
  | static s =>
    refine ⟨fun r => ?_, ?_, fun p => ?_⟩
    · constructor
      · intro h; cases h; exact .static _
      · intro h; cases h; rfl
    · constructor
      · intro h; cases h
      · rintro ⟨p, h⟩; cases h
    · constructor
      · intro h; cases h
      · intro h; cases h
  | cond c a b ihc iha ihb =>
    obtain ⟨c1, c2, c3⟩ := ihc
    obtain ⟨a1, a2, a3⟩ := iha
    obtain ⟨b1, b2, b3⟩ := ihb
    have htr : ∀ s : STy, s.truthy = true ↔ s ≠ .none := by intro s; cases s <;> simp [STy.truthy]
    cases hc : c.eval t get with
    | error p =>
      have hcn : ∀ s, ¬ Means t given c (some s) := fun s hs => by rw [(c1 s).2 hs] at hc; cases hc
      have he : (TExpr.cond c a b).eval t get = .error p := by simp [TExpr.eval, hc]
      rw [he]
      refine ⟨fun r => ?_, ?_, fun q => ?_⟩
      · constructor
        · intro h; cases h
        · intro h
          cases h with
          | yes h _ _ => exact absurd h (hcn _)
          | no h _ => exact absurd h (hcn _)
      · exact ⟨fun _ => ⟨p, rfl⟩, fun _ => .bad (c2.2 ⟨p, hc⟩)⟩
      · constructor
        · intro h; cases h; exact .cond ((c3 p).1 hc)
        · intro h
          cases h with
          | cond h => rw [(c3 _).2 h] at hc; cases hc; rfl
          | yes h _ _ => exact absurd h (hcn _)
          | no h _ => exact absurd h (hcn _)
    | ok s =>
      have hcs := (c1 s).1 hc
      have hcu : ∀ s', Means t given c (some s') → s' = s := fun s' hs => by
        have := (c1 s').2 hs; rw [hc] at this; cases this; rfl
      have hcn : ¬ Means t given c none := fun h => by
        obtain ⟨p, hp⟩ := c2.1 h; rw [hc] at hp; cases hp
      have hcm : ∀ p, ¬ MeansMissing t given c p := fun p h => by
        have := (c3 p).2 h; rw [hc] at this; cases this
      by_cases hs : s = .none
      · subst hs
        have he : (TExpr.cond c a b).eval t get = b.eval t get := by simp [TExpr.eval, hc, STy.truthy]
        rw [he]
        have hall : ∀ r, Means t given (.cond c a b) r ↔ Means t given b r := by
          intro r
          constructor
          · intro h
            cases h with
            | yes h hn _ => exact absurd (hcu _ h) hn
            | no _ h => exact h
            | bad h => exact absurd h hcn
          · exact .no hcs
        refine ⟨fun r => by rw [b1, hall], by rw [← b2, hall], fun p => ?_⟩
        rw [b3]
        constructor
        · exact .no hcs
        · intro h
          cases h with
          | cond h => exact absurd h (hcm _)
          | yes h hn _ => exact absurd (hcu _ h) hn
          | no _ h => exact h
      · have he : (TExpr.cond c a b).eval t get = a.eval t get := by
          simp [TExpr.eval, hc, (htr s).2 hs]
        rw [he]
        have hall : ∀ r, Means t given (.cond c a b) r ↔ Means t given a r := by
          intro r
          constructor
          · intro h
            cases h with
            | yes _ _ h => exact h
            | no h _ => exact absurd (hcu _ h).symm hs
            | bad h => exact absurd h hcn
          · exact .yes hcs hs
        refine ⟨fun r => by rw [a1, hall], by rw [← a2, hall], fun p => ?_⟩
        rw [a3]
        constructor
        · exact .yes hcs hs
        · intro h
          cases h with
          | cond h => exact absurd h (hcm _)
          | yes _ _ h => exact h
          | no h _ => exact absurd (hcu _ h).symm hs
  | paramPath n i k =>
    cases hget : get n i with
    | none =>
      have hG := (hg n i none).1 hget
      have hu : ∀ a, ¬ given n i (some a) := fun a ha => by rw [(hg n i _).2 ha] at hget; cases hget
      have he : (TExpr.paramPath n i k).eval t get = .ok .none := by simp [TExpr.eval, hget]
      rw [he]
      refine ⟨fun r => ?_, ?_, fun q => ?_⟩
      · constructor
        · intro h; cases h; exact .noArg hG
        · intro h
          cases h with
          | path h _ _ => exact absurd h (hu _)
          | noPath h _ => exact absurd h (hu _)
          | noArg _ => rfl
      · constructor
        · intro h
          cases h with
          | path h _ _ => exact absurd h (hu _)
        · rintro ⟨p, h⟩; cases h
      · constructor
        · intro h; cases h
        · intro h
          cases h with
          | path h _ _ => exact absurd h (hu _)
    | some a =>
      have hG := (hg n i _).1 hget
      have hn : ¬ given n i none := fun h => by rw [(hg n i _).2 h] at hget; cases hget
      have hu : ∀ b, given n i (some b) → b = a := fun b hb => by
        have := (hg n i _).2 hb; rw [hget] at this; cases this; rfl
      by_cases hv : ∃ p, a.value = some (.prefab p)
      · obtain ⟨p, hp⟩ := hv
        have he : (TExpr.paramPath n i k).eval t get = t.staticType p := by
          obtain ⟨s, v, im⟩ := a
          simp only at hp
          subst hp
          simp [TExpr.eval, hget]
        rw [he]
        obtain ⟨s1, s2, s3⟩ := staticType_iff (t := t) p
        have hall : ∀ r, Means t given (.paramPath n i k) r ↔ PathType t p r := by
          intro r
          constructor
          · intro h
            cases h with
            | path h1 h2 h3 => cases hu _ h1; rw [hp] at h2; cases h2; exact h3
            | noPath h1 h2 => cases hu _ h1; exact absurd hp (h2 p)
            | noArg h => exact absurd h hn
          · exact .path hG hp
        refine ⟨fun r => by rw [s1, hall], by rw [← s2, hall], fun q => ?_⟩
        rw [s3]
        constructor
        · exact .path hG hp
        · intro h
          cases h with
          | path h1 h2 h3 => cases hu _ h1; rw [hp] at h2; cases h2; exact h3
      · have hv' : ∀ p, a.value ≠ some (.prefab p) := fun p h => hv ⟨p, h⟩
        have he : (TExpr.paramPath n i k).eval t get = .ok .none := by
          obtain ⟨s, v, im⟩ := a
          simp only [TExpr.eval, hget]
          cases v with
          | none => rfl
          | some w => cases w <;> first | rfl | exact absurd rfl (hv' _)
        rw [he]
        refine ⟨fun r => ?_, ?_, fun q => ?_⟩
        · constructor
          · intro h; cases h; exact .noPath hG hv'
          · intro h
            cases h with
            | path h1 h2 _ => cases hu _ h1; exact absurd h2 (hv' _)
            | noPath _ _ => rfl
            | noArg _ => rfl
        · constructor
          · intro h
            cases h with
            | path h1 h2 _ => cases hu _ h1; exact absurd h2 (hv' _)
          · rintro ⟨p, h⟩; cases h
        · constructor
          · intro h; cases h
          · intro h
            cases h with
            | path h1 h2 _ => cases hu _ h1; exact absurd h2 (hv' _)
  | paramStatic n i k =>
    cases hget : get n i with
    | none =>
      have hG := (hg n i none).1 hget
      have hu : ∀ a, ¬ given n i (some a) := fun a ha => by rw [(hg n i _).2 ha] at hget; cases hget
      have he : (TExpr.paramStatic n i k).eval t get = .ok .none := by simp [TExpr.eval, hget]
      rw [he]
      refine ⟨fun r => ?_, ?_, fun q => ?_⟩
      · constructor
        · intro h; cases h; exact .typeOfNone hG
        · intro h
          cases h with
          | typeOf h _ => exact absurd h (hu _)
          | typeOfNone _ => rfl
      · constructor
        · intro h; cases h
        · rintro ⟨p, h⟩; cases h
      · constructor
        · intro h; cases h
        · intro h; cases h
    | some a =>
      have hG := (hg n i _).1 hget
      have hn : ¬ given n i none := fun h => by rw [(hg n i _).2 h] at hget; cases hget
      have hu : ∀ b, given n i (some b) → b = a := fun b hb => by
        have := (hg n i _).2 hb; rw [hget] at this; cases this; rfl
      have he : (TExpr.paramStatic n i k).eval t get = .ok (a.st.strips k) := by simp [TExpr.eval, hget]
      rw [he]
      refine ⟨fun r => ?_, ?_, fun q => ?_⟩
      · constructor
        · intro h; cases h; exact .typeOf hG ((element_iff _ _ _).2 rfl)
        · intro h
          cases h with
          | typeOf h h' => cases hu _ h; rw [(element_iff _ _ _).1 h']
          | typeOfNone h => exact absurd h hn
      · constructor
        · intro h; cases h
        · rintro ⟨p, h⟩; cases h
      · constructor
        · intro h; cases h
        · intro h; cases h

theorem astype_none (c : Ctx) (p : Proc) : astype c p es vs = none ↔ ¬ Casts p es vs := by
  unfold astype Casts
  by_cases hp : p.ty = 0 ∧ p.name = "astype"
  · obtain ⟨h0, h1⟩ := hp
    simp only [h0, h1, beq_self_eq_true, Bool.and_self, if_true, true_and]
    have hmap : ∀ (f : An → An), (positional es vs)[0]?.map f = none ↔ ¬ ∃ a, Positional es vs 0 a := by
      intro f
      rw [Option.map_eq_none_iff, positional_none]
      simp
    split
    · rename_i path hv
      have hx : ∃ a, Positional es vs 0 a := by
        rw [Option.bind_eq_some_iff] at hv
        obtain ⟨b, hb, _⟩ := hv
        have hlen : 1 < (positional es vs).length := by
          refine Classical.byContradiction fun hc => ?_
          rw [List.getElem?_eq_none (by omega)] at hb
          cases hb
        exact ⟨(positional es vs)[0], (positional_iff _ _ _ _).1 (List.getElem?_eq_getElem (by omega))⟩
      split
      · simp [hx]
      · exact hmap _
    · exact hmap _
  · have : (p.ty == 0 && p.name == "astype") = false := by
      simpa using hp
    simp only [this]
    simp only [Bool.false_eq_true, if_false, true_iff]
    rintro ⟨h0, h1, _⟩
    exact hp ⟨h0, h1⟩

theorem Casts.positional {p : Proc} (h : Casts p es vs) : ∃ a, (positional es vs)[0]? = some a := by
  obtain ⟨_, _, a, ha⟩ := h
  exact ⟨a, (positional_iff _ _ _ _).2 ha⟩

/-- The static type of an `astype` call. -/
theorem astype_gives (c : Ctx) (p : Proc) {a : An} (h : astype c p es vs = some a) (s : STy) :
    Gives c p es vs s ↔ a = { st := s } := by
  have hcast : Casts p es vs := by
    refine Classical.byContradiction fun hc => ?_
    rw [(astype_none c p).2 hc] at h
    cases h
  obtain ⟨h0, h1, a0, ha0⟩ := id hcast
  have hp0 := (positional_iff _ _ _ _).2 ha0
  have hnf : p.name ≠ "filter" := by rw [h1]; decide
  unfold astype at h
  simp only [h0, h1, beq_self_eq_true, Bool.and_self, if_true, hp0, Option.map_some] at h
  have huniq : ∀ i x, Positional es vs i x → ∀ y, Positional es vs i y → x = y := by
    intro i x hx y hy
    have := (positional_iff _ _ _ _).2 hx
    rw [(positional_iff _ _ _ _).2 hy] at this
    cases this; rfl
  by_cases hpath : ∃ b path i, Positional es vs 1 b ∧ b.value = some (.prefab path) ∧ c.tree.find path = some i
  · obtain ⟨b, path, i, hb, hv, hf⟩ := hpath
    have hb' := (positional_iff _ _ _ _).2 hb
    simp only [hb', Option.bind_some, hv, hf, Option.some.injEq] at h
    subst h
    constructor
    · intro hg
      cases hg with
      | castPath _ _ _ hb2 hv2 hf2 =>
        cases huniq 1 _ hb _ hb2
        rw [hv] at hv2; cases hv2
        rw [hf] at hf2; cases hf2
        rfl
      | castSame _ _ _ hno => exact absurd hf (hno _ _ _ hb hv)
      | filter _ hn _ => exact absurd hn hnf
      | builtin hn _ _ _ => exact absurd hcast hn
      | annotated hn _ _ _ _ => exact absurd hcast hn
      | unknown hn _ _ _ => exact absurd hcast hn
    · intro hs
      simp only [An.ofType, An.mk.injEq, and_true] at hs
      subst hs
      exact .castPath h0 h1 ha0 hb hv hf
  · have hno : ∀ b path i, Positional es vs 1 b → b.value = some (.prefab path) → c.tree.find path ≠ some i :=
      fun b path i h1 h2 h3 => hpath ⟨b, path, i, h1, h2, h3⟩
    have ha : a = .ofType a0.st := by
      split at h
      · rename_i path hv
        rw [Option.bind_eq_some_iff] at hv
        obtain ⟨b, hb, hv⟩ := hv
        split at h
        · rename_i i hf
          exact absurd hf (hno b path i ((positional_iff _ _ _ _).1 hb) hv)
        · cases h; rfl
      · cases h; rfl
    subst ha
    constructor
    · intro hg
      cases hg with
      | castPath _ _ _ hb2 hv2 hf2 => exact absurd hf2 (hno _ _ _ hb2 hv2)
      | castSame _ _ ha _ => cases huniq 0 _ ha _ ha0; rfl
      | filter _ hn _ => exact absurd hn hnf
      | builtin hn _ _ _ => exact absurd hcast hn
      | annotated hn _ _ _ _ => exact absurd hcast hn
      | unknown hn _ _ _ => exact absurd hcast hn
    · intro hs
      simp only [An.ofType, An.mk.injEq, and_true] at hs
      subst hs
      exact .castSame h0 h1 ha0 hno

theorem named_unique {n : Ident} {a b : An} {e f : Expr} (h : Named es vs n a e) (h' : Named es vs n b f) :
    a = b ∧ e = f := by
  have h1 := (named_iff n a e).2 h
  have h2 := (named_iff n b f).2 h'
  rw [h1] at h2
  cases h2
  exact ⟨rfl, rfl⟩

theorem Named.not_unnamed {n : Ident} {a : An} {e : Expr} (h : Named es vs n a e) : ¬ Unnamed es n := by
  obtain ⟨pre, post, hz, hk, _⟩ := h
  intro hu
  have hm : (e, a) ∈ es.zip vs := by rw [hz]; simp
  exact hu e (List.of_mem_zip hm).1 hk

theorem filterEvents_stop (hl : es.length = vs.length) (l : Loc) : (filterEvents l es vs).2 = true ↔ BadFilter es vs := by
  unfold filterEvents
  cases hn : named es vs "type" with
  | none =>
    simp only [true_iff]
    exact .noType ((named_none hl _).1 hn)
  | some x =>
    obtain ⟨a, e⟩ := x
    have hN := (named_iff _ _ _).1 hn
    have hbad : BadFilter es vs ↔ ∀ s, a.value = some (.str s) → filterTypes.lookup s = none := by
      constructor
      · intro h s hs
        cases h with
        | noType h => exact absurd h hN.not_unnamed
        | badType h1 h2 => obtain ⟨rfl, rfl⟩ := named_unique hN h1; exact absurd hs (h2 s)
        | unknown h1 h2 h3 =>
          obtain ⟨rfl, rfl⟩ := named_unique hN h1
          rw [hs] at h2; cases h2; exact h3
      · intro h
        by_cases hs : ∃ s, a.value = some (.str s)
        · obtain ⟨s, hs⟩ := hs
          exact .unknown hN hs (h s hs)
        · exact .badType hN fun s h => hs ⟨s, h⟩
    simp only []
    rw [hbad]
    cases hv : a.value with
    | none => simp
    | some v =>
      cases v with
      | str s =>
        simp only [Option.some.injEq, Val.str.injEq, forall_eq']
        cases filterTypes.lookup s <;> simp
      | null => simp
      | num => simp
      | res => simp
      | prefab p => simp

/-- The static type that `visit_call` gives to a call is the one the specification says. -/
theorem visitCall_gives (c : Ctx) (l : Loc) (src : Nat) (p : Proc) (ex inh : Bool) (visits : List (An × List Ev))
    (hl : es.length = visits.length) (s : STy) :
    Gives c p es (visits.map Prod.fst) s ↔ (visitCall c l src p ex inh es visits).1 = { st := s } := by
  generalize hvs : visits.map Prod.fst = vs
  have hl' : es.length = vs.length := by rw [← hvs]; simpa using hl
  unfold visitCall
  simp only [hvs]
  cases ha : astype c p es vs with
  | some a => simp only []; exact astype_gives c p ha s
  | none =>
    have hnc := (astype_none c p).1 ha
    have hstop := filterEvents_stop hl' l
    simp only []
    by_cases hf : p.ty = 0 ∧ p.name = "filter" ∧ BadFilter es vs
    · obtain ⟨h0, h1, h2⟩ := id hf
      have hna : p.name ≠ "astype" := by rw [h1]; decide
      have : (if p.ty == 0 && p.name == "filter" then filterEvents l es vs else ([], false)).2 = true := by
        simp only [h0, h1, beq_self_eq_true, Bool.and_self, if_true]
        exact hstop.2 h2
      rw [if_pos this]
      constructor
      · intro hg
        cases hg with
        | castPath _ hn _ _ _ _ => exact absurd hn hna
        | castSame _ hn _ _ => exact absurd hn hna
        | filter _ _ _ => rfl
        | builtin _ hn _ _ => exact absurd hf hn
        | annotated _ hn _ _ _ => exact absurd hf hn
        | unknown _ hn _ _ => exact absurd hf hn
      · intro hs
        simp only [An.empty, An.mk.injEq, and_true] at hs
        subst hs
        exact .filter h0 h1 h2
    · have : ¬ (if p.ty == 0 && p.name == "filter" then filterEvents l es vs else ([], false)).2 = true := by
        by_cases h01 : p.ty = 0 ∧ p.name = "filter"
        · obtain ⟨h0, h1⟩ := h01
          simp only [h0, h1, beq_self_eq_true, Bool.and_self, if_true]
          intro h
          exact hf ⟨h0, h1, hstop.1 h⟩
        · have : (p.ty == 0 && p.name == "filter") = false := by simpa using h01
          simp [this]
      rw [if_neg this]
      simp only []
      have hno : ∀ {P : Prop}, Casts p es vs → P := fun h => absurd h hnc
      unfold returnType
      by_cases hb : p.ty = 0 ∧ (c.tree.info p).builtin = true
      · obtain ⟨h0, h1⟩ := id hb
        simp only [h0, h1, beq_self_eq_true, Bool.and_self, if_true]
        constructor
        · intro hg
          cases hg with
          | castPath hz hn h _ _ _ => exact hno ⟨hz, hn, _, h⟩
          | castSame hz hn h _ => exact hno ⟨hz, hn, _, h⟩
          | filter hz hn h => exact absurd ⟨hz, hn, h⟩ hf
          | builtin _ _ _ _ => rfl
          | annotated _ _ hn _ _ => exact absurd hb hn
          | unknown _ _ hn _ => exact absurd hb hn
        · intro hs
          simp only [An.ofType, An.mk.injEq, and_true] at hs
          subst hs
          exact .builtin hnc hf h0 h1
      · have hb' : (p.ty == 0 && (c.tree.info p).builtin) = false := by simpa using hb
        simp only [hb']
        simp only [Bool.false_eq_true, if_false]
        cases hr : c.returns p with
        | none =>
          simp only []
          constructor
          · intro hg
            cases hg with
            | castPath hz hn h _ _ _ => exact hno ⟨hz, hn, _, h⟩
            | castSame hz hn h _ => exact hno ⟨hz, hn, _, h⟩
            | filter hz hn h => exact absurd ⟨hz, hn, h⟩ hf
            | builtin _ _ hz hn => exact absurd ⟨hz, hn⟩ hb
            | annotated _ _ _ hn _ => rw [hr] at hn; cases hn
            | unknown _ _ _ _ => rfl
          · intro hs
            simp only [An.empty, An.mk.injEq, and_true] at hs
            subst hs
            exact .unknown hnc hf hb hr
        | some t =>
          simp only []
          obtain ⟨e1, e2, e3⟩ := eval_iff c.tree (argOf es vs) (Given es vs) (argOf_iff hl') t
          constructor
          · intro hg
            cases hg with
            | castPath hz hn h _ _ _ => exact hno ⟨hz, hn, _, h⟩
            | castSame hz hn h _ => exact hno ⟨hz, hn, _, h⟩
            | filter hz hn h => exact absurd ⟨hz, hn, h⟩ hf
            | builtin _ _ hz hn => exact absurd ⟨hz, hn⟩ hb
            | @annotated t' r _ _ _ ht hm =>
              rw [hr] at ht; cases ht
              cases r with
              | some s => rw [(e1 s).2 hm]; rfl
              | none => obtain ⟨q, hq⟩ := e2.1 hm; rw [hq]; rfl
            | unknown _ _ _ hn => rw [hr] at hn; cases hn
          · intro hs
            cases hev : t.eval c.tree (argOf es vs) with
            | ok s' =>
              rw [hev] at hs
              simp only [An.ofType, An.mk.injEq, and_true] at hs
              subst hs
              exact .annotated hnc hf hb hr ((e1 _).1 hev)
            | error q =>
              rw [hev] at hs
              simp only [An.empty, An.mk.injEq, and_true] at hs
              subst hs
              exact .annotated (r := none) hnc hf hb hr (e2.2 ⟨q, hev⟩)

theorem returnType_form (c : Ctx) (l : Loc) (p : Proc) (vs : List An) :
    ∃ s, (returnType c l p es vs).1 = { st := s } := by
  unfold returnType
  split
  · exact ⟨_, rfl⟩
  · split
    · exact ⟨.none, rfl⟩
    · split
      · exact ⟨_, rfl⟩
      · exact ⟨.none, rfl⟩

/-- A call always has a static type, no constant value, and is not impure. -/
theorem visitCall_form (c : Ctx) (l : Loc) (src : Nat) (p : Proc) (ex inh : Bool) (visits : List (An × List Ev)) :
    ∃ s, (visitCall c l src p ex inh es visits).1 = { st := s } := by
  unfold visitCall
  simp only []
  cases ha : astype c p es (visits.map Prod.fst) with
  | some a =>
    simp only []
    unfold astype at ha
    split at ha
    · split at ha
      · split at ha
        · cases ha; exact ⟨_, rfl⟩
        · rw [Option.map_eq_some_iff] at ha; obtain ⟨_, _, rfl⟩ := ha; exact ⟨_, rfl⟩
      · rw [Option.map_eq_some_iff] at ha; obtain ⟨_, _, rfl⟩ := ha; exact ⟨_, rfl⟩
    · cases ha
  | none =>
    simp only []
    generalize (if (p.ty == 0 && p.name == "filter") = true then filterEvents l es (visits.map Prod.fst) else ([], false)) = f
    split
    · exact ⟨.none, rfl⟩
    · exact returnType_form c l p _

end Verif.Typing
