import Verif.Typing.SoundSpec
import Verif.Typing.Props

/-!
# C84: what the checker accepts does not run into undefined names
-/

namespace Verif.Typing

/-- A run that did not end at an undefined name, and whose value is what the static type says. -/
def Out.Good (t : Tree) (s : STy) : Out → Prop
  | .val v => Fits t v s
  | .crash => True
  | .undefined _ => False

theorem good_any {t : Tree} {o : Out} (h : ∀ n, o ≠ .undefined n) : o.Good t .none := by
  cases o with
  | val v => exact .any v
  | crash => trivial
  | undefined n => exact absurd rfl (h n)

theorem good_stops {t : Tree} {s s' : STy} {o : Out} (h : o.stops) (hg : o.Good t s) : o.Good t s' := by
  cases o with
  | val v => exact h.elim
  | crash => trivial
  | undefined n => exact hg

theorem sub_trans {t : Tree} {i j k : Nat} (h : Sub t i j) (h' : Sub t j k) : Sub t i k := by
  induction h with
  | refl => exact h'
  | up hp _ ih => exact .up hp (ih h')

theorem hasField_sub {t : Tree} {i j : Nat} {n : Ident} (h : Sub t i j) (hf : HasField t j n) : HasField t i n := by
  obtain ⟨k, d, hs, h0, hd⟩ := hf
  exact ⟨k, d, sub_trans h hs, h0, hd⟩

theorem declares_mem {t : Tree} {i : Nat} {n : Ident} {d : VarDecl} (h : Declares t i n d) :
    ∃ j, Sub t i j ∧ t.vars j n = some d := by
  induction h with
  | own h => exact ⟨_, .refl _, h⟩
  | inherited _ hp _ ih => obtain ⟨j, h1, h2⟩ := ih; exact ⟨j, .up hp h1, h2⟩

theorem sub_root {t : Tree} (hr : t.parent 0 = none) {j : Nat} (h : Sub t 0 j) : j = 0 := by
  cases h with
  | refl => rfl
  | up hp _ => rw [hr] at hp; cases hp

/-- The declaration that counts on a type is not the root's if an object of the type has the variable. -/
theorem declares_field {t : Tree} (hr : t.parent 0 = none) {i : Nat} {n : Ident} {d : VarDecl} (h : Declares t i n d)
    (hf : HasField t i n) : ∃ j, Sub t i j ∧ j ≠ 0 ∧ t.vars j n = some d := by
  induction h with
  | @own i n d h =>
    refine ⟨i, .refl _, ?_, h⟩
    rintro rfl
    obtain ⟨k, _, hs, h0, _⟩ := hf
    exact h0 (sub_root hr hs)
  | @inherited i p n d hn hp _ ih =>
    obtain ⟨k, d', hs, h0, hd⟩ := hf
    cases hs with
    | refl => rw [hn] at hd; cases hd
    | up hp' hs =>
      rw [hp] at hp'; cases hp'
      obtain ⟨j, h1, h2, h3⟩ := ih ⟨k, d', hs, h0, hd⟩
      exact ⟨j, .up hp h1, h2, h3⟩

theorem declares_global {t : Tree} {i : Nat} {n : Ident} {d : VarDecl} (h : Declares t i n d)
    (hf : ¬ HasField t i n) : t.vars 0 n = some d := by
  obtain ⟨j, h1, h2⟩ := declares_mem h
  by_cases h0 : j = 0
  · subst h0; exact h2
  · exact absurd ⟨j, d, h1, h0, h2⟩ hf

theorem defines_named {t : Tree} {i : Nat} {n : Ident} {p : Proc} (h : Defines t i n p) : p.name = n ∧ Sub t i p.ty := by
  induction h with
  | own _ => exact ⟨rfl, .refl _⟩
  | inherited _ hp _ ih => exact ⟨ih.1, .up hp ih.2⟩

theorem parentOf_sub {t : Tree} {q p : Proc} (h : ParentOf t q p) : p.name = q.name := by
  cases h with
  | earlier => rfl
  | inherited _ hd => exact (defines_named hd).1

/-- A subtype runs the definition or an override of it. -/
theorem dispatch {t : Tree} {i j : Nat} {n : Ident} {p : Proc} (hs : Sub t i j) (hd : Defines t j n p) :
    ∃ p', Defines t i n p' ∧ p'.name = p.name ∧ Sub t p'.ty p.ty := by
  induction hs with
  | refl => exact ⟨p, hd, rfl, .refl _⟩
  | @up i q j hp hs ih =>
    cases hl : t.procs i n with
    | nil =>
      obtain ⟨p', h1, h2, h3⟩ := ih hd
      exact ⟨p', .inherited hl hp h1, h2, h3⟩
    | cons x l =>
      have hd' := defines_named hd
      exact ⟨⟨i, n, l.length⟩, .own (by rw [hl]; rfl), hd'.1.symm, .up hp (sub_trans hs hd'.2)⟩

theorem runs_sub {t : Tree} (hr : t.parent 0 = none) {i j : Nat} {n : Ident} {p : Proc} (hs : Sub t i j)
    (hd : Defines t j n p) (h0 : p.ty ≠ 0) :
    (∃ p', Runs t i n p') ∧ ∀ p', Runs t i n p' → p'.name = p.name ∧ Sub t p'.ty p.ty := by
  obtain ⟨p', h1, h2, h3⟩ := dispatch hs hd
  have h4 : p'.ty ≠ 0 := fun h => h0 (sub_root hr (h ▸ h3))
  refine ⟨⟨p', h1, h4⟩, fun q hq => ?_⟩
  have : q = p' := Option.some.inj (((getProc_iff i n q).2 hq.1).symm.trans ((getProc_iff i n p').2 h1))
  rw [this]
  exact ⟨h2, h3⟩

theorem defines_root {t : Tree} {i : Nat} {n : Ident} {p : Proc} (h : Defines t i n p) (h0 : p.ty = 0) :
    Defines t 0 n p := by
  induction h with
  | own h => cases h0; exact .own h
  | inherited _ _ _ ih => exact ih h0

theorem fits_basic {t : Tree} {v : RVal} {s : STy} {i : Nat} (hf : Fits t v s) (hb : Basic t s i) :
    v = .null ∨ ∃ i', v.type t = some i' ∧ Sub t i' i := by
  cases hb with
  | type =>
    cases hf with
    | null => exact .inl rfl
    | obj hs _ => exact .inr ⟨_, rfl, hs⟩
    | list hs => exact .inr ⟨_, rfl, hs⟩
  | list k =>
    cases hf with
    | null => exact .inl rfl
    | elems _ => exact .inr ⟨_, rfl, .refl _⟩

theorem fits_list {t : Tree} (hc : Coherent t) {v : RVal} {s : STy} (hf : Fits t v s) (hl : IsList t s) :
    v = .null ∨ ∃ es, v = .list es := by
  cases hl with
  | list k =>
    cases hf with
    | null => exact .inl rfl
    | elems _ => exact .inr ⟨_, rfl⟩
  | type hp =>
    cases hf with
    | null => exact .inl rfl
    | obj hs h => exact absurd (hc.list _ _ hp hs) h
    | list _ => exact .inr ⟨_, rfl⟩

/-- Lists of one type give such a list. -/
theorem combines_fits {t : Tree} (hc : Coherent t) {v r z : RVal} {s : STy} (hl : IsList t s) (hv : Fits t v s)
    (hr : Fits t r s) (h : Combines v r z) : Fits t z s := by
  cases h with
  | null => exact hr
  | other h1 h2 =>
    rcases fits_list hc hv hl with h | ⟨es, h⟩
    · exact absurd h h2
    · exact absurd h (h1 es)
  | @list es fs r hx =>
    cases hl with
    | type hp =>
      cases hv with
      | list hs => exact .list hs
    | list k =>
      cases hv with
      | elems he =>
        refine .elems fun x hm => ?_
        rcases hx x hm with h1 | ⟨h1, rfl⟩ | ⟨gs, rfl, h1⟩
        · exact he x h1
        · rcases fits_list hc hr (.list k) with rfl | ⟨gs, rfl⟩
          · exact .null _
          · exact absurd rfl (h1 gs)
        · cases hr with
          | elems hg => exact hg x h1

/-- Nothing is said at a site or inside it. -/
def Quiet (c : Ctx) (s : Site) : Prop :=
  (∀ m, ¬ Due c s (.msg m)) ∧ ∀ k e s' m, Opens c s k e → At c s.loc k e s' → ¬ Due c s' (.msg m)

/-- Nothing is said about an expression. -/
def Silent (c : Ctx) (l : Loc) (h : Option Nat) (e : Expr) : Prop := ∀ s m, At c l h e s → ¬ Due c s (.msg m)

theorem silent_open {c : Ctx} {s : Site} (hq : Quiet c s) {k : Option Nat} {e : Expr} (ho : Opens c s k e) :
    Silent c s.loc k e := fun s' m hs => hq.2 k e s' m ho hs

theorem base_inv {c : Ctx} {h : Option Nat} {l : Loc} {t : Term} {fs : Follows} {b : An}
    (hi : ExprIs c h (.base l t fs) b) : ∃ a, TermIs c (termHint h fs) t a ∧ FollowsIs c a fs b := by
  cases hi with
  | term ht => exact ⟨_, ht, .nil⟩
  | follows ht hf => exact ⟨_, ht, hf⟩

theorem quiet_term {c : Ctx} {l tl : Loc} {h : Option Nat} {t : Term} {fs : Follows}
    (hq : Silent c l h (.base tl t fs)) : Quiet c (.term tl (termHint h fs) t) :=
  ⟨fun m hd => hq _ m .term hd, fun _ _ s' m ho hs => hq s' m (.inTerm ho hs)⟩

theorem quiet_follow {c : Ctx} {l tl l' : Loc} {h : Option Nat} {t : Term} {fs : Follows} {a b : An} {f : Follow}
    (hq : Silent c l h (.base tl t fs)) (ht : TermIs c (termHint h fs) t a) (ha : Along c a fs l' b f) :
    Quiet c (.follow l' b f) :=
  ⟨fun m hd => hq _ m (.follow ht ha) hd, fun _ _ s' m ho hs => hq s' m (.inFollow ht ha ho hs)⟩

theorem exprIs_exists (c : Ctx) (h : Option Nat) (e : Expr) : ∃ a, ExprIs c h e a :=
  ⟨_, (exprIs_iff c e 0 h _).2 rfl⟩

/-- Every expression inside is understood. -/
def Plain (c : Ctx) (e : Expr) : Prop := ∀ e', Within e' e → Fine c e'

theorem Plain.nested {c : Ctx} {e x : Expr} (h : Plain c e) (hx : Nested x e) : Plain c x :=
  fun e' he => h e' (.inner he hx)

/-- What a term gives. -/
theorem termGives_good {c : Ctx} {w : World} (hc : Coherent c.tree) (hw : w.Honest c) {t : Term} {o : Out}
    (hg : TermGives c w t o) {l : Loc} {h : Option Nat} {a : An} (hi : TermIs c h t a) (hq : Quiet c (.term l h t))
    (hf : TermFine c t) : o.Good c.tree a.st := by
  cases hg with
  | null => cases hi with
    | null => exact .any _
    | «opaque» ho => cases ho
  | int => cases hi with
    | int => exact .any _
    | «opaque» ho => cases ho
  | float => cases hi with
    | float => exact .any _
    | «opaque» ho => cases ho
  | string => cases hi with
    | string => exact .any _
    | «opaque» ho => cases ho
  | resource => cases hi with
    | resource => exact .any _
    | «opaque» ho => cases ho
  | prefab => cases hi with
    | prefab _ => exact .any _
    | badPrefab _ => exact .any _
    | «opaque» ho => cases ho
  | typeMacro => cases hi with
    | typeMacro => exact .any _
    | «opaque» ho => cases ho
  | implied => cases hi with
    | implied => exact .any _
    | impliedNone => exact .any _
    | «opaque» ho => cases ho
  | list => cases hi with
    | list => exact .list (.refl _)
    | «opaque» ho => cases ho
  | other ho hn =>
    have : a.st = .none := by
      cases hi with
      | «opaque» _ => rfl
      | _ => cases ho
    rw [this]
    exact good_any hn
  | ident hr =>
    cases hi with
    | «opaque» ho => cases ho
    | «local» hl =>
      cases hr with
      | «local» _ hv => exact hw.locals _ _ _ hl hv
      | type h1 => rw [hl] at h1; cases h1
      | field h1 => rw [hl] at h1; cases h1
      | global h1 => rw [hl] at h1; cases h1
      | undefined h1 => rw [hl] at h1; cases h1
      | undefinedField h1 => rw [hl] at h1; cases h1
    | typeVar hl =>
      cases hr with
      | «local» h1 _ => exact absurd hl h1
      | type _ _ => exact .any _
      | field _ h1 => exact absurd rfl h1
      | global _ h1 => exact absurd rfl h1
      | undefined _ h1 => exact absurd rfl h1
      | undefinedField _ h1 => exact absurd rfl h1
    | noVar h1 h2 h3 => exact absurd (Due.undefinedVar h1 h2 h3) (hq.1 _)
    | var hl ht hd hpt =>
      cases hr with
      | «local» h1 _ => exact absurd hl h1
      | type _ h1 => exact absurd h1 ht
      | field _ _ h1 h2 h3 h4 =>
        obtain ⟨j, h5, h6, h7⟩ := declares_field hc.root hd h1
        exact hw.fields _ j _ _ _ _ (sub_trans (hw.src _ h2) h5) h6 h7 hpt h4
      | global _ _ h1 h2 h3 => exact hw.globals _ _ _ _ (declares_global hd h1) hpt h3
      | undefined _ _ h1 h2 => rw [declares_global hd h1] at h2; cases h2
      | undefinedField _ _ h1 h2 h3 => exact h3 (hasField_sub (hw.src _ h2) h1)
  | globalVar h1 h2 =>
    cases hi with
    | «opaque» ho => cases ho
    | globalVar hd hpt =>
      obtain ⟨j, h3, h4⟩ := declares_mem hd
      cases sub_root hc.root h3
      exact hw.globals _ _ _ _ h4 hpt h2
    | noGlobal hn => exact absurd (.own h1) (hn _)
  | noGlobalVar h1 =>
    cases hi with
    | «opaque» ho => cases ho
    | globalVar hd hpt =>
      obtain ⟨j, h3, h4⟩ := declares_mem hd
      cases sub_root hc.root h3
      rw [h1] at h4; cases h4
    | noGlobal hn => exact hq.1 _ (.undefinedGlobal hn)
  | @call n es o hr =>
    obtain ⟨p, hp⟩ := hf
    cases hi with
    | «opaque» ho => cases ho
    | noProc h1 => exact absurd hp (h1 p)
    | ownName h1 => exact absurd hp (h1 p)
    | @call _ _ _ q vs s hd ha hg =>
      by_cases h0 : q.ty = 0
      · have hno : ∀ r, ¬ Runs c.tree c.ty n r := by
          rintro r ⟨h1, h2⟩
          have : r = q := Option.some.inj (((getProc_iff _ _ _).2 h1).symm.trans ((getProc_iff _ _ _).2 hd))
          exact h2 (this ▸ h0)
        have hgl : Defines c.tree 0 n q := defines_root hd h0
        cases hr with
        | method h1 => exact absurd h1 (hno _)
        | global _ h1 h2 =>
          have := Option.some.inj (((getProc_iff _ _ _).2 h1).symm.trans ((getProc_iff _ _ _).2 hgl))
          subst this
          exact hw.returns _ _ _ _ _ _ rfl (.refl _) ha hg h2
        | undefined _ h1 => exact h1 _ hgl
        | undefinedMethod h1 => exact absurd h1 (hno _)
      · cases hr with
        | method h1 h2 h3 h4 =>
          obtain ⟨_, h5⟩ := runs_sub hc.root (hw.src _ h2) hd h0
          exact hw.returns _ _ _ _ _ _ (h5 _ h3).1 (h5 _ h3).2 ha hg h4
        | global h1 => exact absurd ⟨hd, h0⟩ (h1 q)
        | undefined h1 => exact h1 q ⟨hd, h0⟩
        | undefinedMethod _ h2 h3 =>
          obtain ⟨⟨p', h5⟩, _⟩ := runs_sub hc.root (hw.src _ h2) hd h0
          exact h3 p' h5
  | selfCall h1 =>
    cases hi with
    | «opaque» ho => cases ho
    | selfCall ha hg => exact hw.returns _ _ _ _ _ _ rfl (.refl _) ha hg h1
  | parentCall h1 h2 =>
    cases hi with
    | «opaque» ho => cases ho
    | parentCall hp ha hg =>
      have := Option.some.inj (((parentProc_iff _ _).2 h1).symm.trans ((parentProc_iff _ _).2 hp))
      subst this
      exact hw.returns _ _ _ _ _ _ rfl (.refl _) ha hg h2
    | noParent hn => exact absurd h1 (hn _)
  | noParent h1 => exact hq.1 _ (.noParentProc h1)
  | globalCall h1 h2 =>
    cases hi with
    | «opaque» ho => cases ho
    | globalCall hp ha hg =>
      have := Option.some.inj (((getProc_iff _ _ _).2 h1).symm.trans ((getProc_iff _ _ _).2 hp))
      subst this
      exact hw.returns _ _ _ _ _ _ rfl (.refl _) ha hg h2
    | noGlobalProc hn => exact absurd h1 (hn _)
  | noGlobalProc h1 => exact hq.1 _ (.undefinedGlobalProc h1)

/-- What a follow gives. -/
theorem followGives_good {c : Ctx} {w : World} (hc : Coherent c.tree) (hw : w.Honest c) {v : RVal} {f : Follow} {o : Out}
    (hg : FollowGives c w v f o) {l : Loc} {a b : An} (hv : Fits c.tree v a.st) (hi : FollowIs c a f b)
    (hq : Quiet c (.follow l a f)) (hf : FollowFine c a f) : o.Good c.tree b.st := by
  cases hg with
  | unary hn =>
    cases hf with
    | unary h1 => rw [h1 b hi]; exact good_any hn
    | static h1 => rcases h1 with h1 | h1 <;> cases h1
  | static hs hn =>
    rcases hs with rfl | rfl
    · cases hf with
      | static _ h1 => rw [h1 b hi]; exact good_any hn
    · cases hf with
      | static _ h1 => rw [h1 b hi]; exact good_any hn
  | elem hx =>
    cases hf with
    | static h1 => rcases h1 with h1 | h1 <;> cases h1
    | index h1 =>
      cases hi with
      | elem hk =>
        rw [hk] at hv
        cases hv with
        | elems he =>
          rcases hx with hx | rfl
          · exact he _ hx
          · exact .null _
      | index hn =>
        rcases h1 with h1 | ⟨k, h1⟩
        · rw [h1]; exact .any _
        · exact absurd h1 (hn k)
  | badIndex => trivial
  | index hx hx' =>
    cases hf with
    | static h1 => rcases h1 with h1 | h1 <;> cases h1
    | index h1 =>
      cases hi with
      | elem hk =>
        rw [hk] at hv
        cases hv with
        | elems he => exact absurd rfl (hx _)
        | null => exact absurd rfl hx'
      | index hn =>
        rcases h1 with h1 | ⟨k, h1⟩
        · rw [h1]; exact .any _
        · exact absurd h1 (hn k)
  | safeField => exact .null _
  | safeCall => exact .null _
  | uncheckedField hk hn =>
    cases hi with
    | unchecked _ => exact good_any hn
    | callee h1 => exact absurd h1 hk
    | field h1 => exact absurd h1 hk
    | noField h1 => exact absurd h1 hk
    | untyped h1 => exact absurd h1 hk
  | uncheckedCall hk hn =>
    cases hi with
    | uncheckedCall _ => exact good_any hn
    | method h1 => exact absurd h1 hk
    | privateMethod h1 => exact absurd h1 hk
    | noMethod h1 => exact absurd h1 hk
  | @field v k n o hk _ hr =>
    cases hf with
    | static h1 => rcases h1 with h1 | h1 <;> cases h1
    | field h1 h2 =>
      cases hi with
      | unchecked h3 => exact absurd hk h3
      | callee _ hb hp => exact absurd ⟨hp, rfl⟩ (h2 _ hb)
      | noField _ hb hp hn => exact absurd (Due.undefinedField hk hb hp hn) (hq.1 _)
      | field _ hb hp hd hpt =>
        have hf := h1 _ _ hk hb hd
        rcases fits_basic hv hb with rfl | ⟨i', h3, h4⟩
        · cases hr with
          | null => trivial
          | field h5 => cases h5
          | undefined h5 => cases h5
        · cases hr with
          | null => cases h3
          | field h5 _ h6 =>
            rw [h3] at h5; cases h5
            obtain ⟨j, h7, h8, h9⟩ := declares_field hc.root hd hf
            exact hw.fields _ _ _ _ _ _ (sub_trans h4 h7) h8 h9 hpt h6
          | undefined h5 h6 =>
            rw [h3] at h5; cases h5
            exact h6 (hasField_sub h4 hf)
          | procField _ => cases h3
          | noProcField _ => cases h3
          | noFields => cases h3
      | untyped _ hb =>
        cases hs : a.st with
        | none => exact absurd (Due.fieldNeedsType hk hs) (hq.1 _)
        | type i => exact absurd (hs ▸ Basic.type i) (hb i)
        | list k => exact absurd (hs ▸ Basic.list k) (hb _)
        | proc =>
          rw [hs] at hv
          by_cases hm : n ∈ procFields
          · cases hv with
            | null => cases hr with
              | null => trivial
              | field h5 => cases h5
              | undefined h5 => cases h5
            | proc => cases hr with
              | field h5 => cases h5
              | undefined h5 => cases h5
              | procField _ => exact .any _
              | noProcField h5 => exact h5 hm
          · exact absurd (Due.undefinedProcField hk hs hm) (hq.1 _)
  | @call v k n es o hk _ hr =>
    cases hf with
    | static h1 => rcases h1 with h1 | h1 <;> cases h1
    | call h1 =>
      have hb : ∃ i, Basic c.tree a.st i := by
        refine Classical.byContradiction fun hno => ?_
        exact hq.1 _ (.callNeedsType hk fun i hi => hno ⟨i, hi⟩)
      obtain ⟨i, hb⟩ := hb
      have hp : ∃ p, Defines c.tree i n p := by
        refine Classical.byContradiction fun hno => ?_
        exact hq.1 _ (.undefinedMethod hk hb fun p hp => hno ⟨p, hp⟩)
      obtain ⟨p, hp⟩ := hp
      cases hi with
      | uncheckedCall h3 => exact absurd hk h3
      | noMethod _ hn => exact absurd hp (hn i p hb)
      | privateMethod _ hb' hp' hpr hne => exact absurd (Due.privateMethod hk hb' hp' hpr hne) (hq.1 _)
      | method _ hb' hp' _ ha hg =>
        rcases fits_basic hv hb' with rfl | ⟨i', h3, h4⟩
        · cases hr with
          | null => trivial
          | method h5 => cases h5
          | undefined h5 => cases h5
          | noProcs h5 => exact h5 rfl
        · obtain ⟨⟨p', h5⟩, h6⟩ := runs_sub hc.root h4 hp' (h1 _ _ hk hb' hp')
          cases hr with
          | null => cases h3
          | method h7 h8 h9 =>
            rw [h3] at h7; cases h7
            exact hw.returns _ _ _ _ _ _ (h6 _ h8).1 (h6 _ h8).2 ha hg h9
          | undefined h7 h8 =>
            rw [h3] at h7; cases h7
            exact h8 p' h5
          | noProcs _ h7 => rw [h3] at h7; cases h7

/-- The arguments of an accepted term are looked at. -/
theorem opens_arg {c : Ctx} {l : Loc} {h : Option Nat} {t : Term} (hq : Quiet c (.term l h t)) (hf : TermFine c t)
    {e x : Expr} (he : e ∈ t.args) (hx : ArgValue e x) : Opens c (.term l h t) none x := by
  cases t with
  | call n es =>
    obtain ⟨p, hp⟩ := hf
    exact .arg (.call hp) he hx
  | selfCall es => exact .arg .self he hx
  | parentCall es =>
    have : ∃ p, ParentOf c.tree c.proc p :=
      Classical.byContradiction fun hno => hq.1 _ (.noParentProc fun p hp => hno ⟨p, hp⟩)
    obtain ⟨p, hp⟩ := this
    exact .arg (.parent hp) he hx
  | globalCall n es =>
    have : ∃ p, Defines c.tree 0 n p :=
      Classical.byContradiction fun hno => hq.1 _ (.undefinedGlobalProc fun p hp => hno ⟨p, hp⟩)
    obtain ⟨p, hp⟩ := this
    exact .arg (.global hp) he hx
  | newImplicit es =>
    cases h with
    | none => exact absurd Due.noTypeHint (hq.1 _)
    | some i =>
      have : ∃ p, Defines c.tree i "New" p := by
        refine Classical.byContradiction fun hno => ?_
        rcases hf with rfl | hf
        · cases he
        · by_cases hm : c.tree.path i ∈ [["list"], ["alist"], ["vector"], ["pixloc"]]
          · exact hno (hf i hm)
          · exact hq.1 _ (.noNew (fun p hp => hno ⟨p, hp⟩) hm)
      obtain ⟨p, hp⟩ := this
      exact .arg (.newImplicit hp) he hx
  | newPrefab path es =>
    cases hn : c.tree.nav c.ty path with
    | none => exact absurd (Due.badNewPath hn) (hq.1 _)
    | some i =>
      have : ∃ p, Defines c.tree i "New" p := by
        refine Classical.byContradiction fun hno => ?_
        rcases hf with rfl | hf
        · cases he
        · by_cases hm : c.tree.path i ∈ [["list"], ["alist"], ["vector"], ["pixloc"]]
          · exact hno (hf i hn hm)
          · exact hq.1 _ (.noNewPath hn (fun p hp => hno ⟨p, hp⟩) hm)
      obtain ⟨p, hp⟩ := this
      exact .arg (.newPrefab hn hp) he hx
  | list es => exact .list he hx
  | input es fs => exact .input he hx
  | locate es fs => exact .locate he hx
  | dynCall es fs =>
    rcases List.mem_append.1 he with he | he
    · exact .dynLhs he hx
    · exact .dynRhs he hx
  | extCall es f fs => exact .extArg he hx
  | _ => cases he

/-- And so are the other expressions in a term. -/
theorem opens_inner {c : Ctx} {l : Loc} {h : Option Nat} {t : Term} {e : Expr} (he : e ∈ t.inner) :
    Opens c (.term l h t) none e := by
  cases t with
  | interp es => exact .interp he
  | input es fs => exact .inputIn he
  | locate es fs => exact .locateIn he
  | pick es => exact .pick he
  | extCall es f fs =>
    rcases List.mem_cons.1 he with rfl | he
    · exact .extFn
    · exact .extLib he
  | _ => cases he

/-- The arguments of an accepted call on a value are looked at. -/
theorem opens_callArg {c : Ctx} {l : Loc} {a : An} {k : Access} {n : Ident} {es : Exprs}
    (hq : Quiet c (.follow l a (.call k n es))) {e x : Expr} (he : e ∈ es.toList) (hx : ArgValue e x) :
    Opens c (.follow l a (.call k n es)) none x := by
  by_cases hk : k.checked
  · have hb : ∃ i, Basic c.tree a.st i :=
      Classical.byContradiction fun hno => hq.1 _ (.callNeedsType hk fun i hi => hno ⟨i, hi⟩)
    obtain ⟨i, hb⟩ := hb
    have hp : ∃ p, Defines c.tree i n p :=
      Classical.byContradiction fun hno => hq.1 _ (.undefinedMethod hk hb fun p hp => hno ⟨p, hp⟩)
    obtain ⟨p, hp⟩ := hp
    refine .arg (.method hk hb hp fun q hpr => ?_) he hx
    refine Classical.byContradiction fun hne => ?_
    exact hq.1 _ (.privateMethod hk hb hp hpr hne)
  · exact .uncheckedArg hk he hx

theorem along_mem {c : Ctx} {a b : An} {fs : Follows} {l : Loc} {f : Follow} (h : Along c a fs l b f) :
    (l, f) ∈ fs.toList := by
  induction h with
  | head => exact .head _
  | tail _ _ ih => exact .tail _ ih

theorem nested_paren {l : Loc} {t : Term} {fs : Follows} {e : Expr} (h : t = .expr e) : Nested e (.base l t fs) := by
  rw [h]; exact .paren

theorem mem_firstFollow {l : Loc} {f g : Follow} {fs : Follows} (h : f = g) : (l, g) ∈ (Follows.cons l f fs).toList := by
  rw [h]; exact .head _

theorem fine_base {c : Ctx} {l : Loc} {t : Term} {fs : Follows} (h : Fine c (.base l t fs)) :
    TermFine c t ∧ ∀ h a l' b f, TermIs c h t a → Along c a fs l' b f → FollowFine c b f := by
  cases h with
  | base h1 h2 => exact ⟨h1, h2⟩

theorem fine_binary {c : Ctx} {op : BinaryOp} {x y : Expr} (h : Fine c (.binary op x y)) : ∀ h a b, ListOp op →
    ExprIs c h x a → IsList c.tree a.st → ExprIs c h y b → b.st = a.st := by
  cases h with
  | binary h1 => exact h1

theorem fine_compound {c : Ctx} {x y : Expr} (h : Fine c (.assign .compound x y)) : ∀ h h' a b,
    ExprIs c h x a → ExprIs c h' y b → b.st = .none ∨ IsList c.tree a.st ∧ b.st = a.st := by
  cases h with
  | compound h1 => exact h1

theorem fine_ternary {c : Ctx} {k x y : Expr} (h : Fine c (.ternary k x y)) : ∀ h a b, ExprIs c h x a → ExprIs c h y b →
    b.st = a.st := by
  cases h with
  | ternary h1 => exact h1

theorem is_assign {c : Ctx} {h : Option Nat} {op : AssignOp} {x y : Expr} {a : An} (hi : ExprIs c h (.assign op x y) a) :
    ∃ b k, ExprIs c none x b ∧ HintOf c.tree b.st k ∧ ExprIs c k y a := by
  cases hi with
  | assign h1 h2 h3 => exact ⟨_, _, h1, h2, h3⟩

theorem is_ternary {c : Ctx} {h : Option Nat} {k x y : Expr} {a : An} (hi : ExprIs c h (.ternary k x y) a) :
    ExprIs c h x a := by
  cases hi with
  | ternary h1 => exact h1

theorem is_combine {c : Ctx} {h : Option Nat} {op : BinaryOp} {x y : Expr} {a : An} (hop : ListOp op)
    (hi : ExprIs c h (.binary op x y) a) : a.st = .none ∨ ∃ b, ExprIs c none x b ∧ IsList c.tree b.st ∧ a.st = b.st := by
  cases hi with
  | binary hn => exact absurd hop hn
  | notList _ _ _ => exact .inl rfl
  | listOp _ hb hl => exact .inr ⟨_, hb, hl, rfl⟩

theorem is_binary {c : Ctx} {h : Option Nat} {op : BinaryOp} {x y : Expr} {a : An} (hop : ¬ ListOp op)
    (hi : ExprIs c h (.binary op x y) a) : a.st = .none := by
  cases hi with
  | binary _ => rfl
  | notList h1 _ _ => exact absurd h1 hop
  | listOp h1 _ _ => exact absurd h1 hop

theorem is_paren {c : Ctx} {h : Option Nat} {e : Expr} {a : An} (hi : TermIs c h (.expr e) a) : ExprIs c h e a := by
  cases hi with
  | paren h1 => exact h1
  | «opaque» ho => cases ho

theorem is_nil {c : Ctx} {a b : An} (hi : FollowsIs c a .nil b) : a = b := by
  cases hi; rfl

theorem is_cons {c : Ctx} {a d : An} {l : Loc} {f : Follow} {fs : Follows} (hi : FollowsIs c a (.cons l f fs) d) :
    ∃ b, FollowIs c a f b ∧ FollowsIs c b fs d := by
  cases hi with
  | cons h1 h2 => exact ⟨_, h1, h2⟩

theorem sizeOf_termArg {t : Term} {e x : Expr} (he : e ∈ t.args) (hx : ArgValue e x) : sizeOf x < sizeOf t := by
  cases t <;> first
    | (have := sizeOf_arg (es := _) he hx
       simp only [Term.call.sizeOf_spec, Term.selfCall.sizeOf_spec, Term.parentCall.sizeOf_spec, Term.globalCall.sizeOf_spec,
        Term.newImplicit.sizeOf_spec, Term.newPrefab.sizeOf_spec, Term.list.sizeOf_spec, Term.input.sizeOf_spec,
        Term.locate.sizeOf_spec, Term.extCall.sizeOf_spec] at *
       omega)
    | (rcases List.mem_append.1 he with he | he <;>
        (have := sizeOf_arg he hx
         simp only [Term.dynCall.sizeOf_spec]
         omega))
    | cases he

theorem sizeOf_termInner {t : Term} {e : Expr} (he : e ∈ t.inner) : sizeOf e < sizeOf t := by
  cases t <;> first
    | (have := sizeOf_mem_exprs (es := _) he
       simp only [Term.interp.sizeOf_spec, Term.input.sizeOf_spec, Term.locate.sizeOf_spec, Term.pick.sizeOf_spec] at *
       omega)
    | (rcases List.mem_cons.1 he with he | he
       · subst he; simp only [Term.extCall.sizeOf_spec]; omega
       · have := sizeOf_mem_exprs he
         simp only [Term.extCall.sizeOf_spec]
         omega)
    | cases he

mutual

theorem exprRuns_good {c : Ctx} {w : World} (hc : Coherent c.tree) (hw : w.Honest c) {e : Expr} {o : Out}
    (hr : ExprRuns c w e o) {l : Loc} {h : Option Nat} {a : An} (hi : ExprIs c h e a) (hq : Silent c l h e)
    (hp : Plain c e) : o.Good c.tree a.st := by
  cases hr with
  | @base tl t fs v o ht hf =>
    obtain ⟨b, h1, h2⟩ := base_inv hi
    obtain ⟨hft, hff⟩ := fine_base (hp _ .self)
    have hv : Fits c.tree v b.st := termRuns_good hc hw ht h1 (quiet_term hq) hft (fun x hx => hp.nested (nested_paren hx))
      (fun e x he hx => hp.nested (.arg he hx)) (fun e he => hp.nested (.inner he))
    exact followsRun_good hc hw hf hv h2 (fun l' b' f ha => ⟨quiet_follow hq h1 ha, hff _ _ _ _ _ h1 ha⟩)
      (fun l' e hm => hp.nested (.index hm)) (fun l' k n es e x hm he hx => hp.nested (.callArg hm he hx))
  | stop ht hs =>
    obtain ⟨b, h1, h2⟩ := base_inv hi
    obtain ⟨hft, hff⟩ := fine_base (hp _ .self)
    exact good_stops hs (termRuns_good hc hw ht h1 (quiet_term hq) hft (fun x hx => hp.nested (nested_paren hx))
      (fun e x he hx => hp.nested (.arg he hx)) (fun e he => hp.nested (.inner he)))
  | @left op x y o hx hs =>
    by_cases hop : op = .or
    · subst hop
      obtain ⟨b, hb⟩ := exprIs_exists c h x
      exact good_stops hs (exprRuns_good hc hw hx hb (fun s m ha => hq s m (.orLeft ha)) (hp.nested .left))
    · obtain ⟨b, hb⟩ := exprIs_exists c none x
      exact good_stops hs (exprRuns_good hc hw hx hb (fun s m ha => hq s m (.left hop ha)) (hp.nested .left))
  | @right op x y o hx hs =>
    by_cases hop : op = .or
    · subst hop
      obtain ⟨b, hb⟩ := exprIs_exists c h y
      exact good_stops hs (exprRuns_good hc hw hx hb (fun s m ha => hq s m (.orRight ha)) (hp.nested .right))
    · obtain ⟨b, hb⟩ := exprIs_exists c none y
      exact good_stops hs (exprRuns_good hc hw hx hb (fun s m ha => hq s m (.right hop ha)) (hp.nested .right))
  | @combine op x y v r z hop hx hy hz =>
    have hno : op ≠ .or := by
      rintro rfl
      rcases hop with h | h | h | h | h <;> cases h
    rcases is_combine hop hi with h1 | ⟨b, hb, hl, hs⟩
    · rw [h1]; exact .any _
    · obtain ⟨d, hd⟩ := exprIs_exists c none y
      have h1 := exprRuns_good hc hw hx hb (fun s m ha => hq s m (.left hno ha)) (hp.nested .left)
      have h2 := exprRuns_good hc hw hy hd (fun s m ha => hq s m (.right hno ha)) (hp.nested .right)
      rw [fine_binary (hp _ .self) none b d hop hb hl hd] at h2
      rw [hs]
      exact combines_fits hc hl h1 h2 hz
  | binary hop =>
    rw [is_binary hop hi]; exact .any _
  | @target op x y o hx hs =>
    obtain ⟨b, hb⟩ := exprIs_exists c none x
    exact good_stops hs (exprRuns_good hc hw hx hb (fun s m ha => hq s m (.target ha)) (hp.nested .target))
  | value hy hs =>
    obtain ⟨d, k, h1, h2, h3⟩ := is_assign hi
    exact exprRuns_good hc hw hy h3 (fun s m ha => hq s m (.value h1 h2 ha)) (hp.nested .value)
  | assign hy =>
    obtain ⟨d, k, h1, h2, h3⟩ := is_assign hi
    exact exprRuns_good hc hw hy h3 (fun s m ha => hq s m (.value h1 h2 ha)) (hp.nested .value)
  | compound hx hy hz =>
    obtain ⟨d, k, h1, h2, h3⟩ := is_assign hi
    have g1 := exprRuns_good hc hw hx h1 (fun s m ha => hq s m (.target ha)) (hp.nested .target)
    have g2 := exprRuns_good hc hw hy h3 (fun s m ha => hq s m (.value h1 h2 ha)) (hp.nested .value)
    rcases fine_compound (hp _ .self) _ _ _ _ h1 h3 with h | ⟨h4, h5⟩
    · rw [h]; exact .any _
    · rw [h5] at g2 ⊢
      exact combines_fits hc h4 g1 g2 hz
  | @cond k x y o hk hs =>
    obtain ⟨b, hb⟩ := exprIs_exists c none k
    exact good_stops hs (exprRuns_good hc hw hk hb (fun s m ha => hq s m (.cond ha)) (hp.nested .cond))
  | yes hx =>
    exact exprRuns_good hc hw hx (is_ternary hi) (fun s m ha => hq s m (.yes ha)) (hp.nested .yes)
  | @no k x y o hy =>
    have h1 := is_ternary hi
    obtain ⟨b, hb⟩ := exprIs_exists c h y
    have g := exprRuns_good hc hw hy hb (fun s m ha => hq s m (.no ha)) (hp.nested .no)
    rw [fine_ternary (hp _ .self) h a b h1 hb] at g
    exact g
termination_by sizeOf e
decreasing_by all_goals (subst_vars; simp +arith; try omega)

theorem termRuns_good {c : Ctx} {w : World} (hc : Coherent c.tree) (hw : w.Honest c) {t : Term} {o : Out}
    (hr : TermRuns c w t o) {l : Loc} {h : Option Nat} {a : An} (hi : TermIs c h t a) (hq : Quiet c (.term l h t))
    (hf : TermFine c t) (hparen : ∀ e, t = .expr e → Plain c e)
    (hargs : ∀ e x, e ∈ t.args → ArgValue e x → Plain c x) (hinner : ∀ e, e ∈ t.inner → Plain c e) :
    o.Good c.tree a.st := by
  cases hr with
  | paren he =>
    exact exprRuns_good hc hw he (is_paren hi) (silent_open hq .paren) (hparen _ rfl)
  | @arg t e x o he hx hrun hs =>
    obtain ⟨b, hb⟩ := exprIs_exists c none x
    exact good_stops hs (exprRuns_good hc hw hrun hb (silent_open hq (opens_arg hq hf he hx)) (hargs e x he hx))
  | @inner t e o he hrun hs =>
    obtain ⟨b, hb⟩ := exprIs_exists c none e
    exact good_stops hs (exprRuns_good hc hw hrun hb (silent_open hq (opens_inner he)) (hinner e he))
  | gives hg => exact termGives_good hc hw hg hi hq hf
termination_by sizeOf t
decreasing_by
  all_goals first
    | (subst_vars; exact sizeOf_termArg ‹_› ‹_›)
    | (subst_vars; exact sizeOf_termInner ‹_›)
    | (subst_vars; simp +arith)

theorem followsRun_good {c : Ctx} {w : World} (hc : Coherent c.tree) (hw : w.Honest c) {v : RVal} {fs : Follows} {o : Out}
    (hr : FollowsRun c w v fs o) {a b : An} (hv : Fits c.tree v a.st) (hi : FollowsIs c a fs b)
    (hq : ∀ l b f, Along c a fs l b f → Quiet c (.follow l b f) ∧ FollowFine c b f)
    (hindex : ∀ l e, (l, .index e) ∈ fs.toList → Plain c e)
    (hargs : ∀ l k n es e x, (l, .call k n es) ∈ fs.toList → e ∈ es.toList → ArgValue e x → Plain c x) :
    o.Good c.tree b.st := by
  cases hr with
  | nil =>
    rw [← is_nil hi]; exact hv
  | cons h1 h2 =>
    obtain ⟨d, h3, h4⟩ := is_cons hi
    have hh := hq _ _ _ .head
    have g := followRuns_good hc hw h1 hv h3 hh.1 hh.2 (fun e he => hindex _ e (mem_firstFollow he))
      (fun k n es e x he => hargs _ k n es e x (mem_firstFollow he))
    exact followsRun_good hc hw h2 g h4 (fun l b f ha => hq l b f (.tail h3 ha)) (fun l e hm => hindex l e (.tail _ hm))
      (fun l k n es e x hm => hargs l k n es e x (.tail _ hm))
  | stop h1 hs =>
    obtain ⟨d, h3, h4⟩ := is_cons hi
    have hh := hq _ _ _ .head
    exact good_stops hs (followRuns_good hc hw h1 hv h3 hh.1 hh.2 (fun e he => hindex _ e (mem_firstFollow he))
      (fun k n es e x he => hargs _ k n es e x (mem_firstFollow he)))
termination_by sizeOf fs
decreasing_by all_goals (subst_vars; simp +arith; try omega)

theorem followRuns_good {c : Ctx} {w : World} (hc : Coherent c.tree) (hw : w.Honest c) {v : RVal} {f : Follow} {o : Out}
    (hr : FollowRuns c w v f o) {l : Loc} {a b : An} (hv : Fits c.tree v a.st) (hi : FollowIs c a f b)
    (hq : Quiet c (.follow l a f)) (hf : FollowFine c a f) (hindex : ∀ e, f = .index e → Plain c e)
    (hargs : ∀ k n es e x, f = .call k n es → e ∈ es.toList → ArgValue e x → Plain c x) : o.Good c.tree b.st := by
  cases hr with
  | @index v e o he hs =>
    obtain ⟨d, hd⟩ := exprIs_exists c none e
    exact good_stops hs (exprRuns_good hc hw he hd (silent_open hq .index) (hindex e rfl))
  | @arg v k n es e x o he hx hrun hs =>
    obtain ⟨d, hd⟩ := exprIs_exists c none x
    exact good_stops hs (exprRuns_good hc hw hrun hd (silent_open hq (opens_callArg hq he hx)) (hargs k n es e x rfl he hx))
  | gives hg => exact followGives_good hc hw hg hv hi hq hf
termination_by sizeOf f
decreasing_by
  · subst_vars; simp +arith
  · subst_vars
    have := sizeOf_arg he hx
    simp +arith only [Follow.call.sizeOf_spec]
    omega

end

/-- **C84**: if the checker says nothing about an expression that keeps to what it understands, and variables and procs hold
what their declarations say, then running the expression does not end at an undefined variable or proc, and its value is of
the static type. -/
theorem accepted_runs {c : Ctx} {w : World} (hc : Coherent c.tree) (hw : w.Honest c) {e : Expr} {l : Loc} {h : Option Nat}
    (hacc : ∀ l' m, (l', .msg m) ∉ (visitExpr c l h e).2) (hp : Plain c e) {o : Out} (hr : ExprRuns c w e o) :
    (∀ n, o ≠ .undefined n) ∧ ∀ v, o = .val v → Fits c.tree v (visitExpr c l h e).1.st := by
  have hg := exprRuns_good hc hw hr ((exprIs_iff c e l h _).2 rfl) ((accepted_iff c e l h).1 hacc) hp
  constructor
  · rintro n rfl; exact hg
  · rintro v rfl; exact hg

/-- **C84**: the same for `x += y` and the like on its own, whatever the types of both sides. -/
theorem accepted_compound {c : Ctx} {w : World} (hc : Coherent c.tree) (hw : w.Honest c) {x y : Expr} {l : Loc}
    {h : Option Nat} (hacc : ∀ l' m, (l', .msg m) ∉ (visitExpr c l h (.assign .compound x y)).2) (hx : Plain c x)
    (hy : Plain c y) {o : Out} (hr : ExprRuns c w (.assign .compound x y) o) (n : Ident) : o ≠ .undefined n := by
  have hq := (accepted_iff c _ l h).1 hacc
  obtain ⟨b, k, h1, h2, h3⟩ := is_assign ((exprIs_iff c (.assign .compound x y) l h _).2 rfl)
  rintro rfl
  cases hr with
  | target hr _ => exact exprRuns_good hc hw hr h1 (fun s m ha => hq s m (.target ha)) hx
  | value hr _ => exact exprRuns_good hc hw hr h3 (fun s m ha => hq s m (.value h1 h2 ha)) hy

end Verif.Typing
