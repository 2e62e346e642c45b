import Verif.Typing.Calls

/-!
# The typing rules describe what the checker computes

`exprIs_iff`: the analysis of an expression is the one thing that the rules `ExprIs` allow.
-/

namespace Verif.Typing

/-- One follow, as `visitFollows` visits it. -/
def visitFollow (c : Ctx) (l : Loc) (a : An) : Follow → An × List Ev
  | .unary op => visitUnary c l a op
  | .index e => let i := visitExpr c l none e; let r := visitIndex c l a; (r.1, i.2 ++ r.2)
  | .field .colon _ => (.empty, [])
  | .field .safeColon _ => (.empty, [])
  | .field _ n => visitField c l a n
  | .call .colon _ args => (.empty, (visitArgs c l args).flatMap Prod.snd)
  | .call .safeColon _ args => (.empty, (visitArgs c l args).flatMap Prod.snd)
  | .call _ n args => visitMethod c l a n args.toList (visitArgs c l args)
  | .staticField n => visitStaticField c l a n
  | .procRef n => visitProcRef c l a n

/-- One argument, as `visitArgs` visits it. -/
def visitArg (c : Ctx) (l : Loc) (e : Expr) : An × List Ev :=
  match e with
  | .assign op lhs rhs =>
    if (Expr.assign op lhs rhs).kwarg.isSome then visitExpr c l none rhs else visitExpr c l none (.assign op lhs rhs)
  | e => visitExpr c l none e

theorem visitFollows_cons (c : Ctx) (a : An) (l : Loc) (f : Follow) (fs : Follows) :
    visitFollows c a (.cons l f fs) = ((visitFollows c (visitFollow c l a f).1 fs).1,
      (visitFollow c l a f).2 ++ (visitFollows c (visitFollow c l a f).1 fs).2) := by
  rw [visitFollows.eq_def]
  cases f with
  | field k n => cases k <;> rfl
  | call k n args => cases k <;> rfl
  | _ => rfl

theorem visitArgs_cons (c : Ctx) (l : Loc) (e : Expr) (es : Exprs) :
    visitArgs c l (.cons e es) = visitArg c l e :: visitArgs c l es := by
  cases e with
  | assign op x y => rw [visitArgs]; rfl
  | base _ _ _ => rw [visitArgs]; rfl; nofun
  | binary _ _ _ => rw [visitArgs]; rfl; nofun
  | ternary _ _ _ => rw [visitArgs]; rfl; nofun

theorem visitArgs_length (c : Ctx) (l : Loc) : ∀ es : Exprs, (visitArgs c l es).length = es.toList.length
  | .nil => by rw [visitArgs]; rfl
  | .cons e es => by
    rw [visitArgs_cons, Exprs.toList, List.length_cons, List.length_cons, visitArgs_length c l es]

/-- A keyword argument is an assignment. -/
theorem kwarg_some {e : Expr} {n : Ident} (h : e.kwarg = some n) : ∃ x y, e = .assign .assign x y := by
  unfold Expr.kwarg at h
  split at h
  · exact ⟨_, _, rfl⟩
  · cases h

/-- What is visited for an argument. -/
theorem visitArg_eq (c : Ctx) (l : Loc) {e v : Expr} (h : ArgValue e v) : visitArg c l e = visitExpr c l none v := by
  cases h with
  | plain hk =>
    unfold visitArg
    split
    · rw [if_neg (by rw [hk]; simp)]
    · rfl
  | keyword hk =>
    unfold visitArg
    simp only [hk, Option.isSome_some, if_true]

theorem argValue_exists (e : Expr) : ∃ v, ArgValue e v := by
  cases hk : e.kwarg with
  | none => exact ⟨e, .plain hk⟩
  | some n =>
    obtain ⟨x, y, rfl⟩ := kwarg_some hk
    exact ⟨y, .keyword hk⟩

theorem argValue_unique {e v w : Expr} (h : ArgValue e v) (h' : ArgValue e w) : v = w := by
  cases h with
  | plain hk =>
    cases h' with
    | plain _ => rfl
    | keyword hk' => rw [hk] at hk'; cases hk'
  | keyword hk =>
    cases h' with
    | plain hk' => rw [hk] at hk'; cases hk'
    | keyword _ => rfl

/-- The type of a call in terms of the rules. -/
theorem call_iff (c : Ctx) (l : Loc) {args : Exprs} (src : Nat) (p : Proc) (ex inh : Bool)
    (hargs : ∀ vs, ArgsAre c args vs ↔ vs = (visitArgs c l args).map Prod.fst) (a : An) :
    (∃ vs s, ArgsAre c args vs ∧ Gives c p args.toList vs s ∧ a = { st := s }) ↔
      a = (visitCall c l src p ex inh args.toList (visitArgs c l args)).1 := by
  have hg := visitCall_gives c l src p ex inh (visitArgs c l args) (es := args.toList) (visitArgs_length c l args).symm
  constructor
  · rintro ⟨vs, s, hv, hs, rfl⟩
    rw [(hargs vs).1 hv] at hs
    exact ((hg s).1 hs).symm
  · intro h
    obtain ⟨s, hs⟩ := visitCall_form (es := args.toList) c l src p ex inh (visitArgs c l args)
    exact ⟨_, s, (hargs _).2 rfl, (hg s).2 hs, by rw [h, hs]⟩

theorem typed_iff (c : Ctx) (l : Loc) (path : List Ident) (s : STy) :
    (∃ r, PathType c.tree path r ∧ s = r.getD .none) ↔ (c.typed l path).1 = { st := s } := by
  obtain ⟨h1, h2, _⟩ := staticType_iff (t := c.tree) path
  unfold Ctx.typed
  constructor
  · rintro ⟨r, hr, rfl⟩
    cases r with
    | some s => rw [(h1 s).2 hr]; rfl
    | none => obtain ⟨q, hq⟩ := h2.1 hr; rw [hq]; rfl
  · intro h
    cases he : c.tree.staticType path with
    | ok s' =>
      rw [he] at h
      simp only [An.ofType, An.mk.injEq, and_true] at h
      exact ⟨some s', (h1 _).1 he, by rw [← h]; rfl⟩
    | error q =>
      rw [he] at h
      simp only [An.empty, An.mk.injEq, and_true] at h
      exact ⟨none, h2.2 ⟨q, he⟩, by rw [← h]; rfl⟩

theorem typed_form (c : Ctx) (l : Loc) (path : List Ident) : ∃ s, (c.typed l path).1 = { st := s } := by
  unfold Ctx.typed
  split
  · exact ⟨_, rfl⟩
  · exact ⟨.none, rfl⟩

/-- The type on the left of `::`. -/
theorem scope_iff (c : Ctx) (l : Loc) (a : An) (n : Ident) (i : Nat) : scopeType c l a n = .inl i ↔ Scope c a i := by
  unfold scopeType
  cases hb : a.st.basic c.tree with
  | some j =>
    simp only [Sum.inl.injEq]
    constructor
    · rintro rfl; exact .static ((basic_iff _ _).1 hb)
    · intro h
      cases h with
      | static h => rw [(basic_iff _ _).2 h] at hb; cases hb; rfl
      | path h _ _ => exact absurd ((basic_iff _ _).1 hb) (h _)
  | none =>
    have hn := (basic_none _).1 hb
    simp only []
    cases hv : a.value with
    | none =>
      simp only [reduceCtorEq, false_iff]
      intro h
      cases h with
      | static h => exact hn _ h
      | path _ h _ => rw [hv] at h; cases h
    | some v =>
      have key : (∀ p, v ≠ .prefab p) → ¬ Scope c a i := by
        intro hp h
        cases h with
        | static h => exact hn _ h
        | path _ h _ => rw [hv] at h; cases h; exact hp _ rfl
      cases v with
      | prefab p =>
        simp only []
        cases hf : c.tree.find p with
        | some j =>
          simp only [Sum.inl.injEq]
          constructor
          · rintro rfl; exact .path hn hv hf
          · intro h
            cases h with
            | static h => exact absurd h (hn _)
            | path _ h h' => rw [hv] at h; cases h; rw [hf] at h'; cases h'; rfl
        | none =>
          simp only [reduceCtorEq, false_iff]
          intro h
          cases h with
          | static h => exact hn _ h
          | path _ h h' => rw [hv] at h; cases h; rw [hf] at h'; cases h'
      | null => simpa using key (by nofun)
      | num => simpa using key (by nofun)
      | str s => simpa using key (by nofun)
      | res => simpa using key (by nofun)

theorem scope_none (c : Ctx) (l : Loc) (a : An) (n : Ident) :
    (∃ evs, scopeType c l a n = .inr evs) ↔ ∀ i, ¬ Scope c a i := by
  constructor
  · rintro ⟨evs, h⟩ i hi
    rw [(scope_iff c l a n i).2 hi] at h
    cases h
  · intro h
    cases hs : scopeType c l a n with
    | inr evs => exact ⟨evs, rfl⟩
    | inl i => exact absurd ((scope_iff c l a n i).1 hs) (h i)

theorem ident_iff (c : Ctx) (l : Loc) (h : Option Nat) (n : Ident) (a : An) :
    TermIs c h (.ident n) a ↔ a = (visitIdent c l n).1 := by
  unfold visitIdent
  cases hl : c.locals n with
  | some b =>
    simp only []
    constructor
    · intro ht
      cases ht with
      | «local» h => rw [hl] at h; cases h; rfl
      | typeVar h => rw [hl] at h; cases h
      | var h _ _ _ => rw [hl] at h; cases h
      | noVar h _ _ => rw [hl] at h; cases h
      | «opaque» h => cases h
    · rintro rfl; exact .local hl
  | none =>
    by_cases hn : n = "type"
    · subst hn
      simp only [beq_self_eq_true, if_true]
      constructor
      · intro ht
        cases ht with
        | «local» h => rw [hl] at h; cases h
        | typeVar _ => rfl
        | var _ h _ _ => exact absurd rfl h
        | noVar _ h _ => exact absurd rfl h
        | «opaque» h => cases h
      · rintro rfl; exact .typeVar hl
    · have hn' : (n == "type") = false := by simpa using hn
      simp only [hn', Bool.false_eq_true, if_false]
      cases hd : c.tree.varDecl c.ty n with
      | some d =>
        have hD := (varDecl_iff _ _ _).1 hd
        simp only []
        constructor
        · intro ht
          cases ht with
          | «local» h => rw [hl] at h; cases h
          | typeVar _ => exact absurd rfl hn
          | var _ _ h hp =>
            rw [(varDecl_iff _ _ _).2 h] at hd; cases hd
            rw [(typed_iff c l _ _).1 ⟨_, hp, rfl⟩]
          | noVar _ _ h => exact absurd hD (h _)
          | «opaque» h => cases h
        · rintro rfl
          obtain ⟨s, hs⟩ := typed_form c l d.path
          obtain ⟨r, hr, rfl⟩ := (typed_iff c l _ _).2 hs
          rw [hs]
          exact .var hl hn hD hr
      | none =>
        have hD := (varDecl_none _ _).1 hd
        simp only []
        constructor
        · intro ht
          cases ht with
          | «local» h => rw [hl] at h; cases h
          | typeVar _ => exact absurd rfl hn
          | var _ _ h hp => exact absurd h (hD _)
          | noVar _ _ h => rfl
          | «opaque» h => cases h
        · rintro rfl; exact .noVar hl hn hD

theorem globalIdent_iff (c : Ctx) (l : Loc) (h : Option Nat) (n : Ident) (a : An) :
    TermIs c h (.globalIdent n) a ↔ a = (visitGlobal c l n).1 := by
  unfold visitGlobal
  cases hd : c.tree.varDecl 0 n with
  | some d =>
    have hD := (varDecl_iff _ _ _).1 hd
    simp only []
    constructor
    · intro ht
      cases ht with
      | globalVar h hp =>
        rw [(varDecl_iff _ _ _).2 h] at hd; cases hd
        rw [(typed_iff c l _ _).1 ⟨_, hp, rfl⟩]
      | noGlobal h => exact absurd hD (h _)
      | «opaque» h => cases h
    · rintro rfl
      obtain ⟨s, hs⟩ := typed_form c l d.path
      obtain ⟨r, hr, rfl⟩ := (typed_iff c l _ _).2 hs
      rw [hs]
      exact .globalVar hD hr
  | none =>
    have hD := (varDecl_none _ _).1 hd
    simp only []
    constructor
    · intro ht
      cases ht with
      | globalVar h hp => exact absurd h (hD _)
      | noGlobal h => rfl
      | «opaque» h => cases h
    · rintro rfl; exact .noGlobal hD

theorem overload_iff (op : UnaryOp) (n : Ident) :
    Overload op n ↔ (op = .preIncr ∨ op = .postIncr) ∧ n = "operator++" ∨
      (op = .preDecr ∨ op = .postDecr) ∧ n = "operator--" := by
  constructor
  · intro h; cases h <;> simp
  · rintro (⟨rfl | rfl, rfl⟩ | ⟨rfl | rfl, rfl⟩) <;> constructor

theorem visitUnary_overload (c : Ctx) (l : Loc) (a : An) {op : UnaryOp} {n : Ident} (h : Overload op n) :
    visitUnary c l a op = visitOverload c l a n := by
  cases h <;> rfl

theorem visitUnary_other (c : Ctx) (l : Loc) (a : An) {op : UnaryOp} (h : ∀ n, ¬ Overload op n) :
    visitUnary c l a op = (.empty, []) := by
  cases op <;> first | rfl | exact absurd (by constructor) (h _)

theorem Overload.unique {op : UnaryOp} {n m : Ident} (h : Overload op n) (h' : Overload op m) : n = m := by
  cases h <;> cases h' <;> rfl

theorem overload_cases (op : UnaryOp) : (∃ n, Overload op n) ∨ ∀ n, ¬ Overload op n := by
  cases op
  case preIncr => exact .inl ⟨_, .preIncr⟩
  case postIncr => exact .inl ⟨_, .postIncr⟩
  case preDecr => exact .inl ⟨_, .preDecr⟩
  case postDecr => exact .inl ⟨_, .postDecr⟩
  all_goals exact .inr (by intro n h; cases h)

theorem unary_iff (c : Ctx) (l : Loc) (a : An) (op : UnaryOp) (b : An) :
    FollowIs c a (.unary op) b ↔ b = (visitUnary c l a op).1 := by
  have hform : FollowIs c a (.unary op) b ↔
      (∃ i n p s, a.st = .type i ∧ Overload op n ∧ Defines c.tree i n p ∧ Gives c p [] [] s ∧ b = { st := s }) ∨
      ((∀ i n p, a.st = .type i → Overload op n → ¬ Defines c.tree i n p) ∧ b = {}) := by
    constructor
    · intro h
      cases h with
      | overload h1 h2 h3 h4 => exact .inl ⟨_, _, _, _, h1, (overload_iff _ _).2 h2, h3, h4, rfl⟩
      | noOverload h => exact .inr ⟨fun i n p h1 h2 => h i n p h1 ((overload_iff _ _).1 h2), rfl⟩
    · rintro (⟨i, n, p, s, h1, h2, h3, h4, rfl⟩ | ⟨h, rfl⟩)
      · exact .overload h1 ((overload_iff _ _).1 h2) h3 h4
      · exact .noOverload fun i n p h1 h2 => h i n p h1 ((overload_iff _ _).2 h2)
  rw [hform]
  rcases overload_cases op with ⟨n, hn⟩ | hno
  · rw [visitUnary_overload c l a hn]
    unfold visitOverload
    simp only []
    have hnil : (∀ i, a.st ≠ .type i) → (((∃ i n p s, a.st = .type i ∧ Overload op n ∧ Defines c.tree i n p ∧
        Gives c p [] [] s ∧ b = { st := s }) ∨
        ((∀ i n p, a.st = .type i → Overload op n → ¬ Defines c.tree i n p) ∧ b = {})) ↔ b = {}) := by
      intro hs
      constructor
      · rintro (⟨i, _, _, _, h, _⟩ | ⟨_, h⟩)
        · exact absurd h (hs i)
        · exact h
      · intro h; exact .inr ⟨fun i _ _ h => absurd h (hs i), h⟩
    cases hs : a.st with
    | none => rw [hs] at hnil; exact hnil (by nofun)
    | proc => rw [hs] at hnil; exact hnil (by nofun)
    | list k => rw [hs] at hnil; exact hnil (by nofun)
    | type i =>
      simp only []
      cases hp : c.tree.getProc i n with
      | some p =>
        have hP := (getProc_iff _ _ _).1 hp
        simp only []
        constructor
        · rintro (⟨i', n', p', s, h1, h2, h3, h4, rfl⟩ | ⟨h, rfl⟩)
          · cases h1; cases hn.unique h2
            rw [(getProc_iff _ _ _).2 h3] at hp; cases hp
            exact ((visitCall_gives c l i p true false (es := []) [] rfl s).1 h4).symm
          · exact absurd hP (h _ _ _ rfl hn)
        · intro hb
          obtain ⟨s, hs'⟩ := visitCall_form (es := []) c l i p true false []
          exact .inl ⟨i, n, p, s, rfl, hn, hP, (visitCall_gives c l i p true false (es := []) [] rfl s).2 hs',
            by rw [hb, hs']⟩
      | none =>
        have hP := (getProc_none _ _).1 hp
        simp only []
        constructor
        · rintro (⟨i', n', p', s, h1, h2, h3, h4, rfl⟩ | ⟨h, rfl⟩)
          · cases h1; cases hn.unique h2
            exact absurd h3 (hP _)
          · rfl
        · rintro rfl
          exact .inr ⟨fun i' n' p h1 h2 => by cases h1; cases hn.unique h2; exact hP p, rfl⟩
  · rw [visitUnary_other c l a hno]
    constructor
    · rintro (⟨i, n, _, _, _, h, _⟩ | ⟨_, h⟩)
      · exact absurd h (hno n)
      · exact h
    · intro h; exact .inr ⟨fun _ n _ _ h => absurd h (hno n), h⟩

theorem Access.checked_cases (k : Access) : k.checked ∨ k = .colon ∨ k = .safeColon := by
  unfold Access.checked; cases k <;> simp

theorem visitFollow_unchecked (c : Ctx) (l : Loc) (a : An) {k : Access} (hk : ¬ k.checked) :
    (∀ n, visitFollow c l a (.field k n) = (.empty, [])) ∧
    (∀ n args, visitFollow c l a (.call k n args) = (.empty, (visitArgs c l args).flatMap Prod.snd)) := by
  rcases k.checked_cases with h | rfl | rfl
  · exact absurd h hk
  · exact ⟨fun _ => rfl, fun _ _ => rfl⟩
  · exact ⟨fun _ => rfl, fun _ _ => rfl⟩

theorem visitFollow_checked (c : Ctx) (l : Loc) (a : An) {k : Access} (hk : k.checked) :
    (∀ n, visitFollow c l a (.field k n) = visitField c l a n) ∧
    (∀ n args, visitFollow c l a (.call k n args) = visitMethod c l a n args.toList (visitArgs c l args)) := by
  unfold Access.checked at hk
  cases k <;> first | exact ⟨fun _ => rfl, fun _ _ => rfl⟩ | simp at hk

theorem field_iff (c : Ctx) (l : Loc) (a : An) (k : Access) (n : Ident) (b : An) :
    FollowIs c a (.field k n) b ↔ b = (visitFollow c l a (.field k n)).1 := by
  by_cases hk : k.checked
  · rw [(visitFollow_checked c l a hk).1]
    have hunt : (∀ i, ¬ Basic c.tree a.st i) → (FollowIs c a (.field k n) b ↔ b = {}) := by
      intro hs
      constructor
      · intro h
        cases h with
        | unchecked h => rfl
        | callee _ h _ => exact absurd h (hs _)
        | field _ h _ _ _ => exact absurd h (hs _)
        | noField _ h _ _ => exact absurd h (hs _)
        | untyped _ _ => rfl
      · rintro rfl; exact .untyped hk hs
    unfold visitField
    cases hs : a.st with
    | proc => rw [hs] at hunt; exact hunt (fun i h => by cases h)
    | none => rw [hs] at hunt; exact hunt (fun i h => by cases h)
    | _ =>
      simp only []
      rw [← hs]
      cases hb : a.st.basic c.tree with
      | none => exact hunt ((basic_none _).1 hb)
      | some i =>
        have hB := (basic_iff _ _).1 hb
        have huniq : ∀ {j}, Basic c.tree a.st j → i = j := by
          intro j hj
          rw [(basic_iff _ _).2 hj] at hb; cases hb; rfl
        simp only []
        by_cases hc : c.tree.path i = ["callee"] ∧ n = "proc"
        · obtain ⟨h1, rfl⟩ := id hc
          simp only [h1, beq_self_eq_true, Bool.and_self, if_true]
          constructor
          · intro h
            cases h with
            | unchecked h => exact absurd hk h
            | callee _ h _ => rfl
            | field _ h h' _ _ => cases huniq h; exact absurd hc h'
            | noField _ h h' _ => cases huniq h; exact absurd hc h'
            | untyped _ h => exact absurd hB (h _)
          · rintro rfl; exact .callee hk hB h1
        · have hc' : (c.tree.path i == ["callee"] && n == "proc") = false := by simpa using hc
          simp only [hc', Bool.false_eq_true, if_false]
          cases hd : c.tree.varDecl i n with
          | none =>
            have hD := (varDecl_none _ _).1 hd
            simp only []
            constructor
            · intro h
              cases h with
              | unchecked h => exact absurd hk h
              | callee _ h h' => cases huniq h; exact absurd ⟨h', rfl⟩ hc
              | field _ h _ h' _ => cases huniq h; exact absurd h' (hD _)
              | noField _ h _ h' => rfl
              | untyped _ h => rfl
            · rintro rfl; exact .noField hk hB hc hD
          | some d =>
            have hD := (varDecl_iff _ _ _).1 hd
            simp only []
            constructor
            · intro h
              cases h with
              | unchecked h => exact absurd hk h
              | callee _ h h' => cases huniq h; exact absurd ⟨h', rfl⟩ hc
              | field _ h _ h' hp =>
                cases huniq h
                rw [(varDecl_iff _ _ _).2 h'] at hd; cases hd
                rw [(typed_iff c l _ _).1 ⟨_, hp, rfl⟩]
              | noField _ h _ h' => cases huniq h; exact absurd hD (h' _)
              | untyped _ h => exact absurd hB (h _)
            · rintro rfl
              obtain ⟨s, hs⟩ := typed_form c l d.path
              obtain ⟨r, hr, rfl⟩ := (typed_iff c l _ _).2 hs
              rw [hs]
              exact .field hk hB hc hD hr
  · rw [(visitFollow_unchecked c l a hk).1]
    constructor
    · intro h
      cases h with
      | unchecked h => rfl
      | callee h _ _ => exact absurd h hk
      | field h _ _ _ _ => exact absurd h hk
      | noField h _ _ _ => exact absurd h hk
      | untyped h _ => exact absurd h hk
    · rintro rfl; exact .unchecked hk

theorem method_iff (c : Ctx) (l : Loc) (a : An) (k : Access) (n : Ident) {args : Exprs}
    (hargs : ∀ vs, ArgsAre c args vs ↔ vs = (visitArgs c l args).map Prod.fst) (b : An) :
    FollowIs c a (.call k n args) b ↔ b = (visitFollow c l a (.call k n args)).1 := by
  by_cases hk : k.checked
  · rw [(visitFollow_checked c l a hk).2]
    unfold visitMethod
    have hnone : (∀ i p, Basic c.tree a.st i → ¬ Defines c.tree i n p) → (FollowIs c a (.call k n args) b ↔ b = {}) := by
      intro hs
      constructor
      · intro h
        cases h with
        | uncheckedCall h => rfl
        | method _ h h' _ _ _ => exact absurd h' (hs _ _ h)
        | privateMethod _ h h' _ _ => rfl
        | noMethod _ _ => rfl
      · rintro rfl; exact .noMethod hk hs
    cases hb : a.st.basic c.tree with
    | none => exact hnone fun i p h => absurd h ((basic_none _).1 hb i)
    | some i =>
      have hB := (basic_iff _ _).1 hb
      have huniq : ∀ {j}, Basic c.tree a.st j → i = j := by
        intro j hj
        rw [(basic_iff _ _).2 hj] at hb; cases hb; rfl
      simp only []
      cases hp : c.tree.getProc i n with
      | none =>
        refine hnone fun j p h => ?_
        cases huniq h
        exact (getProc_none _ _).1 hp p
      | some p =>
        have hP := (getProc_iff _ _ _).1 hp
        have hpu : ∀ {q}, Defines c.tree i n q → p = q := by
          intro q hq
          rw [(getProc_iff _ _ _).2 hq] at hp; cases hp; rfl
        simp only []
        have hpriv : ∀ q, c.privateBy p = some q → q.ty ≠ i → (FollowIs c a (.call k n args) b ↔ b = {}) := by
          intro q hq hne
          constructor
          · intro h
            cases h with
            | uncheckedCall h => rfl
            | method _ h h' hm _ _ => cases huniq h; cases hpu h'; exact absurd (hm _ hq) hne
            | privateMethod _ h h' _ _ => rfl
            | noMethod _ _ => rfl
          · rintro rfl; exact .privateMethod hk hB hP hq hne
        have hok : (∀ q, c.privateBy p = some q → q.ty = i) → (FollowIs c a (.call k n args) b ↔
            b = (visitCall c l i p false false args.toList (visitArgs c l args)).1) := by
          intro hm
          rw [← call_iff c l i p false false hargs b]
          constructor
          · intro h
            cases h with
            | uncheckedCall h => exact absurd hk h
            | method _ h h' _ hv hg => cases huniq h; cases hpu h'; exact ⟨_, _, hv, hg, rfl⟩
            | privateMethod _ h h' hq hne => cases huniq h; cases hpu h'; exact absurd (hm _ hq) hne
            | noMethod _ h => exact absurd hP (h _ _ hB)
          · rintro ⟨vs, s, hv, hg, rfl⟩
            exact .method hk hB hP hm hv hg
        cases hq : c.privateBy p with
        | none => exact hok (by rw [hq]; nofun)
        | some q =>
          by_cases hne : q.ty = i
          · simp only [hne, bne_self_eq_false, Bool.false_eq_true, if_false]
            refine hok ?_
            intro q' hq'
            rw [hq] at hq'; cases hq'; exact hne
          · have : (i != q.ty) = true := by simpa using fun h => hne h.symm
            simp only [this, if_true]
            exact hpriv q hq hne
  · rw [(visitFollow_unchecked c l a hk).2]
    constructor
    · intro h
      cases h with
      | uncheckedCall h => rfl
      | method h _ _ _ _ _ => exact absurd h hk
      | privateMethod h _ _ _ _ => exact absurd h hk
      | noMethod h _ => exact absurd h hk
    · rintro rfl; exact .uncheckedCall hk

theorem staticField_iff (c : Ctx) (l : Loc) (a : An) (n : Ident) (b : An) :
    FollowIs c a (.staticField n) b ↔ b = (visitStaticField c l a n).1 := by
  unfold visitStaticField
  have hnone : (∀ i d, Scope c a i → ¬ Declares c.tree i n d) → (FollowIs c a (.staticField n) b ↔ b = {}) := by
    intro hs
    constructor
    · intro h
      cases h with
      | «scoped» h h' _ => exact absurd h' (hs _ _ h)
      | noScoped _ => rfl
    · rintro rfl; exact .noScoped hs
  cases hs : scopeType c l a n with
  | inr evs => exact hnone fun i d h => absurd h ((scope_none c l a n).1 ⟨_, hs⟩ i)
  | inl i =>
    have hS := (scope_iff c l a n i).1 hs
    have huniq : ∀ {j}, Scope c a j → i = j := by
      intro j hj
      rw [(scope_iff c l a n j).2 hj] at hs; cases hs; rfl
    simp only []
    cases hd : c.tree.varDecl i n with
    | none =>
      refine hnone fun j d h => ?_
      cases huniq h
      exact (varDecl_none _ _).1 hd d
    | some d =>
      have hD := (varDecl_iff _ _ _).1 hd
      simp only []
      constructor
      · intro h
        cases h with
        | «scoped» h h' hp =>
          cases huniq h
          rw [(varDecl_iff _ _ _).2 h'] at hd; cases hd
          rw [(typed_iff c l _ _).1 ⟨_, hp, rfl⟩]
        | noScoped h => exact absurd hD (h _ _ hS)
      · rintro rfl
        obtain ⟨s, hs⟩ := typed_form c l d.path
        obtain ⟨r, hr, rfl⟩ := (typed_iff c l _ _).2 hs
        rw [hs]
        exact .scoped hS hD hr

theorem procRef_iff (c : Ctx) (l : Loc) (a : An) (n : Ident) (b : An) :
    FollowIs c a (.procRef n) b ↔ b = (visitProcRef c l a n).1 := by
  unfold visitProcRef
  have hnone : (∀ i p, Scope c a i → ¬ Defines c.tree i n p) → (FollowIs c a (.procRef n) b ↔ b = {}) := by
    intro hs
    constructor
    · intro h
      cases h with
      | procRef h h' => exact absurd h' (hs _ _ h)
      | noProcRef _ => rfl
    · rintro rfl; exact .noProcRef hs
  cases hs : scopeType c l a n with
  | inr evs => exact hnone fun i d h => absurd h ((scope_none c l a n).1 ⟨_, hs⟩ i)
  | inl i =>
    have hS := (scope_iff c l a n i).1 hs
    have huniq : ∀ {j}, Scope c a j → i = j := by
      intro j hj
      rw [(scope_iff c l a n j).2 hj] at hs; cases hs; rfl
    simp only []
    cases hd : c.tree.getProc i n with
    | none =>
      refine hnone fun j d h => ?_
      cases huniq h
      exact (getProc_none _ _).1 hd d
    | some d =>
      have hD := (getProc_iff _ _ _).1 hd
      simp only []
      constructor
      · intro h
        cases h with
        | procRef h h' =>
          cases huniq h
          rw [(getProc_iff _ _ _).2 h'] at hd; cases hd; rfl
        | noProcRef h => exact absurd hD (h _ _ hS)
      · rintro rfl
        exact .procRef hS hD

theorem index_iff (c : Ctx) (l : Loc) (a : An) (e : Expr) (b : An) :
    FollowIs c a (.index e) b ↔ b = (visitIndex c l a).1 := by
  unfold visitIndex
  cases hs : a.st with
  | list k =>
    simp only []
    constructor
    · intro h
      cases h with
      | elem h => rw [hs] at h; cases h; rfl
      | index h => exact absurd hs (h _)
    · rintro rfl; exact .elem hs
  | _ =>
    simp only []
    constructor
    · intro h
      cases h with
      | elem h => rw [hs] at h; cases h
      | index h => rfl
    · rintro rfl; exact .index (by rw [hs]; nofun)

theorem callTerm_iff (c : Ctx) (l : Loc) (h : Option Nat) (n : Ident) {args : Exprs}
    (hargs : ∀ vs, ArgsAre c args vs ↔ vs = (visitArgs c l args).map Prod.fst) (a : An) :
    TermIs c h (.call n args) a ↔ a = (visitTerm c l h (.call n args)).1 := by
  rw [visitTerm]
  simp only []
  cases hp : c.tree.getProc c.ty n with
  | some p =>
    have hP := (getProc_iff _ _ _).1 hp
    simp only []
    rw [← call_iff c l c.ty p false true hargs a]
    constructor
    · intro ht
      cases ht with
      | call h hv hg => rw [(getProc_iff _ _ _).2 h] at hp; cases hp; exact ⟨_, _, hv, hg, rfl⟩
      | ownName h _ _ => exact absurd hP (h _)
      | noProc h _ => exact absurd hP (h _)
      | «opaque» h => cases h
    · rintro ⟨vs, s, hv, hg, rfl⟩; exact .call hP hv hg
  | none =>
    have hP := (getProc_none _ _).1 hp
    simp only []
    by_cases hn : n = "__PROC__"
    · subst hn
      simp only [beq_self_eq_true, if_true]
      rw [← call_iff c l c.ty c.proc false true hargs a]
      constructor
      · intro ht
        cases ht with
        | call h hv hg => exact absurd h (hP _)
        | ownName h hv hg => exact ⟨_, _, hv, hg, rfl⟩
        | noProc _ h => exact absurd rfl h
        | «opaque» h => cases h
      · rintro ⟨vs, s, hv, hg, rfl⟩; exact .ownName hP hv hg
    · have hn' : (n == "__PROC__") = false := by simpa using hn
      simp only [hn', Bool.false_eq_true, if_false]
      have : TermIs c h (.call n args) a ↔ a = {} := by
        constructor
        · intro ht
          cases ht with
          | call h hv hg => exact absurd h (hP _)
          | ownName h hv hg => exact absurd rfl hn
          | noProc _ h => rfl
          | «opaque» h => cases h
        · rintro rfl; exact .noProc hP hn
      split
      · exact this
      · split <;> exact this

theorem parentCall_iff (c : Ctx) (l : Loc) (h : Option Nat) {args : Exprs}
    (hargs : ∀ vs, ArgsAre c args vs ↔ vs = (visitArgs c l args).map Prod.fst) (a : An) :
    TermIs c h (.parentCall args) a ↔ a = (visitTerm c l h (.parentCall args)).1 := by
  rw [visitTerm]
  cases hp : c.tree.parentProc c.proc with
  | some p =>
    have hP := (parentProc_iff _ _).1 hp
    simp only []
    rw [← call_iff c l c.ty p true true hargs a]
    constructor
    · intro ht
      cases ht with
      | parentCall h hv hg => rw [(parentProc_iff _ _).2 h] at hp; cases hp; exact ⟨_, _, hv, hg, rfl⟩
      | noParent h => exact absurd hP (h _)
      | «opaque» h => cases h
    · rintro ⟨vs, s, hv, hg, rfl⟩; exact .parentCall hP hv hg
  | none =>
    have hP := (parentProc_none _).1 hp
    simp only []
    constructor
    · intro ht
      cases ht with
      | parentCall h hv hg => exact absurd h (hP _)
      | noParent h => rfl
      | «opaque» h => cases h
    · rintro rfl; exact .noParent hP

theorem globalCall_iff (c : Ctx) (l : Loc) (h : Option Nat) (n : Ident) {args : Exprs}
    (hargs : ∀ vs, ArgsAre c args vs ↔ vs = (visitArgs c l args).map Prod.fst) (a : An) :
    TermIs c h (.globalCall n args) a ↔ a = (visitTerm c l h (.globalCall n args)).1 := by
  rw [visitTerm]
  cases hp : c.tree.getProc 0 n with
  | some p =>
    have hP := (getProc_iff _ _ _).1 hp
    simp only []
    rw [← call_iff c l 0 p true false hargs a]
    constructor
    · intro ht
      cases ht with
      | globalCall h hv hg => rw [(getProc_iff _ _ _).2 h] at hp; cases hp; exact ⟨_, _, hv, hg, rfl⟩
      | noGlobalProc h => exact absurd hP (h _)
      | «opaque» h => cases h
    · rintro ⟨vs, s, hv, hg, rfl⟩; exact .globalCall hP hv hg
  | none =>
    have hP := (getProc_none _ _).1 hp
    simp only []
    constructor
    · intro ht
      cases ht with
      | globalCall h hv hg => exact absurd h (hP _)
      | noGlobalProc h => rfl
      | «opaque» h => cases h
    · rintro rfl; exact .noGlobalProc hP

theorem visitNew_fst (c : Ctx) (l : Loc) (i : Nat) (es : List Expr) (vs : List (An × List Ev)) :
    (visitNew c l i es vs).1 = {} := by
  unfold visitNew
  split
  · rfl
  · split <;> rfl

theorem listOp_iff (op : BinaryOp) (c : Ctx) (a : An) :
    (ListOp op → visitBinary c a op = if a.st.isList c.tree then .ofType a.st else .empty) ∧
    (¬ ListOp op → visitBinary c a op = .empty) := by
  unfold ListOp
  cases op <;> simp [visitBinary]

theorem visitExpr_base (c : Ctx) (l tl : Loc) (h : Option Nat) (t : Term) (fs : Follows) :
    visitExpr c l h (.base tl t fs) = ((visitFollows c (visitTerm c tl (termHint h fs) t).1 fs).1,
      (visitTerm c tl (termHint h fs) t).2 ++ (visitFollows c (visitTerm c tl (termHint h fs) t).1 fs).2) := by
  rw [visitExpr.eq_def]
  cases fs <;> rfl

theorem argsAre_plain (c : Ctx) (l : Loc) {e : Expr} {es : Exprs} (hk : e.kwarg = none)
    (he : ∀ a, ExprIs c none e a ↔ a = (visitExpr c l none e).1)
    (hes : ∀ vs, ArgsAre c es vs ↔ vs = (visitArgs c l es).map Prod.fst) (vs : List An) :
    ArgsAre c (.cons e es) vs ↔ vs = (visitArgs c l (.cons e es)).map Prod.fst := by
  have hv : ArgValue e e := .plain hk
  rw [visitArgs_cons, List.map_cons, visitArg_eq c l hv]
  constructor
  · intro h
    cases h with
    | cons hv' h1 h2 =>
      cases argValue_unique hv hv'
      rw [(he _).1 h1, (hes _).1 h2]
  · rintro rfl
    exact .cons hv ((he _).2 rfl) ((hes _).2 rfl)

mutual

/-- **The static type and constant value of an expression are what the rules say.** -/
theorem exprIs_iff (c : Ctx) : ∀ (e : Expr) (l : Loc) (h : Option Nat) (a : An),
    ExprIs c h e a ↔ a = (visitExpr c l h e).1
  | .base tl t .nil => by
    intro l h a
    rw [visitExpr_base, visitFollows, ← termIs_iff c t tl (termHint h .nil) a]
    constructor
    · intro he; cases he with | term h => exact h
    · exact .term
  | .base tl t (.cons l' f fs) => by
    intro l h a
    rw [visitExpr_base]
    simp only []
    rw [← followsIs_iff c (.cons l' f fs)]
    constructor
    · intro he
      cases he with
      | follows h1 h2 => rw [(termIs_iff c t tl _ _).1 h1] at h2; exact h2
    · intro h2; exact .follows ((termIs_iff c t tl _ _).2 rfl) h2
  | .binary op x y => by
    intro l h a
    rw [visitExpr]
    simp only []
    by_cases hop : ListOp op
    · have hor : (op == .or) = false := by unfold ListOp at hop; rcases hop with rfl | rfl | rfl | rfl | rfl <;> rfl
      rw [(listOp_iff op c _).1 hop, hor]
      simp only [Bool.false_eq_true, if_false]
      have ih := exprIs_iff c x l none
      constructor
      · intro he
        cases he with
        | listOp _ h1 h2 => rw [(ih _).1 h1] at h2 ⊢; rw [if_pos ((isList_iff _).2 h2)]; rfl
        | notList _ h1 h2 =>
          rw [(ih _).1 h1] at h2; rw [if_neg (fun h => h2 ((isList_iff _).1 h))]; rfl
        | binary h => exact absurd hop h
      · intro ha
        split at ha
        · rw [ha]; exact .listOp hop ((ih _).2 rfl) ((isList_iff _).1 ‹_›)
        · rw [ha]; exact .notList hop ((ih _).2 rfl) (fun h => ‹¬ _› ((isList_iff _).2 h))
    · rw [(listOp_iff op c _).2 hop]
      constructor
      · intro he
        cases he with
        | listOp h _ _ => exact absurd h hop
        | notList h _ _ => exact absurd h hop
        | binary h => rfl
      · rintro rfl; exact .binary hop
  | .assign op x y => by
    intro l h a
    rw [visitExpr]
    simp only []
    constructor
    · intro he
      cases he with
      | assign h1 h2 h3 =>
        rw [(hintOf_iff _ _).1 h2, (exprIs_iff c x l none _).1 h1] at h3
        exact (exprIs_iff c y l _ _).1 h3
    · rintro rfl
      exact .assign ((exprIs_iff c x l none _).2 rfl) ((hintOf_iff _ _).2 rfl) ((exprIs_iff c y l _ _).2 rfl)
  | .ternary k x y => by
    intro l h a
    rw [visitExpr]
    simp only []
    rw [← exprIs_iff c x l h]
    constructor
    · intro he; cases he with | ternary h => exact h
    · exact .ternary

theorem termIs_iff (c : Ctx) : ∀ (t : Term) (l : Loc) (h : Option Nat) (a : An),
    TermIs c h t a ↔ a = (visitTerm c l h t).1
  | .null => by
    intro l h a; rw [visitTerm]
    exact ⟨fun ht => (by cases ht with | null => rfl | «opaque» h => cases h), fun h => by rw [h]; exact .null⟩
  | .int n => by
    intro l h a; rw [visitTerm]
    exact ⟨fun ht => (by cases ht with | int => rfl | «opaque» h => cases h), fun h => by rw [h]; exact .int⟩
  | .float => by
    intro l h a; rw [visitTerm]
    exact ⟨fun ht => (by cases ht with | float => rfl | «opaque» h => cases h), fun h => by rw [h]; exact .float⟩
  | .string s => by
    intro l h a; rw [visitTerm]
    exact ⟨fun ht => (by cases ht with | string => rfl | «opaque» h => cases h), fun h => by rw [h]; exact .string⟩
  | .resource => by
    intro l h a; rw [visitTerm]
    exact ⟨fun ht => (by cases ht with | resource => rfl | «opaque» h => cases h), fun h => by rw [h]; exact .resource⟩
  | .as => by
    intro l h a; rw [visitTerm]
    exact ⟨fun ht => (by cases ht with | «opaque» h => rfl), fun h => by rw [h]; exact .opaque .as⟩
  | .ident n => by
    intro l h a; rw [visitTerm]; exact ident_iff c l h n a
  | .globalIdent n => by
    intro l h a; rw [visitTerm]; exact globalIdent_iff c l h n a
  | .expr e => by
    intro l h a; rw [visitTerm, ← exprIs_iff c e l h a]
    exact ⟨fun ht => (by cases ht with | paren h => exact h | «opaque» h => cases h), .paren⟩
  | .prefab path => by
    intro l h a; rw [visitTerm]
    cases hn : c.tree.nav c.ty path with
    | some i =>
      simp only []
      constructor
      · intro ht
        cases ht with
        | prefab h => rw [hn] at h; cases h; rfl
        | badPrefab h => rw [hn] at h; cases h
        | «opaque» h => cases h
      · rintro rfl; exact .prefab hn
    | none =>
      simp only []
      constructor
      · intro ht
        cases ht with
        | prefab h => rw [hn] at h; cases h
        | badPrefab h => rfl
        | «opaque» h => rfl
      · rintro rfl; exact .badPrefab hn
  | .interp es => by
    intro l h a; rw [visitTerm]
    exact ⟨fun ht => (by cases ht with | «opaque» h => rfl), fun h => by rw [h]; exact .opaque (.interp es)⟩
  | .call n args => by
    intro l h a; exact callTerm_iff c l h n (argsAre_iff c args l) a
  | .selfCall args => by
    intro l h a; rw [visitTerm, ← call_iff c l c.ty c.proc true true (argsAre_iff c args l) a]
    constructor
    · intro ht
      cases ht with
      | selfCall hv hg => exact ⟨_, _, hv, hg, rfl⟩
      | «opaque» h => cases h
    · rintro ⟨vs, s, hv, hg, rfl⟩; exact .selfCall hv hg
  | .parentCall args => by
    intro l h a; exact parentCall_iff c l h (argsAre_iff c args l) a
  | .globalCall n args => by
    intro l h a; exact globalCall_iff c l h n (argsAre_iff c args l) a
  | .newImplicit args => by
    intro l h a
    have : (visitTerm c l h (.newImplicit args)).1 = {} := by
      rw [visitTerm.eq_def]
      cases h with
      | none => rfl
      | some i => exact visitNew_fst c l i _ _
    rw [this]
    exact ⟨fun ht => (by cases ht with | «opaque» h => rfl), fun h => by rw [h]; exact .opaque (.newImplicit args)⟩
  | .newPrefab path args => by
    intro l h a
    have : (visitTerm c l h (.newPrefab path args)).1 = {} := by
      rw [visitTerm]
      split
      · exact visitNew_fst c l _ _ _
      · rfl
    rw [this]
    exact ⟨fun ht => (by cases ht with | «opaque» h => rfl), fun h => by rw [h]; exact .opaque (.newPrefab path args)⟩
  | .newMini => by
    intro l h a; rw [visitTerm]
    exact ⟨fun ht => (by cases ht with | «opaque» h => rfl), fun h => by rw [h]; exact .opaque .newMini⟩
  | .list args => by
    intro l h a; rw [visitTerm]
    exact ⟨fun ht => (by cases ht with | list => rfl | «opaque» h => cases h), fun h => by rw [h]; exact .list⟩
  | .input es fs => by
    intro l h a; rw [visitTerm]
    exact ⟨fun ht => (by cases ht with | «opaque» h => rfl), fun h => by rw [h]; exact .opaque (.input es fs)⟩
  | .locate es fs => by
    intro l h a; rw [visitTerm]
    exact ⟨fun ht => (by cases ht with | «opaque» h => rfl), fun h => by rw [h]; exact .opaque (.locate es fs)⟩
  | .pick es => by
    intro l h a; rw [visitTerm]
    exact ⟨fun ht => (by cases ht with | «opaque» h => rfl), fun h => by rw [h]; exact .opaque (.pick es)⟩
  | .dynCall es fs => by
    intro l h a; rw [visitTerm]
    exact ⟨fun ht => (by cases ht with | «opaque» h => rfl), fun h => by rw [h]; exact .opaque (.dynCall es fs)⟩
  | .extCall es f fs => by
    intro l h a; rw [visitTerm]
    exact ⟨fun ht => (by cases ht with | «opaque» h => rfl), fun h => by rw [h]; exact .opaque (.extCall es f fs)⟩
  | .typeMacro => by
    intro l h a; rw [visitTerm]
    exact ⟨fun ht => (by cases ht with | typeMacro => rfl | «opaque» h => cases h), fun h => by rw [h]; exact .typeMacro⟩
  | .procMacro => by
    intro l h a; rw [visitTerm]
    exact ⟨fun ht => (by cases ht with | «opaque» h => rfl), fun h => by rw [h]; exact .opaque .procMacro⟩
  | .impliedType => by
    intro l h a; rw [visitTerm.eq_def]
    cases h with
    | none =>
      exact ⟨fun ht => (by cases ht with | impliedNone => rfl | «opaque» h => rfl), fun h => by rw [h]; exact .impliedNone⟩
    | some i =>
      exact ⟨fun ht => (by cases ht with | implied => rfl | «opaque» h => cases h), fun h => by rw [h]; exact .implied⟩

theorem followIs_iff (c : Ctx) : ∀ (f : Follow) (l : Loc) (a b : An),
    FollowIs c a f b ↔ b = (visitFollow c l a f).1
  | .unary op => fun l a b => unary_iff c l a op b
  | .index e => fun l a b => index_iff c l a e b
  | .field k n => fun l a b => field_iff c l a k n b
  | .call k n args => fun l a b => method_iff c l a k n (argsAre_iff c args l) b
  | .staticField n => fun l a b => staticField_iff c l a n b
  | .procRef n => fun l a b => procRef_iff c l a n b

theorem followsIs_iff (c : Ctx) : ∀ (fs : Follows) (a b : An), FollowsIs c a fs b ↔ b = (visitFollows c a fs).1
  | .nil => by
    intro a b; rw [visitFollows]
    exact ⟨fun h => by cases h; rfl, fun h => by rw [h]; exact .nil⟩
  | .cons l f fs => by
    intro a b
    rw [visitFollows_cons]
    simp only []
    rw [← followsIs_iff c fs]
    constructor
    · intro h
      cases h with
      | cons h1 h2 => rw [(followIs_iff c f l _ _).1 h1] at h2; exact h2
    · intro h; exact .cons ((followIs_iff c f l _ _).2 rfl) h

theorem argsAre_iff (c : Ctx) : ∀ (es : Exprs) (l : Loc) (vs : List An),
    ArgsAre c es vs ↔ vs = (visitArgs c l es).map Prod.fst
  | .nil => by
    intro l vs; rw [visitArgs]
    exact ⟨fun h => by cases h; rfl, fun h => by rw [h]; exact .nil⟩
  | .cons (.assign op x y) es => by
    intro l vs
    rw [visitArgs_cons, List.map_cons]
    have ih := exprIs_iff c (.assign op x y) l none
    have ihy := exprIs_iff c y l none
    have ihs := argsAre_iff c es l
    have key : ∀ v, ArgValue (.assign op x y) v → ∀ a, ExprIs c none v a ↔ a = (visitExpr c l none v).1 := by
      intro v hv
      cases hv with
      | plain _ => exact ih
      | keyword _ => exact ihy
    constructor
    · intro h
      cases h with
      | cons hv h1 h2 => rw [visitArg_eq c l hv, (key _ hv _).1 h1, (ihs _).1 h2]
    · rintro rfl
      obtain ⟨v, hv⟩ := argValue_exists (.assign op x y)
      rw [visitArg_eq c l hv]
      exact .cons hv ((key _ hv _).2 rfl) ((ihs _).2 rfl)
  | .cons (.base tl t fs) es => by
    intro l vs
    exact argsAre_plain c l rfl (exprIs_iff c (.base tl t fs) l none) (argsAre_iff c es l) vs
  | .cons (.binary op x y) es => by
    intro l vs
    exact argsAre_plain c l rfl (exprIs_iff c (.binary op x y) l none) (argsAre_iff c es l) vs
  | .cons (.ternary k x y) es => by
    intro l vs
    exact argsAre_plain c l rfl (exprIs_iff c (.ternary k x y) l none) (argsAre_iff c es l) vs

end

end Verif.Typing
