import Mathlib.Data.List.Induction
import Verif.Refs.Uses

/-!
# C85: "Find References" lists exactly the places where a symbol is named
-/

namespace Verif.Refs

open Verif.Typing (Ident Loc PathOp Tree VarDecl Proc modifiers Defines ParentOf)

/-! ### The table -/

theorem use_append (t : Tab) (us vs : List Use) : t.use (us ++ vs) = (t.use us).use vs := by
  unfold Tab.use; rw [List.foldl_append]

theorem use_refs (us : List Use) : ∀ (t : Tab) (y : Sym) (l : Loc), l ∈ (t.use us).refs y ↔ l ∈ t.refs y ∨ (y, l) ∈ us := by
  induction us with
  | nil => intro t y l; simp [Tab.use]
  | cons u us ih =>
    intro t y l
    rw [show u :: us = [u] ++ us from rfl, use_append, ih]
    obtain ⟨x, k⟩ := u
    simp only [Tab.use, List.foldl_cons, List.foldl_nil, List.cons_append, List.nil_append, List.mem_cons, Prod.mk.injEq]
    by_cases h : y = x
    · subst h
      simp only [if_true, List.mem_append, List.mem_singleton, true_and, or_assoc]
    · rw [if_neg h]
      simp only [h, false_and, false_or]

theorem use_next (us : List Use) : ∀ t : Tab, (t.use us).next = t.next := by
  induction us with
  | nil => intro t; rfl
  | cons u us ih => intro t; rw [show u :: us = [u] ++ us from rfl, use_append, ih]; rfl

theorem use_impls (us : List Use) : ∀ t : Tab, (t.use us).impls = t.impls := by
  induction us with
  | nil => intro t; rfl
  | cons u us ih => intro t; rw [show u :: us = [u] ++ us from rfl, use_append, ih]; rfl

/-! ### A proc body is walked item by item -/

/-- The effect of one item. -/
def step (c : Ctx) (s : St) : Item → St
  | .type l path => { s with tab := s.tab.use (useType c.tree l (staticType c.tree path)) }
  | .expr l hint e => s.expr c l ((staticType c.tree hint).basic c.tree) e
  | .decl l path n => { env := bind s.env n ⟨staticType c.tree path, .local s.tab.next⟩, tab := s.tab.new l }
  | .ret l => match s.env "." with
    | some v => { s with tab := s.tab.use [(v.sym, l)] }
    | none => s

theorem opt_items (c : Ctx) (s : St) (l : Loc) (path : List Ident) (e : Option Expr) :
    s.opt c l ((staticType c.tree path).basic c.tree) e = (optItem l path e).foldl (step c) s := by
  cases e <;> rfl

theorem opt_items_nil (c : Ctx) (s : St) (l : Loc) (e : Option Expr) :
    s.opt c l none e = (optItem l [] e).foldl (step c) s := opt_items c s l [] e

theorem var_items (c : Ctx) (s : St) (l : Loc) (path : List Ident) (n : Ident) (e : Option Expr) :
    s.var c l path n e = (varItems l path n e).foldl (step c) s := by
  unfold varItems
  rw [List.cons_append, List.foldl_cons, List.foldl_append, ← opt_items]
  rfl

theorem param_items (c : Ctx) (s : St) (p : Param) : s.param c p = (paramItems p).foldl (step c) s := by
  unfold paramItems
  rw [List.cons_append, List.foldl_cons, List.foldl_append, ← opt_items_nil]
  rfl

theorem loop_items (c : Ctx) (s : St) (l : Loc) (n : Ident) (e : Option Expr) (ty : Option (List Ident)) :
    s.optVar c l n e ty = (loopItems l n e ty).foldl (step c) s := by
  cases ty with
  | none => rfl
  | some path => exact var_items c s l path n e

theorem catch_items (c : Ctx) (s : St) (l : Loc) (p : List Ident) : s.catch c l p = (catchItems l p).foldl (step c) s := by
  unfold St.catch catchItems
  cases p.getLast? with
  | none => rfl
  | some n =>
    simp only []
    rw [var_items]
    congr 2
    split
    · rename_i h; rw [h]; rfl
    · rename_i h
      rw [if_neg]
      intro hh
      cases hd : p.dropLast with
      | nil => rw [hd] at hh; cases hh
      | cons x xs => rw [hd] at hh; cases hh; exact h _ hd

theorem case_items (c : Ctx) (s : St) (l : Loc) (k : Case) : s.case c l k = (caseItems l k).foldl (step c) s := by
  cases k <;> rfl

theorem foldl_flatMap {α β σ : Type} (f : σ → β → σ) (g : α → List β) (as : List α) :
    ∀ s : σ, (as.flatMap g).foldl f s = as.foldl (fun s a => (g a).foldl f s) s := by
  induction as with
  | nil => intro s; rfl
  | cons a as ih => intro s; rw [List.flatMap_cons, List.foldl_append, ih]; rfl

mutual

theorem stmt_items (c : Ctx) : ∀ (x : Stmt) (s : St) (l : Loc), visitStmt c s l x = (items l x).foldl (step c) s
  | .expr e, s, l => by rw [visitStmt, items]; rfl
  | .ret e, s, l => by
    rw [visitStmt, items, List.foldl_cons, ← opt_items_nil]
    rfl
  | .throw e, s, l => by rw [visitStmt, items]; rfl
  | .while k b, s, l => by rw [visitStmt, items, List.foldl_cons, block_items c b]; rfl
  | .doWhile b kl k, s, l => by rw [visitStmt, items, List.foldl_append, ← block_items c b]; rfl
  | .ifs arms, s, l => by rw [visitStmt, items, arm_items c arms]
  | .forever b, s, l => by rw [visitStmt, items, block_items c b]
  | .for init test inc b, s, l => by
    rw [visitStmt, items, List.foldl_append, List.foldl_append, List.foldl_append, block_items c b, head_items c inc,
      head_items c init, opt_items_nil]
  | .forIn ty n list b, s, l => by
    rw [visitStmt, items, List.foldl_append, List.foldl_append, block_items c b, loop_items, opt_items_nil]
  | .forTo ty n start stop st b, s, l => by
    rw [visitStmt, items, List.foldl_append, List.foldl_append, List.foldl_cons, block_items c b, loop_items, opt_items_nil]
    rfl
  | .forPairs ty k v list b, s, l => by
    rw [visitStmt, items, List.foldl_append, List.foldl_append, List.foldl_append, block_items c b, var_items, loop_items,
      opt_items_nil]
  | .vars ds, s, l => by
    rw [visitStmt, items, foldl_flatMap]
    congr 1
    funext s d
    rw [var_items]
  | .setting _ _, s, l => by rw [visitStmt, items]; rfl
  | .spawn delay b, s, l => by rw [visitStmt, items, List.foldl_append, block_items c b, opt_items_nil]
  | .switch input cases, s, l => by rw [visitStmt, items, List.foldl_cons, switch_items c cases]; rfl
  | .tryCatch b params handler, s, l => by
    rw [visitStmt, items, List.foldl_append, List.foldl_append, foldl_flatMap, block_items c handler, block_items c b]
    congr 2
    funext s p
    rw [catch_items]
  | .cont, s, l => by rw [visitStmt, items]; rfl
  | .brk, s, l => by rw [visitStmt, items]; rfl
  | .goto _, s, l => by rw [visitStmt, items]; rfl
  | .crash _, s, l => by rw [visitStmt, items]; rfl
  | .label _ b, s, l => by rw [visitStmt, items, block_items c b]
  | .del e, s, l => by rw [visitStmt, items]; rfl

theorem block_items (c : Ctx) : ∀ (b : Block) (s : St), visitBlock c s b = (blockItems b).foldl (step c) s
  | .nil, s => by rw [visitBlock, blockItems]; rfl
  | .cons l x b, s => by rw [visitBlock, blockItems, List.foldl_append, stmt_items c x, block_items c b]

theorem head_items (c : Ctx) : ∀ (h : Head) (s : St) (l : Loc), visitHead c s l h = (headItems l h).foldl (step c) s
  | .none, s, l => by rw [visitHead, headItems]; rfl
  | .some x, s, l => by rw [visitHead, headItems, stmt_items c x]

theorem arm_items (c : Ctx) : ∀ (a : Arms) (s : St), visitArms c s a = (armItems a).foldl (step c) s
  | .noElse, s => by rw [visitArms, armItems]; rfl
  | .els b, s => by rw [visitArms, armItems, block_items c b]
  | .cons l k b rest, s => by
    rw [visitArms, armItems, List.cons_append, List.foldl_cons, List.foldl_append, arm_items c rest, block_items c b]; rfl

theorem switch_items (c : Ctx) : ∀ (a : Cases) (s : St), visitCases c s a = (switchItems a).foldl (step c) s
  | .noDefault, s => by rw [visitCases, switchItems]; rfl
  | .dflt b, s => by rw [visitCases, switchItems, block_items c b]
  | .cons l ks b rest, s => by
    rw [visitCases, switchItems, List.foldl_append, List.foldl_append, foldl_flatMap, switch_items c rest, block_items c b]
    congr 3
    funext s k
    rw [case_items]

end

theorem walk_items (P : Prog) (t : Tab) (p : Proc) (d : Def) (b : Block) :
    P.walk t p d b = (bodyItems d b).foldl (step (P.procCtx p)) (P.start t p.ty d.loc) := by
  unfold Prog.walk bodyItems
  rw [block_items, List.foldl_append, foldl_flatMap]
  congr 2
  funext s q
  rw [param_items]

/-! ### Local variables along the items -/

/-- How many declarations there are. -/
def decls (its : List Item) : Nat := (its.filter Item.isDecl).length

theorem decls_append (a b : List Item) : decls (a ++ b) = decls a + decls b := by
  unfold decls; rw [List.filter_append, List.length_append]

/-- The local variable a name stands for after some items, given the ones at the start. -/
def VisibleFrom (t : Tree) (m : Nat) (env : Ident → Option Local) (pre : List Item) (n : Ident) (v : Local) : Prop :=
  (∃ p1 l path p2, pre = p1 ++ .decl l path n :: p2 ∧ (∀ x ∈ p2, ¬ x.declares n) ∧
    v = ⟨staticType t path, .local (m + decls p1)⟩) ∨
  ((∀ x ∈ pre, ¬ x.declares n) ∧ env n = some v)

theorem snoc_split {α : Type} {its : List α} {x y : α} {p1 p2 : List α} (h : its ++ [x] = p1 ++ y :: p2) :
    (p2 = [] ∧ its = p1 ∧ x = y) ∨ ∃ q, p2 = q ++ [x] ∧ its = p1 ++ y :: q := by
  rcases List.eq_nil_or_concat p2 with rfl | ⟨q, z, rfl⟩
  · obtain ⟨h1, h2⟩ := List.append_inj' h rfl
    cases h2
    exact .inl ⟨rfl, h1, rfl⟩
  · rw [List.concat_eq_append, ← List.cons_append, ← List.append_assoc] at h
    obtain ⟨h1, h2⟩ := List.append_inj' h rfl
    cases h2
    exact .inr ⟨q, by rw [List.concat_eq_append], h1⟩

theorem visibleFrom_other (t : Tree) (m : Nat) (env : Ident → Option Local) (pre : List Item) {x : Item}
    (n : Ident) (hx : ¬ x.declares n) (v : Local) :
    VisibleFrom t m env (pre ++ [x]) n v ↔ VisibleFrom t m env pre n v := by
  unfold VisibleFrom
  constructor
  · rintro (⟨p1, l, path, p2, he, hp, rfl⟩ | ⟨hp, hv⟩)
    · rcases snoc_split he with ⟨rfl, rfl, rfl⟩ | ⟨q, rfl, rfl⟩
      · exact absurd rfl hx
      · exact .inl ⟨p1, l, path, q, rfl, fun y hy => hp y (List.mem_append_left _ hy), rfl⟩
    · exact .inr ⟨fun y hy => hp y (List.mem_append_left _ hy), hv⟩
  · rintro (⟨p1, l, path, p2, rfl, hp, rfl⟩ | ⟨hp, hv⟩)
    · refine .inl ⟨p1, l, path, p2 ++ [x], by simp, ?_, rfl⟩
      intro y hy
      rcases List.mem_append.1 hy with hy | hy
      · exact hp y hy
      · rw [List.mem_singleton.1 hy]; exact hx
    · refine .inr ⟨?_, hv⟩
      intro y hy
      rcases List.mem_append.1 hy with hy | hy
      · exact hp y hy
      · rw [List.mem_singleton.1 hy]; exact hx

theorem visibleFrom_decl (t : Tree) (m : Nat) (env : Ident → Option Local) (pre : List Item) (l : Loc)
    (path : List Ident) (n : Ident) (v : Local) :
    VisibleFrom t m env (pre ++ [.decl l path n]) n v ↔ v = ⟨staticType t path, .local (m + decls pre)⟩ := by
  unfold VisibleFrom
  constructor
  · rintro (⟨p1, l', path', p2, he, hp, rfl⟩ | ⟨hp, hv⟩)
    · rcases snoc_split he with ⟨rfl, rfl, h⟩ | ⟨q, rfl, rfl⟩
      · cases h; rfl
      · exact absurd rfl (hp _ (List.mem_append_right _ (List.mem_singleton.2 rfl)))
    · exact absurd rfl (hp _ (List.mem_append_right _ (List.mem_singleton.2 rfl)))
  · rintro rfl
    exact .inl ⟨pre, l, path, [], rfl, nofun, rfl⟩

theorem step_env_other (c : Ctx) (s : St) {x : Item} (hx : x.isDecl = false) : (step c s x).env = s.env := by
  cases x with
  | type l path => rfl
  | expr l hint e => rfl
  | decl l path n => cases hx
  | ret l => unfold step; simp only []; split <;> rfl

theorem step_next_other (c : Ctx) (s : St) {x : Item} (hx : x.isDecl = false) : (step c s x).tab.next = s.tab.next := by
  cases x with
  | type l path => exact use_next _ _
  | expr l hint e => exact use_next _ _
  | decl l path n => cases hx
  | ret l => unfold step; simp only []; split; exact use_next _ _; rfl

theorem not_declares {x : Item} (hx : x.isDecl = false) (n : Ident) : ¬ x.declares n := by
  cases x with
  | decl l path m => cases hx
  | type l path => exact id
  | expr l hint e => exact id
  | ret l => exact id

theorem steps_next (c : Ctx) (s0 : St) (its : List Item) :
    (its.foldl (step c) s0).tab.next = s0.tab.next + decls its := by
  induction its using List.reverseRecOn with
  | nil => rfl
  | append_singleton its x ih =>
    rw [List.foldl_append, decls_append, List.foldl_cons, List.foldl_nil]
    cases hx : x.isDecl with
    | false => rw [step_next_other c _ hx, ih]; simp [decls, hx]
    | true =>
      cases x with
      | decl l path n =>
        show (its.foldl (step c) s0).tab.next + 1 = _
        rw [ih]; rfl
      | type l path => cases hx
      | expr l hint e => cases hx
      | ret l => cases hx

theorem steps_env (c : Ctx) (s0 : St) (its : List Item) (n : Ident) (v : Local) :
    (its.foldl (step c) s0).env n = some v ↔ VisibleFrom c.tree s0.tab.next s0.env its n v := by
  induction its using List.reverseRecOn with
  | nil =>
    unfold VisibleFrom
    constructor
    · intro h; exact .inr ⟨nofun, h⟩
    · rintro (⟨p1, l, path, p2, h, _⟩ | ⟨_, h⟩)
      · cases p1 <;> cases h
      · exact h
  | append_singleton its x ih =>
    rw [List.foldl_append, List.foldl_cons, List.foldl_nil]
    cases hx : x.isDecl with
    | false => rw [step_env_other c _ hx, ih, visibleFrom_other _ _ _ _ n (not_declares hx n)]
    | true =>
      cases x with
      | decl l path m =>
        show bind (its.foldl (step c) s0).env m _ n = some v ↔ _
        unfold bind
        by_cases hn : n = m
        · subst hn
          rw [if_pos rfl, visibleFrom_decl, steps_next, Option.some.injEq]
          exact eq_comm
        · rw [if_neg hn, ih, visibleFrom_other (x := .decl l path m) _ _ _ _ n (fun h : m = n => hn h.symm)]
      | type l path => cases hx
      | expr l hint e => cases hx
      | ret l => cases hx

/-! ### Uses of local symbols come from the local variables -/

/-- The symbols of local variables are among those numbered below `m`. -/
def Below (m : Nat) (env : Ident → Option Local) : Prop := ∀ n v k, env n = some v → v.sym = .local k → k < m

theorem named_local {c : Ctx} {h : Option Nat} {e : Expr} {k : Nat} {l : Loc} (hn : NamedIn c h e (.local k) l) :
    ∃ n v, c.locals n = some v ∧ v.sym = .local k := by
  have name : ∀ {n : Ident}, NameSym c n (.local k) → ∃ n v, c.locals n = some v ∧ v.sym = .local k := by
    intro n hs
    generalize hy : Sym.local k = y at hs
    cases hs with
    | «local» hv => exact ⟨n, _, hv, rfl⟩
    | var _ _ => cases hy
  have fields : ∀ (ns : List Ident) (s : STy), ¬ FieldSyms c s ns (.local k) := by
    intro ns
    induction ns with
    | nil => intro s h; cases h
    | cons m ns ih =>
      intro s h
      cases h with
      | tail _ h => exact ih _ h
  obtain ⟨x, _, hx, _⟩ := hn
  generalize hy : Sym.local k = y at hx
  cases hx with
  | name hs => subst hy; exact name hs
  | mini hs => subst hy; exact name hs
  | prefab hp => cases hp <;> cases hy
  | newPrefab hp => cases hp <;> cases hy
  | miniField _ hf => subst hy; exact absurd hf (fields _ _)
  | _ => cases hy

theorem itemNames_local {c : Ctx} {env : Ident → Option Local} {x : Item} {k : Nat} {l : Loc}
    (h : ItemNames c env x (.local k) l) : ∃ n v, env n = some v ∧ v.sym = .local k := by
  generalize hy : Sym.local k = y at h
  cases h with
  | type _ _ => cases hy
  | expr _ _ hn => subst hy; exact named_local hn
  | ret hv => exact ⟨_, _, hv, rfl⟩

theorem step_uses (c : Ctx) (s : St) (x : Item) (hx : x.isDecl = false) (y : Sym) (l : Loc) :
    l ∈ (step c s x).tab.refs y ↔ l ∈ s.tab.refs y ∨ ItemNames c s.env x y l := by
  cases x with
  | type k path =>
    show l ∈ (s.tab.use _).refs y ↔ _
    rw [use_refs, useType_iff]
    refine or_congr Iff.rfl ⟨?_, ?_⟩
    · rintro ⟨i, hm, h⟩
      cases h
      exact .type ((staticType_iff ..).2 rfl) hm
    · intro h
      cases h with
      | type hp hm =>
        rw [(staticType_iff ..).1 hp] at hm
        exact ⟨_, hm, rfl⟩
  | expr k hint e =>
    show l ∈ (s.tab.use _).refs y ↔ _
    rw [use_refs, visitExpr_uses]
    refine or_congr Iff.rfl ⟨?_, ?_⟩
    · intro h
      exact .expr ((staticType_iff ..).2 rfl) ((hintOf_iff ..).2 rfl) h
    · intro h
      cases h with
      | expr hp hh hn =>
        rw [(staticType_iff ..).1 hp, hintOf_iff] at hh
        subst hh
        exact hn
  | decl k path n => cases hx
  | ret k =>
    unfold step
    simp only []
    cases hd : s.env "." with
    | none =>
      simp only []
      constructor
      · exact .inl
      · rintro (h | h)
        · exact h
        · cases h with | ret h => rw [hd] at h; cases h
    | some v =>
      simp only []
      rw [use_refs, List.mem_singleton]
      refine or_congr Iff.rfl ⟨?_, ?_⟩
      · intro h; cases h; exact .ret hd
      · intro h
        cases h with | ret h => rw [hd] at h; cases h; rfl

/-- What the items add to the table. -/
def Added (c : Ctx) (s0 : St) (its : List Item) (y : Sym) (l : Loc) : Prop :=
  ∃ pre x post, its = pre ++ x :: post ∧
    ((∃ path n, x = .decl l path n ∧ y = .local (s0.tab.next + decls pre)) ∨
      ItemNames c (pre.foldl (step c) s0).env x y l)

theorem added_snoc (c : Ctx) (s0 : St) (its : List Item) (x : Item) (y : Sym) (l : Loc) :
    Added c s0 (its ++ [x]) y l ↔ Added c s0 its y l ∨
      ((∃ path n, x = .decl l path n ∧ y = .local (s0.tab.next + decls its)) ∨
        ItemNames c (its.foldl (step c) s0).env x y l) := by
  unfold Added
  constructor
  · rintro ⟨pre, z, post, he, h⟩
    rcases snoc_split he with ⟨rfl, rfl, rfl⟩ | ⟨q, rfl, rfl⟩
    · exact .inr h
    · exact .inl ⟨pre, z, q, rfl, h⟩
  · rintro (⟨pre, z, post, rfl, h⟩ | h)
    · exact ⟨pre, z, post ++ [x], by simp, h⟩
    · exact ⟨its, x, [], rfl, h⟩

/-- Nothing is known yet about the symbols from number `next` on. -/
def Fresh (t : Tab) : Prop := ∀ k, t.next ≤ k → t.refs (.local k) = [] ∧ t.impls (.local k) = []

theorem steps_below (c : Ctx) (s0 : St) (hb : Below s0.tab.next s0.env) (its : List Item) :
    Below (its.foldl (step c) s0).tab.next (its.foldl (step c) s0).env := by
  intro n v k hv hk
  rw [steps_next]
  rcases (steps_env c s0 its n v).1 hv with ⟨p1, l, path, p2, rfl, _, rfl⟩ | ⟨_, h⟩
  · cases hk
    rw [decls_append]
    have : 1 ≤ decls (.decl l path n :: p2) := by unfold decls; rw [List.filter_cons_of_pos rfl]; simp
    omega
  · have := hb n v k h hk
    omega

theorem steps_refs (c : Ctx) (s0 : St) (hf : Fresh s0.tab) (hb : Below s0.tab.next s0.env) (its : List Item) :
    Fresh (its.foldl (step c) s0).tab ∧
    (∀ y l, l ∈ (its.foldl (step c) s0).tab.refs y ↔ l ∈ s0.tab.refs y ∨ Added c s0 its y l) ∧
    ∀ y, (its.foldl (step c) s0).tab.impls y = s0.tab.impls y := by
  induction its using List.reverseRecOn with
  | nil =>
    refine ⟨hf, fun y l => ?_, fun _ => rfl⟩
    constructor
    · exact .inl
    · rintro (h | ⟨pre, x, post, h, _⟩)
      · exact h
      · cases pre <;> cases h
  | append_singleton its x ih =>
    obtain ⟨ih1, ih2, ih3⟩ := ih
    have hbelow := steps_below c s0 hb its
    rw [List.foldl_append, List.foldl_cons, List.foldl_nil]
    have hsplit : ∀ y l, l ∈ (step c (its.foldl (step c) s0) x).tab.refs y ↔
        l ∈ s0.tab.refs y ∨ Added c s0 (its ++ [x]) y l := by
      intro y l
      rw [added_snoc, ← or_assoc, ← ih2]
      cases hx : x.isDecl with
      | false =>
        rw [step_uses c _ x hx]
        refine or_congr Iff.rfl ⟨.inr, ?_⟩
        rintro (⟨path, n, rfl, _⟩ | h)
        · cases hx
        · exact h
      | true =>
        cases x with
        | decl k path n =>
          show l ∈ (if y = .local (its.foldl (step c) s0).tab.next then [k] else _) ↔ _
          rw [steps_next]
          by_cases hy : y = .local (s0.tab.next + decls its)
          · rw [if_pos hy, List.mem_singleton]
            have hempty : (its.foldl (step c) s0).tab.refs y = [] := by
              rw [hy]; exact (ih1 _ (by rw [steps_next]; exact Nat.le_refl _)).1
            constructor
            · rintro rfl; exact .inr (.inl ⟨path, n, rfl, hy⟩)
            · rintro (h | ⟨_, _, h, _⟩ | h)
              · rw [hempty] at h; cases h
              · cases h; rfl
              · cases h
          · rw [if_neg hy]
            constructor
            · exact .inl
            · rintro (h | ⟨_, _, _, h⟩ | h)
              · exact h
              · exact absurd h hy
              · cases h
        | type k path => cases hx
        | expr k hint e => cases hx
        | ret k => cases hx
    refine ⟨?_, hsplit, ?_⟩
    · intro k hk
      have hk' : (its.foldl (step c) s0).tab.next ≤ k := by
        cases hx : x.isDecl with
        | false => rw [step_next_other c _ hx] at hk; exact hk
        | true =>
          cases x with
          | decl l path n => exact Nat.le_of_succ_le hk
          | type l path => cases hx
          | expr l hint e => cases hx
          | ret l => cases hx
      cases hx : x.isDecl with
      | false =>
        constructor
        · have hno : ∀ l, l ∉ (step c (its.foldl (step c) s0) x).tab.refs (.local k) := by
            intro l hl
            rcases (step_uses c _ x hx _ _).1 hl with h | h
            · rw [(ih1 k hk').1] at h; cases h
            · obtain ⟨n, v, hv, hs⟩ := itemNames_local h
              have := hbelow n v k hv hs
              omega
          exact List.eq_nil_iff_forall_not_mem.2 hno
        · have : (step c (its.foldl (step c) s0) x).tab.impls = (its.foldl (step c) s0).tab.impls := by
            cases x with
            | type l path => exact use_impls _ _
            | expr l hint e => exact use_impls _ _
            | decl l path n => cases hx
            | ret l => unfold step; simp only []; split; exact use_impls _ _; rfl
          rw [this]; exact (ih1 k hk').2
      | true =>
        cases x with
        | decl l path n =>
          have hne : Sym.local k ≠ .local (its.foldl (step c) s0).tab.next := by
            intro h; cases h; exact Nat.not_succ_le_self _ hk
          constructor
          · show (if Sym.local k = _ then _ else _) = []
            rw [if_neg hne]; exact (ih1 k hk').1
          · show (if Sym.local k = _ then _ else _) = []
            rw [if_neg hne]; exact (ih1 k hk').2
        | type l path => cases hx
        | expr l hint e => cases hx
        | ret l => cases hx
    · intro y
      rw [← ih3 y]
      cases x with
      | type l path => exact congrFun (use_impls _ _) y
      | expr l hint e => exact congrFun (use_impls _ _) y
      | decl l path n =>
        show (if y = .local (its.foldl (step c) s0).tab.next then _ else _) = _
        by_cases hy : y = .local (its.foldl (step c) s0).tab.next
        · rw [if_pos hy, hy, (ih1 _ (Nat.le_refl _)).2]
        · rw [if_neg hy]
      | ret l =>
        unfold step; simp only []; split
        · exact congrFun (use_impls _ _) y
        · rfl

end Verif.Refs
