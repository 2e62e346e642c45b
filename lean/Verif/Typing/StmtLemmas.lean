import Verif.Typing.StmtSpec
import Verif.Typing.Props

namespace Verif.Typing

open Verif.Flow (Ctl)

variable {w : Walk}

/-! ## Declarations -/

theorem typed_is (c : Ctx) (l : Loc) (path : List Ident) (s : STy) : Typed c.tree path s ↔ s = (c.typed l path).1.st := by
  obtain ⟨h1, h2, _⟩ := staticType_iff (t := c.tree) path
  unfold Ctx.typed
  cases hs : c.tree.staticType path with
  | ok k =>
    constructor
    · rintro ⟨r, hr, rfl⟩
      cases r with
      | none => obtain ⟨p, hp⟩ := h2.1 hr; rw [hs] at hp; cases hp
      | some x => have := (h1 x).2 hr; rw [hs] at this; cases this; rfl
    · intro h
      exact ⟨some k, (h1 k).1 hs, h⟩
  | error p =>
    constructor
    · rintro ⟨r, hr, rfl⟩
      cases r with
      | none => rfl
      | some x => have := (h1 x).2 hr; rw [hs] at this; cases this
    · intro h
      exact ⟨none, h2.2 ⟨p, hs⟩, h⟩

theorem typed_events' (c : Ctx) (l l' : Loc) (path : List Ident) (m : SMsg) :
    (l', m) ∈ ((c.typed l path).2.map fun x => (x.1, SMsg.expr x.2)) ↔
      l' = l ∧ ∃ p, Missing c.tree path p ∧ m = .expr (.msg (.undefinedType p)) := by
  obtain ⟨h1, h2, h3⟩ := staticType_iff (t := c.tree) path
  unfold Ctx.typed
  cases hs : c.tree.staticType path with
  | ok k =>
    simp only [List.map_nil, List.not_mem_nil, false_iff, not_and]
    rintro _ ⟨p, hp, _⟩
    have := (h3 p).2 hp
    rw [hs] at this; cases this
  | error p =>
    simp only [say, List.map_cons, List.map_nil, List.mem_singleton, Prod.mk.injEq]
    constructor
    · rintro ⟨rfl, rfl⟩; exact ⟨rfl, p, (h3 p).1 hs, rfl⟩
    · rintro ⟨rfl, q, hq, rfl⟩
      have := (h3 q).2 hq
      rw [hs] at this; cases this
      exact ⟨rfl, rfl⟩

theorem ctx_inside (w : Walk) (v : Env) (n : Nat) : w.ctx v n = w.inside v n := by
  unfold Walk.ctx Walk.inside
  cases n <;> rfl

theorem look_events (w : Walk) (v : Env) (n : Nat) (l l' : Loc) (h : Option Nat) (e : Expr) (m : SMsg) :
    (l', m) ∈ (w.look v n l h e).2 ↔
      ∃ s eff, At (w.inside v n) l h e s ∧ Due (w.inside v n) s eff ∧ s.loc = l' ∧ m = .expr eff := by
  unfold Walk.look
  rw [ctx_inside]
  simp only [List.mem_map, Prod.mk.injEq, Prod.exists]
  constructor
  · rintro ⟨a, b, h1, rfl, rfl⟩
    obtain ⟨s, h2, h3, h4⟩ := (effects_iff _ _ _ _ _ _).1 h1
    exact ⟨s, b, h2, h3, h4, rfl⟩
  · rintro ⟨s, eff, h1, h2, h3, rfl⟩
    exact ⟨l', eff, (effects_iff _ _ _ _ _ _).2 ⟨s, h1, h2, h3⟩, rfl, rfl⟩

theorem look_is (w : Walk) (v : Env) (n : Nat) (l : Loc) (h : Option Nat) (e : Expr) (a : An) :
    ExprIs (w.inside v n) h e a ↔ a = (w.look v n l h e).1 := by
  unfold Walk.look
  rw [ctx_inside]
  exact exprIs_iff _ e l h a

theorem declared_iff (w : Walk) (v : Env) (n : Nat) (l : Loc) (d : VarDef) (v' : Env) :
    Declared w v n d v' ↔ v' = (w.declare v n l d).1 := by
  obtain ⟨path, x, value⟩ := d
  unfold Walk.declare
  cases value with
  | none =>
    constructor
    · rintro (⟨hs⟩ | _)
      rw [(typed_is w.toCtx l path _).1 hs]
    · rintro rfl
      exact .plain ((typed_is w.toCtx l path _).2 rfl)
  | some e =>
    constructor
    · rintro (_ | ⟨hs, hh, ha⟩)
      rw [(typed_is w.toCtx l path _).1 hs] at hh ⊢
      rw [hintOf_iff] at hh
      subst hh
      rw [(look_is w v n l _ e _).1 ha]
    · rintro rfl
      exact .init ((typed_is w.toCtx l path _).2 rfl) ((hintOf_iff _ _).2 rfl) ((look_is w v n l _ e _).2 rfl)

theorem declare_events (w : Walk) (v : Env) (n : Nat) (l l' : Loc) (d : VarDef) (m : SMsg) :
    (l', m) ∈ (w.declare v n l d).2 ↔
      (l' = l ∧ ∃ p, Missing w.tree d.path p ∧ m = .expr (.msg (.undefinedType p))) ∨
      ∃ e s h, d.value = some e ∧ Typed w.tree d.path s ∧ HintOf w.tree s h ∧ (l', m) ∈ (w.look v n l h e).2 := by
  obtain ⟨path, x, value⟩ := d
  unfold Walk.declare
  simp only [List.mem_append, typed_events' w.toCtx]
  refine or_congr Iff.rfl ?_
  cases value with
  | none => simp
  | some e =>
    constructor
    · intro h
      exact ⟨e, _, _, rfl, (typed_is w.toCtx l path _).2 rfl, (hintOf_iff _ _).2 rfl, h⟩
    · rintro ⟨e', s, h, he, hs, hh, hx⟩
      cases he
      rw [(typed_is w.toCtx l path _).1 hs] at hh
      rw [hintOf_iff] at hh
      rw [← hh]
      exact hx

theorem declaredAll_iff (w : Walk) (n : Nat) (l : Loc) (ds : List VarDef) : ∀ (v v' : Env),
    DeclaredAll w n v ds v' ↔ v' = (w.declares v n l ds).1 := by
  induction ds with
  | nil =>
    intro v v'
    constructor
    · intro h; cases h; rfl
    · rintro rfl; exact .nil
  | cons d ds ih =>
    intro v v'
    rw [Walk.declares]
    constructor
    · intro h
      cases h with
      | cons h1 h2 =>
        rw [(declared_iff w v n l d _).1 h1] at h2
        exact (ih _ _).1 h2
    · rintro rfl
      exact .cons ((declared_iff w v n l d _).2 rfl) ((ih _ _).2 rfl)

theorem declares_events (w : Walk) (n : Nat) (l : Loc) (ds : List VarDef) : ∀ (v : Env) (x : SEv),
    x ∈ (w.declares v n l ds).2 ↔
      ∃ pre d post v', ds = pre ++ d :: post ∧ DeclaredAll w n v pre v' ∧ x ∈ (w.declare v' n l d).2 := by
  induction ds with
  | nil => intro v x; simp [Walk.declares]
  | cons d ds ih =>
    intro v x
    rw [Walk.declares]
    simp only [List.mem_append, ih]
    constructor
    · rintro (h | ⟨pre, d', post, v', rfl, h2, h3⟩)
      · exact ⟨[], d, ds, v, rfl, .nil, h⟩
      · exact ⟨d :: pre, d', post, v', rfl, .cons ((declared_iff w v n l d _).2 rfl) h2, h3⟩
    · rintro ⟨pre, d', post, v', h1, h2, h3⟩
      cases pre with
      | nil => cases h2; cases h1; exact .inl h3
      | cons y pre =>
        cases h1
        cases h2 with
        | cons h4 h5 =>
          rw [(declared_iff w v n l d _).1 h4] at h5
          exact .inr ⟨pre, d', post, v', rfl, h5, h3⟩

theorem loopVar_iff (w : Walk) (v : Env) (n : Nat) (l : Loc) (ty : Option (List Ident)) (x : Ident) (e : Option Expr)
    (v' : Env) : LoopVar w v n x e ty v' ↔ v' = (w.loopVar v n l ty x e).1 := by
  cases ty with
  | none =>
    constructor
    · intro h; cases h; rfl
    · rintro rfl; exact .none
  | some path =>
    constructor
    · rintro (_ | h); exact (declared_iff w v n l _ _).1 h
    · intro h; exact .some ((declared_iff w v n l _ _).2 h)

theorem caughtVar_iff (p : List Ident) (d : VarDef) : caughtVar p = some d ↔ Caught p d := by
  unfold caughtVar
  constructor
  · intro h
    cases hp : p.reverse with
    | nil => rw [hp] at h; cases h
    | cons n rest =>
      rw [hp] at h
      have hp' : p = rest.reverse ++ [n] := by
        rw [← List.reverse_reverse p, hp, List.reverse_cons]
      rw [hp']
      simp only at h
      split at h
      · rename_i ty hty; cases h; rw [hty]; exact .var
      · rename_i hty
        cases h
        refine .bare fun hh => ?_
        cases hr : rest.reverse with
        | nil => rw [hr] at hh; cases hh
        | cons a b =>
          rw [hr] at hh
          cases hh
          exact hty b hr
  · intro h
    cases h with
    | @var ty x => simp
    | @bare ty x hh =>
      simp only [List.reverse_append, List.reverse_cons, List.reverse_nil, List.nil_append, List.singleton_append,
        List.reverse_reverse]
      split
      · rename_i h; simp at hh
      · rfl

theorem caughtVar_none (p : List Ident) : caughtVar p = none ↔ p = [] := by
  unfold caughtVar
  constructor
  · intro h
    cases hp : p.reverse with
    | nil => simpa using hp
    | cons n rest => rw [hp] at h; simp only at h; split at h <;> cases h
  · rintro rfl; rfl

theorem caughtAll_iff (ps : List (List Ident)) (ds : List VarDef) : CaughtAll ps ds ↔ ds = ps.filterMap caughtVar := by
  induction ps generalizing ds with
  | nil =>
    constructor
    · intro h; cases h; rfl
    · rintro rfl; exact .nil
  | cons p ps ih =>
    cases hp : caughtVar p with
    | none =>
      rw [List.filterMap_cons_none hp, ← ih]
      have := (caughtVar_none p).1 hp
      subst this
      constructor
      · rintro (_ | h | ⟨h, _⟩)
        · exact h
        · have := (caughtVar_iff _ _).2 h; cases this
      · exact .skip
    | some d =>
      rw [List.filterMap_cons_some hp]
      constructor
      · intro h
        cases h with
        | skip h => cases hp
        | cons h1 h2 =>
          have := (caughtVar_iff _ _).2 h1
          rw [hp] at this; cases this
          rw [(ih _).1 h2]
      · rintro rfl
        exact .cons ((caughtVar_iff _ _).1 hp) ((ih _).2 rfl)

/-! ## What statements leave -/

theorem after_iff (w : Walk) (v : Env) (n : Nat) (l : Loc) (s : Stmt) (v' : Env) :
    After w v n s v' ↔ v' = (visitStmt w v n l s).2.1 := by
  constructor
  · intro h
    cases h with
    | vars h => rw [visitStmt]; exact (declaredAll_iff w n l _ _ _).1 h
    | ret h => rw [visitStmt]; simp only; rw [(look_is w v n l _ _ _).1 h]
    | same h1 h2 =>
      cases s with
      | vars ds => exact absurd rfl (h1 ds)
      | ret e =>
        cases e with
        | none => rw [visitStmt]
        | some e => exact absurd rfl (h2 e)
      | doWhile b c => rw [visitStmt]; split <;> rfl
      | _ => simp only [visitStmt, Walked.leave]
  · intro h
    subst h
    cases s with
    | vars ds => rw [visitStmt]; exact .vars ((declaredAll_iff w n l _ _ _).2 rfl)
    | ret e =>
      cases e with
      | none => rw [visitStmt]; exact .same nofun nofun
      | some e => rw [visitStmt]; exact .ret ((look_is w v n l _ _ _).2 rfl)
    | doWhile b c => rw [visitStmt]; split <;> exact .same nofun nofun
    | _ => simp only [visitStmt, Walked.leave]; exact .same nofun nofun

theorem afterHead_iff (w : Walk) (v : Env) (n : Nat) (l : Loc) (i : Head) (v' : Env) :
    AfterHead w v n i v' ↔ v' = (visitHead w v n l i).1 := by
  cases i with
  | none =>
    rw [visitHead]
    constructor
    · intro h; cases h; rfl
    · rintro rfl; exact .none
  | some s =>
    rw [visitHead]
    constructor
    · rintro (_ | h); exact (after_iff w v n l s _).1 h
    · intro h; exact .some ((after_iff w v n l s _).2 h)

/-! ## Control flow -/

mutual

theorem ctl_stmt (w : Walk) (s : Stmt) (v : Env) (n : Nat) (l : Loc) (k : Nat) :
    (visitStmt w v n l s).1 = (Flow.visitStmt k l s.flow).1 := by
  cases s with
  | ret e => cases e <;> simp only [visitStmt, Stmt.flow, Flow.visitStmt]
  | «while» c b => simp only [visitStmt, Stmt.flow, Flow.visitStmt, Walked.leave]; rw [ctl_block w b v n k false]
  | doWhile b c =>
    have := ctl_block w b v n k false Ctl.allfalse
    simp only [visitStmt, Stmt.flow, Flow.visitStmt]
    rw [this]
    split <;> rfl
  | ifs a => simp only [visitStmt, Stmt.flow, Flow.visitStmt]; exact ctl_arms w a v n k _ _
  | forever b => simp only [visitStmt, Stmt.flow, Flow.visitStmt, Walked.leave]; rw [ctl_block w b v n k false]
  | «for» i t m b => simp only [visitStmt, Stmt.flow, Flow.visitStmt, Walked.leave]; rw [ctl_block w b _ n k false]
  | forIn ty x e b => simp only [visitStmt, Stmt.flow, Flow.visitStmt, Walked.leave]; rw [ctl_block w b _ n k false]
  | forTo ty x e f g lo hi kind b =>
    simp only [visitStmt, Stmt.flow, Flow.visitStmt, Walked.leave]
    rw [ctl_block w b _ n k false]
    cases Flow.validForRange lo hi kind with
    | none => rfl
    | some x => cases x <;> rfl
  | forPairs ty x y e b => simp only [visitStmt, Stmt.flow, Flow.visitStmt, Walked.leave]; rw [ctl_block w b _ n k false]
  | switch c cs => simp only [visitStmt, Stmt.flow, Flow.visitStmt]; exact ctl_cases w cs v n k _
  | _ => simp only [visitStmt, Stmt.flow, Flow.visitStmt, Walked.leave]

theorem ctl_block (w : Walk) (b : Block) (v : Env) (n : Nat) (k : Nat) (al : Bool) (term : Ctl) :
    (visitBlock w v n term b).1 = (Flow.visitBlock k al term b.flow).1 := by
  cases b with
  | nil => simp only [visitBlock, Block.flow, Flow.visitBlock]
  | cons l s rest =>
    simp only [visitBlock, Block.flow, Flow.visitBlock]
    split
    · rfl
    · simp only
      rw [ctl_block w rest _ n k (Flow.settingAllowed al s.flow), ctl_stmt w s v n l k]

theorem ctl_arms (w : Walk) (a : Arms) (v : Env) (n : Nat) (k : Nat) (all : Ctl) (always : Bool) :
    (visitArms w v n all a).1 = (Flow.visitArms k all always a.flow).1 := by
  cases a with
  | noElse => simp only [visitArms, Arms.flow, Flow.visitArms]
  | els b => simp only [visitArms, Arms.flow, Flow.visitArms]; rw [ctl_block w b v n k false]
  | cons c b rest =>
    simp only [visitArms, Arms.flow, Flow.visitArms]
    rw [ctl_arms w rest v n k _ (always || c.truth == some true), ctl_block w b v n k false]

theorem ctl_cases (w : Walk) (a : Cases) (v : Env) (n : Nat) (k : Nat) (all : Ctl) :
    (visitCases w v n all a).1 = (Flow.visitCases k all a.flow).1 := by
  cases a with
  | noDefault => simp only [visitCases, Cases.flow, Flow.visitCases]
  | dflt b => simp only [visitCases, Cases.flow, Flow.visitCases]; rw [ctl_block w b v n k false]
  | cons l ks b rest =>
    simp only [visitCases, Cases.flow, Flow.visitCases]
    rw [ctl_cases w rest v n k _, ctl_block w b v n k false]

end

/-- `leaves` from a given state. -/
def leavesFrom (term : Ctl) (ss : List (Loc × Stmt)) : Ctl := (Flow.visitBlock 0 true term (blockOf ss).flow).1

theorem leavesFrom_nil (term : Ctl) : leavesFrom term [] = term := by
  simp only [leavesFrom, blockOf, Block.flow, Flow.visitBlock]

theorem leavesFrom_cons (w : Walk) (v : Env) (n : Nat) (term : Ctl) (l : Loc) (s : Stmt) (ss : List (Loc × Stmt)) :
    leavesFrom term ((l, s) :: ss) =
      if term.terminates then term else leavesFrom (term.merge (visitStmt w v n l s).1) ss := by
  simp only [leavesFrom, blockOf, Block.flow, Flow.visitBlock]
  split
  · rfl
  · simp only
    rw [← ctl_block w _ v n, ← ctl_block w _ v n, ctl_stmt w s v n l 0]

theorem blockOf_toList (b : Block) : blockOf b.toList = b := by
  induction b using Block.rec (motive_1 := fun _ => True) (motive_3 := fun _ => True) (motive_4 := fun _ => True)
    (motive_5 := fun _ => True) with
  | nil => rfl
  | cons l s b _ ih => simp only [Block.toList, blockOf, ih]
  | _ => trivial

theorem visitBlock_ctl (w : Walk) (v : Env) (n : Nat) (term : Ctl) (b : Block) :
    (visitBlock w v n term b).1 = leavesFrom term b.toList := by
  rw [leavesFrom, blockOf_toList]
  exact ctl_block w b v n 0 true term

/-! ## Blocks -/

theorem block_events (w : Walk) (n : Nat) (x : SEv) : ∀ (b : Block) (v : Env) (term : Ctl),
    x ∈ (visitBlock w v n term b).2.2 ↔ ∃ pre l s post v', b.toList = pre ++ (l, s) :: post ∧
      (leavesFrom term pre).terminates = false ∧ AfterAll w n v pre v' ∧ x ∈ (visitStmt w v' n l s).2.2
  | .nil, v, term => by simp [visitBlock, Block.toList]
  | .cons l s rest, v, term => by
    rw [visitBlock, Block.toList]
    by_cases ht : term.terminates = true
    · rw [if_pos ht]
      simp only [List.not_mem_nil, false_iff]
      rintro ⟨pre, l', s', post, v', h1, h2, h3, h4⟩
      cases pre with
      | nil => rw [leavesFrom_nil, ht] at h2; cases h2
      | cons y pre =>
        rw [leavesFrom_cons w v n, if_pos ht, ht] at h2; cases h2
    · rw [if_neg ht]
      simp only [List.mem_append]
      rw [block_events w n x rest]
      constructor
      · rintro (h | ⟨pre, l', s', post, v', h1, h2, h3, h4⟩)
        · exact ⟨[], l, s, rest.toList, v, rfl, by rw [leavesFrom_nil]; simpa using ht, .nil, h⟩
        · refine ⟨(l, s) :: pre, l', s', post, v', by rw [h1]; rfl, ?_, .cons ((after_iff w v n l s _).2 rfl) h3, h4⟩
          rw [leavesFrom_cons w v n, if_neg ht]
          exact h2
      · rintro ⟨pre, l', s', post, v', h1, h2, h3, h4⟩
        cases pre with
        | nil => cases h3; cases h1; exact .inl h4
        | cons y pre =>
          rw [List.cons_append] at h1
          injection h1 with ha hb
          subst ha
          cases h3 with
          | cons h5 h6 =>
            rw [leavesFrom_cons w v n, if_neg ht] at h2
            rw [(after_iff w v n l s _).1 h5] at h6
            exact .inr ⟨pre, l', s', post, v', hb, h2, h6, h4⟩

theorem block_end (w : Walk) (n : Nat) : ∀ (b : Block) (v v' : Env) (term : Ctl),
    v' = (visitBlock w v n term b).2.1 ↔ ∃ pre post, b.toList = pre ++ post ∧
      (post = [] ∨ (leavesFrom term pre).terminates = true) ∧
      (∀ p x q, pre = p ++ x :: q → ¬ (leavesFrom term p).terminates = true) ∧ AfterAll w n v pre v'
  | .nil, v, v', term => by
    rw [visitBlock, Block.toList]
    constructor
    · rintro rfl
      exact ⟨[], [], rfl, .inl rfl, by simp, .nil⟩
    · rintro ⟨pre, post, h1, _, _, h4⟩
      have : pre = [] := by simpa using (List.append_eq_nil_iff.1 h1.symm).1
      subst this
      cases h4; rfl
  | .cons l s rest, v, v', term => by
    rw [visitBlock, Block.toList]
    by_cases ht : term.terminates = true
    · rw [if_pos ht]
      constructor
      · rintro rfl
        exact ⟨[], _, rfl, .inr (by rw [leavesFrom_nil]; exact ht), by simp, .nil⟩
      · rintro ⟨pre, post, h1, h2, h3, h4⟩
        cases pre with
        | nil => cases h4; rfl
        | cons y pre => exact absurd (by rw [leavesFrom_nil]; exact ht) (h3 [] y pre rfl)
    · rw [if_neg ht]
      simp only
      rw [block_end w n rest]
      constructor
      · rintro ⟨pre, post, h1, h2, h3, h4⟩
        refine ⟨(l, s) :: pre, post, by rw [h1]; rfl, ?_, ?_, .cons ((after_iff w v n l s _).2 rfl) h4⟩
        · rw [leavesFrom_cons w v n, if_neg ht]; exact h2
        · intro p x q hp
          cases p with
          | nil => rw [leavesFrom_nil]; exact ht
          | cons y p =>
            cases hp
            rw [leavesFrom_cons w v n, if_neg ht]
            exact h3 p x q rfl
      · rintro ⟨pre, post, h1, h2, h3, h4⟩
        cases pre with
        | nil =>
          rcases h2 with rfl | h2
          · cases h1
          · rw [leavesFrom_nil] at h2; exact absurd h2 ht
        | cons y pre =>
          rw [List.cons_append] at h1
          injection h1 with ha hb
          subst ha
          cases h4 with
          | cons h5 h6 =>
            rw [leavesFrom_cons w v n, if_neg ht] at h2
            rw [(after_iff w v n l s _).1 h5] at h6
            refine ⟨pre, post, hb, h2, ?_, h6⟩
            intro p x q hp
            have := h3 ((l, s) :: p) x q (by rw [hp]; rfl)
            rwa [leavesFrom_cons w v n, if_neg ht] at this

theorem atEnd_iff (w : Walk) (v : Env) (n : Nat) (b : Block) (v' : Env) :
    AtEnd w v n b v' ↔ v' = (visitBlock w v n Ctl.allfalse b).2.1 := (block_end w n b v v' Ctl.allfalse).symm

theorem direct_events (w : Walk) (v : Env) (n : Nat) (b : Block) (x : SEv) :
    x ∈ (visitBlock w v n Ctl.allfalse b).2.2 ↔ ∃ v' l s, Direct w v n b v' l s ∧ x ∈ (visitStmt w v' n l s).2.2 := by
  rw [block_events]
  constructor
  · rintro ⟨pre, l, s, post, v', h1, h2, h3, h4⟩
    refine ⟨v', l, s, ⟨pre, post, h1, fun h => ?_, h3⟩, h4⟩
    rw [show (leavesFrom Ctl.allfalse pre).terminates = true from h] at h2
    cases h2
  · rintro ⟨v', l, s, ⟨pre, post, h1, h2, h3⟩, h4⟩
    exact ⟨pre, l, s, post, v', h1, Bool.not_eq_true _ ▸ h2, h3, h4⟩

end Verif.Typing
