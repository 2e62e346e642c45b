import Verif.Typing.SoundProps
import Verif.Typing.Examples

/-!
# C84: worlds as the declarations say, an accepted expression in one, and what the checker does not understand
-/

namespace Verif.Typing

/-- The world in which variables hold and procs return anything that the declarations allow. -/
def World.most (c : Ctx) (i : Option Nat) : World where
  src := i
  locals := fun n v => ∀ a, c.locals n = some a → Fits c.tree v a.st
  globals := fun n v => ∀ d r, c.tree.vars 0 n = some d → PathType c.tree d.path r → Fits c.tree v (r.getD .none)
  fields := fun i n v => ∀ j d r, Sub c.tree i j → j ≠ 0 → c.tree.vars j n = some d → PathType c.tree d.path r →
    Fits c.tree v (r.getD .none)
  returns := fun p' args v => ∀ p vs s, p'.name = p.name → Sub c.tree p'.ty p.ty → ArgsAre c args vs →
    Gives c p args.toList vs s → Fits c.tree v s

theorem most_honest (c : Ctx) (i : Option Nat) (h : ∀ j, i = some j → Sub c.tree j c.ty) : (World.most c i).Honest c where
  src := h
  locals := fun n a v h1 h2 => h2 a h1
  globals := fun n d r v h1 h2 h3 => h3 d r h1 h2
  fields := fun i j n d r v h1 h2 h3 h4 h5 => h5 j d r h1 h2 h3 h4
  returns := fun p p' args vs s v h1 h2 h3 h4 h5 => h5 p vs s h1 h2 h3 h4

theorem demo_coherent : Coherent demo where
  root := rfl
  list := by
    intro i j hp hs
    have hi : i = 2 := by
      match i, hp with
      | 2, _ => rfl
      | 0, h => cases h
      | 1, h => simp [demo] at h
      | 3, h => simp [demo] at h
      | 4, h => simp [demo] at h
      | 5, h => simp [demo] at h
      | n + 6, h => cases h
    subst hi
    have h2 : demo.expect "list" = 2 := by decide +kernel
    rw [h2]
    have : ∀ a b, Sub demo a b → b = 2 → a = 2 := by
      intro a b hab
      induction hab with
      | refl => exact id
      | @up a q b hq _ ih =>
        intro hb
        have := ih hb
        subst this
        match a, hq with
        | 0, h => cases h
        | 1, h => cases h
        | 2, h => rfl
        | 3, h => cases h
        | 4, h => cases h
        | 5, h => cases h
        | n + 6, h => cases h
    exact this j 2 hs rfl

/-- `owner.held[1].owner.tag` keeps to what the checker understands. -/
theorem demoGood_plain : Plain demoCtx demoGood := by
  intro e' he
  cases he with
  | inner he hn =>
    cases hn with
    | arg h => cases h
    | inner h => cases h
    | callArg h => simp [Follows.toList] at h
    | index h =>
      simp only [Follows.toList, List.mem_cons, Prod.mk.injEq, reduceCtorEq, and_false, Follow.index.injEq, List.not_mem_nil,
        or_false, false_or] at h
      obtain ⟨_, rfl⟩ := h
      cases he with
      | self => exact .base trivial (fun h a l' b f _ ha => by cases ha)
      | inner he hn =>
        cases hn with
        | arg h => cases h
        | inner h => cases h
        | callArg h => cases h
        | index h => cases h
  | self =>
    refine .base trivial fun h a l' b f ht ha => ?_
    have h1 := (termIs_iff _ _ 1 _ _).1 ht
    rw [show (visitTerm demoCtx 1 h (.ident "owner")).1 = { st := .type 3, impure := true } from by rw [visitTerm]; decide +kernel] at h1
    subst h1
    cases ha with
    | head =>
      refine .field (fun i d _ hb _ => ?_) (fun i hb => ?_)
      · cases hb; exact ⟨3, _, .refl _, by decide, rfl⟩
      · cases hb; decide +kernel
    | tail hf ha =>
      have h1 := (followIs_iff _ _ 2 _ _).1 hf
      rw [show (visitFollow demoCtx 2 { st := .type 3, impure := true } (.field .dot "held")).1 =
        { st := .list (.type 4) } from by decide +kernel] at h1
      subst h1
      cases ha with
      | head => exact .index (.inr ⟨_, rfl⟩)
      | tail hf ha =>
        have h1 := (followIs_iff _ _ 3 _ _).1 hf
        rw [show (visitFollow demoCtx 3 { st := .list (.type 4) } (.index (.base 4 (.int 1) .nil))).1 =
          { st := .type 4 } from by decide +kernel] at h1
        subst h1
        cases ha with
        | head =>
          refine .field (fun i d _ hb _ => ?_) (fun i hb => ?_)
          · cases hb; exact ⟨4, _, .refl _, by decide, rfl⟩
          · cases hb; decide +kernel
        | tail hf ha =>
          have h1 := (followIs_iff _ _ 5 _ _).1 hf
          rw [show (visitFollow demoCtx 5 { st := .type 4 } (.field .dot "owner")).1 =
            { st := .type 3 } from by decide +kernel] at h1
          subst h1
          cases ha with
          | head =>
            refine .field (fun i d _ hb _ => ?_) (fun i hb => ?_)
            · cases hb; exact ⟨1, _, .up (p := 1) rfl (.refl _), by decide, rfl⟩
            · cases hb; decide +kernel
          | tail hf ha => cases ha

/-- No run of it ends at an undefined name, whatever variables hold that their declarations allow. -/
theorem demoGood_runs {o : Out} (h : ExprRuns demoCtx (World.most demoCtx (some 4)) demoGood o) (n : Ident) :
    o ≠ .undefined n :=
  (accepted_runs (l := 0) (h := none) demo_coherent
    (most_honest demoCtx (some 4) (by rintro j h; cases h; exact .refl _))
    (by
      intro l' m hm
      rw [show (visitExpr demoCtx 0 none demoGood).2 = [] from by decide +kernel] at hm
      cases hm) demoGood_plain h).1 n

theorem pathType_eq {t : Tree} {p : List Ident} {s : STy} (hs : t.staticType p = .ok s) {r : Option STy}
    (h : PathType t p r) : r = some s := by
  cases r with
  | none =>
    obtain ⟨e, he⟩ := (staticType_iff p).2.1.1 h
    rw [hs] at he; cases he
  | some s' =>
    have := ((staticType_iff p).1 s').2 h
    rw [hs] at this; cases this
    rfl

/-- A variable may hold what fits its declared type, if no other ancestor declares it too. -/
theorem most_field {c : Ctx} {i : Option Nat} {k : Nat} {n : Ident} {v : RVal} {s : STy} {p : List Ident}
    (hs : c.tree.staticType p = .ok s) (hd : ∀ j ∈ c.tree.chain k, ∀ d, c.tree.vars j n = some d → d.path = p)
    (hv : Fits c.tree v s) : (World.most c i).fields k n v := by
  intro j d r hsub _ hvar hp
  have hm : j ∈ c.tree.chain k := by
    have := (isSubtype_iff k j).2 hsub
    unfold Tree.isSubtype at this
    exact List.contains_iff_mem.1 this
  rw [hd j hm d hvar] at hp
  rw [pathType_eq hs hp]
  exact hv

theorem dot_checked : Access.dot.checked := ⟨nofun, nofun⟩

/-- A run of it that reaches the end. -/
theorem demoGood_value : ExprRuns demoCtx (World.most demoCtx (some 4)) demoGood (.val .plain) := by
  refine .base (v := .obj 3) (.gives (.ident (.field rfl (by decide) ⟨4, _, .refl _, by decide, rfl⟩ rfl
    ⟨4, _, .refl _, by decide, rfl⟩ ?_))) ?_
  · refine most_field (s := .type 3) (p := ["mob"]) (by rfl) ?_ (.obj (.refl _) (by decide +kernel))
    rw [show Tree.chain demoCtx.tree 4 = [4, 1, 0] from by decide +kernel]
    intro j hj d hd
    simp only [List.mem_cons, List.not_mem_nil, or_false] at hj
    rcases hj with rfl | rfl | rfl <;> cases hd
    rfl
  refine .cons (r := .list [.obj 4]) (.gives (.field dot_checked (by nofun) (.field (i := 3) rfl
    ⟨3, _, .refl _, by decide, rfl⟩ ?_))) ?_
  · refine most_field (s := .list (.type 4)) (p := ["list", "obj"]) (by rfl) ?_
      (.elems fun e he => by rw [List.mem_singleton.1 he]; exact .obj (.refl _) (by decide +kernel))
    rw [show Tree.chain demoCtx.tree 3 = [3, 1, 0] from by decide +kernel]
    intro j hj d hd
    simp only [List.mem_cons, List.not_mem_nil, or_false] at hj
    rcases hj with rfl | rfl | rfl <;> cases hd
    rfl
  refine .cons (r := .obj 4) (.gives (.elem (.inl (.head _)))) ?_
  refine .cons (r := .obj 3) (.gives (.field dot_checked (by nofun) (.field (i := 4) rfl
    ⟨4, _, .refl _, by decide, rfl⟩ ?_))) ?_
  · refine most_field (s := .type 3) (p := ["mob"]) (by rfl) ?_ (.obj (.refl _) (by decide +kernel))
    rw [show Tree.chain demoCtx.tree 4 = [4, 1, 0] from by decide +kernel]
    intro j hj d hd
    simp only [List.mem_cons, List.not_mem_nil, or_false] at hj
    rcases hj with rfl | rfl | rfl <;> cases hd
    rfl
  refine .cons (r := .plain) (.gives (.field dot_checked (by nofun) (.field (i := 3) rfl
    ⟨1, _, .up (p := 1) rfl (.refl _), by decide, rfl⟩ ?_))) .nil
  refine most_field (s := .none) (p := []) (by rfl) ?_ (.any _)
  rw [show Tree.chain demoCtx.tree 3 = [3, 1, 0] from by decide +kernel]
  intro j hj d hd
  simp only [List.mem_cons, List.not_mem_nil, or_false] at hj
  rcases hj with rfl | rfl | rfl <;> cases hd
  rfl

/-! ## What the checker does not understand

Each of these is accepted, and ends at an undefined name in a world where everything is as declared. -/

/-- `demo` with a global variable `score`, a global proc `beep`, objects that can be indexed, and a type /pixloc. -/
def demoS : Tree :=
  { demo with
    path := fun
      | 6 => ["pixloc"]
      | i => demo.path i
    nav := fun _ p => if p = [(.slash, "pixloc")] then some 6 else none
    vars := fun i n => if i = 0 ∧ n = "score" then some { path := [] } else demo.vars i n
    procs := fun i n =>
      if i = 0 ∧ n = "beep" then [{ params := [] }]
      else if i = 4 ∧ n = "operator[]" then [{ params := ["i"] }]
      else demo.procs i n }

/-- A global proc with a mob `m`, an object `o` and a list of mobs `ms`. -/
def demoSCtx : Ctx where
  tree := demoS
  returns := fun _ => none
  privateBy := fun _ => none
  protectedBy := fun _ => none
  ty := 0
  proc := ⟨0, "main", 0⟩
  newContext := false
  locals := fun n =>
    if n = "m" then some { st := .type 3 }
    else if n = "o" then some { st := .type 4 }
    else if n = "ms" then some { st := .list (.type 3) }
    else none

/-- The world of these examples. -/
def demoW : World := World.most demoSCtx none

theorem demoW_honest : demoW.Honest demoSCtx := most_honest demoSCtx none (by nofun)

/-- Accepted, and undefined at run time. -/
def Missed (e : Expr) (n : Ident) : Prop :=
  (∀ l m, (l, .msg m) ∉ (visitExpr demoSCtx 0 none e).2) ∧ ExprRuns demoSCtx demoW e (.undefined n)

/-- A local variable may hold what fits its type. -/
theorem runs_local {n : Ident} {a : An} {v : RVal} (l : Loc) (h : demoSCtx.locals n = some a) (hv : Fits demoS v a.st) :
    ExprRuns demoSCtx demoW (.base l (.ident n) .nil) (.val v) := by
  refine .base (.gives (.ident (.local ?_ ?_))) .nil
  · rw [h]; nofun
  · intro a' h'
    rw [h] at h'; cases h'
    exact hv

theorem accepted_nil {e : Expr} (h : (visitExpr demoSCtx 0 none e).2 = []) (l : Loc) (m : Msg) :
    (l, .msg m) ∉ (visitExpr demoSCtx 0 none e).2 := by
  rw [h]; nofun

theorem no_field {i : Nat} {n : Ident} (h : ∀ j, demoS.isSubtype i j = true → j ≠ 0 → demoS.vars j n = none) :
    ¬ HasField demoS i n := by
  rintro ⟨j, d, h1, h2, h3⟩
  rw [h j ((isSubtype_iff i j).2 h1) h2] at h3
  cases h3

theorem no_proc {i : Nat} {n : Ident} {p : Proc} (h : demoS.getProc i n = some p) (h0 : p.ty = 0) (q : Proc) :
    ¬ Runs demoS i n q := by
  rintro ⟨h1, h2⟩
  rw [(getProc_iff i n q).2 h1] at h
  cases h
  exact h2 h0

/-- `(1 ? m : o).held`: only the type of the first branch counts. -/
theorem missed_ternary : Missed (.base 1 (.expr (.ternary (.base 2 (.int 1) .nil) (.base 3 (.ident "m") .nil)
    (.base 4 (.ident "o") .nil))) (.cons 5 (.field .dot "held") .nil)) "held" := by
  refine ⟨accepted_nil (by decide +kernel), ?_⟩
  refine .base (.paren (.no (runs_local (a := { st := .type 4 }) 4 rfl (.obj (i := 4) (.refl _) (by decide +kernel))))) ?_
  refine .stop (.gives (.field dot_checked (by nofun) (.undefined (i := 4) rfl (no_field ?_)))) trivial
  intro j hj h0
  unfold Tree.isSubtype at hj
  rw [show demoS.chain 4 = [4, 1, 0] from by decide +kernel] at hj
  simp only [List.contains_iff_mem, List.mem_cons, List.not_mem_nil, or_false] at hj
  rcases hj with rfl | rfl | rfl
  · rfl
  · rfl
  · exact absurd rfl h0

/-- `(ms + o)[1].held`: the sum is taken for a list of mobs. -/
theorem missed_sum : Missed (.base 1 (.expr (.binary .add (.base 2 (.ident "ms") .nil) (.base 3 (.ident "o") .nil)))
    (.cons 4 (.index (.base 5 (.int 1) .nil)) (.cons 6 (.field .dot "held") .nil))) "held" := by
  refine ⟨accepted_nil (by decide +kernel), ?_⟩
  refine .base (.paren (.combine (v := .list []) (r := .obj 4) (z := .list [.obj 4]) (.inl rfl)
    (runs_local (a := { st := .list (.type 3) }) 2 rfl (.elems nofun))
    (runs_local (a := { st := .type 4 }) 3 rfl (.obj (i := 4) (.refl _) (by decide +kernel)))
    (.list fun x hx => .inr (.inl ⟨nofun, List.mem_singleton.1 hx⟩)))) ?_
  refine .cons (r := .obj 4) (.gives (.elem (.inl (.head _)))) ?_
  refine .stop (.gives (.field dot_checked (by nofun) (.undefined (i := 4) rfl (no_field ?_)))) trivial
  intro j hj h0
  unfold Tree.isSubtype at hj
  rw [show demoS.chain 4 = [4, 1, 0] from by decide +kernel] at hj
  simp only [List.contains_iff_mem, List.mem_cons, List.not_mem_nil, or_false] at hj
  rcases hj with rfl | rfl | rfl
  · rfl
  · rfl
  · exact absurd rfl h0

/-- `(ms += m).held`: the type of the right side counts. -/
theorem missed_compound : Missed (.base 1 (.expr (.assign .compound (.base 2 (.ident "ms") .nil) (.base 3 (.ident "m") .nil)))
    (.cons 4 (.field .dot "held") .nil)) "held" := by
  refine ⟨accepted_nil (by decide +kernel), ?_⟩
  refine .base (.paren (.compound (v := .list []) (r := .null) (z := .list [])
    (runs_local (a := { st := .list (.type 3) }) 2 rfl (.elems nofun))
    (runs_local (a := { st := .type 3 }) 3 rfl (.null _))
    (.list nofun))) ?_
  refine .stop (.gives (.field dot_checked (by nofun) (.undefined (i := 2) (by decide +kernel) (no_field ?_)))) trivial
  intro j hj h0
  unfold Tree.isSubtype at hj
  rw [show demoS.chain 2 = [2, 1, 0] from by decide +kernel] at hj
  simp only [List.contains_iff_mem, List.mem_cons, List.not_mem_nil, or_false] at hj
  rcases hj with rfl | rfl | rfl
  · rfl
  · rfl
  · exact absurd rfl h0

/-- `o[1].owner`: what is got by indexing an object is taken for an object of the same type. -/
theorem missed_index : Missed (.base 1 (.ident "o") (.cons 2 (.index (.base 3 (.int 1) .nil))
    (.cons 4 (.field .dot "owner") .nil))) "owner" := by
  refine ⟨accepted_nil (by decide +kernel), ?_⟩
  refine .base (v := .obj 4) (.gives (.ident (.local nofun ?_))) ?_
  · rintro a ha
    cases ha
    exact .obj (.refl _) (by decide +kernel)
  · exact .cons (r := .plain) (.gives (.index nofun nofun)) (.stop (.gives (.field dot_checked (by nofun) .noFields)) trivial)

/-- `m.score`: a global variable is taken for a variable of every object. -/
theorem missed_global : Missed (.base 1 (.ident "m") (.cons 2 (.field .dot "score") .nil)) "score" := by
  refine ⟨accepted_nil (by decide +kernel), ?_⟩
  refine .base (v := .obj 3) (.gives (.ident (.local nofun ?_))) ?_
  · rintro a ha
    cases ha
    exact .obj (.refl _) (by decide +kernel)
  refine .stop (.gives (.field dot_checked (by nofun) (.undefined (i := 3) rfl (no_field ?_)))) trivial
  intro j hj h0
  unfold Tree.isSubtype at hj
  rw [show demoS.chain 3 = [3, 1, 0] from by decide +kernel] at hj
  simp only [List.contains_iff_mem, List.mem_cons, List.not_mem_nil, or_false] at hj
  rcases hj with rfl | rfl | rfl
  · rfl
  · rfl
  · exact absurd rfl h0

/-- `m.beep()`: a global proc is taken for a proc of every object. -/
theorem missed_globalProc : Missed (.base 1 (.ident "m") (.cons 2 (.call .dot "beep" .nil) .nil)) "beep" := by
  constructor
  · intro l m hm
    rw [show (visitExpr demoSCtx 0 none (.base 1 (.ident "m") (.cons 2 (.call .dot "beep" .nil) .nil))).2 =
      [(2, .call ⟨⟨0, "beep", 0⟩, false, 3, false, false⟩)] from by decide +kernel] at hm
    simp at hm
  · refine .base (v := .obj 3) (.gives (.ident (.local nofun ?_))) ?_
    · rintro a ha
      cases ha
      exact .obj (.refl _) (by decide +kernel)
    exact .stop (.gives (.call dot_checked (by nofun) (.undefined (i := 3) rfl
      (no_proc (p := ⟨0, "beep", 0⟩) (by decide +kernel) rfl)))) trivial

/-- `new /pixloc(nosuch)`: the arguments are not looked at. -/
theorem missed_new : Missed (.base 1 (.newPrefab [(.slash, "pixloc")] (.cons (.base 2 (.ident "nosuch") .nil) .nil)) .nil)
    "nosuch" := by
  refine ⟨accepted_nil (by decide +kernel), ?_⟩
  refine .stop (.arg (.head _) (.plain rfl) (.stop (.gives (.ident (.undefined rfl (by decide) ?_ rfl))) trivial) trivial) trivial
  rintro ⟨j, d, h1, h2, _⟩
  exact h2 (sub_root rfl h1)

end Verif.Typing
