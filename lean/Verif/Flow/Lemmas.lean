import Verif.Flow.Model

/-! # Lemmas about the control-flow checks -/

namespace Verif.Flow

/-- The places in what is run. -/
def Node.locs : Node → List Loc
  | .stmt s => s.locs
  | .block b => b.locs
  | .arms a => a.locs
  | .cases c => c.locs
  | .part _ => []
  | .iter _ body => body.locs

/-- see `Stmt.jumps` -/
def Node.jumps (own : Bool) : Node → Bool
  | .stmt s => s.jumps own
  | .block b => b.jumps own
  | .arms a => a.jumps own
  | .cases c => c.jumps own
  | .part _ => false
  | .iter _ body => body.jumps false

theorem run_locs {n t o} (h : Run n t o) : ∀ x ∈ t, x ∈ n.locs := by
  induction h <;> simp_all [Node.locs, Stmt.locs, Block.locs, Arms.locs, Cases.locs] <;> grind

/-- The jump out of a part with this outcome. -/
def Out.label? : Out → Option (Option String)
  | .brk l | .cont l => some l
  | _ => none

@[simp] theorem label_normal : Out.normal.label? = none := rfl
@[simp] theorem label_ret : Out.ret.label? = none := rfl
@[simp] theorem label_throw : Out.throw.label? = none := rfl
@[simp] theorem label_cut : Out.cut.label? = none := rfl
@[simp] theorem label_brk (l) : (Out.brk l).label? = some l := rfl
@[simp] theorem label_cont (l) : (Out.cont l).label? = some l := rfl

theorem run_jumps {n t o} (h : Run n t o) : ∀ l own, o.label? = some l →
    (own = true ∨ l.isSome = true) → n.jumps own = true := by
  induction h with
  | roundPass h hp ih =>
    intro l own hl ho
    have : l.isSome = true := by
      unfold Out.Passes at hp
      rcases l with _ | l
      · rename_i o
        cases o <;> simp_all [Out.label?]
      · rfl
    simp [Node.jumps, show Block.jumps false _ = true from ih l false hl (.inr this)]
  | doPass h hp ih =>
    intro l own hl ho
    have : l.isSome = true := by
      unfold Out.Passes at hp
      rcases l with _ | l
      · rename_i o
        cases o <;> simp_all [Out.label?]
      · rfl
    simp [Node.jumps, Stmt.jumps, show Block.jumps false _ = true from ih l false hl (.inr this)]
  | rangePass hm h hp ih =>
    intro l own hl ho
    have : l.isSome = true := by
      unfold Out.Passes at hp
      rcases l with _ | l
      · rename_i o
        cases o <;> simp_all [Out.label?]
      · rfl
    simp [Node.jumps, Stmt.jumps, show Block.jumps false _ = true from ih l false hl (.inr this)]
  | doOnce h hp ho ih =>
    intro l own hl
    rcases ho with rfl | rfl <;> simp [Out.label?] at hl
  | _ =>
    first
    | (intro l own hl ho
       cases own <;>
         simp_all [Node.jumps, Stmt.jumps, Block.jumps, Arms.jumps, Cases.jumps] <;> grind)

/-! ## A raised flag means that the end is not reached -/

/-- One of the three flags is raised. -/
def Ctl.any (f : Ctl) : Bool := f.returns || f.continues || f.breaks

/-- Every flag of `f` is one of `g`. -/
def Ctl.Le (f g : Ctl) : Prop :=
  (f.returns = true → g.returns = true) ∧ (f.continues = true → g.continues = true) ∧
    (f.breaks = true → g.breaks = true)

theorem Ctl.Le.refl (f : Ctl) : f.Le f := ⟨id, id, id⟩

theorem Ctl.Le.trans {f g h : Ctl} (a : f.Le g) (b : g.Le h) : f.Le h :=
  ⟨fun x => b.1 (a.1 x), fun x => b.2.1 (a.2.1 x), fun x => b.2.2 (a.2.2 x)⟩

theorem Ctl.Le.any {f g : Ctl} (a : f.Le g) (h : g.any = false) : f.any = false := by
  rcases f with ⟨_ | _, _ | _, _ | _, _⟩ <;> rcases g with ⟨_ | _, _ | _, _ | _, _⟩ <;>
    simp_all [Ctl.any, Ctl.Le]

theorem mergeFalse_le (f g : Ctl) : (f.mergeFalse g).Le f := by
  rcases f with ⟨_ | _, _ | _, _ | _, _ | _⟩ <;> rcases g with ⟨_ | _, _ | _, _ | _, _ | _⟩ <;>
    simp [Ctl.mergeFalse, Ctl.Le]

theorem mergeFalse_le' (f g : Ctl) : (f.mergeFalse g).Le g := by
  rcases f with ⟨_ | _, _ | _, _ | _, _ | _⟩ <;> rcases g with ⟨_ | _, _ | _, _ | _, _ | _⟩ <;>
    simp [Ctl.mergeFalse, Ctl.Le]

theorem finalize_le (f : Ctl) : f.finalize.Le f := by
  rcases f with ⟨_ | _, _ | _, _ | _, _ | _⟩ <;> simp [Ctl.finalize, Ctl.Le]

theorem noElse_any (f : Ctl) : f.noElse.any = false := rfl

theorem noElse_le (f g : Ctl) : f.noElse.Le g := by simp [Ctl.noElse, Ctl.Le]

theorem merge_any {f g : Ctl} (hf : f.any = false) (hg : g.any = false) :
    (f.merge g).any = false := by
  rcases f with ⟨_ | _, _ | _, _ | _, _ | _⟩ <;> rcases g with ⟨_ | _, _ | _, _ | _, _ | _⟩ <;>
    simp_all [Ctl.any, Ctl.merge]

theorem any_of_terminates {f : Ctl} (h : f.terminates = true) : f.any = true := by
  simp_all [Ctl.any, Ctl.terminates]

theorem not_terminates {f : Ctl} (h : f.any = false) : f.terminates = false := by
  simp_all [Ctl.any, Ctl.terminates]

theorem any_of_terminatesLoop {f : Ctl} (h : f.terminatesLoop = true) : f.any = true := by
  rcases f with ⟨_ | _, _ | _, _ | _, _ | _⟩ <;> simp_all [Ctl.any, Ctl.terminatesLoop]

theorem visitArms_le (ctx) : ∀ (a : Arms) (all : Ctl) (always : Bool),
    (visitArms ctx all always a).1.Le all
  | .noElse, all, _ => by rw [visitArms]; exact noElse_le _ _
  | .els b, all, _ => by
    rw [visitArms]
    exact (finalize_le _).trans (mergeFalse_le _ _)
  | .cons c truth body rest, all, always => by
    rw [visitArms]
    refine (visitArms_le ctx rest _ _).trans ?_
    rcases truth with _ | _ | _
    · exact mergeFalse_le _ _
    · exact Ctl.Le.refl _
    · exact mergeFalse_le _ _

theorem visitCases_le (ctx) : ∀ (a : Cases) (all : Ctl),
    (visitCases ctx all a).1.Le all
  | .noDefault, all => by rw [visitCases]; exact noElse_le _ _
  | .dflt b, all => by
    rw [visitCases]
    exact (finalize_le _).trans (mergeFalse_le _ _)
  | .cons body rest, all => by
    rw [visitCases]
    exact (visitCases_le ctx rest _).trans (mergeFalse_le _ _)

theorem goesOn_cases {o : Out} (h : o.GoesOn) : o = .normal ∨ ∃ l, o.label? = some l := by
  rcases h with rfl | ⟨l, rfl⟩
  · exact .inl rfl
  · exact .inr ⟨l, rfl⟩

theorem completes_of_plain {body : Block} {t o} (hp : Plain body) (h : Run (.block body) t o)
    (ho : o = .normal ∨ ∃ l, o.label? = some l) : Completes body := by
  rcases ho with rfl | ⟨l, hl⟩
  · exact ⟨_, h⟩
  · rcases hp with hp | hp
    · have := run_jumps h l true hl (.inl rfl)
      simp [Node.jumps, hp] at this
    · exact hp

mutual
theorem flag_stmt (ctx : Nat) (loc : Loc) : ∀ (s : Stmt), s.Careful → ∀ {t},
    Run (.stmt s) t .normal → (visitStmt ctx loc s).1.any = false
  | .simple, _, _, _ => rfl
  | .setting _, _, _, _ => rfl
  | .ret _, _, _, h => by cases h
  | .crash, _, _, h => by cases h
  | .throw, _, _, h => by cases h
  | .cont _, _, _, h => by cases h
  | .brk _, _, _, h => by cases h
  | .goto _, _, _, h => by cases h
  | .loop body, _, _, _ => by rw [visitStmt]; rfl
  | .forLoop .., _, _, _ => by rw [visitStmt]; rfl
  | .spawn .., _, _, _ => by rw [visitStmt]; rfl
  | .tryCatch .., _, _, _ => by rw [visitStmt]; rfl
  | .label .., _, _, _ => by rw [visitStmt]; rfl
  | .doWhile body c, hc, t, h => by
    have hb : Completes body := by
      cases h with
      | doOnce h hg _ => exact completes_of_plain hc.1 h (goesOn_cases hg)
      | doAgain h hg _ => exact completes_of_plain hc.1 h (goesOn_cases hg)
      | doBreak h => exact completes_of_plain hc.1 h (.inr ⟨_, rfl⟩)
      | doPass h hp => exact completes_of_plain hc.1 h (.inl rfl)
    obtain ⟨t', hb⟩ := hb
    have ih := flag_block ctx false body Ctl.allfalse hc.2 rfl hb
    rw [visitStmt]
    have : (visitBlock ctx false Ctl.allfalse body).1.terminatesLoop = false := by
      by_contra hh
      rw [any_of_terminatesLoop (by simpa using hh)] at ih
      cases ih
    simp only [this]
    rfl
  | .ifs a, hc, t, h => by
    rw [visitStmt]
    cases h with
    | ifs h => exact flag_arms ctx a _ _ hc h
  | .switch a, hc, t, h => by
    rw [visitStmt]
    cases h with
    | switch h => exact flag_cases ctx a _ hc h
  | .range i o step body, hc, t, h => by
    rw [visitStmt]
    split
    · rfl
    · rename_i hv
      have hb : Completes body := by
        rcases i with _ | i
        · simp [validForRange] at hv
        rcases o with _ | o
        · simp [validForRange] at hv
        by_cases h0 : i = 0 ∧ o = 0
        · simp [validForRange, h0] at hv
        rcases step with _ | s | _ | _
        · have hle : i ≤ o := by simpa [validForRange, h0] using hv
          have hp : Plain body := hc.1.2
          cases h with
          | rangeSkip hs => exact absurd hs (by simpa [MaySkip] using hle)
          | rangeRun hm h hg _ => exact completes_of_plain hp h (goesOn_cases hg)
          | rangeBreak hm h => exact completes_of_plain hp h (.inr ⟨_, rfl⟩)
          | rangePass hm h hp => exact ⟨_, h⟩
        · rcases hc.1.2 with hb | ⟨hs, hle, hj⟩
          · exact hb
          have hp : Plain body := .inl hj
          cases h with
          | rangeSkip hs' => exact absurd (hs' hs) (by omega)
          | rangeRun hm h hg _ => exact completes_of_plain hp h (goesOn_cases hg)
          | rangeBreak hm h => exact completes_of_plain hp h (.inr ⟨_, rfl⟩)
          | rangePass hm h hp => exact ⟨_, h⟩
        · exact hc.1.2.2
        · exact hc.1.2
      obtain ⟨t', hb⟩ := hb
      exact flag_block ctx false body Ctl.allfalse hc.2 rfl hb
    · rfl
theorem flag_block (ctx : Nat) : ∀ (allowed : Bool) (b : Block) (term : Ctl), b.Careful →
    term.any = false → ∀ {t}, Run (.block b) t .normal →
    (visitBlock ctx allowed term b).1.any = false
  | _, .nil, term, _, ht, _, _ => by rw [visitBlock]; exact ht
  | allowed, .cons loc s rest, term, hc, ht, t, h => by
    rw [visitBlock, not_terminates ht]
    cases h with
    | seq h1 h2 =>
      exact flag_block ctx _ rest _ hc.2 (merge_any ht (flag_stmt ctx loc s hc.1 h1)) h2
    | seqStop h hn => exact absurd rfl hn
theorem flag_arms (ctx : Nat) : ∀ (a : Arms) (all : Ctl) (always : Bool), a.Careful → ∀ {t},
    Run (.arms a) t .normal → (visitArms ctx all always a).1.any = false
  | .noElse, all, _, _, _, _ => by rw [visitArms]; exact noElse_any _
  | .els b, all, _, hc, _, h => by
    rw [visitArms]
    cases h with
    | els h =>
      exact ((finalize_le _).trans (mergeFalse_le' _ _)).any
        (flag_block ctx false b Ctl.allfalse hc rfl h)
  | .cons c truth body rest, all, always, hc, _, h => by
    rw [visitArms]
    cases h with
    | skip hs h => exact flag_arms ctx rest _ _ hc.2 h
    | take ht h =>
      refine Ctl.Le.any ((visitArms_le ctx rest _ _).trans ?_)
        (flag_block ctx false body Ctl.allfalse hc.1 rfl h)
      rcases truth with _ | _ | _
      · exact mergeFalse_le' _ _
      · exact absurd rfl ht
      · exact mergeFalse_le' _ _
theorem flag_cases (ctx : Nat) : ∀ (a : Cases) (all : Ctl), a.Careful → ∀ {t},
    Run (.cases a) t .normal → (visitCases ctx all a).1.any = false
  | .noDefault, all, _, _, _ => by rw [visitCases]; exact noElse_any _
  | .dflt b, all, hc, _, h => by
    rw [visitCases]
    cases h with
    | dflt h =>
      exact ((finalize_le _).trans (mergeFalse_le' _ _)).any
        (flag_block ctx false b Ctl.allfalse hc rfl h)
  | .cons body rest, all, hc, _, h => by
    rw [visitCases]
    cases h with
    | otherCase h => exact flag_cases ctx rest _ hc.2 h
    | case h =>
      exact Ctl.Le.any ((visitCases_le ctx rest _).trans (mergeFalse_le' _ _))
        (flag_block ctx false body Ctl.allfalse hc.1 rfl h)
end

/-! ## What is reported is not run -/

/-- The code the messages are about is among these places. -/
def Within (rs : List Report) (l : List Loc) : Prop := ∀ r ∈ rs, ∀ x ∈ r.region, x ∈ l

/-- The code the messages are about is not among these places. -/
def Free (rs : List Report) (t : List Loc) : Prop := ∀ r ∈ rs, ∀ x ∈ r.region, x ∉ t

theorem within_nil {l} : Within [] l := by simp [Within]

theorem within_append {a b l} : Within (a ++ b) l ↔ Within a l ∧ Within b l := by
  simp only [Within, List.mem_append]
  exact ⟨fun h => ⟨fun r hr => h r (.inl hr), fun r hr => h r (.inr hr)⟩,
    fun h r hr => hr.elim (h.1 r) (h.2 r)⟩

theorem Within.mono {a l l'} (h : Within a l) (hl : ∀ x ∈ l, x ∈ l') : Within a l' :=
  fun r hr x hx => hl x (h r hr x hx)

theorem free_append {a b t} : Free (a ++ b) t ↔ Free a t ∧ Free b t := by
  simp only [Free, List.mem_append]
  exact ⟨fun h => ⟨fun r hr => h r (.inl hr), fun r hr => h r (.inr hr)⟩,
    fun h r hr => hr.elim (h.1 r) (h.2 r)⟩

theorem free_app {a t t'} (h : Free a t) (h' : Free a t') : Free a (t ++ t') := by
  intro r hr x hx hxt
  rcases List.mem_append.1 hxt with hxt | hxt
  · exact h r hr x hx hxt
  · exact h' r hr x hx hxt

theorem free_nil {a} : Free a [] := by simp [Free]

theorem free_none {t} : Free [] t := by simp [Free]

theorem free_cons {a c t} (h : Free a [c]) (h' : Free a t) : Free a (c :: t) :=
  free_app h h'

theorem Within.free {a l t} (h : Within a l) (hd : ∀ x ∈ t, x ∉ l) : Free a t :=
  fun r hr x hx hxt => hd x hxt (h r hr x hx)

theorem within_setting (allowed loc s l) : Within (checkSetting allowed loc s) l := by
  intro r hr x hx
  unfold checkSetting at hr
  split at hr
  · split at hr <;> simp_all
  · simp at hr

theorem within_loop (loc truth l) : Within (loopCondition loc truth) l := by
  intro r hr x hx
  unfold loopCondition at hr
  split at hr <;> simp_all

theorem within_return (ctx loc v l) : Within (returnCheck ctx loc v) l := by
  intro r hr x hx
  unfold returnCheck at hr
  split at hr <;> simp_all

theorem within_part (ctx loc p l) : Within (visitPart ctx loc p) l := by
  unfold visitPart
  split
  · exact within_return _ _ _ _
  all_goals exact within_nil

theorem within_if (loc truth l) : Within (ifCondition loc truth) l := by
  intro r hr x hx
  unfold ifCondition at hr
  split at hr <;> simp_all

theorem within_deadArm (always c body) : Within (deadArm always c body) (c :: body.locs) := by
  intro r hr x hx
  unfold deadArm at hr
  split at hr <;> simp_all

theorem within_deadElse (always body) : Within (deadElse always body) body.locs := by
  intro r hr x hx
  unfold deadElse at hr
  split at hr
  · split at hr <;> simp_all [Block.locs]
  · simp at hr

mutual
theorem within_stmt (ctx : Nat) (loc : Loc) : ∀ (s : Stmt), Within (visitStmt ctx loc s).2 s.locs
  | .simple | .setting _ | .crash | .throw | .cont _ | .brk _ | .goto _ => by
    simp [visitStmt, Within]
  | .ret v => by
    rw [visitStmt]
    exact within_return _ _ _ _
  | .loop body => by
    rw [visitStmt]
    exact within_block ctx false body _
  | .label _ body => by
    rw [visitStmt]
    exact within_block ctx false body _
  | .spawn body => by
    rw [visitStmt]
    exact within_block _ false body _
  | .forLoop init test inc body => by
    rw [visitStmt]
    simp only [within_append, Stmt.locs]
    exact ⟨within_part _ _ _ _, within_loop _ _ _, within_part _ _ _ _,
      within_block ctx false body _⟩
  | .tryCatch b h => by
    rw [visitStmt]
    simp only [within_append, Stmt.locs]
    refine ⟨(within_block ctx false b _).mono ?_, (within_block ctx false h _).mono ?_⟩ <;>
      · intro x hx
        simp [hx]
  | .doWhile body c => by
    have := (within_block ctx false body Ctl.allfalse).mono
      (l' := c :: body.locs) (fun x hx => by simp [hx])
    rw [visitStmt]
    split
    · simp only [within_append, Stmt.locs]
      exact ⟨this, by simp [Within]⟩
    · exact this
  | .range i o step body => by
    have := within_block ctx false body Ctl.allfalse
    rw [visitStmt]
    split
    · simp only [within_append, Stmt.locs]
      exact ⟨this, by simp [Within]⟩
    · exact this
    · exact this
  | .ifs a => by
    rw [visitStmt]
    exact within_arms ctx a _ _
  | .switch a => by
    rw [visitStmt]
    exact within_cases ctx a _
theorem within_block (ctx : Nat) : ∀ (allowed : Bool) (b : Block) (term : Ctl),
    Within (visitBlock ctx allowed term b).2 b.locs
  | _, .nil, _ => by rw [visitBlock]; exact within_nil
  | allowed, .cons loc s rest, term => by
    rw [visitBlock]
    split
    · simp [Within, Block.locs]
    · simp only [within_append, Block.locs]
      refine ⟨within_setting _ _ _ _, (within_stmt ctx loc s).mono ?_,
        (within_block ctx _ rest _).mono ?_⟩ <;>
      · intro x hx
        simp [hx]
theorem within_arms (ctx : Nat) : ∀ (a : Arms) (all : Ctl) (always : Bool),
    Within (visitArms ctx all always a).2 a.locs
  | .noElse, _, _ => by rw [visitArms]; exact within_nil
  | .els b, _, _ => by
    rw [visitArms]
    simp only [within_append, Arms.locs]
    exact ⟨within_deadElse _ _, within_block ctx false b _⟩
  | .cons c truth body rest, all, always => by
    rw [visitArms]
    simp only [within_append, Arms.locs]
    refine ⟨(within_deadArm _ _ _).mono ?_, (within_block ctx false body _).mono ?_,
      within_if _ _ _, (within_arms ctx rest _ _).mono ?_⟩ <;>
      · intro x hx
        simp only [List.mem_cons, List.mem_append] at hx ⊢
        tauto
theorem within_cases (ctx : Nat) : ∀ (a : Cases) (all : Ctl),
    Within (visitCases ctx all a).2 a.locs
  | .noDefault, _ => by rw [visitCases]; exact within_nil
  | .dflt b, _ => by
    rw [visitCases]
    exact within_block ctx false b _
  | .cons body rest, all => by
    rw [visitCases]
    simp only [within_append, Cases.locs]
    refine ⟨(within_block ctx false body _).mono ?_, (within_cases ctx rest _).mono ?_⟩ <;>
      · intro x hx
        simp [hx]
end

/-- What the messages about `n` say is not run is not in `t`. -/
def Node.Sound (t : List Loc) : Node → Prop
  | .stmt s => ∀ ctx loc, s.Careful → s.locs.Nodup → Free (visitStmt ctx loc s).2 t
  | .block b => ∀ ctx allowed term, b.Careful → b.locs.Nodup → term.any = false →
      Free (visitBlock ctx allowed term b).2 t
  | .arms a => ∀ ctx all, a.Careful → a.locs.Nodup → Free (visitArms ctx all false a).2 t
  | .cases c => ∀ ctx all, c.Careful → c.locs.Nodup → Free (visitCases ctx all c).2 t
  | .part _ => t = []
  | .iter _ body => ∀ ctx, body.Careful → body.locs.Nodup →
      Free (visitBlock ctx false Ctl.allfalse body).2 t

theorem doWhile_quiet {ctx : Nat} {body : Block} (hb : Completes body) (hc : body.Careful) :
    (visitBlock ctx false Ctl.allfalse body).1.terminatesLoop = false := by
  obtain ⟨t', hb⟩ := hb
  have ih := flag_block ctx false body Ctl.allfalse hc rfl hb
  by_contra hh
  rw [any_of_terminatesLoop (by simpa using hh)] at ih
  cases ih

theorem range_not_empty {i o step body} (hm : MayRun i o step) (hr : RangeOk i o step body) :
    validForRange i o step ≠ some false := by
  rcases i with _ | i
  · simp [validForRange]
  rcases o with _ | o
  · simp [validForRange]
  have h0 : ¬ (i = 0 ∧ o = 0) := by
    rcases step with _ | s | _ | _ <;> exact hr.1
  rcases step with _ | s | _ | _
  · simpa [validForRange, h0, MayRun] using hm
  · simp [validForRange, h0]
  · have := hr.2.1
    simpa [validForRange, h0] using this
  · simp [validForRange, h0]

theorem range_free {ctx loc i o step body t} (hm : MayRun i o step) (hr : RangeOk i o step body)
    (h : Free (visitBlock ctx false Ctl.allfalse body).2 t) :
    Free (visitStmt ctx loc (.range i o step body)).2 t := by
  rw [visitStmt]
  have := range_not_empty hm hr
  split
  · contradiction
  · exact h
  · exact h

theorem run_sound {n t o} (h : Run n t o) : n.Sound t := by
  induction h with
  | cut n => cases n <;> simp [Node.Sound, free_nil]
  | partError p => rfl
  | partExpr => rfl
  | partRet => rfl
  | error s => intro _ _ _ _; exact free_nil
  | simple => intro _ _ _ _; exact free_nil
  | setting => intro _ _ _ _; exact free_nil
  | ret => intro _ _ _ _; exact free_nil
  | cont => intro _ _ _ _; exact free_nil
  | brk => intro _ _ _ _; exact free_nil
  | loop h ih =>
    intro ctx loc hc hn
    rw [visitStmt]
    exact (ih ctx hc hn)
  | forLoop h1 h2 ih1 ih2 =>
    intro ctx loc hc hn
    have ih1 : _ = [] := ih1
    subst ih1
    rw [visitStmt]
    simp only [free_append]
    exact ⟨(within_part _ _ _ []).free (by simp), (within_loop _ _ []).free (by simp),
      (within_part _ _ _ []).free (by simp), ih2 ctx hc hn⟩
  | forInit h1 _ ih1 =>
    intro ctx loc hc hn
    have ih1 : _ = [] := ih1
    subst ih1
    exact free_nil
  | done => intro _ _ _; exact free_nil
  | round h1 _ h2 h3 ih1 ih2 ih3 =>
    intro ctx hb hn
    have ih2 : _ = [] := ih2
    subst ih2
    exact free_app (ih1 ctx false Ctl.allfalse hb hn rfl) (ih3 ctx hb hn)
  | roundInc h1 _ h2 _ ih1 ih2 =>
    intro ctx hb hn
    have ih2 : _ = [] := ih2
    subst ih2
    exact free_app (ih1 ctx false Ctl.allfalse hb hn rfl) free_nil
  | roundBreak h1 ih1 =>
    intro ctx hb hn
    exact ih1 ctx false Ctl.allfalse hb hn rfl
  | roundPass h1 _ ih1 =>
    intro ctx hb hn
    exact ih1 ctx false Ctl.allfalse hb hn rfl
  | @doOnce body c t o1 o h hg _ ih =>
    intro ctx loc hc hn
    have hb := doWhile_quiet (ctx := ctx) (completes_of_plain hc.1 h (goesOn_cases hg)) hc.2
    simp only [Stmt.locs, List.nodup_cons] at hn
    have i1 := ih ctx false Ctl.allfalse hc.2 hn.2 rfl
    rw [visitStmt, hb]
    exact free_app i1 ((within_block ctx false body _).free (by simpa using hn.1))
  | @doAgain body c t1 o1 t2 o h hg _ ih ih2 =>
    intro ctx loc hc hn
    have hb := doWhile_quiet (ctx := ctx) (completes_of_plain hc.1 h (goesOn_cases hg)) hc.2
    have i2 := ih2 ctx loc hc hn
    simp only [Stmt.locs, List.nodup_cons] at hn
    have i1 := ih ctx false Ctl.allfalse hc.2 hn.2 rfl
    rw [visitStmt, hb] at i2 ⊢
    exact free_app i1 (free_app ((within_block ctx false body _).free (by simpa using hn.1)) i2)
  | @doBreak body c t l h ih =>
    intro ctx loc hc hn
    simp only [Stmt.locs, List.nodup_cons] at hn
    have i1 := ih ctx false Ctl.allfalse hc.2 hn.2 rfl
    have l1 := run_locs h
    rw [visitStmt]
    split
    · rw [free_append]
      refine ⟨i1, ?_⟩
      simp only [Free, List.mem_singleton, forall_eq]
      exact fun hx => hn.1 (l1 c hx)
    · exact i1
  | @doPass body c t o h _ ih =>
    intro ctx loc hc hn
    simp only [Stmt.locs, List.nodup_cons] at hn
    have i1 := ih ctx false Ctl.allfalse hc.2 hn.2 rfl
    have l1 := run_locs h
    rw [visitStmt]
    split
    · rw [free_append]
      refine ⟨i1, ?_⟩
      simp only [Free, List.mem_singleton, forall_eq]
      exact fun hx => hn.1 (l1 c hx)
    · exact i1
  | ifs h ih =>
    intro ctx loc hc hn
    rw [visitStmt]
    exact ih ctx _ hc hn
  | noElse => intro _ _ _ _; exact free_nil
  | els h ih =>
    intro ctx all hc hn
    rw [visitArms]
    refine free_append.2 ⟨?_, ih ctx false Ctl.allfalse hc hn rfl⟩
    unfold deadElse
    split
    · exact free_none
    · exact free_none
  | @take c truth body rest t o ht h ih =>
    intro ctx all hc hn
    have l1 := run_locs h
    simp only [Node.locs, Arms.locs, List.nodup_cons, List.mem_append, not_or] at hn l1
    have hd := List.disjoint_of_nodup_append hn.2
    have hn' := List.nodup_append'.1 hn.2
    rw [visitArms]
    simp only [free_append, deadArm]
    refine ⟨free_none, free_cons ((within_block ctx false body _).free (by simpa using hn.1.1))
      (ih ctx false Ctl.allfalse hc.1 hn'.1 rfl), (within_if _ _ []).free (by simp), ?_⟩
    exact free_cons ((within_arms ctx rest _ _).free (by simpa using hn.1.2))
      ((within_arms ctx rest _ _).free fun x hx hx' => hd (l1 x hx) hx')
  | @skip c truth body rest t o ht h ih =>
    intro ctx all hc hn
    have l1 := run_locs h
    simp only [Node.locs, Arms.locs, List.nodup_cons, List.mem_append, not_or] at hn l1
    have hd := List.disjoint_of_nodup_append hn.2
    have hn' := List.nodup_append'.1 hn.2
    rw [visitArms]
    have hf : (false || truth == some true) = false := by simpa using ht
    rw [hf]
    simp only [free_append, deadArm]
    refine ⟨free_none, free_cons ((within_block ctx false body _).free (by simpa using hn.1.1))
      ((within_block ctx false body _).free fun x hx hx' => hd hx' (l1 x hx)),
      (within_if _ _ []).free (by simp), ?_⟩
    exact free_cons ((within_arms ctx rest _ _).free (by simpa using hn.1.2))
      (ih ctx _ hc.2 hn'.2.1)
  | @condError c truth body rest =>
    intro ctx all hc hn
    simp only [Arms.locs, List.nodup_cons, List.mem_append, not_or] at hn
    rw [visitArms]
    simp only [free_append, deadArm]
    exact ⟨free_none, (within_block ctx false body _).free (by simpa using hn.1.1),
      (within_if _ _ []).free (by simp),
      (within_arms ctx rest _ _).free (by simpa using hn.1.2)⟩
  | rangeSkip _ => intro _ _ _ _; exact free_nil
  | rangeRun hm h hg h2 ih ih2 =>
    intro ctx loc hc hn
    exact range_free hm hc.1 (free_app (ih ctx false Ctl.allfalse hc.2 hn rfl)
      (ih2 ctx hc.2 hn))
  | rangeBreak hm h ih =>
    intro ctx loc hc hn
    exact range_free hm hc.1 (ih ctx false Ctl.allfalse hc.2 hn rfl)
  | rangePass hm h _ ih =>
    intro ctx loc hc hn
    exact range_free hm hc.1 (ih ctx false Ctl.allfalse hc.2 hn rfl)
  | spawn h ih =>
    intro ctx loc hc hn
    rw [visitStmt]
    exact ih _ false Ctl.allfalse hc hn rfl
  | switch h ih =>
    intro ctx loc hc hn
    rw [visitStmt]
    exact ih ctx _ hc hn
  | noDefault => intro _ _ _ _; exact free_nil
  | dflt h ih =>
    intro ctx all hc hn
    rw [visitCases]
    exact ih ctx false Ctl.allfalse hc hn rfl
  | @case body rest t o h ih =>
    intro ctx all hc hn
    have l1 := run_locs h
    simp only [Node.locs, Cases.locs] at hn l1
    have hd := List.disjoint_of_nodup_append hn
    have hn' := List.nodup_append'.1 hn
    rw [visitCases]
    simp only [free_append]
    exact ⟨ih ctx false Ctl.allfalse hc.1 hn'.1 rfl,
      (within_cases ctx rest _).free fun x hx hx' => hd (l1 x hx) hx'⟩
  | @otherCase body rest t o h ih =>
    intro ctx all hc hn
    have l1 := run_locs h
    simp only [Node.locs, Cases.locs] at hn l1
    have hd := List.disjoint_of_nodup_append hn
    have hn' := List.nodup_append'.1 hn
    rw [visitCases]
    simp only [free_append]
    exact ⟨(within_block ctx false body _).free fun x hx hx' => hd hx' (l1 x hx),
      ih ctx _ hc.2 hn'.2.1⟩
  | @«try» body handler t o h _ ih =>
    intro ctx loc hc hn
    have l1 := run_locs h
    simp only [Node.locs, Stmt.locs] at hn l1
    have hd := List.disjoint_of_nodup_append hn
    have hn' := List.nodup_append'.1 hn
    rw [visitStmt]
    simp only [free_append]
    exact ⟨ih ctx false Ctl.allfalse hc.1 hn'.1 rfl,
      (within_block ctx false handler _).free fun x hx hx' => hd (l1 x hx) hx'⟩
  | @«catch» body handler t1 t2 o h1 h2 ih1 ih2 =>
    intro ctx loc hc hn
    have l1 := run_locs h1
    have l2 := run_locs h2
    simp only [Node.locs, Stmt.locs] at hn l1 l2
    have hd := List.disjoint_of_nodup_append hn
    have hn' := List.nodup_append'.1 hn
    rw [visitStmt]
    simp only [free_append]
    exact ⟨free_app (ih1 ctx false Ctl.allfalse hc.1 hn'.1 rfl)
        ((within_block ctx false body _).free fun x hx hx' => hd hx' (l2 x hx)),
      free_app ((within_block ctx false handler _).free fun x hx hx' => hd (l1 x hx) hx')
        (ih2 ctx false Ctl.allfalse hc.2 hn'.2.1 rfl)⟩
  | label h ih =>
    intro ctx loc hc hn
    rw [visitStmt]
    exact ih ctx false Ctl.allfalse hc hn rfl
  | labelLeave h _ ih =>
    intro ctx loc hc hn
    rw [visitStmt]
    exact ih ctx false Ctl.allfalse hc hn rfl
  | nil => intro _ _ _ _ _ _; exact free_nil
  | @seq loc s rest t1 t2 o h1 h2 ih1 ih2 =>
    intro ctx allowed term hc hn ht
    have l1 := run_locs h1
    have l2 := run_locs h2
    simp only [Node.locs, Block.locs, List.nodup_cons, List.mem_append, not_or] at hn l1 l2
    have hd := List.disjoint_of_nodup_append hn.2
    have hn' := List.nodup_append'.1 hn.2
    rw [visitBlock, not_terminates ht]
    simp only [Bool.false_eq_true, if_false, free_append]
    refine ⟨(within_setting _ _ _ []).free (by simp), free_cons ?_ (free_app ?_ ?_),
      free_cons ?_ (free_app ?_ ?_)⟩
    · exact (within_stmt ctx loc s).free (by simpa using hn.1.1)
    · exact ih1 ctx loc hc.1 hn'.1
    · exact (within_stmt ctx loc s).free fun x hx hx' => hd hx' (l2 x hx)
    · exact (within_block ctx _ rest _).free (by simpa using hn.1.2)
    · exact (within_block ctx _ rest _).free fun x hx hx' => hd (l1 x hx) hx'
    · exact ih2 ctx _ _ hc.2 hn'.2.1 (merge_any ht (flag_stmt ctx loc s hc.1 h1))
  | @seqStop loc s rest t1 o h1 _ ih1 =>
    intro ctx allowed term hc hn ht
    have l1 := run_locs h1
    simp only [Node.locs, Block.locs, List.nodup_cons, List.mem_append, not_or] at hn l1
    have hd := List.disjoint_of_nodup_append hn.2
    have hn' := List.nodup_append'.1 hn.2
    rw [visitBlock, not_terminates ht]
    simp only [Bool.false_eq_true, if_false, free_append]
    refine ⟨(within_setting _ _ _ []).free (by simp), free_cons ?_ ?_, free_cons ?_ ?_⟩
    · exact (within_stmt ctx loc s).free (by simpa using hn.1.1)
    · exact ih1 ctx loc hc.1 hn'.1
    · exact (within_block ctx _ rest _).free (by simpa using hn.1.2)
    · exact (within_block ctx _ rest _).free fun x hx hx' => hd (l1 x hx) hx'

end Verif.Flow
