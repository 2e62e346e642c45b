import Verif.Objtree.Regs

/-!
# C50: symbol ids are distinct
-/

namespace Verif.Objtree

variable {V P : Type}

/-- what can have a symbol id: a type, a variable declaration, a proc declaration -/
inductive Symbol where
  | type (i : Nat)
  | var (i : Nat) (name : Ident)
  | proc (i : Nat) (name : Ident)
deriving DecidableEq

/-- its symbol id, if it exists -/
def Tree.idOf (t : Tree V P) : Symbol → Option Nat
  | .type i => (t.graph[i]?).map Node.id
  | .var i name => t.ownVarDecl name i
  | .proc i name => t.ownProcDecl name i

/-- distinct, and all handed out -/
structure IdsOK (b : Builder V P) : Prop where
  lt : ∀ s x, b.inner.idOf s = some x → x < b.next
  inj : ∀ s s' x, b.inner.idOf s = some x → b.inner.idOf s' = some x → s = s'

theorem ids_step {b b' : Builder V P} (h : IdsOK b) (s0 : Symbol) (hn : b.next ≤ b'.next)
    (hs : ∀ s, b'.inner.idOf s = b.inner.idOf s
      ∨ (s = s0 ∧ b'.inner.idOf s = some b.next ∧ b'.next = b.next + 1)) : IdsOK b' := by
  constructor
  · intro s x hx
    rcases hs s with e | ⟨_, e, e'⟩
    · rw [e] at hx
      have := h.lt s x hx
      omega
    · rw [e] at hx
      cases hx
      omega
  · intro s s' x hx hx'
    rcases hs s with e | ⟨e0, e, _⟩ <;> rcases hs s' with f | ⟨f0, f, _⟩
    · rw [e] at hx
      rw [f] at hx'
      exact h.inj s s' x hx hx'
    · rw [e] at hx
      rw [f] at hx'
      cases hx'
      have := h.lt s _ hx
      omega
    · rw [e] at hx
      rw [f] at hx'
      cases hx
      have := h.lt s' _ hx'
      omega
    · rw [e0, f0]

theorem idOf_modify (t : Tree V P) (k : Nat) (f : Node V P → Node V P) (hid : ∀ n, (f n).id = n.id) (s : Symbol) :
    (t.modify k f).idOf s = match s with
      | .type i => t.idOf (.type i)
      | .var i name => (t.graph[i]?).bind fun n => (mget name (if k = i then f n else n).vars).bind TypeVar.decl
      | .proc i name => (t.graph[i]?).bind fun n => (mget name (if k = i then f n else n).procs).bind TypeProc.decl := by
  cases s with
  | type i =>
    simp only [Tree.idOf, Tree.modify, List.getElem?_modify]
    cases t.graph[i]? with
    | none => rfl
    | some n => by_cases hk : k = i <;> simp [hk, hid]
  | var i name =>
    simp only [Tree.idOf, Tree.ownVarDecl, Tree.modify, List.getElem?_modify]
    cases t.graph[i]? with
    | none => rfl
    | some n => rfl
  | proc i name =>
    simp only [Tree.idOf, Tree.ownProcDecl, Tree.modify, List.getElem?_modify]
    cases t.graph[i]? with
    | none => rfl
    | some n => rfl

theorem step_ids {b b' : Builder V P} {o : Op V P} (hb : IdsOK b) (h : b.step o = some b') : IdsOK b' := by
  cases o with
  | subtype p c =>
    unfold Builder.step at h
    obtain ⟨⟨b2, j⟩, h1, rfl⟩ := Option.map_eq_some_iff.1 h
    obtain ⟨q, hq, ⟨_, rfl⟩ | ⟨_, hj, hnx, hr, hg, _⟩⟩ := subtype_cases h1
    · exact hb
    · refine ids_step hb (.type b.inner.graph.length) (by simp only; omega) ?_
      -- nodes of the new tree
      have hget : ∀ (i : Nat), i < b.inner.graph.length → ∃ n n', b.inner.graph[i]? = some n ∧ b2.inner.graph[i]? = some n'
          ∧ n'.id = n.id ∧ n'.vars = n.vars ∧ n'.procs = n.procs := by
        intro i hi
        rw [hg, List.getElem?_modify, List.getElem?_append_left hi, List.getElem?_eq_getElem hi]
        refine ⟨_, _, rfl, rfl, ?_⟩
        split <;> exact ⟨rfl, rfl, rfl⟩
      have hlen : b2.inner.graph.length = b.inner.graph.length + 1 := by rw [hg]; simp
      have hnew : ∃ n, b2.inner.graph[b.inner.graph.length]? = some n ∧ n.id = b.next ∧ n.vars = [] ∧ n.procs = [] := by
        have hp : p ≠ b.inner.graph.length := by
          have := (List.getElem?_eq_some_iff.1 hq).1
          omega
        rw [hg, List.getElem?_modify, List.getElem?_append_right (Nat.le_refl _)]
        exact ⟨_, by simp [hp]; rfl, rfl, rfl, rfl⟩
      have hother : ∀ (i : Nat), b.inner.graph.length < i → b2.inner.graph[i]? = none ∧ b.inner.graph[i]? = none :=
        fun i hi => ⟨List.getElem?_eq_none (by omega), List.getElem?_eq_none (by omega)⟩
      obtain ⟨nn, hn1, hn2, hn3, hn4⟩ := hnew
      have hold : b.inner.graph[b.inner.graph.length]? = none := List.getElem?_eq_none (Nat.le_refl _)
      intro s
      cases s with
      | type i =>
        simp only [Tree.idOf]
        rcases Nat.lt_trichotomy i b.inner.graph.length with hi | hi | hi
        · obtain ⟨n, n', e1, e2, e3, _⟩ := hget i hi
          left; rw [e1, e2]; simp [e3]
        · subst hi
          right
          rw [hn1]
          exact ⟨rfl, by simp [hn2], hnx⟩
        · obtain ⟨e1, e2⟩ := hother i hi
          left; rw [e1, e2]
      | var i name =>
        left
        simp only [Tree.idOf, Tree.ownVarDecl]
        rcases Nat.lt_trichotomy i b.inner.graph.length with hi | hi | hi
        · obtain ⟨n, n', e1, e2, _, e4, _⟩ := hget i hi
          rw [e1, e2]; simp [e4]
        · subst hi
          rw [hn1, hold]
          simp [hn3, mget]
        · obtain ⟨e1, e2⟩ := hother i hi
          rw [e1, e2]
      | proc i name =>
        left
        simp only [Tree.idOf, Tree.ownProcDecl]
        rcases Nat.lt_trichotomy i b.inner.graph.length with hi | hi | hi
        · obtain ⟨n, n', e1, e2, _, _, e5⟩ := hget i hi
          rw [e1, e2]; simp [e5]
        · subst hi
          rw [hn1, hold]
          simp [hn4, mget]
        · obtain ⟨e1, e2⟩ := hother i hi
          rw [e1, e2]
  | declareVar ty nm v =>
    simp only [Builder.step, Builder.declareVar] at h
    split at h
    · rename_i hlt
      cases h
      refine ids_step hb (.var ty nm) (Nat.le_succ _) ?_
      intro s
      simp only
      rw [idOf_modify _ _ _ (by intro n; unfold insertVar; split <;> rfl)]
      cases s with
      | type i => exact .inl rfl
      | proc i name =>
        left
        simp only [Tree.idOf, Tree.ownProcDecl]
        congr 1
        funext n
        split
        · rw [(insertVar_other _ _ _ _).2]
        · rfl
      | var i name =>
        simp only [Tree.idOf, Tree.ownVarDecl]
        by_cases hi : ty = i
        · subst hi
          have hn := List.getElem?_eq_getElem hlt
          rw [hn]
          simp only [if_true, Option.bind_some]
          have hv : (insertVar nm v (some b.next) (b.inner.graph[ty]'hlt)).vars
              = iset nm ⟨v, some b.next⟩ (b.inner.graph[ty]'hlt).vars := by
            unfold insertVar
            split <;> rfl
          rw [hv, mget_iset]
          by_cases hnm : name = nm
          · right; subst hnm; exact ⟨rfl, by simp⟩
          · left; rw [if_neg hnm]
        · left; simp [hi]
    · cases h
  | overrideVar ty nm v =>
    simp only [Builder.step, Builder.overrideVar] at h
    split at h
    · rename_i hlt
      cases h
      refine ids_step hb (.var ty nm) (Nat.le_refl _) ?_
      intro s
      left
      simp only
      rw [idOf_modify _ _ _ (by intro n; unfold insertVar; split <;> rfl)]
      cases s with
      | type i => rfl
      | proc i name =>
        simp only [Tree.idOf, Tree.ownProcDecl]
        congr 1
        funext n
        split
        · rw [(insertVar_other _ _ _ _).2]
        · rfl
      | var i name =>
        simp only [Tree.idOf, Tree.ownVarDecl]
        congr 1
        funext n
        split
        · unfold insertVar
          cases hm : mget nm n.vars with
          | none =>
            simp only [mget_iset]
            by_cases hnm : name = nm
            · subst hnm; simp [hm]
            · rw [if_neg hnm]
          | some tv =>
            simp only [mget_iset]
            by_cases hnm : name = nm
            · subst hnm; simp [hm]
            · rw [if_neg hnm]
        · rfl
    · cases h
  | registerVar ty nm v d =>
    simp only [Builder.step, Builder.registerVar] at h
    split at h
    · cases h
    · rename_i n0 hn0
      split at h
      · cases h; exact hb
      · rename_i hnone
        split at h
        · cases h
          refine ids_step hb (.var ty nm) (Nat.le_succ _) ?_
          intro s
          simp only
          rw [idOf_modify]
          · cases s with
            | type i => exact .inl rfl
            | proc i name =>
              left
              simp only [Tree.idOf, Tree.ownProcDecl]
              congr 1
              funext n
              split <;> rfl
            | var i name =>
              simp only [Tree.idOf, Tree.ownVarDecl]
              by_cases hi : ty = i
              · subst hi
                rw [hn0]
                simp only [if_true, Option.bind_some, mget_iset]
                by_cases hnm : name = nm
                · right; subst hnm; exact ⟨rfl, by simp⟩
                · left; rw [if_neg hnm]
              · left; simp [hi]
          · intro n; rfl
        · cases h
          refine ids_step hb (.var ty nm) (Nat.le_refl _) ?_
          intro s
          left
          simp only
          rw [idOf_modify]
          · cases s with
            | type i => rfl
            | proc i name =>
              simp only [Tree.idOf, Tree.ownProcDecl]
              congr 1
              funext n
              split <;> rfl
            | var i name =>
              simp only [Tree.idOf, Tree.ownVarDecl]
              by_cases hi : ty = i
              · subst hi
                rw [hn0]
                simp only [if_true, Option.bind_some, mget_iset]
                by_cases hnm : name = nm
                · subst hnm; simp [hnone]
                · rw [if_neg hnm]
              · simp [hi]
          · intro n; rfl
  | registerProc ty nm d v =>
    simp only [Builder.step, Builder.registerProc] at h
    split at h
    · cases h
    · rename_i n0 hn0
      cases h
      refine ids_step hb (.proc ty nm) (by simp only; split <;> omega) ?_
      intro s
      simp only
      rw [idOf_modify]
      · cases s with
        | type i => exact .inl rfl
        | var i name =>
          left
          simp only [Tree.idOf, Tree.ownVarDecl]
          congr 1
          funext n
          split <;> rfl
        | proc i name =>
          simp only [Tree.idOf, Tree.ownProcDecl]
          by_cases hi : ty = i
          · subst hi
            rw [hn0]
            simp only [if_true, Option.bind_some, mget_iset]
            by_cases hnm : name = nm
            · subst hnm
              simp only [if_true, Option.bind_some, addProcValue]
              cases hm : mget name n0.procs with
              | none =>
                cases d with
                | true => right; simp
                | false => left; simp
              | some tp =>
                cases d with
                | false => left; simp
                | true =>
                  cases htd : tp.decl with
                  | none => right; simp [htd]
                  | some x => left; simp [htd]
            · left; rw [if_neg hnm]
          · left; simp [hi]
      · intro n; rfl

/-- **C50**: after any registrations, no two types, variable declarations or proc declarations share a symbol
id. -/
theorem ids_distinct {b : Builder V P} (h : Built b) (s s' : Symbol) (x : Nat) (hs : b.inner.idOf s = some x)
    (hs' : b.inner.idOf s' = some x) : s = s' := by
  obtain ⟨ops, _, hr⟩ := h
  have key : ∀ (ops : List (Op V P)) (b b' : Builder V P), IdsOK b → b.run ops = some b' → IdsOK b' := by
    intro ops
    induction ops with
    | nil => intro b b' hb h; cases h; exact hb
    | cons o os ih =>
      intro b b' hb h
      unfold Builder.run at h
      obtain ⟨b1, h1, h2⟩ := Option.bind_eq_some_iff.1 h
      exact ih b1 b' (step_ids hb h1) h2
  refine (key ops _ _ ?_ hr).inj s s' x hs hs'
  have hid : ∀ s x, (Builder.init : Builder V P).inner.idOf s = some x → s = .type 0 ∧ x = 0 := by
    intro s x hx
    cases s with
    | type i =>
      cases i with
      | zero => simp [Tree.idOf, Builder.init] at hx; exact ⟨rfl, hx.symm⟩
      | succ i => simp [Tree.idOf, Builder.init] at hx
    | var i name =>
      cases i with
      | zero => simp [Tree.idOf, Tree.ownVarDecl, Builder.init, mget] at hx
      | succ i => simp [Tree.idOf, Tree.ownVarDecl, Builder.init] at hx
    | proc i name =>
      cases i with
      | zero => simp [Tree.idOf, Tree.ownProcDecl, Builder.init, mget] at hx
      | succ i => simp [Tree.idOf, Tree.ownProcDecl, Builder.init] at hx
  constructor
  · intro s x hx
    rw [(hid s x hx).2]
    exact Nat.one_pos
  · intro s s' x hx hx'
    rw [(hid s x hx).1, (hid s' x hx').1]

end Verif.Objtree
