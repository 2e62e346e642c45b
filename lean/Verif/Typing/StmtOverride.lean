import Verif.Typing.StmtProps

/-!
# What is said about a proc as an override (C81)
-/

namespace Verif.Typing

/-- `..()` stands somewhere in the body where the checker looks. -/
def CallsParent (w : Walk) (ps : List Param) (b : Block) : Prop :=
  ∃ v : Env, (∀ x a, v x = some a ↔ Begins w ps x a) ∧ ∃ v' n' l' s, Stands w v 0 b v' n' l' s ∧
    ∃ v'' n'' l'' h e, Looks w v' n' l' s v'' n'' l'' h e ∧
      ∃ k h' es, At (w.inside v'' n'') l'' h e (.term k h' (.parentCall es))

/-- What is due about a proc that has a parent. -/
inductive OverrideDue (w : Walk) (r : Rules) (calls : Prop) (parent : Proc) : PMsg → Prop
  | hidden {p : Proc} : w.privateBy w.proc = some p → p ≠ w.proc → OverrideDue w r calls parent (.overridesPrivate p)
  | final {p : Proc} : r.notOverride w.proc = some p → p ≠ w.proc → OverrideDue w r calls parent (.overridesFinal p)
  | callsParent : calls → r.notCallParent w.proc ≠ some false → r.notCallParent parent = some true →
      OverrideDue w r calls parent (.callsParent parent)
  | noParentCall {p : Proc} : ¬ calls → r.callParent w.proc = some p → OverrideDue w r calls parent (.noParentCall p)
  | redefines : (w.tree.info parent).builtin = false → parent.ty = w.proc.ty → r.redefinable w.proc = false →
      OverrideDue w r calls parent .redefines

theorem due_parent {c : Ctx} {s : Site} (h : Due c s .callsParent) : ∃ k h' es, s = .term k h' (.parentCall es) := by
  generalize he : Effect.callsParent = eff at h
  cases h with
  | callsParent => exact ⟨_, _, _, rfl⟩
  | call _ h => subst he; cases h
  | _ => cases he

/-- The walk notes a call of the parent exactly if there is one where it looks. -/
theorem callsParent_iff (w : Walk) (ps : List Param) (b : Block) :
    (w.body ps b).any callsParentEv = true ↔ CallsParent w ps b := by
  rw [List.any_eq_true]
  constructor
  · rintro ⟨⟨l, m⟩, h1, h2⟩
    have hm : m = .expr .callsParent := by
      unfold callsParentEv at h2
      split at h2
      · rename_i he; cases he; rfl
      · cases h2
    subst hm
    rcases (body_reports w ps b l _).1 h1 with ⟨p, _, _, q, _, h⟩ | ⟨v, hv, v', n', l', s, hs, ho⟩
    · cases h
    · generalize hm : SMsg.expr Effect.callsParent = m at ho
      cases ho with
      | expr h3 h4 h5 =>
        cases hm
        obtain ⟨k, h', es, rfl⟩ := due_parent h5
        exact ⟨v, hv, v', n', l', s, hs, _, _, _, _, _, h3, k, h', es, h4⟩
      | @iterates _ a _ _ _ h3 => subst hm; generalize a.st = st at h3; cases h3
      | _ => cases hm
  · rintro ⟨v, hv, v', n', l', s, hs, v'', n'', l'', h, e, hl, k, h', es, ha⟩
    exact ⟨(k, .expr .callsParent), (body_reports w ps b k _).2 (.inr ⟨v, hv, v', n', l', s, hs, .expr hl ha .callsParent⟩), rfl⟩

/-- **C81**: what is said about a proc as an override, exactly: only of a proc with a parent, and what `OverrideDue` lists. -/
theorem run_override (w : Walk) (r : Rules) (ps : List Param) (b : Block) (m : PMsg) :
    m ∈ (w.run r ps b).2 ↔ ∃ parent, ParentOf w.tree w.proc parent ∧ OverrideDue w r (CallsParent w ps b) parent m := by
  unfold Walk.run Walk.overrideCheck
  simp only
  generalize hc : (w.body ps b).any callsParentEv = calls
  have hcp := callsParent_iff w ps b
  rw [hc] at hcp
  cases hp : w.tree.parentProc w.proc with
  | none =>
    simp only [List.not_mem_nil, false_iff]
    rintro ⟨q, h, _⟩
    rw [(parentProc_iff w.proc q).2 h] at hp
    cases hp
  | some parent =>
    have huniq : ∀ q, ParentOf w.tree w.proc q ↔ q = parent := fun q => by
      rw [← parentProc_iff, hp, Option.some.injEq, eq_comm]
    simp only [huniq, exists_eq_left, List.mem_append]
    constructor
    · rintro (((h | h) | h) | h)
      · cases h1 : w.privateBy w.proc with
        | none => rw [h1] at h; cases h
        | some p =>
          rw [h1] at h
          simp only at h
          split at h
          · rename_i h2; cases List.mem_singleton.1 h; exact .hidden h1 h2
          · cases h
      · cases h1 : r.notOverride w.proc with
        | none => rw [h1] at h; cases h
        | some p =>
          rw [h1] at h
          simp only at h
          split at h
          · rename_i h2; cases List.mem_singleton.1 h; exact .final h1 h2
          · cases h
      · cases calls with
        | true =>
          rw [if_pos rfl] at h
          split at h
          · rename_i h2; cases List.mem_singleton.1 h; exact .callsParent (hcp.1 rfl) h2.1 h2.2
          · cases h
        | false =>
          rw [if_neg (by simp)] at h
          cases h1 : r.callParent w.proc with
          | none => rw [h1] at h; cases h
          | some p =>
            rw [h1] at h
            cases List.mem_singleton.1 h
            exact .noParentCall (fun hx => by cases hcp.2 hx) h1
      · split at h
        · rename_i h2
          cases List.mem_singleton.1 h
          exact .redefines (by simpa using h2.1) h2.2.1.symm (by simpa using h2.2.2)
        · cases h
    · intro h
      cases h with
      | hidden h1 h2 => exact .inl (.inl (.inl (by rw [h1]; simp [h2])))
      | final h1 h2 => exact .inl (.inl (.inr (by rw [h1]; simp [h2])))
      | callsParent h1 h2 h3 => exact .inl (.inr (by rw [hcp.2 h1, if_pos rfl, if_pos ⟨h2, h3⟩]; exact List.mem_singleton.2 rfl))
      | noParentCall h1 h2 =>
        refine .inl (.inr ?_)
        cases calls with
        | true => exact absurd (hcp.1 rfl) h1
        | false => rw [if_neg (by simp), h2]; exact List.mem_singleton.2 rfl
      | redefines h1 h2 h3 =>
        refine .inr ?_
        rw [if_pos (by simp [h1, h2, h3])]
        exact List.mem_singleton.2 rfl

end Verif.Typing
