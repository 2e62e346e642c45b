import Verif.Parse.Total

/-! # More fuel does not change the result -/

namespace Verif.Parse

/-- `a` ran out of fuel, or `b` is the same -/
def Sub {α : Type} (a b : R α) : Prop := a = .error .fuel ∨ b = a

theorem Sub.rfl {α : Type} {a : R α} : Sub a a := Or.inr _root_.rfl

theorem mono (n : Nat) :
    (∀ st, Sub (term n st) (term (n + 1) st)) ∧
    (∀ st, Sub (follows n st) (follows (n + 1) st)) ∧
    (∀ st, Sub (group n st) (group (n + 1) st)) ∧
    (∀ lim st, Sub (exprEx n lim st) (exprEx (n + 1) lim st)) ∧
    (∀ lim e st, Sub (exLoop n lim e st) (exLoop (n + 1) lim e st)) ∧
    (∀ lhs p st, Sub (part n lhs p st) (part (n + 1) lhs p st)) ∧
    (∀ prev bits ops rhs st, Sub (partLoop n prev bits ops rhs st) (partLoop (n + 1) prev bits ops rhs st)) ∧
    (∀ conds r st, Sub (ternLoop n conds r st) (ternLoop (n + 1) conds r st)) := by
  induction n with
  | zero =>
    refine ⟨?_, ?_, ?_, ?_, ?_, ?_, ?_, ?_⟩ <;> intros <;> left
    · unfold term; rfl
    · unfold follows; rfl
    · unfold group; rfl
    · unfold exprEx; rfl
    · unfold exLoop; rfl
    · unfold part; rfl
    · unfold partLoop; rfl
    · unfold ternLoop; rfl
  | succ n ih =>
    obtain ⟨hterm, hfol, hgrp, hex, hloop, hpart, hploop, htern⟩ := ih
    refine ⟨?_, ?_, ?_, ?_, ?_, ?_, ?_, ?_⟩
    · intro st
      rw [term, term]
      split
      · exact .rfl
      · exact .rfl
      · exact .rfl
      · rename_i r _ _
        rcases hex 13 ⟨r, st.warned⟩ with h | h
        · left; rw [h]
        · right; rw [h]
      · exact .rfl
    · intro st
      rw [follows, follows]
      split
      · rename_i r _
        rcases hfol ⟨r, st.warned⟩ with h | h
        · left; rw [h]
        · right; rw [h]
      · rename_i r _
        rcases hfol ⟨r, st.warned⟩ with h | h
        · left; rw [h]
        · right; rw [h]
      · rename_i r _
        rcases hex 13 ⟨r, st.warned⟩ with h | h
        · left; rw [h]
        · rw [h]
          split
          · exact .rfl
          · exact .rfl
          · rename_i st' _
            split
            · rename_i r' _
              rcases hfol ⟨r', st'.warned⟩ with h | h
              · left; rw [h]
              · right; rw [h]
            · exact .rfl
      · exact .rfl
    · intro st
      rw [group, group]
      rcases hterm ⟨(prefixes st.toks).2, st.warned⟩ with h | h
      · left; rw [h]
      · rw [h]
        split
        · exact .rfl
        · exact .rfl
        · rename_i st' _
          rcases hfol st' with h | h
          · left; rw [h]
          · right; rw [h]
    · intro lim st
      rw [exprEx, exprEx]
      rcases hgrp st with h | h
      · left; rw [h]
      · rw [h]
        split
        · exact .rfl
        · exact .rfl
        · rename_i e st' _
          rcases hloop lim e st' with h | h
          · left; rw [h]
          · right; rw [h]
    · intro lim e st
      rw [exLoop, exLoop]
      split
      · rename_i p r _
        split
        · exact .rfl
        · rcases hpart e p ⟨r, st.warned⟩ with h | h
          · left; rw [h]
          · rw [h]
            split
            · exact .rfl
            · exact hloop _ _ _
      · exact .rfl
    · intro lhs p st
      rw [part, part]
      rcases hgrp st with h | h
      · left; rw [h]
      · rw [h]
        split
        · exact .rfl
        · exact .rfl
        · rename_i rhs st1 _
          rcases hploop p [lhs] [p.oper] rhs st1 with h | h
          · left; rw [h]
          · rw [h]
            split
            · exact .rfl
            · rename_i bits ops rhs' st2 _
              split
              · split
                · rename_i r _
                  rcases hex 13 ⟨r, st2.warned⟩ with h | h
                  · left; rw [h]
                  · right; rw [h]
                · exact .rfl
              · split
                · exact htern _ _ _
                · exact .rfl
    · intro prev bits ops rhs st
      rw [partLoop, partLoop]
      split
      · rename_i p r _
        split
        · rcases hpart rhs p ⟨r, st.warned⟩ with h | h
          · left; rw [h]
          · rw [h]
            split
            · exact .rfl
            · exact hploop _ _ _ _ _
        · split
          · exact .rfl
          · rcases hgrp ⟨r, st.warned⟩ with h | h
            · left; rw [h]
            · rw [h]
              split
              · exact .rfl
              · exact .rfl
              · exact hploop _ _ _ _ _
      · exact .rfl
    · intro conds r st
      cases conds with
      | nil => right; rw [ternLoop, ternLoop]
      | cons c cs =>
        rw [ternLoop, ternLoop]
        split
        · rename_i r' _
          rcases hex 11 ⟨r', st.warned⟩ with h | h
          · left; rw [h]
          · rw [h]
            split
            · exact .rfl
            · exact htern _ _ _
            · exact htern _ _ _
        · exact .rfl

/-- if there is enough fuel then more fuel does not matter -/
theorem exprEx_more (n m lim : Nat) (st : St) (h : n ≤ m) (hn : exprEx n lim st ≠ .error .fuel) :
    exprEx m lim st = exprEx n lim st := by
  induction m with
  | zero =>
    have : n = 0 := by omega
    subst this; rfl
  | succ m ih =>
    rcases Nat.eq_or_lt_of_le h with rfl | h'
    · rfl
    · have h1 := ih (by omega)
      rcases (mono m).2.2.2.1 lim st with h2 | h2
      · rw [h1] at h2; exact absurd h2 hn
      · rw [h2, h1]

end Verif.Parse
