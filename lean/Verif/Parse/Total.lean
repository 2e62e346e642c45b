import Verif.Parse.Spec

/-! # The expression parser always ends, and never panics -/

namespace Verif.Parse

theorem prefixes_length (ts : List Tok) : (prefixes ts).1.length + (prefixes ts).2.length = ts.length := by
  induction ts with
  | nil => rfl
  | cons t ts ih =>
    unfold prefixes
    cases prefixOp t with
    | none => simp
    | some o =>
      simp only [List.length_cons]
      omega

/-- the result is an error of syntax, or fewer tokens than `len` are left -/
def Ok1 {α : Type} (len : Nat) (r : R α) : Prop :=
  (∀ e, r = .error e → e = .syntax) ∧ ∀ a st, r = .ok (a, st) → st.toks.length ≤ len

/-- the same for an optional result: if there is one, tokens were used -/
def Ok2 {α : Type} (len : Nat) (r : R (Option α)) : Prop :=
  (∀ e, r = .error e → e = .syntax) ∧
    ∀ o st, r = .ok (o, st) → st.toks.length ≤ len ∧ (o.isSome → st.toks.length < len)

theorem ok1_syntax {α : Type} (len : Nat) : Ok1 (α := α) len (.error .syntax) :=
  ⟨fun e h => (by cases h; rfl), fun a st h => by cases h⟩
theorem ok2_syntax {α : Type} (len : Nat) : Ok2 (α := α) len (.error .syntax) :=
  ⟨fun e h => (by cases h; rfl), fun a st h => by cases h⟩
theorem ok1_ok {α : Type} {len : Nat} {a : α} {st : St} (h : st.toks.length ≤ len) : Ok1 len (.ok (a, st)) :=
  ⟨fun e h => (by cases h), fun a' st' h' => by cases h'; exact h⟩
theorem ok2_some {α : Type} {len : Nat} {a : α} {st : St} (h : st.toks.length < len) : Ok2 len (.ok (some a, st)) :=
  ⟨fun e h => (by cases h), fun a' st' h' => by cases h'; exact ⟨by omega, fun _ => h⟩⟩
theorem ok2_none {α : Type} {len : Nat} {st : St} (h : st.toks.length ≤ len) : Ok2 (α := α) len (.ok (none, st)) :=
  ⟨fun e h => (by cases h), fun a' st' h' => by cases h'; exact ⟨h, fun hx => by cases hx⟩⟩

/-- the operands and operators gathered by `partLoop` fit together -/
def Gathered (prev : Punct) (bits : List Expr) (ops : List Op) : Prop :=
  bits.length = ops.length ∧ bits ≠ [] ∧ ∀ o ∈ ops, ∃ p : Punct, p.strength = prev.strength ∧ o = p.oper

def Ok3 (prev : Punct) (len : Nat) (r : R (List Expr × List Op × Expr)) : Prop :=
  (∀ e, r = .error e → e = .syntax) ∧
    ∀ a st, r = .ok (a, st) → st.toks.length ≤ len ∧ Gathered prev a.1 a.2.1

theorem oper_build (p : Punct) (h : p.strength ≠ 11) (a b : Expr) : ∃ e, p.oper.build a b = .ok e := by
  cases p <;> first | exact ⟨_, rfl⟩ | exact absurd rfl h

theorem buildLeft_ok (s : Nat) (hs : s ≠ 11) (bits : List Expr) (ops : List Op) (acc rhs : Expr)
    (hl : ops.length = bits.length + 1) (ho : ∀ o ∈ ops, ∃ p : Punct, p.strength = s ∧ o = p.oper) :
    ∃ e, buildLeft acc bits ops rhs = .ok e := by
  induction bits generalizing acc ops with
  | nil =>
    cases ops with
    | nil => simp at hl
    | cons o os =>
      obtain ⟨p, hp, rfl⟩ := ho o (by simp)
      unfold buildLeft
      exact oper_build p (by omega) _ _
  | cons b bs ih =>
    cases ops with
    | nil => simp at hl
    | cons o os =>
      obtain ⟨p, hp, rfl⟩ := ho o (by simp)
      obtain ⟨e, he⟩ := oper_build p (by omega) acc b
      unfold buildLeft
      rw [he]
      exact ih os e (by simpa using hl) (fun o ho' => ho o (by simp [ho']))

theorem buildRight_ok (s : Nat) (hs : s ≠ 11) (l : List (Op × Expr)) (rhs : Expr)
    (ho : ∀ x ∈ l, ∃ p : Punct, p.strength = s ∧ x.1 = p.oper) : ∃ e, buildRight l rhs = .ok e := by
  induction l with
  | nil => exact ⟨rhs, rfl⟩
  | cons x l ih =>
    obtain ⟨e, he⟩ := ih (fun y hy => ho y (by simp [hy]))
    obtain ⟨p, hp, hx⟩ := ho x (by simp)
    obtain ⟨o, b⟩ := x
    simp only at hx
    subst hx
    unfold buildRight
    rw [he]
    exact oper_build p (by omega) _ _

theorem build_ok (prev : Punct) (h : prev.strength ≠ 11) (bits : List Expr) (ops : List Op) (rhs : Expr)
    (hg : Gathered prev bits ops) : ∃ e, build prev.strength bits ops rhs = .ok e := by
  unfold build
  obtain ⟨h1, h2, h3⟩ := hg
  by_cases hr : rightBinding prev.strength = true
  · rw [if_pos hr]
    exact buildRight_ok prev.strength h _ _ fun x hx => h3 x.1 (List.of_mem_zip hx).1
  · rw [if_neg hr]
    cases bits with
    | nil => exact absurd rfl h2
    | cons b bs =>
      exact buildLeft_ok prev.strength h bs ops b rhs (by simpa using h1.symm) h3

theorem withSt_ok1 {len : Nat} {st : St} (h : st.toks.length ≤ len) {r : Except PErr Expr} (hr : ∃ e, r = .ok e) :
    Ok1 len (withSt st r) := by
  obtain ⟨e, rfl⟩ := hr
  exact ok1_ok h

/-- with the right amount of fuel, every function of the parser ends properly -/
theorem total (n : Nat) :
    (∀ st, 8 * st.toks.length + 2 ≤ n → Ok2 st.toks.length (term n st)) ∧
    (∀ st, 8 * st.toks.length + 2 ≤ n → Ok1 st.toks.length (follows n st)) ∧
    (∀ st, 8 * st.toks.length + 3 ≤ n → Ok2 st.toks.length (group n st)) ∧
    (∀ lim st, 8 * st.toks.length + 4 ≤ n → Ok2 st.toks.length (exprEx n lim st)) ∧
    (∀ lim e st, 8 * st.toks.length + 1 ≤ n → Ok1 st.toks.length (exLoop n lim e st)) ∧
    (∀ lhs p st, 8 * st.toks.length + 5 ≤ n → Ok1 st.toks.length (part n lhs p st)) ∧
    (∀ prev bits ops rhs st, 8 * st.toks.length + 1 ≤ n → Gathered prev bits ops →
      Ok3 prev st.toks.length (partLoop n prev bits ops rhs st)) ∧
    (∀ conds r st, 8 * st.toks.length + 1 ≤ n → Ok1 st.toks.length (ternLoop n conds r st)) := by
  induction n with
  | zero => exact ⟨by omega, by omega, by omega, by omega, by omega, by omega, by omega, by omega⟩
  | succ n ih =>
    obtain ⟨hterm, hfol, hgrp, hex, hloop, hpart, hploop, htern⟩ := ih
    refine ⟨?_, ?_, ?_, ?_, ?_, ?_, ?_, ?_⟩
    · intro st hn
      unfold term
      split
      · rename_i heq; exact ok2_some (by rw [heq]; simp only [List.length_cons]; omega)
      · rename_i heq; exact ok2_some (by rw [heq]; simp only [List.length_cons]; omega)
      · rename_i heq; exact ok2_some (by rw [heq]; simp only [List.length_cons]; omega)
      · rename_i r hne heq
        rw [heq] at hn ⊢
        simp only [List.length_cons] at hn ⊢
        have h := hex 13 ⟨r, st.warned⟩ (by simp only; omega)
        cases hr : exprEx n 13 ⟨r, st.warned⟩ with
        | error e => rw [h.1 e hr]; exact ok2_syntax _
        | ok x =>
          obtain ⟨o, st'⟩ := x
          have h2 := h.2 o st' hr
          cases o with
          | none => exact ok2_syntax _
          | some e =>
            simp only
            split
            · rename_i r' heq'
              refine ok2_some ?_
              have h3 := h2.1
              rw [heq'] at h3
              simp only [List.length_cons] at h3 ⊢
              omega
            · exact ok2_syntax _
      · exact ok2_none (Nat.le_refl _)
    · intro st hn
      unfold follows
      split
      · rename_i r heq
        rw [heq] at hn ⊢
        simp only [List.length_cons] at hn ⊢
        have h := hfol ⟨r, st.warned⟩ (by simp only; omega)
        cases hr : follows n ⟨r, st.warned⟩ with
        | error e => rw [h.1 e hr]; exact ok1_syntax _
        | ok x =>
          have h2 := h.2 x.1 x.2 hr
          simp only at h2
          exact ok1_ok (by omega)
      · rename_i r heq
        rw [heq] at hn ⊢
        simp only [List.length_cons] at hn ⊢
        have h := hfol ⟨r, st.warned⟩ (by simp only; omega)
        cases hr : follows n ⟨r, st.warned⟩ with
        | error e => rw [h.1 e hr]; exact ok1_syntax _
        | ok x =>
          have h2 := h.2 x.1 x.2 hr
          simp only at h2
          exact ok1_ok (by omega)
      · rename_i safe r heq
        rw [heq] at hn ⊢
        simp only [List.length_cons] at hn ⊢
        have h := hex 13 ⟨r, st.warned⟩ (by simp only; omega)
        cases hr : exprEx n 13 ⟨r, st.warned⟩ with
        | error e => rw [h.1 e hr]; exact ok1_syntax _
        | ok x =>
          obtain ⟨o, st'⟩ := x
          have h2 := h.2 o st' hr
          cases o with
          | none => exact ok1_syntax _
          | some e =>
            simp only
            split
            · rename_i r' heq'
              have h3 := h2.1
              rw [heq'] at h3
              simp only [List.length_cons] at h3
              have h4 := hfol ⟨r', st'.warned⟩ (by simp only; omega)
              cases hr2 : follows n ⟨r', st'.warned⟩ with
              | error e => rw [h4.1 e hr2]; exact ok1_syntax _
              | ok x =>
                have h5 := h4.2 x.1 x.2 hr2
                simp only at h5
                exact ok1_ok (by omega)
            · exact ok1_syntax _
      · exact ok1_ok (Nat.le_refl _)
    · intro st hn
      unfold group
      have hl := prefixes_length st.toks
      have h := hterm ⟨(prefixes st.toks).2, st.warned⟩ (by simp only; omega)
      cases hr : term n ⟨(prefixes st.toks).2, st.warned⟩ with
      | error e => rw [h.1 e hr]; exact ok2_syntax _
      | ok x =>
        obtain ⟨o, st'⟩ := x
        have h2 := h.2 o st' hr
        simp only at h2
        cases o with
        | none =>
          simp only
          split
          · exact ok2_none (Nat.le_refl _)
          · exact ok2_syntax _
        | some t =>
          simp only
          have h2' := h2.2 rfl
          have h3 := hfol st' (by omega)
          cases hr2 : follows n st' with
          | error e => rw [h3.1 e hr2]; exact ok2_syntax _
          | ok y =>
            have h4 := h3.2 y.1 y.2 hr2
            exact ok2_some (by omega)
    · intro lim st hn
      unfold exprEx
      have h := hgrp st (by omega)
      cases hr : group n st with
      | error e => rw [h.1 e hr]; exact ok2_syntax _
      | ok x =>
        obtain ⟨o, st'⟩ := x
        have h2 := h.2 o st' hr
        cases o with
        | none => exact ok2_none h2.1
        | some e =>
          have h2' := h2.2 rfl
          have h3 := hloop lim e st' (by omega)
          simp only
          cases hr2 : exLoop n lim e st' with
          | error e => rw [h3.1 e hr2]; exact ok2_syntax _
          | ok y =>
            have h4 := h3.2 y.1 y.2 hr2
            exact ok2_some (by omega)
    · intro lim e st hn
      unfold exLoop
      split
      · rename_i p r heq
        split
        · exact ok1_ok (Nat.le_refl _)
        · rw [heq] at hn ⊢
          simp only [List.length_cons] at hn ⊢
          have h := hpart e p ⟨r, st.warned⟩ (by simp only; omega)
          cases hr : part n e p ⟨r, st.warned⟩ with
          | error e => rw [h.1 e hr]; exact ok1_syntax _
          | ok y =>
            have h2 := h.2 y.1 y.2 hr
            simp only at h2
            have h3 := hloop lim y.1 y.2 (by omega)
            exact ⟨fun e he => h3.1 e he, fun a st' hs => Nat.le_trans (h3.2 a st' hs) (by omega)⟩
      · exact ok1_ok (Nat.le_refl _)
    · intro lhs p st hn
      unfold part
      have h := hgrp st (by omega)
      cases hr : group n st with
      | error e => rw [h.1 e hr]; exact ok1_syntax _
      | ok x =>
        obtain ⟨o, st1⟩ := x
        have h2 := h.2 o st1 hr
        cases o with
        | none => exact ok1_syntax _
        | some rhs =>
          have h2' := h2.2 rfl
          have h3 := hploop p [lhs] [p.oper] rhs st1 (by omega)
            ⟨rfl, by simp, fun o ho => ⟨p, rfl, by simpa using ho⟩⟩
          simp only
          cases hr2 : partLoop n p [lhs] [p.oper] rhs st1 with
          | error e => rw [h3.1 e hr2]; exact ok1_syntax _
          | ok y =>
            obtain ⟨⟨bits, ops, rhs'⟩, st2⟩ := y
            obtain ⟨h4, h5⟩ := h3.2 _ _ hr2
            simp only at h5 ⊢
            split
            · rename_i hp
              split
              · rename_i r heq
                have h6 : st2.toks.length = r.length + 1 := by rw [heq]; simp
                have h7 := hex 13 ⟨r, st2.warned⟩ (by simp only; omega)
                cases hr3 : exprEx n 13 ⟨r, st2.warned⟩ with
                | error e => rw [h7.1 e hr3]; exact ok1_syntax _
                | ok z =>
                  obtain ⟨o, st3⟩ := z
                  have h8 := h7.2 o st3 hr3
                  simp only at h8
                  cases o with
                  | none => exact ok1_syntax _
                  | some e => exact withSt_ok1 (by omega) (build_ok p (by omega) _ _ _ h5)
              · exact withSt_ok1 (by omega) (build_ok p (by omega) _ _ _ h5)
            · split
              · have h6 := htern bits.reverse rhs' st2 (by omega)
                exact ⟨h6.1, fun a st' hs => Nat.le_trans (h6.2 a st' hs) (by omega)⟩
              · rename_i h11
                exact withSt_ok1 (by omega) (build_ok p h11 _ _ _ h5)
    · intro prev bits ops rhs st hn hg
      unfold partLoop
      split
      · rename_i p r heq
        rw [heq] at hn
        simp only [List.length_cons] at hn
        have hlen : st.toks.length = r.length + 1 := by rw [heq]; simp
        split
        · have h := hpart rhs p ⟨r, st.warned⟩ (by simp only; omega)
          cases hr : part n rhs p ⟨r, st.warned⟩ with
          | error e => rw [h.1 e hr]; exact ⟨fun e h => (by cases h; rfl), fun a st h => by cases h⟩
          | ok y =>
            have h2 := h.2 y.1 y.2 hr
            simp only at h2
            have h3 := hploop prev bits ops y.1 y.2 (by omega) hg
            exact ⟨fun e he => h3.1 e he, fun a st' hs => ⟨Nat.le_trans (h3.2 a st' hs).1 (by omega), (h3.2 a st' hs).2⟩⟩
        · split
          · exact ⟨fun e h => (by cases h), fun a st h => by cases h; exact ⟨Nat.le_refl _, hg⟩⟩
          · rename_i hlt hgt
            have h := hgrp ⟨r, st.warned⟩ (by simp only; omega)
            cases hr : group n ⟨r, st.warned⟩ with
            | error e => rw [h.1 e hr]; exact ⟨fun e h => (by cases h; rfl), fun a st h => by cases h⟩
            | ok x =>
              obtain ⟨o, st1⟩ := x
              have h2 := h.2 o st1 hr
              simp only at h2
              cases o with
              | none => exact ⟨fun e h => (by cases h; rfl), fun a st h => by cases h⟩
              | some rhs' =>
                have hg' : Gathered prev (bits ++ [rhs]) (ops ++ [p.oper]) := by
                  refine ⟨by simpa using hg.1, by simp, fun o ho => ?_⟩
                  rcases List.mem_append.1 ho with ho | ho
                  · exact hg.2.2 o ho
                  · exact ⟨p, by omega, by simpa using ho⟩
                have h3 := hploop prev (bits ++ [rhs]) (ops ++ [p.oper]) rhs' st1 (by omega) hg'
                exact ⟨fun e he => h3.1 e he,
                  fun a st' hs => ⟨Nat.le_trans (h3.2 a st' hs).1 (by omega), (h3.2 a st' hs).2⟩⟩
      · exact ⟨fun e h => (by cases h), fun a st h => by cases h; exact ⟨Nat.le_refl _, hg⟩⟩
    · intro conds r st hn
      cases conds with
      | nil => exact ok1_ok (Nat.le_refl _)
      | cons c cs =>
        unfold ternLoop
        split
        · rename_i r' heq
          rw [heq] at hn ⊢
          simp only [List.length_cons] at hn ⊢
          have h := hex 11 ⟨r', st.warned⟩ (by simp only; omega)
          cases hr : exprEx n 11 ⟨r', st.warned⟩ with
          | error e => rw [h.1 e hr]; exact ok1_syntax _
          | ok y =>
            obtain ⟨o, st'⟩ := y
            have h2 := h.2 o st' hr
            simp only at h2
            cases o with
            | none =>
              have h3 := htern cs (.ternary c r (.base .null [])) ⟨st'.toks, true⟩ (by simp only; omega)
              exact ⟨fun e he => h3.1 e he, fun a st' hs => Nat.le_trans (h3.2 a st' hs) (by simp only; omega)⟩
            | some e =>
              have h3 := htern cs (.ternary c r e) st' (by omega)
              exact ⟨fun e he => h3.1 e he, fun a st' hs => Nat.le_trans (h3.2 a st' hs) (by omega)⟩
        · exact ok1_syntax _

end Verif.Parse
