import Mathlib.Tactic.Common
import Mathlib.Data.List.Basic
import Mathlib.Data.List.Nodup
import Mathlib.Order.Basic
import Mathlib.Data.Nat.Init

/-!
# Visiting a forest given by parent pointers
-/

namespace Verif.Objtree

/-- a recursive visit of a node and everything below it -/
def visit (kids : Nat → List Nat) : Nat → Nat → Option (List Nat)
  | 0, _ => none
  | fuel + 1, i => ((kids i).mapM (visit kids fuel)).map fun ls => i :: ls.flatten

/-- `l` is the chain of parents of `i`, itself first, up to a node without parent -/
inductive Chain (up : Nat → Option Nat) : Nat → List Nat → Prop
  | last {i : Nat} : up i = none → Chain up i [i]
  | step {i p : Nat} {l : List Nat} : up i = some p → Chain up p l → Chain up i (i :: l)

variable {up : Nat → Option Nat}

theorem Chain.unique {i : Nat} {l l' : List Nat} (h : Chain up i l) (h' : Chain up i l') : l = l' := by
  induction h generalizing l' with
  | last h0 =>
    cases h' with
    | last _ => rfl
    | step h1 _ => rw [h0] at h1; cases h1
  | step h0 _ ih =>
    cases h' with
    | last h1 => rw [h0] at h1; cases h1
    | step h1 h2 =>
      rw [h0] at h1
      cases h1
      rw [ih h2]

theorem Chain.ne_nil {i : Nat} {l : List Nat} (h : Chain up i l) : l ≠ [] := by cases h <;> simp

theorem Chain.self {i : Nat} {l : List Nat} (h : Chain up i l) : i ∈ l := by cases h <;> simp

/-- the chain of a member is a suffix -/
theorem Chain.suffix {i j : Nat} {l : List Nat} (h : Chain up i l) (hj : j ∈ l) :
    ∃ l', Chain up j l' ∧ l' <:+ l := by
  induction h with
  | last h0 =>
    rw [List.mem_singleton] at hj
    subst hj
    exact ⟨_, .last h0, List.suffix_refl _⟩
  | @step i p l h0 hc ih =>
    rcases List.mem_cons.1 hj with rfl | hj
    · exact ⟨_, .step h0 hc, List.suffix_refl _⟩
    · obtain ⟨l', h1, h2⟩ := ih hj
      exact ⟨l', h1, h2.trans (List.suffix_cons _ _)⟩

theorem Chain.nodup {i : Nat} {l : List Nat} (h : Chain up i l) : l.Nodup := by
  induction h with
  | last _ => simp
  | @step i p l h0 hc ih =>
    rw [List.nodup_cons]
    refine ⟨fun hi => ?_, ih⟩
    obtain ⟨l', h1, h2⟩ := hc.suffix hi
    have := h1.unique (.step h0 hc)
    subst this
    have := h2.length_le
    simp at this
    try omega

/-- a ranking that falls along parents gives every node a chain -/
theorem chain_of_rank (d : Nat → Nat) (hd : ∀ c i, up c = some i → d i < d c) (i : Nat) : ∃ l, Chain up i l := by
  induction h : d i using Nat.strong_induction_on generalizing i with
  | _ n ih =>
    cases hu : up i with
    | none => exact ⟨_, .last hu⟩
    | some p =>
      have := hd i p hu
      obtain ⟨l, hl⟩ := ih (d p) (by omega) p rfl
      exact ⟨_, .step hu hl⟩

/-- a node on a cycle has no chain -/
theorem no_chain_of_cycle {S : Nat → Prop} (hS : ∀ i, S i → ∃ p, up i = some p ∧ S p) {i : Nat} (hi : S i)
    {l : List Nat} : ¬ Chain up i l := by
  intro h
  induction h with
  | last h0 =>
    obtain ⟨p, hp, _⟩ := hS _ hi
    rw [h0] at hp
    cases hp
  | step h0 _ ih =>
    obtain ⟨p, hp, hs⟩ := hS _ hi
    rw [h0] at hp
    cases hp
    exact ih hs

theorem mapM_all {A B : Type} (f : A → Option B) (l : List A) (h : ∀ x ∈ l, ∃ y, f x = some y) :
    ∃ ys, l.mapM f = some ys ∧ List.Forall₂ (fun x y => f x = some y) l ys := by
  induction l with
  | nil => exact ⟨[], rfl, .nil⟩
  | cons x t ih =>
    obtain ⟨y, hy⟩ := h x (by simp)
    obtain ⟨ys, h1, h2⟩ := ih fun x hx => h x (by simp [hx])
    refine ⟨y :: ys, ?_, .cons hy h2⟩
    rw [List.mapM_cons, hy, h1]
    rfl

/-- **visiting**: if `i` has a chain and `kids` inverts `up`, then with enough fuel the visit of `i`
lists exactly the nodes whose chain goes through `i`, each once, starting with `i`. -/
theorem visit_exact (kids : Nat → List Nat) (hk : ∀ i c, c ∈ kids i ↔ up c = some i)
    (hn : ∀ i, (kids i).Nodup) (N : Nat)
    (hN : ∀ i l, Chain up i l → l.length ≤ N) (i : Nat) (l : List Nat) (hl : Chain up i l) (fuel : Nat)
    (hf : N + 1 ≤ fuel + l.length) :
    ∃ vs, visit kids fuel i = some vs ∧ vs.Nodup ∧ vs.head? = some i
      ∧ ∀ j, j ∈ vs ↔ ∃ l', Chain up j l' ∧ i ∈ l' := by
  induction fuel generalizing i l with
  | zero =>
    have := hN i l hl
    omega
  | succ fuel ih =>
    have hkid : ∀ c ∈ kids i, Chain up c (c :: l) := fun c h => .step ((hk i c).1 h) hl
    have hall : ∀ c ∈ kids i, ∃ vs, visit kids fuel c = some vs := fun c h => by
      obtain ⟨vs, h1, _⟩ := ih c _ (hkid c h) (by simp only [List.length_cons]; omega)
      exact ⟨vs, h1⟩
    obtain ⟨ys, hy, hF⟩ := mapM_all (visit kids fuel) (kids i) hall
    have hmem : ∀ j, j ∈ ys.flatten ↔ ∃ c ∈ kids i, ∃ l', Chain up j l' ∧ c ∈ l' := by
      intro j
      rw [List.mem_flatten]
      constructor
      · rintro ⟨vs, hvs, hj⟩
        obtain ⟨n, hn'⟩ := List.mem_iff_getElem?.1 hvs
        obtain ⟨c, hc', hv⟩ : ∃ c, (kids i)[n]? = some c ∧ visit kids fuel c = some vs := by
          have hlen := hF.length_eq
          obtain ⟨hlt, he⟩ := List.getElem?_eq_some_iff.1 hn'
          have hlt' : n < (kids i).length := by omega
          have := (List.forall₂_iff_get.1 hF).2 n hlt' hlt
          simp only [List.get_eq_getElem] at this
          exact ⟨_, List.getElem?_eq_getElem hlt', by rw [this, he]⟩
        have hcm := List.mem_of_getElem? hc'
        obtain ⟨vs', h1, _, _, h4⟩ := ih c _ (hkid c hcm) (by simp only [List.length_cons]; omega)
        rw [hv] at h1
        cases h1
        exact ⟨c, hcm, (h4 j).1 hj⟩
      · rintro ⟨c, hcm, l', hl', hcl⟩
        obtain ⟨vs', h1, _, _, h4⟩ := ih c _ (hkid c hcm) (by simp only [List.length_cons]; omega)
        obtain ⟨n, hn'⟩ := List.mem_iff_getElem?.1 hcm
        obtain ⟨hlt, he⟩ := List.getElem?_eq_some_iff.1 hn'
        have hlt' : n < ys.length := by rw [← hF.length_eq]; exact hlt
        have := (List.forall₂_iff_get.1 hF).2 n hlt hlt'
        simp only [List.get_eq_getElem] at this
        rw [he, h1] at this
        exact ⟨vs', by rw [Option.some.inj this]; exact List.getElem_mem _, (h4 j).2 ⟨l', hl', hcl⟩⟩
    -- two kids on one chain are the same
    have hone : ∀ c1 ∈ kids i, ∀ c2 ∈ kids i, ∀ j l', Chain up j l' → c1 ∈ l' → c2 ∈ l' → c1 = c2 := by
      intro c1 h1 c2 h2 j l' hl' m1 m2
      obtain ⟨a1, b1, s1⟩ := hl'.suffix m1
      obtain ⟨a2, b2, s2⟩ := hl'.suffix m2
      have e1 := b1.unique (hkid c1 h1)
      have e2 := b2.unique (hkid c2 h2)
      subst e1; subst e2
      have := List.suffix_of_suffix_length_le s1 s2 (by simp)
      have he := this.eq_of_length (by simp)
      simpa using he
    refine ⟨i :: ys.flatten, by rw [visit, hy]; rfl, ?_, rfl, ?_⟩
    · rw [List.nodup_cons]
      refine ⟨?_, ?_⟩
      · intro hi
        obtain ⟨c, hcm, l', hl', hcl⟩ := (hmem i).1 hi
        have := hl'.unique hl
        subst this
        obtain ⟨a, b, s⟩ := hl'.suffix hcl
        have := b.unique (hkid c hcm)
        subst this
        have := s.length_le
        simp at this
        try omega
      · rw [List.nodup_flatten]
        constructor
        · intro vs hvs
          obtain ⟨n, hn'⟩ := List.mem_iff_getElem?.1 hvs
          obtain ⟨hlt, he⟩ := List.getElem?_eq_some_iff.1 hn'
          have hlt' : n < (kids i).length := by rw [hF.length_eq]; exact hlt
          have := (List.forall₂_iff_get.1 hF).2 n hlt' hlt
          simp only [List.get_eq_getElem] at this
          obtain ⟨vs', h1, h2, _⟩ := ih _ _ (hkid _ (List.getElem_mem hlt')) (by simp only [List.length_cons]; omega)
          rw [this, he] at h1
          cases h1
          exact h2
        · rw [List.pairwise_iff_getElem]
          intro a b ha hb hab
          have ha' : a < (kids i).length := by rw [hF.length_eq]; exact ha
          have hb' : b < (kids i).length := by rw [hF.length_eq]; exact hb
          have fa := (List.forall₂_iff_get.1 hF).2 a ha' ha
          have fb := (List.forall₂_iff_get.1 hF).2 b hb' hb
          simp only [List.get_eq_getElem] at fa fb
          obtain ⟨va, h1a, _, _, h4a⟩ := ih _ _ (hkid _ (List.getElem_mem ha')) (by simp only [List.length_cons]; omega)
          obtain ⟨vb, h1b, _, _, h4b⟩ := ih _ _ (hkid _ (List.getElem_mem hb')) (by simp only [List.length_cons]; omega)
          rw [fa] at h1a
          rw [fb] at h1b
          cases h1a; cases h1b
          intro x hx1 hx2
          obtain ⟨l1, c1, m1⟩ := (h4a x).1 hx1
          obtain ⟨l2, c2, m2⟩ := (h4b x).1 hx2
          have := c1.unique c2
          subst this
          have he := hone _ (List.getElem_mem ha') _ (List.getElem_mem hb') x l1 c1 m1 m2
          have := (List.Nodup.getElem_inj_iff (hn i)).1 he
          omega
    · intro j
      rw [List.mem_cons, hmem]
      constructor
      · rintro (rfl | ⟨c, hcm, l', hl', hcl⟩)
        · exact ⟨l, hl, hl.self⟩
        · refine ⟨l', hl', ?_⟩
          obtain ⟨a, b, s⟩ := hl'.suffix hcl
          have := b.unique (hkid c hcm)
          subst this
          exact s.subset (List.mem_cons_of_mem _ hl.self)
      · rintro ⟨l', hl', hi⟩
        induction hl' with
        | last h0 =>
          rw [List.mem_singleton] at hi
          exact .inl hi.symm
        | @step j p l' h0 hc' ih' =>
          rcases List.mem_cons.1 hi with h | h
          · exact .inl h.symm
          · right
            rcases ih' h with e | ⟨c, hcm, l2, hl2, hcl⟩
            · subst e
              exact ⟨j, (hk p j).2 h0, _, .step h0 hc', by simp⟩
            · exact ⟨c, hcm, _, .step h0 hl2, List.mem_cons_of_mem _ hcl⟩

/-- more fuel changes nothing -/
theorem visit_mono (kids : Nat → List Nat) (fuel fuel' i : Nat) (vs : List Nat) (h : visit kids fuel i = some vs)
    (hf : fuel ≤ fuel') : visit kids fuel' i = some vs := by
  induction fuel generalizing i vs fuel' with
  | zero => cases h
  | succ fuel ih =>
    obtain ⟨f', rfl⟩ : ∃ k, fuel' = k + 1 := ⟨fuel' - 1, by omega⟩
    unfold visit at h ⊢
    obtain ⟨ys, hy, rfl⟩ := Option.map_eq_some_iff.1 h
    have : (kids i).mapM (visit kids f') = some ys := by
      clear h
      generalize kids i = ks at hy
      induction ks generalizing ys with
      | nil => exact hy
      | cons c cs ihc =>
        rw [List.mapM_cons] at hy ⊢
        simp only [Option.bind_eq_bind, Option.bind_eq_some_iff, Option.pure_def, Option.some.injEq] at hy
        obtain ⟨a, ha, b, hb, rfl⟩ := hy
        rw [ih f' c a ha (by omega), ihc b hb]
        rfl
    rw [this]
    rfl

end Verif.Objtree
