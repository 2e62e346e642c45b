import Verif.Dmdoc.AsModel

/-!
# C104: the `as` clauses dmdoc shows
-/

namespace Verif.Dmdoc

open Verif.Typing (InputWord inputBits)

/-- Both have the same kind. -/
def Common (a b : InputWord) : Prop := ∃ i, a.bits.testBit i = true ∧ b.bits.testBit i = true

theorem contains_iff (b v : Nat) : b &&& v = v ↔ ∀ i, v.testBit i = true → b.testBit i = true := by
  constructor
  · intro h i hi
    have := congrArg (fun x => x.testBit i) h
    simp only [Nat.testBit_and, hi, Bool.and_true] at this
    exact this
  · intro h
    apply Nat.eq_of_testBit_eq
    intro i
    rw [Nat.testBit_and]
    cases hi : v.testBit i with
    | false => simp
    | true => rw [h i hi]; rfl

theorem foldl_or (ws : List InputWord) (b i : Nat) :
    (ws.foldl (fun b w => b ||| w.bits) b).testBit i = (b.testBit i || ws.any fun w => w.bits.testBit i) := by
  induction ws generalizing b with
  | nil => simp
  | cons w ws ih => rw [List.foldl_cons, ih, Nat.testBit_or, List.any_cons, Bool.or_assoc]

theorem inputBits_bit (ws : List InputWord) (i : Nat) : (inputBits ws).testBit i = ws.any fun w => w.bits.testBit i := by
  unfold inputBits
  rw [foldl_or]
  simp

/-- Every bit of a word is itself a word. -/
theorem word_bits (w : InputWord) (i : Nat) (h : w.bits.testBit i = true) : ∃ v ∈ entries, v.bits = 2 ^ i := by
  have hlt : i < 32 := by
    apply Classical.byContradiction
    intro hn
    have hb : w.bits < 2 ^ 32 := by cases w <;> decide
    rw [Nat.testBit_lt_two_pow (Nat.lt_of_lt_of_le hb (Nat.pow_le_pow_right (by decide) (by omega)))] at h
    cases h
  have key : ∀ i < 32, ∀ w ∈ entries, w.bits.testBit i = true → ∃ v ∈ entries, v.bits = 2 ^ i := by decide +kernel
  have hw : w ∈ entries := by cases w <;> decide
  exact key i hlt w hw h

theorem matchLoop_spec (ws : List InputWord) (b : Nat) :
    (matchLoop ws b).Sublist ws ∧ (∀ w ∈ matchLoop ws b, ∀ i, w.bits.testBit i = true → b.testBit i = true) ∧
      (matchLoop ws b).Pairwise (fun x y => ∀ i, x.bits.testBit i = true → y.bits.testBit i = false) ∧
      ∀ i, b.testBit i = true → (∃ v ∈ ws, v.bits = 2 ^ i) → ∃ w ∈ matchLoop ws b, w.bits.testBit i = true := by
  induction ws generalizing b with
  | nil => exact ⟨.slnil, nofun, .nil, fun i _ ⟨v, hv, _⟩ => nomatch hv⟩
  | cons w ws ih =>
    unfold matchLoop
    split
    · next hc =>
      obtain ⟨h1, h2, h3, h4⟩ := ih (Nat.ldiff b w.bits)
      have hsub : ∀ v ∈ matchLoop ws (Nat.ldiff b w.bits), ∀ i, v.bits.testBit i = true → b.testBit i = true ∧ w.bits.testBit i = false := by
        intro v hv i hi
        have := h2 v hv i hi
        rw [Nat.testBit_ldiff] at this
        simpa using this
      refine ⟨h1.cons_cons w, ?_, ?_, ?_⟩
      · intro v hv i hi
        rcases List.mem_cons.1 hv with rfl | hv
        · exact (contains_iff b _).1 hc i hi
        · exact (hsub v hv i hi).1
      · refine List.pairwise_cons.2 ⟨?_, h3⟩
        intro v hv i hi
        cases hvi : v.bits.testBit i with
        | false => rfl
        | true => rw [(hsub v hv i hvi).2] at hi; cases hi
      · rintro i hi ⟨v, hv, hb⟩
        cases hw : w.bits.testBit i with
        | true => exact ⟨w, List.mem_cons_self, hw⟩
        | false =>
          rcases List.mem_cons.1 hv with rfl | hv
          · rw [hb, Nat.testBit_two_pow_self] at hw; cases hw
          · obtain ⟨x, hx, hxi⟩ := h4 i (by rw [Nat.testBit_ldiff, hi, hw]; rfl) ⟨v, hv, hb⟩
            exact ⟨x, List.mem_cons_of_mem _ hx, hxi⟩
    · next hc =>
      obtain ⟨h1, h2, h3, h4⟩ := ih b
      refine ⟨h1.cons w, h2, h3, ?_⟩
      rintro i hi ⟨v, hv, hb⟩
      rcases List.mem_cons.1 hv with rfl | hv
      · exfalso
        apply hc
        rw [contains_iff]
        intro j hj
        rw [hb, Nat.testBit_two_pow] at hj
        have : i = j := by simpa using hj
        rw [← this]
        exact hi
      · exact h4 i hi ⟨v, hv, hb⟩

theorem inputBits_reverse (ws : List InputWord) : inputBits ws.reverse = inputBits ws := by
  apply Nat.eq_of_testBit_eq
  intro i
  rw [inputBits_bit, inputBits_bit, List.any_reverse]

/-- **C104** The words dmdoc shows for an `as` clause say the same as the words in the source. -/
theorem as_same (ws : List InputWord) : inputBits (matchingNames (inputBits ws)) = inputBits ws := by
  obtain ⟨_, h2, _, h4⟩ := matchLoop_spec entries.reverse (inputBits ws)
  unfold matchingNames
  rw [inputBits_reverse]
  apply Nat.eq_of_testBit_eq
  intro i
  rw [inputBits_bit]
  cases hi : (inputBits ws).testBit i with
  | true =>
    rw [List.any_eq_true]
    apply h4 i hi
    rw [inputBits_bit] at hi
    obtain ⟨w, _, hw⟩ := List.any_eq_true.1 hi
    obtain ⟨v, hv, hb⟩ := word_bits w i hw
    exact ⟨v, List.mem_reverse.2 hv, hb⟩
  | false =>
    rw [List.any_eq_false]
    intro w hw hwi
    rw [h2 w hw i hwi] at hi
    cases hi

/-- **C104** The words are in the order of the table, and no two of them say the same thing. -/
theorem as_words (b : Nat) :
    (matchingNames b).Sublist entries ∧ (matchingNames b).Pairwise (fun x y => ¬ Common x y) := by
  obtain ⟨h1, _, h3, _⟩ := matchLoop_spec entries.reverse b
  constructor
  · have := h1.reverse
    rw [List.reverse_reverse] at this
    exact this
  · unfold matchingNames
    rw [List.pairwise_reverse]
    refine h3.imp ?_
    rintro x y h ⟨i, hy, hx⟩
    rw [h i hx] at hy
    cases hy

/-- **C104** Words that together are one word of the table that is not part of a larger one are shown as that word: `mob|obj` as
`movable`, all four as `atom`. -/
theorem as_joined (w : InputWord) : matchingNames w.bits = [w] := by cases w <;> decide +kernel

/-- **C104** The words of error messages say the same as the words in the source, if with repetitions. -/
theorem display_same (ws : List InputWord) : inputBits (displayed (inputBits ws)) = inputBits ws := by
  apply Nat.eq_of_testBit_eq
  intro i
  rw [inputBits_bit]
  unfold displayed
  cases hi : (inputBits ws).testBit i with
  | true =>
    rw [List.any_eq_true]
    have h := hi
    rw [inputBits_bit] at h
    obtain ⟨w, _, hw⟩ := List.any_eq_true.1 h
    obtain ⟨v, hv, hb⟩ := word_bits w i hw
    refine ⟨v, List.mem_filter.2 ⟨hv, ?_⟩, by rw [hb, Nat.testBit_two_pow_self]⟩
    rw [decide_eq_true_eq, contains_iff]
    intro j hj
    rw [hb, Nat.testBit_two_pow] at hj
    have : i = j := by simpa using hj
    rw [← this]
    exact hi
  | false =>
    rw [List.any_eq_false]
    intro w hw hwi
    have := (List.mem_filter.1 hw).2
    rw [decide_eq_true_eq, contains_iff] at this
    rw [this i hwi] at hi
    cases hi

/-- **C104** A word is linked to the type it stands for in the code: the one the type checker takes it for. -/
theorem word_type (w : InputWord) (p : List Char) (h : wordPath w = some p) :
    ∃ names, Typing.InputType.typePath w.bits = some names ∧ p = names.flatMap fun n => '/' :: n.toList := by
  cases w <;> simp only [wordPath, Option.some.injEq, reduceCtorEq] at h <;> subst h
  · exact ⟨["mob"], by decide +kernel, by decide +kernel⟩
  · exact ⟨["obj"], by decide +kernel, by decide +kernel⟩
  · exact ⟨["turf"], by decide +kernel, by decide +kernel⟩
  · exact ⟨["area"], by decide +kernel, by decide +kernel⟩
  · exact ⟨["atom", "movable"], by decide +kernel, by decide +kernel⟩
  · exact ⟨["atom"], by decide +kernel, by decide +kernel⟩
  · exact ⟨["list"], by decide +kernel, by decide +kernel⟩

/-! ## Examples -/

theorem shown_movable : matchingNames (inputBits [.obj, .text, .mob]) = [.text, .movable] := by decide +kernel

theorem shown_partly : matchingNames (inputBits [.turf, .mob, .null]) = [.mob, .turf, .null] := by decide +kernel

/-- Error messages repeat the parts of `movable`. -/
theorem displayed_movable : displayed (inputBits [.movable]) = [.mob, .obj, .movable] := by decide +kernel

end Verif.Dmdoc
