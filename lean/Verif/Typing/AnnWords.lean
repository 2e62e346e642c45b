import Verif.Typing.AnnSpec

/-!
# `as mob|obj`: the words and the type
-/

namespace Verif.Typing

/-- The bit of a basic word. -/
def bitOf : InputWord → Nat
  | .mob => 0 | .obj => 1 | .text => 2 | .num => 3 | .file => 4 | .turf => 5 | .key => 6 | .null => 7 | .area => 8
  | .icon => 9 | .sound => 10 | .message => 11 | .anything => 12 | .password => 15 | .commandText => 16 | .color => 17
  | .list => 31 | .movable => 100 | .atom => 101

theorem bitOf_inj : ∀ a b : InputWord, bitOf a = bitOf b → a = b := by
  intro a b
  cases a <;> cases b <;> decide

theorem foldl_or (ws : List InputWord) (x i : Nat) :
    (ws.foldl (fun b w => b ||| w.bits) x).testBit i = true ↔ x.testBit i = true ∨ ∃ w ∈ ws, w.bits.testBit i = true := by
  induction ws generalizing x with
  | nil => simp
  | cons w ws ih =>
    rw [List.foldl_cons, ih, Nat.testBit_or]
    simp [or_assoc]

theorem covers_bit (w b : InputWord) : Covers w b → w.bits.testBit (bitOf b) = true := by
  intro h
  cases h with
  | self _ h1 h2 => cases w <;> first | rfl | exact absurd rfl h1 | exact absurd rfl h2
  | _ => rfl

theorem bit_covers (w : InputWord) (i : Nat) : w.bits.testBit i = true → ∃ b, Covers w b ∧ bitOf b = i := by
  intro h
  cases w
  case movable =>
    simp only [InputWord.bits, Nat.testBit_or, Nat.testBit_two_pow, Bool.or_eq_true, decide_eq_true_eq] at h
    rcases h with h | h
    · exact ⟨.obj, .movableObj, h⟩
    · exact ⟨.mob, .movableMob, h⟩
  case atom =>
    simp only [InputWord.bits, Nat.testBit_or, Nat.testBit_two_pow, Bool.or_eq_true, decide_eq_true_eq] at h
    rcases h with ((h | h) | h) | h
    · exact ⟨.area, .atomArea, h⟩
    · exact ⟨.turf, .atomTurf, h⟩
    · exact ⟨.obj, .atomObj, h⟩
    · exact ⟨.mob, .atomMob, h⟩
  all_goals
    simp only [InputWord.bits, Nat.testBit_two_pow, decide_eq_true_eq] at h
    exact ⟨_, .self _ nofun nofun, h⟩

theorem inputBits_bit (ws : List InputWord) (i : Nat) :
    (inputBits ws).testBit i = true ↔ ∃ b, (∃ w ∈ ws, Covers w b) ∧ bitOf b = i := by
  unfold inputBits
  rw [foldl_or]
  simp only [Nat.zero_testBit, Bool.false_eq_true, false_or]
  constructor
  · rintro ⟨w, hw, h⟩
    obtain ⟨b, hb, hi⟩ := bit_covers w i h
    exact ⟨b, ⟨w, hw, hb⟩, hi⟩
  · rintro ⟨b, ⟨w, hw, hb⟩, rfl⟩
    exact ⟨w, hw, covers_bit w b hb⟩

theorem inputBits_word (ws : List InputWord) (b : InputWord) :
    (inputBits ws).testBit (bitOf b) = true ↔ ∃ w ∈ ws, Covers w b := by
  rw [inputBits_bit]
  constructor
  · rintro ⟨c, h, hc⟩
    rwa [← bitOf_inj _ _ hc]
  · intro h
    exact ⟨b, h, rfl⟩

/-- A mask and the words it stands for. -/
theorem exactly_iff (ws bs : List InputWord) (m : Nat) (hm : ∀ i, m.testBit i = true ↔ ∃ b ∈ bs, bitOf b = i) :
    Exactly ws bs ↔ inputBits ws = m := by
  constructor
  · intro h
    apply Nat.eq_of_testBit_eq
    intro i
    rw [Bool.eq_iff_iff, inputBits_bit, hm]
    constructor
    · rintro ⟨b, hb, hi⟩; exact ⟨b, (h b).1 hb, hi⟩
    · rintro ⟨b, hb, hi⟩; exact ⟨b, (h b).2 hb, hi⟩
  · intro h b
    rw [← inputBits_word, h, hm]
    constructor
    · rintro ⟨c, hc, hb⟩; rwa [← bitOf_inj _ _ hb]
    · intro hb; exact ⟨b, hb, rfl⟩

theorem within_iff (ws bs : List InputWord) (m : Nat) (hm : ∀ i, m.testBit i = true ↔ ∃ b ∈ bs, bitOf b = i) :
    (∀ b, (∃ w ∈ ws, Covers w b) → b ∈ bs) ↔ inputBits ws &&& m = inputBits ws := by
  constructor
  · intro h
    apply Nat.eq_of_testBit_eq
    intro i
    rw [Nat.testBit_and, Bool.eq_iff_iff]
    simp only [Bool.and_eq_true]
    refine ⟨fun h => h.1, fun hi => ⟨hi, ?_⟩⟩
    obtain ⟨b, hb, rfl⟩ := (inputBits_bit ws i).1 hi
    exact (hm _).2 ⟨b, h b hb, rfl⟩
  · intro h b hb
    have h1 := (inputBits_word ws b).2 hb
    rw [← h, Nat.testBit_and, Bool.and_eq_true] at h1
    obtain ⟨c, hc, hcb⟩ := (hm _).1 h1.2
    rwa [← bitOf_inj _ _ hcb]

theorem single_mask (b : InputWord) (i : Nat) : (2 ^ bitOf b).testBit i = true ↔ ∃ c ∈ [b], bitOf c = i := by
  simp [Nat.testBit_two_pow]

theorem movable_mask (i : Nat) : (InputWord.bits .movable).testBit i = true ↔ ∃ b ∈ [InputWord.mob, .obj], bitOf b = i := by
  simp only [InputWord.bits, Nat.testBit_or, Nat.testBit_two_pow, Bool.or_eq_true, decide_eq_true_eq, List.mem_cons,
    List.not_mem_nil, or_false, exists_eq_or_imp, exists_eq_left, bitOf]
  omega

theorem atom_mask (i : Nat) :
    (InputWord.bits .atom).testBit i = true ↔ ∃ b ∈ [InputWord.mob, .obj, .turf, .area], bitOf b = i := by
  simp only [InputWord.bits, Nat.testBit_or, Nat.testBit_two_pow, Bool.or_eq_true, decide_eq_true_eq, List.mem_cons,
    List.not_mem_nil, or_false, exists_eq_or_imp, exists_eq_left, bitOf]
  omega

/-- The bits of mobs, objs, turfs and areas, all 16 of them. -/
theorem atom_cases : ∀ b : Fin 292, b.1 &&& 291 = b.1 →
    (InputType.typePath b.1 = some ["atom"] ↔
      ∃ i ∈ [5, 8], ∃ j ∈ [0, 1, 5, 8], i ≠ j ∧ b.1.testBit i = true ∧ b.1.testBit j = true) := by
  decide +kernel

theorem movable_cases : ∀ b : Fin 4, InputType.typePath b.1 = some ["atom", "movable"] ↔ b.1 = 3 := by decide +kernel

theorem wordsPath_iff (ws : List InputWord) (q : List Ident) :
    InputType.typePath (inputBits ws) = some q ↔ WordsPath ws q := by
  have e1 := exactly_iff ws [.mob] _ (single_mask .mob)
  have e2 := exactly_iff ws [.obj] _ (single_mask .obj)
  have e3 := exactly_iff ws [.turf] _ (single_mask .turf)
  have e4 := exactly_iff ws [.area] _ (single_mask .area)
  have e5 := exactly_iff ws [.list] _ (single_mask .list)
  have e6 := exactly_iff ws [.mob, .obj] _ movable_mask
  have e7 := within_iff ws [.mob, .obj, .turf, .area] _ atom_mask
  have hb := inputBits_word ws
  generalize hB : inputBits ws = B at e1 e2 e3 e4 e5 e6 e7 hb ⊢
  constructor
  · intro h
    have h' := h
    unfold InputType.typePath at h
    split at h
    · cases h
    rename_i h0
    have hne : ws ≠ [] := by rintro rfl; exact h0 hB.symm
    split at h
    · cases h; rename_i h1; exact .mob (e1.2 h1)
    split at h
    · cases h; rename_i h1; exact .obj (e2.2 h1)
    split at h
    · cases h; rename_i h1; exact .turf (e3.2 h1)
    split at h
    · cases h; rename_i h1; exact .area (e4.2 h1)
    split at h
    · cases h; rename_i h1; exact .list (e5.2 h1)
    split at h
    · cases h
      rename_i h1
      have hlt : B < 4 := by
        have : B &&& 3 = B := h1
        have := Nat.and_le_right (n := B) (m := 3)
        omega
      exact .movable (e6.2 ((movable_cases ⟨B, hlt⟩).1 h'))
    split at h
    · cases h
      rename_i h1
      have h2 : B &&& 291 = B := h1
      have hlt : B < 292 := by
        have := Nat.and_le_right (n := B) (m := 291)
        omega
      obtain ⟨i, hi, j, hj, hij, hbi, hbj⟩ := (atom_cases ⟨B, hlt⟩ h2).1 h'
      have hx : ∃ a : InputWord, bitOf a = i ∧ (a = .turf ∨ a = .area) := by
        simp only [List.mem_cons, List.not_mem_nil, or_false] at hi
        rcases hi with rfl | rfl
        · exact ⟨.turf, rfl, .inl rfl⟩
        · exact ⟨.area, rfl, .inr rfl⟩
      have hy : ∃ a : InputWord, bitOf a = j := by
        simp only [List.mem_cons, List.not_mem_nil, or_false] at hj
        rcases hj with rfl | rfl | rfl | rfl
        · exact ⟨.mob, rfl⟩
        · exact ⟨.obj, rfl⟩
        · exact ⟨.turf, rfl⟩
        · exact ⟨.area, rfl⟩
      obtain ⟨a, rfl, ha⟩ := hx
      obtain ⟨b, rfl⟩ := hy
      exact .atom (by rintro rfl; exact hij rfl) ((hb a).1 hbi) ((hb b).1 hbj) ha ⟨hne, e7.2 h1⟩
    · cases h
  · intro h
    cases h with
    | mob h => rw [e1.1 h]; rfl
    | obj h => rw [e2.1 h]; rfl
    | turf h => rw [e3.1 h]; rfl
    | area h => rw [e4.1 h]; rfl
    | list h => rw [e5.1 h]; rfl
    | movable h => rw [e6.1 h]; rfl
    | @atom a b hab ha hb' hta hO =>
      have h2 : B &&& 291 = B := e7.1 hO.2
      have hlt : B < 292 := by
        have := Nat.and_le_right (n := B) (m := 291)
        omega
      have hbm := hO.2 b hb'
      refine (atom_cases ⟨B, hlt⟩ h2).2 ⟨bitOf a, ?_, bitOf b, ?_, fun h => hab (bitOf_inj _ _ h), (hb a).2 ha, (hb b).2 hb'⟩
      · rcases hta with rfl | rfl <;> simp [bitOf]
      · simp only [List.mem_cons, List.not_mem_nil, or_false] at hbm
        rcases hbm with rfl | rfl | rfl | rfl <;> simp [bitOf]

/-- Bits that give a type are those of some words. -/
theorem typePath_words (b : Nat) (q : List Ident) (h : InputType.typePath b = some q) : ∃ ws, inputBits ws = b := by
  by_cases hl : b < 292
  · have key : ∀ b : Fin 292, (InputType.typePath b.1).isSome → ∃ ws ∈ [[], [.mob], [.obj], [.turf], [.area], [.mob, .obj],
        [.mob, .turf], [.obj, .turf], [.mob, .obj, .turf], [.mob, .area], [.obj, .area], [.mob, .obj, .area],
        [.turf, .area], [.mob, .turf, .area], [.obj, .turf, .area], [InputWord.mob, .obj, .turf, .area]],
        inputBits ws = b.1 := by decide +kernel
    obtain ⟨ws, _, h1⟩ := key ⟨b, hl⟩ (by rw [h]; rfl)
    exact ⟨ws, h1⟩
  · unfold InputType.typePath at h
    have hm := Nat.and_le_right (n := b) (m := InputWord.bits .movable)
    have ha := Nat.and_le_right (n := b) (m := InputWord.bits .atom)
    have e1 : InputWord.bits .movable = 3 := rfl
    have e2 : InputWord.bits .atom = 291 := rfl
    have e3 : InputWord.bits .mob = 1 := rfl
    have e4 : InputWord.bits .obj = 2 := rfl
    have e5 : InputWord.bits .turf = 32 := rfl
    have e6 : InputWord.bits .area = 256 := rfl
    rw [if_neg (by omega), if_neg (by omega), if_neg (by omega), if_neg (by omega), if_neg (by omega)] at h
    split at h
    · rename_i h1; exact ⟨[.list], by rw [h1]; rfl⟩
    · rw [if_neg (by omega), if_neg (by omega)] at h
      cases h

end Verif.Typing
