import Verif.Dmm.Keys

/-! # Properties C09–C11: dictionary keys and coordinates -/

namespace Verif.Dmm

theorem base52_rev (i : Nat) (h : i < 52) : base52Reverse (base52Char i) = some i := by
  have : ∀ i : Fin 52, base52Reverse (base52Char i.val) = some i.val := by decide
  exact this ⟨i, h⟩

theorem formatDigits_length (key n c : Nat) : (formatDigits key n c).length = n := by
  induction n generalizing c with
  | zero => rfl
  | succ n ih => simp [formatDigits, ih]

theorem parse_digits (key n acc : Nat) (hkey : key < 65536) (hacc : acc = key / 52 ^ n) :
    (formatDigits key n (52 ^ (n - 1))).foldlM advanceKey acc = some key := by
  induction n generalizing acc with
  | zero => simp [formatDigits] at *; exact hacc
  | succ n ih =>
    simp only [formatDigits, List.foldlM_cons, Nat.add_sub_cancel]
    have hd : advanceKey acc (base52Char (key / 52 ^ n % 52)) = some (key / 52 ^ n) := by
      unfold advanceKey
      rw [base52_rev _ (Nat.mod_lt _ (by decide))]
      simp only [Option.bind_some, advanceDigit]
      have h1 : acc * 52 + key / 52 ^ n % 52 = key / 52 ^ n := by
        rw [hacc, Nat.pow_succ, ← Nat.div_div_eq_div_mul]; omega
      rw [h1, if_pos (lt_of_le_of_lt (Nat.div_le_self _ _) hkey)]
    rw [hd]
    simp only [Option.bind_eq_bind, Option.bind_some]
    have e : 52 ^ n / 52 = 52 ^ (n - 1) ∨ n = 0 := by
      cases n with
      | zero => right; rfl
      | succ n => left; simp [Nat.pow_succ]
    rcases e with e | e
    · rw [e]; exact ih _ rfl
    · subst e; simp [formatDigits]

/-- **C09.** Whenever a 16-bit key can be printed at width `n`, the text has exactly `n` characters
and reads back as the same key. -/
theorem key_roundtrip (n key : Nat) (txt : List Char) (hkey : key < 65536)
    (h : formatKey n key = some txt) : txt.length = n ∧ parseKey txt = some key := by
  unfold formatKey at h
  split at h
  · cases h
  · rename_i h1
    split at h
    · cases h
    · rename_i h2
      split at h
      · cases h
      · cases h
        refine ⟨formatDigits_length _ _ _, ?_⟩
        unfold parseKey
        apply parse_digits _ _ _ hkey
        symm
        apply Nat.div_eq_of_lt
        by_cases h3 : n < 3
        · by_contra hc; exact h1 ⟨h3, by omega⟩
        · have : 52 ^ 3 ≤ 52 ^ n := Nat.pow_le_pow_right (by decide) (by omega)
          omega

/-- **C09.** At one width, different keys have different texts. -/
theorem key_text_injective (n k k' : Nat) (txt : List Char) (hk : k < 65536) (hk' : k' < 65536)
    (h : formatKey n k = some txt) (h' : formatKey n k' = some txt) : k = k' := by
  have h1 := (key_roundtrip n k txt hk h).2
  have h2 := (key_roundtrip n k' txt hk' h').2
  rw [h1] at h2; exact Option.some.inj h2

/-- **C09.** For the three widths BYOND allows, printing panics exactly on keys of `52^n` or more. -/
theorem key_format_panics_iff (n key : Nat) (h1 : 1 ≤ n) (h3 : n ≤ 3) (hkey : key < 65536) :
    formatKey n key = none ↔ 52 ^ n ≤ key := by
  have : n = 1 ∨ n = 2 ∨ n = 3 := by omega
  rcases this with rfl | rfl | rfl <;> simp [formatKey] <;> omega

/-- **C09.** Reading never yields a key of 65536 or more, and reading is injective on texts of one
width up to 3: distinct dictionary texts of equal width are distinct keys. -/
theorem key_parse_range (txt : List Char) (k : Nat) (h : parseKey txt = some k) : k < 65536 := by
  unfold parseKey at h
  have key : ∀ (txt : List Char) (a : Nat), a < 65536 → txt.foldlM advanceKey a = some k →
      k < 65536 := by
    intro txt
    induction txt with
    | nil => intro a ha h; simp at h; omega
    | cons c cs ih =>
      intro a ha h
      rw [List.foldlM_cons] at h
      cases hc : advanceKey a c with
      | none => rw [hc] at h; cases h
      | some b =>
        rw [hc] at h
        refine ih b ?_ h
        unfold advanceKey at hc
        cases hb : base52Reverse c with
        | none => rw [hb] at hc; cases hc
        | some d =>
          rw [hb] at hc
          simp only [Option.bind_some, advanceDigit] at hc
          split at hc
          · cases hc; assumption
          · cases hc
  exact key txt 0 (by decide) h

example : formatKey 3 65535 = some ['y', 'm', 'p'] ∧ parseKey ['y', 'm', 'p'] = some 65535 ∧
    formatKey 2 2703 = some ['Z', 'Z'] ∧ formatKey 2 2704 = none ∧
    parseKey ['Z', 'Z', 'Z'] = none := by decide

/-- **C10.** After `adjust_key_length` every dictionary key can be printed, and the width is the
least one (1–3) with this property. -/
theorem adjusted_key_length_sufficient (keys : List Nat) (old : Nat) (hne : keys ≠ [])
    (hk : ∀ k ∈ keys, k < 65536) :
    (1 ≤ adjustKeyLength keys old ∧ adjustKeyLength keys old ≤ 3) ∧
    (∀ k ∈ keys, formatKey (adjustKeyLength keys old) k ≠ none) ∧
    (∀ n, 1 ≤ n → (∀ k ∈ keys, formatKey n k ≠ none) → adjustKeyLength keys old ≤ n) := by
  unfold adjustKeyLength
  cases hm : keys.max? with
  | none => rw [List.max?_eq_none_iff] at hm; exact absurd hm hne
  | some m =>
    rw [List.max?_eq_some_iff] at hm
    obtain ⟨hmem, hle⟩ := hm
    have hmk := hk m hmem
    simp only
    refine ⟨by split <;> [simp; split <;> simp], ?_, ?_⟩
    · intro k hkm
      have h1 := hle k hkm
      have h2 := hk k hkm
      split
      · rw [Ne, key_format_panics_iff _ _ (by decide) (by decide) h2]; omega
      · split
        · rw [Ne, key_format_panics_iff _ _ (by decide) (by decide) h2]; omega
        · rw [Ne, key_format_panics_iff _ _ (by decide) (by decide) h2]; omega
    · intro n hn hall
      have h1 := hall m hmem
      by_cases h3 : n ≤ 3
      · rw [Ne, key_format_panics_iff _ _ hn h3 hmk] at h1
        have : n = 1 ∨ n = 2 ∨ n = 3 := by omega
        rcases this with rfl | rfl | rfl <;> (repeat' split) <;> omega
      · repeat' split
        all_goals omega

example : adjustKeyLength [0, 17, 2704] 1 = 3 ∧ adjustKeyLength [0, 52] 1 = 2 ∧
    adjustKeyLength [51] 3 = 1 ∧ ([0, 17, 2704] ≠ ([] : List Nat)) ∧
    ∀ k ∈ [0, 17, 2704], k < 65536 := by decide

/-! ## C11 -/

theorem asI32_small (n : Nat) (h : n < 2 ^ 31) : asI32 n = n := by
  unfold asI32
  rw [Int.bmod_def]
  have : ((n : Int) % ((2 ^ 32 : Nat) : Int)) = n := Int.emod_eq_of_lt (by omega) (by omega)
  rw [this, if_pos (by omega)]

/-- **C11.** On a map with dimensions below 2^31, `to_raw` succeeds exactly for
`1 ≤ x ≤ dim_x`, `1 ≤ y ≤ dim_y`, `1 ≤ z ≤ dim_z`; the raw index is inside the array; converting
back gives the coordinate; y is flipped (raw row 0 is the top row `y = dim_y`). -/
theorem coord3_to_raw (c : Coord3) (dz dy dx : Nat) (hz : dz < 2 ^ 31) (hy : dy < 2 ^ 31)
    (hx : dx < 2 ^ 31) :
    (c.toRaw (dz, dy, dx) ≠ none ↔
      (1 ≤ c.x ∧ c.x ≤ dx) ∧ (1 ≤ c.y ∧ c.y ≤ dy) ∧ (1 ≤ c.z ∧ c.z ≤ dz)) ∧
    ∀ r, c.toRaw (dz, dy, dx) = some r →
      r.1 < dz ∧ r.2.1 < dy ∧ r.2.2 < dx ∧
      (r.1 : Int) = c.z - 1 ∧ (r.2.1 : Int) = dy - c.y ∧ (r.2.2 : Int) = c.x - 1 ∧
      Coord3.fromRaw r (dz, dy, dx) = c := by
  unfold Coord3.toRaw
  simp only [asI32_small _ hz, asI32_small _ hy, asI32_small _ hx]
  constructor
  · by_cases h1 : c.x ≥ 1 ∧ c.x ≤ dx <;> by_cases h2 : c.y ≥ 1 ∧ c.y ≤ dy <;>
      by_cases h3 : c.z ≥ 1 ∧ c.z ≤ dz <;> simp [h1, h2, h3] <;> omega
  · intro r h
    split at h
    · split at h
      · split at h
        · cases h
          dsimp only
          refine ⟨by omega, by omega, by omega, by omega, by omega, by omega, ?_⟩
          unfold Coord3.fromRaw
          dsimp only
          rw [asI32_small _ (by omega), asI32_small _ (by omega), asI32_small _ (by omega)]
          obtain ⟨x, y, z⟩ := c
          simp only [Coord3.mk.injEq] at *
          omega
        · cases h
      · cases h
    · cases h

/-- **C11.** Conversely every array index is the raw form of its coordinate. -/
theorem coord3_from_raw (z y x dz dy dx : Nat) (hz : dz < 2 ^ 31) (hy : dy < 2 ^ 31)
    (hx : dx < 2 ^ 31) (h1 : z < dz) (h2 : y < dy) (h3 : x < dx) :
    (Coord3.fromRaw (z, y, x) (dz, dy, dx)).toRaw (dz, dy, dx) = some (z, y, x) := by
  unfold Coord3.toRaw Coord3.fromRaw
  simp only [asI32_small _ hz, asI32_small _ hy, asI32_small _ hx]
  rw [asI32_small _ (by omega), asI32_small _ (by omega), asI32_small _ (by omega)]
  rw [if_pos (by omega), if_pos (by omega), if_pos (by omega)]
  simp only [Option.some.injEq, Prod.mk.injEq]
  omega

/-- **C11**, two-dimensional version used by z-levels. -/
theorem coord2_roundtrip (dy dx : Nat) (hy : dy < 2 ^ 31) (hx : dx < 2 ^ 31) :
    (∀ c : Coord2, c.toRaw (dy, dx) ≠ none ↔ (1 ≤ c.x ∧ c.x ≤ dx) ∧ (1 ≤ c.y ∧ c.y ≤ dy)) ∧
    (∀ (c : Coord2) r, c.toRaw (dy, dx) = some r →
      r.1 < dy ∧ r.2 < dx ∧ Coord2.fromRaw r (dy, dx) = c) ∧
    (∀ y x, y < dy → x < dx → (Coord2.fromRaw (y, x) (dy, dx)).toRaw (dy, dx) = some (y, x)) := by
  unfold Coord2.toRaw Coord2.fromRaw
  simp only [asI32_small _ hy, asI32_small _ hx]
  refine ⟨?_, ?_, ?_⟩
  · intro c
    by_cases h1 : c.x ≥ 1 ∧ c.x ≤ dx <;> by_cases h2 : c.y ≥ 1 ∧ c.y ≤ dy <;>
      simp [h1, h2] <;> omega
  · intro c r h
    split at h
    · split at h
      · cases h
        dsimp only
        refine ⟨by omega, by omega, ?_⟩
        rw [asI32_small _ (by omega), asI32_small _ (by omega)]
        obtain ⟨x, y⟩ := c
        simp only [Coord2.mk.injEq] at *
        omega
      · cases h
    · cases h
  · intro y x h1 h2
    rw [asI32_small _ (by omega), asI32_small _ (by omega)]
    rw [if_pos (by omega), if_pos (by omega)]
    simp only [Option.some.injEq, Prod.mk.injEq]
    omega

example : (Coord3.mk 3 1 2).toRaw (2, 4, 5) = some (1, 3, 2) ∧
    Coord3.fromRaw (1, 3, 2) (2, 4, 5) = Coord3.mk 3 1 2 ∧ (Coord3.mk 0 1 1).toRaw (2, 4, 5) = none ∧
    (Coord2.mk 5 4).toRaw (4, 5) = some (0, 4) := by decide

end Verif.Dmm
