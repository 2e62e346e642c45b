import Verif.Minimap.Model

/-!
# C72: the depth of a layer
-/

namespace Verif.Minimap

open Verif.Const

/-! ## Binary fractions are exact -/

/-- the exponent of a positive rational -/
theorem expo_spec (q : ℚ) (hq : 0 < q) : (2 : ℚ) ^ F32.expo q ≤ q ∧ q < (2 : ℚ) ^ (F32.expo q + 1) := by
  have hnum : 0 < q.num := Rat.num_pos.2 hq
  have hn0 : q.num.natAbs ≠ 0 := by omega
  have hd0 : q.den ≠ 0 := q.den_nz
  have hqe : q = (q.num.natAbs : ℚ) / (q.den : ℚ) := by
    have h1 : (q.num.natAbs : ℚ) = (q.num : ℚ) := by
      have : (q.num.natAbs : Int) = q.num := by omega
      rw [← Int.cast_natCast, this]
    rw [h1]
    exact (Rat.num_div_den q).symm
  have n1 : (2 : ℚ) ^ (Nat.log2 q.num.natAbs : Int) ≤ q.num.natAbs := by
    rw [zpow_natCast]; exact_mod_cast Nat.log2_self_le hn0
  have n2 : (q.num.natAbs : ℚ) < (2 : ℚ) ^ ((Nat.log2 q.num.natAbs : Int) + 1) := by
    have := @Nat.lt_log2_self q.num.natAbs
    rw [show ((Nat.log2 q.num.natAbs : Int) + 1) = ((Nat.log2 q.num.natAbs + 1 : Nat) : Int) by push_cast; rfl,
      zpow_natCast]
    exact_mod_cast this
  have d1 : (2 : ℚ) ^ (Nat.log2 q.den : Int) ≤ q.den := by
    rw [zpow_natCast]; exact_mod_cast Nat.log2_self_le hd0
  have d2 : (q.den : ℚ) < (2 : ℚ) ^ ((Nat.log2 q.den : Int) + 1) := by
    have := @Nat.lt_log2_self q.den
    rw [show ((Nat.log2 q.den : Int) + 1) = ((Nat.log2 q.den + 1 : Nat) : Int) by push_cast; rfl, zpow_natCast]
    exact_mod_cast this
  have hdp : (0 : ℚ) < q.den := by exact_mod_cast Nat.pos_of_ne_zero hd0
  set a : Int := (Nat.log2 q.num.natAbs : Int)
  set b : Int := (Nat.log2 q.den : Int)
  have two : (2 : ℚ) ≠ 0 := by norm_num
  have up : q < (2 : ℚ) ^ (a - b + 1) := by
    rw [hqe, div_lt_iff₀ hdp]
    calc (q.num.natAbs : ℚ) < (2 : ℚ) ^ (a + 1) := n2
      _ = (2 : ℚ) ^ (a - b + 1) * (2 : ℚ) ^ b := by rw [← zpow_add₀ two]; congr 1; ring
      _ ≤ (2 : ℚ) ^ (a - b + 1) * q.den := by gcongr
  have low : (2 : ℚ) ^ (a - b - 1) ≤ q := by
    rw [hqe, le_div_iff₀ hdp]
    calc (2 : ℚ) ^ (a - b - 1) * q.den ≤ (2 : ℚ) ^ (a - b - 1) * (2 : ℚ) ^ (b + 1) := by gcongr
      _ = (2 : ℚ) ^ a := by rw [← zpow_add₀ two]; congr 1; ring
      _ ≤ _ := n1
  unfold F32.expo
  simp only
  split
  · rename_i h
    exact ⟨h, up⟩
  · rename_i h
    rw [not_le] at h
    exact ⟨low, by rw [sub_add_cancel]; exact h⟩

/-- numbers with at most 24 bits, scaled by a power of two, are floats -/
theorem ofMag_scaled (s : Bool) (j : Nat) (k : Nat) (hk : k ≤ 100) (hj : j < 2 ^ 24) :
    F32.ofMag s ((j : ℚ) / 2 ^ k) = F32.fin s ((j : ℚ) / 2 ^ k) := by
  by_cases h0 : j = 0
  · subst h0; simp [F32.ofMag]
  have two : (2 : ℚ) ≠ 0 := by norm_num
  have hjp : (0 : ℚ) < j := by exact_mod_cast Nat.pos_of_ne_zero h0
  have hq : (0 : ℚ) < (j : ℚ) / 2 ^ k := by positivity
  obtain ⟨e1, e2⟩ := expo_spec _ hq
  set q : ℚ := (j : ℚ) / 2 ^ k
  set e := F32.expo q
  have hqz : q = (j : ℚ) * (2 : ℚ) ^ (-(k : Int)) := by
    rw [zpow_neg, zpow_natCast]; rfl
  -- the exponent is below 24 - k and not below - k
  have hlo : -(k : Int) ≤ e := by
    by_contra hc
    have h1 : (2 : ℚ) ^ (e + 1) ≤ (2 : ℚ) ^ (-(k : Int)) := zpow_le_zpow_right₀ (by norm_num) (by omega)
    have h2 : (2 : ℚ) ^ (-(k : Int)) ≤ q := by
      rw [hqz]
      have : (1 : ℚ) ≤ j := by exact_mod_cast Nat.pos_of_ne_zero h0
      have hp : (0 : ℚ) < (2 : ℚ) ^ (-(k : Int)) := by positivity
      nlinarith
    linarith
  have hhi : e + k < 24 := by
    by_contra hc
    have h1 : (2 : ℚ) ^ (24 - (k : Int)) ≤ (2 : ℚ) ^ e := zpow_le_zpow_right₀ (by norm_num) (by omega)
    have h2 : q < (2 : ℚ) ^ (24 - (k : Int)) := by
      rw [hqz, sub_eq_add_neg, zpow_add₀ two]
      have hp : (0 : ℚ) < (2 : ℚ) ^ (-(k : Int)) := by positivity
      have : (j : ℚ) < (2 : ℚ) ^ (24 : Int) := by
        have : (j : ℚ) < ((2 ^ 24 : Nat) : ℚ) := by exact_mod_cast hj
        rw [show ((24 : Int)) = ((24 : Nat) : Int) from rfl, zpow_natCast]
        exact_mod_cast hj
      nlinarith
    linarith
  have hul : F32.ulp q = (2 : ℚ) ^ (e - 23) := by
    unfold F32.ulp
    congr 1
    have : F32.expo q = e := rfl
    omega
  refine F32.ofMag_exact s q (j * 2 ^ (23 - (e + k)).toNat) ?_ ?_
  · rw [hul, hqz]
    push_cast
    rw [← zpow_natCast (2 : ℚ) (23 - (e + k)).toNat, mul_assoc, ← zpow_add₀ two]
    congr 2
    omega
  · have h1 : q ≤ j := div_le_self hjp.le (by
      have := one_le_pow₀ (M₀ := ℚ) (a := 2) (n := k) (by norm_num)
      exact this)
    have h2 : (j : ℚ) < ((2 ^ 24 : Nat) : ℚ) := by exact_mod_cast hj
    have h3 : ((2 ^ 24 : Nat) : ℚ) < (2 : ℚ) ^ (128 : Nat) := by norm_num
    linarith

theorem ofRat_scaled (z : Bool) (i : Int) (k : Nat) (hk : k ≤ 100) (hi : i.natAbs < 2 ^ 24) :
    ∃ s, F32.ofRat z ((i : ℚ) / 2 ^ k) = F32.fin s ((i.natAbs : ℚ) / 2 ^ k) ∧ F32.sgn s ((i.natAbs : ℚ) / 2 ^ k) = (i : ℚ) / 2 ^ k := by
  have hp : (0 : ℚ) < 2 ^ k := by positivity
  unfold F32.ofRat
  by_cases h0 : i = 0
  · subst h0
    exact ⟨z, by simp, by cases z <;> simp [F32.sgn]⟩
  · have hne : (i : ℚ) / 2 ^ k ≠ 0 := div_ne_zero (by exact_mod_cast h0) hp.ne'
    rw [if_neg hne]
    have habs : |(i : ℚ) / 2 ^ k| = (i.natAbs : ℚ) / 2 ^ k := by
      rw [abs_div, abs_of_pos hp, Nat.cast_natAbs, Int.cast_abs]
    rw [habs, ofMag_scaled _ _ _ hk hi]
    refine ⟨_, rfl, ?_⟩
    have hneg : ((i : ℚ) / 2 ^ k < 0) ↔ i < 0 := by
      rw [div_lt_iff₀ hp, zero_mul]
      exact_mod_cast Iff.rfl
    unfold F32.sgn
    by_cases hi0 : i < 0
    · rw [if_pos (by simpa using hneg.2 hi0)]
      have : (i.natAbs : ℚ) = -(i : ℚ) := by
        have : (i.natAbs : Int) = -i := by omega
        rw [← Int.cast_natCast, this, Int.cast_neg]
      rw [this]; ring
    · rw [if_neg (by simpa using fun h => hi0 (hneg.1 h))]
      have : (i.natAbs : ℚ) = (i : ℚ) := by
        have : (i.natAbs : Int) = i := by omega
        rw [← Int.cast_natCast, this]
      rw [this]

/-! ## The fractional part -/

/-- the float with the value `i / 2^23` -/
def IsV (f : F32) (i : Int) : Prop :=
  ∃ s, f = F32.fin s ((i.natAbs : ℚ) / 2 ^ 23) ∧ F32.sgn s ((i.natAbs : ℚ) / 2 ^ 23) = (i : ℚ) / 2 ^ 23

theorem floor_scaled (n k : Nat) : ⌊(n : ℚ) / 2 ^ k⌋ = ((n / 2 ^ k : Nat) : Int) := by
  have := Rat.floor_intCast_div_natCast n (2 ^ k)
  push_cast at this ⊢
  exact this

theorem sgn_sub (s : Bool) (a b : ℚ) : F32.sgn s a + F32.sgn (!s) b = F32.sgn s (a - b) := by
  cases s <;> simp only [F32.sgn, Bool.not_true, Bool.not_false, if_true, Bool.false_eq_true, if_false] <;> ring

theorem fract_scaled (f : F32) (i : Int) (h : IsV f i) (hi : i.natAbs ≤ 2 ^ 47) : IsV (fract f) (i.tmod (2 ^ 23)) := by
  obtain ⟨s, rfl, hs⟩ := h
  have hw : i.natAbs / 2 ^ 23 ≤ 2 ^ 24 := by omega
  have ht : trunc (F32.fin s ((i.natAbs : ℚ) / 2 ^ 23)) = F32.fin s ((i.natAbs / 2 ^ 23 : Nat) : ℚ) := by
    unfold trunc
    simp only
    rw [floor_scaled, Int.cast_natCast, F32.ofMag_nat _ _ hw]
  unfold fract
  rw [ht]
  unfold F32.sub F32.neg
  simp only [F32.add]
  rw [sgn_sub]
  have hr : (i.natAbs : ℚ) / 2 ^ 23 - ((i.natAbs / 2 ^ 23 : Nat) : ℚ) = ((i.natAbs % 2 ^ 23 : Nat) : ℚ) / 2 ^ 23 := by
    have := Nat.div_add_mod i.natAbs (2 ^ 23)
    have h2 : (i.natAbs : ℚ) = 2 ^ 23 * ((i.natAbs / 2 ^ 23 : Nat) : ℚ) + ((i.natAbs % 2 ^ 23 : Nat) : ℚ) := by
      exact_mod_cast this.symm
    rw [eq_div_iff (by norm_num)]
    rw [sub_mul, div_mul_cancel₀ _ (by norm_num)]
    linarith
  rw [hr]
  have hv : F32.sgn s (((i.natAbs % 2 ^ 23 : Nat) : ℚ) / 2 ^ 23) = ((i.tmod (2 ^ 23) : Int) : ℚ) / 2 ^ 23 := by
    by_cases h0 : i = 0
    · subst h0; cases s <;> simp [F32.sgn]
    · have hsign : s = decide (i < 0) := by
        have hpos : (0 : ℚ) < (i.natAbs : ℚ) / 2 ^ 23 := by
          have : 0 < i.natAbs := by omega
          have : (0 : ℚ) < (i.natAbs : ℚ) := by exact_mod_cast this
          positivity
        cases s with
        | true =>
          simp only [F32.sgn, if_true] at hs
          have : (i : ℚ) / 2 ^ 23 < 0 := by rw [← hs]; linarith
          rw [div_lt_iff₀ (by norm_num), zero_mul] at this
          exact (decide_eq_true (by exact_mod_cast this)).symm
        | false =>
          simp only [F32.sgn, Bool.false_eq_true, if_false] at hs
          have : 0 < (i : ℚ) / 2 ^ 23 := by rw [← hs]; exact hpos
          rw [lt_div_iff₀ (by norm_num), zero_mul] at this
          have : 0 < i := by exact_mod_cast this
          exact (decide_eq_false (by omega)).symm
      have hm : (((i.natAbs % 2 ^ 23 : Nat) : Int)) = if i < 0 then -(i.tmod (2 ^ 23)) else i.tmod (2 ^ 23) := by
        split
        · rename_i hneg
          rw [← Int.neg_tmod, Int.tmod_eq_emod_of_nonneg (by omega)]
          omega
        · rw [Int.tmod_eq_emod_of_nonneg (by omega)]
          omega
      rw [hsign]
      have hc : ((i.natAbs % 2 ^ 23 : Nat) : ℚ) = ((if i < 0 then -(i.tmod (2 ^ 23)) else i.tmod (2 ^ 23) : Int) : ℚ) := by
        rw [← hm]; rfl
      rw [hc]
      unfold F32.sgn
      by_cases hneg : i < 0
      · simp only [hneg, decide_true, if_true, Int.cast_neg]; ring
      · simp only [hneg, decide_false, Bool.false_eq_true, if_false]
  rw [hv]
  refine ofRat_scaled _ _ 23 (by omega) ?_
  have h1 := Int.tmod_lt_of_pos i (show (0 : Int) < 2 ^ 23 by norm_num)
  have h2 : -(2 ^ 23) < i.tmod (2 ^ 23) := by
    have := Int.lt_tmod_of_pos i (show (0 : Int) < 2 ^ 23 by norm_num)
    exact this
  omega

/-- **C72.** The two parts of a layer that is a multiple of `2^-23` (every float of magnitude 1 to 32768 is one). -/
theorem layer_exact (f : F32) (k : Int) (h : IsV f k) (hk : -(2 ^ 38) ≤ k) (hk' : k < 2 ^ 38) :
    Layer.ofF32 f = ⟨k / 2 ^ 23, (k % 2 ^ 23 / 2 ^ 7).toNat⟩ := by
  have h1 := fract_scaled f k h (by omega)
  have b1 := Int.tmod_lt_of_pos k (show (0 : Int) < 2 ^ 23 by norm_num)
  have b2 := Int.lt_tmod_of_pos k (show (0 : Int) < 2 ^ 23 by norm_num)
  -- one more
  have h2 : IsV ((fract f).add (F32.ofInt 1)) (k.tmod (2 ^ 23) + 2 ^ 23) := by
    obtain ⟨s, e, hs⟩ := h1
    rw [e, show F32.ofInt 1 = F32.fin false 1 from by simpa using F32.ofInt_nat 1 (by norm_num)]
    simp only [F32.add]
    rw [hs, show F32.sgn false 1 = 1 from rfl]
    have : ((k.tmod (2 ^ 23) : Int) : ℚ) / 2 ^ 23 + 1 = ((k.tmod (2 ^ 23) + 2 ^ 23 : Int) : ℚ) / 2 ^ 23 := by
      push_cast
      rw [add_div]
      norm_num
    rw [this]
    exact ofRat_scaled _ _ 23 (by omega) (by omega)
  have h3 := fract_scaled _ _ h2 (by omega)
  have e3 : (k.tmod (2 ^ 23) + 2 ^ 23).tmod (2 ^ 23) = k % 2 ^ 23 := by
    rw [Int.tmod_eq_emod_of_nonneg (by omega), Int.add_emod_right]
    by_cases hneg : 0 ≤ k
    · rw [Int.tmod_eq_emod_of_nonneg hneg, Int.emod_emod]
    · have := Int.tmod_add_mul_tdiv k (2 ^ 23)
      conv_rhs => rw [← this]
      rw [Int.add_mul_emod_self_left]
  rw [e3] at h3
  have hm0 : 0 ≤ k % 2 ^ 23 := Int.emod_nonneg _ (by norm_num)
  have hm1 : k % 2 ^ 23 < 2 ^ 23 := Int.emod_lt_of_pos _ (by norm_num)
  have hfrac : toU16 ((fract ((fract f).add (F32.ofInt 1))).mul (F32.ofInt 65536)) = (k % 2 ^ 23 / 2 ^ 7).toNat := by
    obtain ⟨s, e, hs⟩ := h3
    rw [e, show F32.ofInt 65536 = F32.fin false 65536 from by simpa using F32.ofInt_nat 65536 (by norm_num)]
    simp only [F32.mul]
    have hmul : ((k % 2 ^ 23).natAbs : ℚ) / 2 ^ 23 * 65536 = ((k % 2 ^ 23).natAbs : ℚ) / 2 ^ 7 := by
      rw [div_mul_eq_mul_div, div_eq_div_iff (by norm_num) (by norm_num)]
      ring
    rw [hmul, ofMag_scaled _ _ 7 (by omega) (by omega)]
    cases s with
    | true =>
      simp only [F32.sgn, if_true] at hs
      have hnn : (0 : ℚ) ≤ ((k % 2 ^ 23 : Int) : ℚ) / 2 ^ 23 := by
        have : (0 : ℚ) ≤ ((k % 2 ^ 23 : Int) : ℚ) := by exact_mod_cast hm0
        positivity
      have hnn2 : (0 : ℚ) ≤ ((k % 2 ^ 23).natAbs : ℚ) / 2 ^ 23 := by positivity
      have hz : ((k % 2 ^ 23).natAbs : ℚ) / 2 ^ 23 = 0 := by linarith
      rw [div_eq_zero_iff] at hz
      have hz0 : (k % 2 ^ 23).natAbs = 0 := by
        rcases hz with hz | hz
        · exact_mod_cast hz
        · norm_num at hz
      have : k % 2 ^ 23 = 0 := by omega
      rw [this]
      rfl
    | false =>
      have e' : (false != false) = false := rfl
      rw [e']
      simp only [toU16, Bool.false_eq_true, if_false]
      rw [floor_scaled]
      omega
  have hwhole : toI16 f.floor = k / 2 ^ 23 := by
    obtain ⟨s, e, hs⟩ := h
    rw [e]
    simp only [F32.floor]
    rw [hs]
    have hfl : ⌊(k : ℚ) / 2 ^ 23⌋ = k / 2 ^ 23 := by
      have := Rat.floor_intCast_div_natCast k (2 ^ 23)
      push_cast at this ⊢
      exact this
    rw [hfl]
    have hb : (k / 2 ^ 23).natAbs < 2 ^ 24 := by omega
    obtain ⟨s', e', hs'⟩ := ofRat_scaled s (k / 2 ^ 23) 0 (by omega) hb
    simp only [pow_zero, div_one] at e' hs'
    rw [e']
    unfold toI16
    simp only [Int.floor_natCast]
    cases s' with
    | true =>
      simp only [F32.sgn, if_true] at hs' ⊢
      have : -((k / 2 ^ 23).natAbs : Int) = k / 2 ^ 23 := by
        have h' : ((-((k / 2 ^ 23).natAbs : Int) : Int) : ℚ) = ((k / 2 ^ 23 : Int) : ℚ) := by
          rw [Int.cast_neg, Int.cast_natCast]; exact hs'
        exact_mod_cast h'
      omega
    | false =>
      simp only [F32.sgn, Bool.false_eq_true, if_false] at hs' ⊢
      have : ((k / 2 ^ 23).natAbs : Int) = k / 2 ^ 23 := by
        have h' : ((((k / 2 ^ 23).natAbs : Int) : Int) : ℚ) = ((k / 2 ^ 23 : Int) : ℚ) := by
          rw [Int.cast_natCast]; exact hs'
        exact_mod_cast h'
      omega
  unfold Layer.ofF32
  rw [hfrac, hwhole]

/-! ## The order -/

/-- a layer value this theorem covers: a multiple of `2^-23` from -32768 to below 32768 -/
structure Plain (q : ℚ) : Prop where
  multiple : ∃ k : Int, q = (k : ℚ) / 2 ^ 23
  low : -32768 ≤ q
  high : q < 32768

theorem isV_of (s : Bool) (a : ℚ) (ha : 0 ≤ a) (k : Int) (h : F32.sgn s a = (k : ℚ) / 2 ^ 23) : IsV (.fin s a) k := by
  have hp : (0 : ℚ) < 2 ^ 23 := by norm_num
  have hk : a = (k.natAbs : ℚ) / 2 ^ 23 := by
    have h1 : |F32.sgn s a| = a := by
      cases s
      · simp only [F32.sgn, Bool.false_eq_true, if_false]; exact abs_of_nonneg ha
      · simp only [F32.sgn, if_true, abs_neg]; exact abs_of_nonneg ha
    rw [← h1, h, abs_div, abs_of_pos hp, Nat.cast_natAbs, Int.cast_abs]
  exact ⟨s, by rw [← hk], by rw [← hk]; exact h⟩

/-- **C72.** The layers of two things are compared like the numbers, up to differences below 1/65536. -/
theorem layer_order (s t : Bool) (a b : ℚ) (ha : 0 ≤ a) (hb : 0 ≤ b) (hpa : Plain (F32.sgn s a))
    (hpb : Plain (F32.sgn t b)) :
    (Layer.ofF32 (.fin s a)).le (Layer.ofF32 (.fin t b)) = true ↔
      ⌊65536 * F32.sgn s a⌋ ≤ ⌊65536 * F32.sgn t b⌋ := by
  have key : ∀ (s : Bool) (a : ℚ), 0 ≤ a → Plain (F32.sgn s a) → ∃ k : Int,
      Layer.ofF32 (.fin s a) = ⟨k / 2 ^ 23, (k % 2 ^ 23 / 2 ^ 7).toNat⟩ ∧ ⌊65536 * F32.sgn s a⌋ = k / 2 ^ 7 := by
    intro s a ha ⟨⟨k, hk⟩, hlo, hhi⟩
    have hp : (0 : ℚ) < 2 ^ 23 := by norm_num
    refine ⟨k, layer_exact _ k (isV_of s a ha k hk) ?_ ?_, ?_⟩
    · rw [hk, le_div_iff₀ hp] at hlo
      have : ((-(2 ^ 38) : Int) : ℚ) ≤ (k : ℚ) := by push_cast; linarith
      exact_mod_cast this
    · rw [hk, div_lt_iff₀ hp] at hhi
      have : (k : ℚ) < ((2 ^ 38 : Int) : ℚ) := by push_cast; linarith
      exact_mod_cast this
    · rw [hk]
      have e : 65536 * ((k : ℚ) / 2 ^ 23) = (k : ℚ) / ((2 ^ 7 : Nat) : ℚ) := by
        rw [← mul_div_assoc, div_eq_div_iff (by norm_num) (by norm_num)]
        push_cast
        ring
      rw [e, Rat.floor_intCast_div_natCast]
      norm_num
  obtain ⟨k, e1, e2⟩ := key s a ha hpa
  obtain ⟨j, e3, e4⟩ := key t b hb hpb
  rw [e1, e2, e3, e4]
  unfold Layer.le
  simp only [Bool.or_eq_true, Bool.and_eq_true, decide_eq_true_eq]
  omega

/-- **C72.** Numerical order is never reversed, and a difference of 1/65536 or more is never lost. -/
theorem layer_monotone (s t : Bool) (a b : ℚ) (ha : 0 ≤ a) (hb : 0 ≤ b) (hpa : Plain (F32.sgn s a))
    (hpb : Plain (F32.sgn t b)) :
    (F32.sgn s a ≤ F32.sgn t b → (Layer.ofF32 (.fin s a)).le (Layer.ofF32 (.fin t b)) = true) ∧
    (F32.sgn s a + 1 / 65536 ≤ F32.sgn t b → (Layer.ofF32 (.fin t b)).le (Layer.ofF32 (.fin s a)) = false) := by
  constructor
  · intro h
    rw [layer_order s t a b ha hb hpa hpb]
    exact Int.floor_le_floor (by linarith)
  · intro h
    rw [← Bool.not_eq_true, layer_order t s b a hb ha hpb hpa, not_le]
    have h1 : 65536 * F32.sgn s a + 1 ≤ 65536 * F32.sgn t b := by linarith
    have h2 := Int.floor_le_floor h1
    rw [Int.floor_add_one] at h2
    omega

/-- **C72.** Every float from 1 to below 32768 is covered, positive or negative. -/
theorem floats_plain (s : Bool) (m : ℚ) (h : F32.ofMag s m = .fin s m) (h1 : 1 ≤ m) (h2 : m < 32768) :
    Plain (F32.sgn s m) := by
  have hm0 : (0 : ℚ) < m := by linarith
  have hmul : ∃ n : Nat, m = (n : ℚ) / 2 ^ 23 := by
    unfold F32.ofMag at h
    rw [if_neg hm0.ne'] at h
    simp only at h
    split at h
    · cases h
    · rw [F32.fin.injEq] at h
      obtain ⟨e1, e2⟩ := expo_spec m hm0
      have he : 0 ≤ F32.expo m := by
        by_contra hc
        have : (2 : ℚ) ^ (F32.expo m + 1) ≤ (2 : ℚ) ^ (0 : Int) := zpow_le_zpow_right₀ (by norm_num) (by omega)
        rw [zpow_zero] at this
        linarith
      have hul : F32.ulp m = (2 : ℚ) ^ (F32.expo m).toNat / 2 ^ 23 := by
        unfold F32.ulp
        rw [show max (F32.expo m - 23) (-149) = ((F32.expo m).toNat : Int) - (23 : Nat) by omega,
          zpow_sub₀ (by norm_num), zpow_natCast, zpow_natCast]
      refine ⟨F32.roundEven (m / F32.ulp m) * 2 ^ (F32.expo m).toNat, ?_⟩
      push_cast
      rw [mul_div_assoc, ← hul]
      exact h.2.symm
  obtain ⟨n, hn⟩ := hmul
  cases s with
  | false =>
    simp only [F32.sgn, Bool.false_eq_true, if_false]
    exact ⟨⟨n, by rw [hn]; push_cast; rfl⟩, by linarith, h2⟩
  | true =>
    simp only [F32.sgn, if_true]
    exact ⟨⟨-n, by rw [hn]; push_cast; ring⟩, by linarith, by linarith⟩

/-- **C72, disagreement.** The largest float below 1 becomes layer 0: it is drawn under 0.5. -/
theorem layer_below_one : Layer.ofF32 (.fin false (16777215 / 16777216)) = ⟨0, 0⟩ := by decide +kernel

/-- **C72, disagreement.** A tiny negative layer becomes -1: it is drawn under -0.5. -/
theorem layer_tiny_negative : Layer.ofF32 (.fin true (1 / 1073741824)) = ⟨-1, 0⟩ ∧
    Layer.ofF32 (.fin true (1 / 2)) = ⟨-1, 32768⟩ := by decide +kernel

/-- **C72, disagreement.** From 32768 on the whole part stays at the largest value: 40000 is drawn under 32767.5. -/
theorem layer_saturates : Layer.ofF32 (.fin false 40000) = ⟨32767, 0⟩ ∧
    Layer.ofF32 (.fin false (65535 / 2)) = ⟨32767, 32768⟩ := by decide +kernel

example : Plain (F32.sgn false (26004685 / 8388608)) :=
  ⟨⟨26004685, by simp only [F32.sgn, Bool.false_eq_true, if_false]; norm_num⟩,
    by simp only [F32.sgn, Bool.false_eq_true, if_false]; norm_num,
    by simp only [F32.sgn, Bool.false_eq_true, if_false]; norm_num⟩
example : Layer.ofF32 (.fin false (26004685 / 8388608)) = ⟨3, 6553⟩ := by decide +kernel
example : Layer.ofF32 (.fin true (5 / 4)) = ⟨-2, 49152⟩ := by decide +kernel

end Verif.Minimap
