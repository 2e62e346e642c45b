import Mathlib.Data.Rat.Floor
import Mathlib.Algebra.Order.Field.Basic
import Mathlib.Algebra.Order.Field.Power
import Mathlib.Tactic.Linarith
import Mathlib.Tactic.NormNum
import Mathlib.Tactic.Ring
import Mathlib.Tactic.FieldSimp
import Mathlib.Data.Nat.Log

/-!
# Model of `f32`: IEEE 754 binary32 with round-to-nearest-even

A finite value is a sign and a magnitude; operations are done exactly on rationals and rounded.  The payload of
a NaN is not modelled.  `powf` and the trigonometric functions are left to the platform, see `Libm` in the model.
-/

namespace Verif.Const

inductive F32 where
  | nan
  | inf (neg : Bool)
  | fin (neg : Bool) (mag : ℚ)
deriving DecidableEq

namespace F32

/-- the exponent `e` with `2^e ≤ q < 2^(e+1)`, for positive `q` -/
def expo (q : ℚ) : Int :=
  let e : Int := (Nat.log2 q.num.natAbs : Int) - Nat.log2 q.den
  if (2 : ℚ) ^ e ≤ q then e else e - 1

/-- the distance between neighbouring floats around `q` -/
def ulp (q : ℚ) : ℚ := (2 : ℚ) ^ (max (expo q - 23) (-149))

/-- the nearest integer, ties to even, for `x ≥ 0` -/
def roundEven (x : ℚ) : Nat :=
  let f := ⌊x⌋.toNat
  let r := x - f
  if r < 1 / 2 then f else if 1 / 2 < r then f + 1 else if f % 2 = 0 then f else f + 1

/-- the float nearest to a magnitude, with a sign -/
def ofMag (neg : Bool) (q : ℚ) : F32 :=
  if q = 0 then fin neg 0
  else
    let m := roundEven (q / ulp q) * ulp q
    if (2 : ℚ) ^ (128 : Nat) ≤ m then inf neg else fin neg m

/-- the float nearest to a rational; `z` is the sign of a zero result -/
def ofRat (z : Bool) (q : ℚ) : F32 :=
  if q = 0 then fin z 0 else ofMag (decide (q < 0)) |q|

/-- `as f32` from an integer -/
def ofInt (i : Int) : F32 := ofRat false i

/-- the value of a finite float -/
def sgn (neg : Bool) (m : ℚ) : ℚ := if neg then -m else m

/-- `as u32`: truncates and saturates -/
def toU32 : F32 → Nat
  | nan => 0
  | inf neg => if neg then 0 else 2 ^ 32 - 1
  | fin neg m => if neg then 0 else min ⌊m⌋.toNat (2 ^ 32 - 1)

/-- `as i32`: truncates and saturates -/
def toI32 : F32 → Int
  | nan => 0
  | inf neg => if neg then -2 ^ 31 else 2 ^ 31 - 1
  | fin neg m => if neg then max (-⌊m⌋) (-2 ^ 31) else min ⌊m⌋ (2 ^ 31 - 1)

def neg : F32 → F32
  | nan => nan
  | inf s => inf (!s)
  | fin s m => fin (!s) m

def add : F32 → F32 → F32
  | nan, _ => nan
  | _, nan => nan
  | inf s, inf t => if s = t then inf s else nan
  | inf s, _ => inf s
  | _, inf t => inf t
  | fin s a, fin t b => ofRat (s && t) (sgn s a + sgn t b)

def sub (a b : F32) : F32 := add a (neg b)

def mul : F32 → F32 → F32
  | nan, _ => nan
  | _, nan => nan
  | inf s, inf t => inf (s != t)
  | inf s, fin t b => if b = 0 then nan else inf (s != t)
  | fin s a, inf t => if a = 0 then nan else inf (s != t)
  | fin s a, fin t b => ofMag (s != t) (a * b)

def div : F32 → F32 → F32
  | nan, _ => nan
  | _, nan => nan
  | inf _, inf _ => nan
  | inf s, fin t _ => inf (s != t)
  | fin s _, inf t => fin (s != t) 0
  | fin s a, fin t b => if b = 0 then (if a = 0 then nan else inf (s != t)) else ofMag (s != t) (a / b)

/-- `%`: the remainder of truncated division, with the sign of the dividend -/
def rem : F32 → F32 → F32
  | nan, _ => nan
  | _, nan => nan
  | inf _, _ => nan
  | fin s a, inf _ => fin s a
  | fin s a, fin _ b => if b = 0 then nan else ofMag s (a - ⌊a / b⌋ * b)

def floor : F32 → F32
  | nan => nan
  | inf s => inf s
  | fin s m => ofRat s ⌊sgn s m⌋

/-- the order on values that are not NaN -/
def lt : F32 → F32 → Bool
  | nan, _ => false
  | _, nan => false
  | inf s, inf t => s && !t
  | inf s, fin _ _ => s
  | fin _ _, inf t => !t
  | fin s a, fin t b => decide (sgn s a < sgn t b)

def le : F32 → F32 → Bool
  | nan, _ => false
  | _, nan => false
  | inf s, inf t => s || !t
  | inf s, fin _ _ => s
  | fin _ _, inf t => !t
  | fin s a, fin t b => decide (sgn s a ≤ sgn t b)

/-- `==` of `OrderedFloat`: NaN equals itself and zeros are equal -/
def oeq : F32 → F32 → Bool
  | nan, nan => true
  | inf s, inf t => s == t
  | fin s a, fin t b => decide (sgn s a = sgn t b)
  | _, _ => false

/-- `f != 0.` -/
def nonzero : F32 → Bool
  | fin _ m => decide (m ≠ 0)
  | _ => true

/-! ## Integers are exact up to `2^24` -/

theorem roundEven_nat (n : Nat) : roundEven (n : ℚ) = n := by
  unfold roundEven
  simp

theorem ulp_pos (q : ℚ) : 0 < ulp q := by unfold ulp; positivity

/-- a multiple of the spacing is not changed by rounding -/
theorem ofMag_exact (s : Bool) (q : ℚ) (k : Nat) (h : q = k * ulp q) (hq : q < (2 : ℚ) ^ (128 : Nat)) :
    ofMag s q = fin s q := by
  unfold ofMag
  by_cases h0 : q = 0
  · rw [if_pos h0, h0]
  · rw [if_neg h0]
    have hu := ulp_pos q
    have : q / ulp q = k := by
      rw [div_eq_iff hu.ne']
      exact h
    simp only [this, roundEven_nat, ← h]
    rw [if_neg (not_le.2 hq)]

theorem expo_nat (n : Nat) (hn : n ≠ 0) : expo (n : ℚ) = Nat.log2 n := by
  unfold expo
  have h1 : Nat.log2 1 = 0 := by decide
  have he : ((Nat.log2 (n : ℚ).num.natAbs : Nat) : Int) - ((Nat.log2 (n : ℚ).den : Nat) : Int) = Nat.log2 n := by
    rw [Rat.num_natCast, Int.natAbs_natCast, Rat.den_natCast, h1]
    simp
  have hc : (2 : ℚ) ^ ((Nat.log2 n : Nat) : Int) ≤ n := by
    rw [zpow_natCast]
    have := Nat.log2_self_le hn
    exact_mod_cast this
  simp only [he]
  rw [if_pos hc]

theorem ofMag_nat (s : Bool) (n : Nat) (hn : n ≤ 2 ^ 24) : ofMag s (n : ℚ) = fin s n := by
  by_cases h0 : n = 0
  · subst h0; simp [ofMag]
  · have hlog : Nat.log2 n ≤ 24 := by
      by_contra hc
      have h1 := Nat.log2_self_le h0
      have h2 : 2 ^ 25 ≤ 2 ^ Nat.log2 n := Nat.pow_le_pow_right (by norm_num) (by omega)
      have h3 : (2 : Nat) ^ 25 = 33554432 := by norm_num
      have h4 : (2 : Nat) ^ 24 = 16777216 := by norm_num
      omega
    have hul : ulp (n : ℚ) = (2 : ℚ) ^ ((Nat.log2 n : Int) - 23) := by
      unfold ulp
      rw [expo_nat n h0]
      congr 1
      omega
    have hlt : (n : ℚ) < (2 : ℚ) ^ (128 : Nat) := by
      have : (n : ℚ) ≤ (2 : ℚ) ^ (24 : Nat) := by exact_mod_cast hn
      have h2 : (2 : ℚ) ^ (24 : Nat) < (2 : ℚ) ^ (128 : Nat) := by norm_num
      linarith
    by_cases hl : Nat.log2 n ≤ 23
    · refine ofMag_exact s _ (n * 2 ^ (23 - Nat.log2 n)) ?_ hlt
      rw [hul]
      push_cast
      rw [mul_assoc]
      have : (2 : ℚ) ^ (23 - Nat.log2 n) * (2 : ℚ) ^ ((Nat.log2 n : Int) - 23) = 1 := by
        rw [← zpow_natCast, ← zpow_add₀ (by norm_num : (2 : ℚ) ≠ 0)]
        have : ((23 - Nat.log2 n : Nat) : Int) + ((Nat.log2 n : Int) - 23) = 0 := by omega
        rw [this, zpow_zero]
      rw [this, mul_one]
    · have h24 : Nat.log2 n = 24 := by omega
      have hn' : n = 2 ^ 24 := by
        have := Nat.log2_self_le h0
        rw [h24] at this
        omega
      refine ofMag_exact s _ (2 ^ 23) ?_ hlt
      rw [hul, h24, hn']
      norm_num

theorem ofInt_exact (i : Int) (h : |i| ≤ 2 ^ 24) : ofInt i = fin (decide (i < 0)) (i.natAbs : ℚ) := by
  unfold ofInt ofRat
  by_cases h0 : i = 0
  · subst h0; simp
  · rw [if_neg (by exact_mod_cast h0)]
    have habs : |(i : ℚ)| = (i.natAbs : ℚ) := by
      rw [Nat.cast_natAbs, Int.cast_abs]
    rw [habs, ofMag_nat _ _ (by have := Int.natCast_natAbs i; omega)]
    congr 1
    rw [decide_eq_decide]
    exact_mod_cast Iff.rfl

theorem ofInt_nat (n : Nat) (h : n ≤ 2 ^ 24) : ofInt n = fin false (n : ℚ) := by
  have := ofInt_exact n (by rw [abs_of_nonneg (by omega)]; exact_mod_cast h)
  rw [this, decide_eq_false (by omega), Int.natAbs_natCast]

theorem toU32_ofInt (n : Nat) (h : n ≤ 2 ^ 24) : toU32 (ofInt n) = n := by
  rw [ofInt_nat n h]
  simp only [toU32, Bool.false_eq_true, if_false, Int.floor_natCast, Int.toNat_natCast]
  have : (2 : Nat) ^ 24 ≤ 2 ^ 32 - 1 := by norm_num
  omega

theorem toI32_ofInt (i : Int) (h : |i| ≤ 2 ^ 24) : toI32 (ofInt i) = i := by
  rw [ofInt_exact i h]
  have hb : (2 : Int) ^ 24 ≤ 2 ^ 31 - 1 := by norm_num
  have hl := abs_le.1 h
  by_cases hi : i < 0
  · simp only [hi, decide_true, toI32, if_true, Int.floor_natCast]
    omega
  · simp only [hi, decide_false, toI32, Bool.false_eq_true, if_false, Int.floor_natCast]
    omega

theorem toU32_lt (f : F32) : toU32 f < 2 ^ 32 := by
  cases f with
  | nan => norm_num [toU32]
  | inf s => cases s <;> norm_num [toU32]
  | fin s m => cases s <;> norm_num [toU32]

theorem toU32_negative (m : ℚ) : toU32 (fin true m) = 0 := rfl

/-- the value of a small integer -/
theorem sgn_ofInt (i : Int) : sgn (decide (i < 0)) (i.natAbs : ℚ) = i := by
  unfold sgn
  by_cases hi : i < 0
  · simp only [hi, decide_true, if_true]
    have : (i.natAbs : ℚ) = -(i : ℚ) := by
      rw [Nat.cast_natAbs, abs_of_neg hi]; push_cast; rfl
    rw [this, neg_neg]
  · simp only [hi, decide_false, Bool.false_eq_true, if_false]
    rw [Nat.cast_natAbs, abs_of_nonneg (by omega)]

theorem ofRat_int (z : Bool) (i : Int) (h0 : i ≠ 0) : ofRat z (i : ℚ) = ofInt i := by
  unfold ofInt ofRat
  rw [if_neg (by exact_mod_cast h0), if_neg (by exact_mod_cast h0)]

theorem nonneg_zero (i : Int) (h : |i| ≤ 2 ^ 24) : (ofInt i).nonzero = decide (i ≠ 0) := by
  rw [ofInt_exact i h]
  simp [nonzero]

/-- addition of integers is exact while everything stays within `2^24` -/
theorem add_ofInt (a b : Int) (ha : |a| ≤ 2 ^ 24) (hb : |b| ≤ 2 ^ 24) : add (ofInt a) (ofInt b) = ofInt (a + b) := by
  rw [ofInt_exact a ha, ofInt_exact b hb]
  simp only [add, sgn_ofInt]
  by_cases h0 : a + b = 0
  · have h1 : (a : ℚ) + (b : ℚ) = 0 := by exact_mod_cast h0
    rw [h1, h0]
    unfold ofInt ofRat
    simp only [Int.cast_zero, if_true]
    congr 1
    rw [Bool.and_eq_false_iff]
    by_cases ha : a < 0
    · right; simp; omega
    · left; simp; omega
  · have h1 : (a : ℚ) + (b : ℚ) = ((a + b : Int) : ℚ) := by push_cast; rfl
    rw [h1, ofRat_int _ _ h0]

theorem lt_ofInt (a b : Int) (ha : |a| ≤ 2 ^ 24) (hb : |b| ≤ 2 ^ 24) : lt (ofInt a) (ofInt b) = decide (a < b) := by
  rw [ofInt_exact a ha, ofInt_exact b hb]
  simp only [lt, sgn_ofInt]
  rw [decide_eq_decide]
  exact_mod_cast Iff.rfl

theorem le_ofInt (a b : Int) (ha : |a| ≤ 2 ^ 24) (hb : |b| ≤ 2 ^ 24) : le (ofInt a) (ofInt b) = decide (a ≤ b) := by
  rw [ofInt_exact a ha, ofInt_exact b hb]
  simp only [le, sgn_ofInt]
  rw [decide_eq_decide]
  exact_mod_cast Iff.rfl

theorem oeq_ofInt (a b : Int) (ha : |a| ≤ 2 ^ 24) (hb : |b| ≤ 2 ^ 24) : oeq (ofInt a) (ofInt b) = decide (a = b) := by
  rw [ofInt_exact a ha, ofInt_exact b hb]
  simp only [oeq, sgn_ofInt]
  rw [decide_eq_decide]
  exact_mod_cast Iff.rfl

theorem neg_ofInt (a : Int) (ha : |a| ≤ 2 ^ 24) (h0 : a ≠ 0) : neg (ofInt a) = ofInt (-a) := by
  rw [ofInt_exact a ha, ofInt_exact (-a) (by rw [abs_neg]; exact ha)]
  simp only [neg, Int.natAbs_neg]
  congr 1
  by_cases h : a < 0
  · simp [h]; omega
  · simp [h]; omega

theorem sub_ofInt (a b : Int) (ha : |a| ≤ 2 ^ 24) (hb : |b| ≤ 2 ^ 24) : sub (ofInt a) (ofInt b) = ofInt (a - b) := by
  unfold sub
  by_cases h0 : b = 0
  · subst h0
    rw [ofInt_exact a ha, ofInt_exact 0 (by norm_num)]
    simp only [neg, add, Int.natAbs_zero, Nat.cast_zero, sgn_ofInt, sub_zero]
    have : sgn (!decide ((0 : Int) < 0)) 0 = 0 := by simp [sgn]
    rw [this, add_zero]
    by_cases ha0 : a = 0
    · subst ha0
      simp [ofRat, ofInt]
    · rw [ofRat_int _ _ ha0, ofInt_exact a ha]
  · rw [neg_ofInt b hb h0, add_ofInt a (-b) ha (by rw [abs_neg]; exact hb)]
    rfl

theorem mul_ofInt (a b : Int) (ha : |a| ≤ 2 ^ 24) (hb : |b| ≤ 2 ^ 24) (h0 : a ≠ 0) (h1 : b ≠ 0) :
    mul (ofInt a) (ofInt b) = ofInt (a * b) := by
  rw [ofInt_exact a ha, ofInt_exact b hb]
  simp only [mul]
  have hm : a * b ≠ 0 := mul_ne_zero h0 h1
  unfold ofInt ofRat
  rw [if_neg (by exact_mod_cast hm)]
  have e1 : (a.natAbs : ℚ) * (b.natAbs : ℚ) = |((a * b : Int) : ℚ)| := by
    rw [Nat.cast_natAbs, Nat.cast_natAbs, Int.cast_abs, Int.cast_abs, Int.cast_mul, abs_mul]
  rw [e1]
  congr 1
  have : decide (((a * b : Int) : ℚ) < 0) = decide (a * b < 0) := by
    rw [decide_eq_decide]
    exact_mod_cast Iff.rfl
  rw [this]
  by_cases ha' : a < 0 <;> by_cases hb' : b < 0
  · have := mul_pos_of_neg_of_neg ha' hb'
    simp [ha', hb']; omega
  · have := mul_neg_of_neg_of_pos ha' (show 0 < b by omega)
    simp [ha', hb', this]
  · have := mul_neg_of_pos_of_neg (show 0 < a by omega) hb'
    simp [ha', hb', this]
  · have := mul_pos (show 0 < a by omega) (show 0 < b by omega)
    simp [ha', hb']; omega

-- one third, and the first integer that is not a float
example : div (ofInt 1) (ofInt 3) = fin false (11184811 / 33554432) := by decide +kernel
example : ofInt 16777217 = ofInt 16777216 := by decide +kernel

end F32

end Verif.Const
