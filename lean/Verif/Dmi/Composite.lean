import Verif.Dmi.RectProps
import Mathlib.Tactic.Linarith
import Mathlib.Tactic.NormNum

/-!
# Alpha compositing (`crates/dmm-tools/src/dmi.rs`, C32)

* Channels are natural numbers; `Px.OK` says they are bytes.  The `as u8` conversions are `% 256`; an
  overflow of the `u8` addition (a panic, or a wrap in release builds) is `none`.
* An image is a flat list of pixels, row by row, as `as_slice` gives it; an index out of range is a panic
  (`none`).  `u32` overflow of pixel indices is not modelled.
-/

namespace Verif.Dmi

/-- `Rgba8` (dmm-tools/src/dmi.rs:76-81) -/
structure Px where
  r : Nat
  g : Nat
  b : Nat
  a : Nat
deriving DecidableEq, Repr

/-- all channels are bytes -/
def Px.OK (p : Px) : Prop := p.r ≤ 255 ∧ p.g ≤ 255 ∧ p.b ≤ 255 ∧ p.a ≤ 255

instance (p : Px) : Decidable p.OK := by unfold Px.OK; infer_instance

/-- `mul255` (dmm-tools/src/dmi.rs:233-236) -/
def mul255 (x y : Nat) : Nat := x * y / 255 % 256

/-- `src_tint` (dmm-tools/src/dmi.rs:205-211) -/
def tint (p c : Px) : Px := ⟨mul255 p.r c.r, mul255 p.g c.g, mul255 p.b c.b, mul255 p.a c.a⟩

/-- one colour channel (dmm-tools/src/dmi.rs:218-220) -/
def channel (s sa d da oa : Nat) : Nat := (s * sa + d * da * (255 - sa) / 255) / oa % 256

/-- one pixel (dmm-tools/src/dmi.rs:213-227): `src` already tinted -/
def blend (src dst : Px) : Option Px :=
  let oa := src.a + mul255 dst.a (255 - src.a)
  if 255 < oa then none
  else if oa ≠ 0 then
    some ⟨channel src.r src.a dst.r dst.a oa, channel src.g src.a dst.g dst.a oa,
      channel src.b src.a dst.b dst.a oa, oa⟩
  else some ⟨0, 0, 0, oa⟩

/-- `Image` (dmm-tools/src/dmi.rs:116-120) -/
structure Image where
  width : Nat
  height : Nat
  data : List Px
deriving DecidableEq

/-- `new_rgba` (dmm-tools/src/dmi.rs:123-129) -/
def Image.blank (w h : Nat) : Image := ⟨w, h, List.replicate (w * h) ⟨0, 0, 0, 0⟩⟩

/-- `clear` (dmm-tools/src/dmi.rs:170-172) -/
def Image.clear (i : Image) : Image := { i with data := i.data.map fun _ => ⟨0, 0, 0, 0⟩ }

/-- the body of the loops of `composite` (dmm-tools/src/dmi.rs:204-227): source index, destination index -/
def pixelStep (src : List Px) (color : Px) (dst : List Px) (si di : Nat) : Option (List Px) :=
  match src[si]?, dst[di]? with
  | some s, some d => (blend (tint s color) d).map fun p => dst.set di p
  | _, _ => none

/-- the inner loop (dmm-tools/src/dmi.rs:203-228) for one row of `n` pixels -/
def rowLoop (src : List Px) (color : Px) (si di : Nat) : Nat → List Px → Option (List Px)
  | 0, dst => some dst
  | n + 1, dst => (pixelStep src color dst si di).bind (rowLoop src color (si + 1) (di + 1) n)

/-- the outer loop (dmm-tools/src/dmi.rs:202-229) for `n` rows from `sy` and `y` -/
def rowsLoop (other : Image) (color : Px) (crop : Rect) (width px : Nat) (sy y : Nat) :
    Nat → List Px → Option (List Px)
  | 0, dst => some dst
  | n + 1, dst =>
    (rowLoop other.data color (sy * other.width + crop.x) (y * width + px) crop.w dst).bind
      (rowsLoop other color crop width px (sy + 1) (y + 1) n)

/-- `composite` (dmm-tools/src/dmi.rs:199-230) -/
def Image.composite (self other : Image) (px py : Nat) (crop : Rect) (color : Px) : Option Image :=
  (rowsLoop other color crop self.width px crop.y py crop.h self.data).map fun d => { self with data := d }

/-- the pixel at a place -/
def Image.at (i : Image) (x y : Nat) : Option Px := i.data[y * i.width + x]?

/-! ## One pixel -/

theorem mul255_eq {x y : Nat} (hx : x ≤ 255) (hy : y ≤ 255) : mul255 x y = x * y / 255 := by
  unfold mul255
  have h : x * y ≤ 255 * 255 := Nat.mul_le_mul hx hy
  have : x * y / 255 ≤ 255 := by omega
  omega

theorem mul255_le {x y : Nat} (hx : x ≤ 255) (hy : y ≤ 255) : mul255 x y ≤ y ∧ mul255 x y ≤ x := by
  rw [mul255_eq hx hy]
  have h1 : x * y ≤ 255 * y := Nat.mul_le_mul_right _ hx
  have h2 : x * y ≤ x * 255 := Nat.mul_le_mul_left _ hy
  omega

theorem tint_ok {p c : Px} (hp : p.OK) (hc : c.OK) : (tint p c).OK :=
  ⟨(mul255_le hp.1 hc.1).2.trans hp.1, (mul255_le hp.2.1 hc.2.1).2.trans hp.2.1,
    (mul255_le hp.2.2.1 hc.2.2.1).2.trans hp.2.2.1, (mul255_le hp.2.2.2 hc.2.2.2).2.trans hp.2.2.2⟩

/-- **C32**: a tint multiplies the channels, as fractions of 255, rounding down -/
theorem tint_exact {p c : Px} (hp : p.OK) (hc : c.OK) :
    let times := fun x y t => 255 * t ≤ x * y ∧ x * y < 255 * (t + 1)
    times p.r c.r (tint p c).r ∧ times p.g c.g (tint p c).g ∧ times p.b c.b (tint p c).b ∧ times p.a c.a (tint p c).a := by
  obtain ⟨h1, h2, h3, h4⟩ := hp
  obtain ⟨g1, g2, g3, g4⟩ := hc
  intro times
  have key : ∀ x y, x ≤ 255 → y ≤ 255 → times x y (mul255 x y) := by
    intro x y hx hy
    rw [mul255_eq hx hy]
    simp only [times]
    omega
  exact ⟨key _ _ h1 g1, key _ _ h2 g2, key _ _ h3 g3, key _ _ h4 g4⟩

/-- no tint leaves a pixel as it is -/
theorem tint_none {p : Px} (hp : p.OK) : tint p ⟨255, 255, 255, 255⟩ = p := by
  obtain ⟨h1, h2, h3, h4⟩ := hp
  unfold tint
  rw [mul255_eq h1 (by decide), mul255_eq h2 (by decide), mul255_eq h3 (by decide), mul255_eq h4 (by decide)]
  simp

/-- **C32**: the alpha never overflows, and every channel of the result is a byte: the result's alpha is
`src.a + dst.a * (255 - src.a) / 255`, at least the source's. -/
theorem blend_ok {s d : Px} (hs : s.OK) (hd : d.OK) :
    ∃ p, blend s d = some p ∧ p.OK ∧ p.a = s.a + d.a * (255 - s.a) / 255 := by
  obtain ⟨_, _, _, hsa⟩ := hs
  obtain ⟨_, _, _, hda⟩ := hd
  have hm := mul255_eq hda (show 255 - s.a ≤ 255 by omega)
  have hl := (mul255_le hda (show 255 - s.a ≤ 255 by omega)).1
  unfold blend
  simp only
  rw [if_neg (by omega)]
  have hlt : ∀ a b c d e, channel a b c d e ≤ 255 := by
    intro a b c d e
    unfold channel
    have := Nat.mod_lt ((a * b + c * d * (255 - b) / 255) / e) (show 256 > 0 by omega)
    omega
  split
  · exact ⟨_, rfl, ⟨hlt _ _ _ _ _, hlt _ _ _ _ _, hlt _ _ _ _ _, by simp only; omega⟩, by simp only; omega⟩
  · exact ⟨_, rfl, ⟨by simp, by simp, by simp, by simp only; omega⟩, by simp only; omega⟩

/-- **C32**: an opaque source pixel replaces the destination. -/
theorem blend_opaque {s d : Px} (hs : s.OK) (ha : s.a = 255) : blend s d = some s := by
  obtain ⟨h1, h2, h3, _⟩ := hs
  have hch : ∀ x y, x ≤ 255 → channel x 255 y d.a 255 = x := by
    intro x y hx
    unfold channel
    simp
    omega
  unfold blend
  simp only [ha]
  rw [show mul255 d.a (255 - 255) = 0 by simp [mul255]]
  simp only [Nat.add_zero, Nat.lt_irrefl, if_false, ne_eq, OfNat.ofNat_ne_zero, not_false_eq_true, if_true,
    hch _ _ h1, hch _ _ h2, hch _ _ h3]
  rw [← ha]

/-- **C32**: a fully transparent source pixel leaves a destination that is not fully transparent as it is. -/
theorem blend_transparent {s d : Px} (hd : d.OK) (ha : s.a = 0) (hda : d.a ≠ 0) : blend s d = some d := by
  obtain ⟨h1, h2, h3, h4⟩ := hd
  have hch : ∀ x y, y ≤ 255 → channel x 0 y d.a d.a = y := by
    intro x y hy
    unfold channel
    simp only [Nat.mul_zero, Nat.zero_add, Nat.sub_zero]
    rw [Nat.mul_div_cancel _ (by omega), Nat.mul_div_cancel _ (by omega)]
    omega
  unfold blend
  simp only [ha]
  rw [mul255_eq h4 (by omega)]
  simp only [Nat.sub_zero, Nat.zero_add]
  rw [Nat.mul_div_cancel _ (by omega)]
  simp only [hda, hch _ _ h1, hch _ _ h2, hch _ _ h3, ne_eq, not_false_eq_true, if_true]
  rw [if_neg (by omega)]

/-- a fully transparent destination shows the source, its colour dropped if that is fully transparent too -/
theorem blend_over_clear {s d : Px} (hs : s.OK) (hda : d.a = 0) :
    blend s d = some (if s.a = 0 then ⟨0, 0, 0, 0⟩ else s) := by
  obtain ⟨h1, h2, h3, h4⟩ := hs
  have hch : ∀ x y, s.a ≠ 0 → x ≤ 255 → channel x s.a y 0 s.a = x := by
    intro x y h0 hx
    unfold channel
    simp only [Nat.mul_zero, Nat.zero_mul, Nat.zero_div, Nat.add_zero]
    rw [Nat.mul_div_cancel _ (by omega)]
    omega
  unfold blend
  simp only [hda, mul255, Nat.zero_mul, Nat.zero_div, Nat.zero_mod, Nat.add_zero]
  rw [if_neg (by omega)]
  by_cases h0 : s.a = 0
  · rw [if_neg (by simpa using h0), if_pos h0, h0]
  · rw [if_pos h0, if_neg h0, hch _ _ h0 h1, hch _ _ h0 h2, hch _ _ h0 h3]

/-- **C32**: over an opaque destination the result is opaque and every channel is the weighted mean
`(s * src.a + d * (255 - src.a)) / 255`, which lies between the two. -/
theorem blend_over_opaque {s d : Px} (hs : s.OK) (hd : d.OK) (hda : d.a = 255) :
    let mean := fun x y => (x * s.a + y * (255 - s.a)) / 255
    blend s d = some ⟨mean s.r d.r, mean s.g d.g, mean s.b d.b, 255⟩
      ∧ ∀ x y, min x y ≤ mean x y ∧ mean x y ≤ max x y := by
  obtain ⟨h1, h2, h3, h4⟩ := hs
  obtain ⟨g1, g2, g3, g4⟩ := hd
  intro mean
  have hmean : ∀ x y, min x y ≤ mean x y ∧ mean x y ≤ max x y := by
    intro x y
    simp only [mean]
    have hlo : min x y * 255 ≤ x * s.a + y * (255 - s.a) := by
      calc min x y * 255 = min x y * s.a + min x y * (255 - s.a) := by rw [← Nat.mul_add]; congr 1; omega
        _ ≤ _ := Nat.add_le_add (Nat.mul_le_mul_right _ (Nat.min_le_left _ _))
          (Nat.mul_le_mul_right _ (Nat.min_le_right _ _))
    have hhi : x * s.a + y * (255 - s.a) ≤ max x y * 255 := by
      calc _ ≤ max x y * s.a + max x y * (255 - s.a) := Nat.add_le_add
            (Nat.mul_le_mul_right _ (Nat.le_max_left _ _)) (Nat.mul_le_mul_right _ (Nat.le_max_right _ _))
        _ = _ := by rw [← Nat.mul_add]; congr 1; omega
    omega
  refine ⟨?_, hmean⟩
  have hch : ∀ x y, x ≤ 255 → y ≤ 255 → channel x s.a y 255 255 = mean x y := by
    intro x y hx hy
    have := (hmean x y).2
    simp only [mean] at this ⊢
    unfold channel
    rw [show y * 255 * (255 - s.a) = y * (255 - s.a) * 255 by ac_rfl, Nat.mul_div_cancel _ (by omega)]
    apply Nat.mod_eq_of_lt
    omega
  unfold blend
  simp only [hda]
  rw [mul255_eq (by omega) (by omega), Nat.mul_comm, Nat.mul_div_cancel _ (by omega)]
  simp only [show s.a + (255 - s.a) = 255 by omega, Nat.lt_irrefl, if_false, ne_eq, OfNat.ofNat_ne_zero,
    not_false_eq_true, if_true, hch _ _ h1 g1, hch _ _ h2 g2, hch _ _ h3 g3]

/-- **C32**: a colour channel does not wrap around (its value before the conversion to a byte fits) whenever
the remainder dropped from the result's alpha is less than that alpha; in particular if the result is at
least 254. -/
theorem channel_no_wrap {s sa d da : Nat} (hs : s ≤ 255) (hd : d ≤ 255)
    (h : da * (255 - sa) % 255 < sa + da * (255 - sa) / 255) :
    (s * sa + d * da * (255 - sa) / 255) / (sa + da * (255 - sa) / 255) ≤ 255 := by
  have h1 : s * sa ≤ 255 * sa := Nat.mul_le_mul_right _ hs
  have h2 : d * da * (255 - sa) / 255 ≤ da * (255 - sa) := by
    rw [Nat.mul_assoc]
    have : d * (da * (255 - sa)) ≤ 255 * (da * (255 - sa)) := Nat.mul_le_mul_right _ hd
    omega
  generalize da * (255 - sa) = x at *
  generalize d * da * (255 - sa) / 255 = z at *
  have hx := Nat.div_add_mod x 255
  have : (s * sa + z) / (sa + x / 255) < 256 := by
    apply Nat.div_lt_of_lt_mul
    have e : (sa + x / 255) * 256 = sa * 256 + x / 255 * 256 := Nat.add_mul _ _ _
    omega
  omega

/-- disagreement: otherwise a colour channel can exceed 255 and wrap around: nearly transparent white over
white of alpha 100 turns black -/
theorem channel_wraps : blend ⟨255, 255, 255, 1⟩ ⟨255, 255, 255, 100⟩ = some ⟨0, 0, 0, 100⟩ := by decide

/-- disagreement: a transparent source erases the colour of a transparent destination -/
theorem transparent_loses_colour : blend ⟨9, 9, 9, 0⟩ ⟨1, 2, 3, 0⟩ = some ⟨0, 0, 0, 0⟩ := by decide

/-! ## Whole images -/

theorem rowLoop_exact (src : List Px) (color : Px) (hsrc : ∀ p ∈ src, p.OK) (hc : color.OK) (n : Nat) :
    ∀ (si di : Nat) (dst : List Px), (∀ p ∈ dst, p.OK) → si + n ≤ src.length → di + n ≤ dst.length →
    ∃ dst', rowLoop src color si di n dst = some dst' ∧ dst'.length = dst.length ∧ (∀ p ∈ dst', p.OK)
      ∧ (∀ (j : Nat), j < n → ∃ s d p, src[si + j]? = some s ∧ dst[di + j]? = some d
          ∧ blend (tint s color) d = some p ∧ dst'[di + j]? = some p)
      ∧ ∀ (i : Nat), (i < di ∨ di + n ≤ i) → dst'[i]? = dst[i]? := by
  induction n with
  | zero =>
    intro si di dst hd _ _
    exact ⟨dst, rfl, rfl, hd, fun j hj => absurd hj (by omega), fun i _ => rfl⟩
  | succ n ih =>
    intro si di dst hd h1 h2
    have e1 : src[si]? = some (src[si]'(by omega)) := List.getElem?_eq_getElem _
    have e2 : dst[di]? = some (dst[di]'(by omega)) := List.getElem?_eq_getElem _
    obtain ⟨p, hp, hpok, _⟩ := blend_ok (tint_ok (hsrc _ (List.getElem_mem (show si < src.length by omega))) hc)
      (hd _ (List.getElem_mem (show di < dst.length by omega)))
    have hstep : pixelStep src color dst si di = some (dst.set di p) := by
      unfold pixelStep
      rw [e1, e2]
      simp only [hp, Option.map_some]
    have hd' : ∀ q ∈ dst.set di p, q.OK := by
      intro q hq
      rcases List.mem_or_eq_of_mem_set hq with h | rfl
      · exact hd q h
      · exact hpok
    obtain ⟨dst', hr, hl, hok, hin, hout⟩ := ih (si + 1) (di + 1) (dst.set di p) hd' (by omega) (by simp; omega)
    refine ⟨dst', by rw [rowLoop, hstep]; exact hr, by rw [hl]; simp, hok, ?_, ?_⟩
    · intro j hj
      cases j with
      | zero =>
        refine ⟨_, _, p, e1, e2, hp, ?_⟩
        rw [hout _ (by omega)]
        simp only [Nat.add_zero]
        rw [List.getElem?_set_self (by omega)]
      | succ j =>
        obtain ⟨s, d, q, hs, hd2, hq, hr2⟩ := hin j (by omega)
        rw [show si + (j + 1) = si + 1 + j by omega, show di + (j + 1) = di + 1 + j by omega]
        rw [List.getElem?_set_ne (by omega)] at hd2
        exact ⟨s, d, q, hs, hd2, hq, hr2⟩
    · intro i hi
      rw [hout i (by omega), List.getElem?_set_ne (by omega)]

theorem rowsLoop_exact (other : Image) (color : Px) (hsrc : ∀ p ∈ other.data, p.OK) (hc : color.OK)
    (crop : Rect) (width px : Nat) (hx : px + crop.w ≤ width) (n : Nat) :
    ∀ (sy y : Nat) (dst : List Px), (∀ p ∈ dst, p.OK) → (n = 0 ∨ (y + n) * width ≤ dst.length) →
    (∀ j < n, (sy + j) * other.width + crop.x + crop.w ≤ other.data.length) →
    ∃ dst', rowsLoop other color crop width px sy y n dst = some dst' ∧ dst'.length = dst.length
      ∧ (∀ p ∈ dst', p.OK)
      ∧ (∀ (j i : Nat), j < n → i < crop.w → ∃ s d p,
          other.data[(sy + j) * other.width + crop.x + i]? = some s
          ∧ dst[(y + j) * width + px + i]? = some d ∧ blend (tint s color) d = some p
          ∧ dst'[(y + j) * width + px + i]? = some p)
      ∧ ∀ (k : Nat), (∀ j i : Nat, j < n → i < crop.w → k ≠ (y + j) * width + px + i) → dst'[k]? = dst[k]? := by
  induction n with
  | zero =>
    intro sy y dst hd _ _
    exact ⟨dst, rfl, rfl, hd, fun j i hj => absurd hj (by omega), fun k _ => rfl⟩
  | succ n ih =>
    intro sy y dst hd hlen hs
    have hlen' : (y + (n + 1)) * width ≤ dst.length := by
      rcases hlen with h | h
      · omega
      · exact h
    have hy : y * width + width ≤ dst.length := by
      have : (y + 1) * width ≤ (y + (n + 1)) * width := Nat.mul_le_mul_right _ (by omega)
      rw [Nat.add_mul, Nat.one_mul] at this
      omega
    obtain ⟨d1, hr1, hl1, hok1, hin1, hout1⟩ := rowLoop_exact other.data color hsrc hc crop.w
      (sy * other.width + crop.x) (y * width + px) dst hd (by have := hs 0 (by omega); simpa using this) (by omega)
    obtain ⟨d2, hr2, hl2, hok2, hin2, hout2⟩ := ih (sy + 1) (y + 1) d1 hok1
      (.inr (by rw [hl1, show y + 1 + n = y + (n + 1) by omega]; exact hlen'))
      (fun j hj => by rw [show sy + 1 + j = sy + (j + 1) by omega]; exact hs (j + 1) (by omega))
    have hrow : ∀ a b, a < b → a * width + width ≤ b * width := by
      intro a b hab
      have : (a + 1) * width ≤ b * width := Nat.mul_le_mul_right _ hab
      rw [Nat.add_mul, Nat.one_mul] at this
      exact this
    refine ⟨d2, by rw [rowsLoop, hr1]; exact hr2, hl2.trans hl1, hok2, ?_, ?_⟩
    · intro j i hj hi
      cases j with
      | zero =>
        obtain ⟨s, d, p, h1, h2, h3, h4⟩ := hin1 i hi
        refine ⟨s, d, p, h1, h2, h3, ?_⟩
        simp only [Nat.add_zero]
        rw [hout2 _ (fun j' i' _ _ => by have := hrow y (y + 1 + j') (by omega); omega)]
        exact h4
      | succ j =>
        obtain ⟨s, d, p, h1, h2, h3, h4⟩ := hin2 j i (by omega) hi
        rw [show sy + (j + 1) = sy + 1 + j by omega, show y + (j + 1) = y + 1 + j by omega]
        refine ⟨s, d, p, h1, ?_, h3, h4⟩
        rw [← hout1 _ (by have := hrow y (y + 1 + j) (by omega); omega)]
        exact h2
    · intro k hk
      rw [hout2 k (fun j i hj hi => by
        have := hk (j + 1) i (by omega) hi
        rwa [show y + (j + 1) = y + 1 + j by omega] at this)]
      apply hout1
      by_contra hcon
      exact hk 0 (k - (y * width + px)) (by omega) (by omega) (by simp only [Nat.add_zero]; omega)

/-- an image whose data is as long as its size says, all channels bytes -/
structure Image.OK (i : Image) : Prop where
  len : i.data.length = i.width * i.height
  px : ∀ p ∈ i.data, p.OK

theorem Image.at_some {i : Image} (h : i.OK) {x y : Nat} (hx : x < i.width) (hy : y < i.height) :
    ∃ p, i.at x y = some p ∧ p.OK := by
  have hlt : y * i.width + x < i.data.length := by
    have : (y + 1) * i.width ≤ i.height * i.width := Nat.mul_le_mul_right _ hy
    rw [Nat.add_mul, Nat.one_mul] at this
    rw [h.len, Nat.mul_comm i.width]
    omega
  exact ⟨i.data[y * i.width + x], by unfold Image.at; rw [List.getElem?_eq_getElem hlt], h.px _ (List.getElem_mem hlt)⟩

/-- **C32**: compositing a crop that lies inside the source onto a place that lies inside the destination
succeeds, keeps the size, blends exactly the pixels of the rectangle with the corresponding source pixels
(tinted), and leaves every other pixel alone. -/
theorem composite_exact (self other : Image) (hself : self.OK) (hother : other.OK) (px py : Nat) (crop : Rect)
    (color : Px) (hc : color.OK) (hsx : crop.x + crop.w ≤ other.width) (hsy : crop.y + crop.h ≤ other.height)
    (hdx : px + crop.w ≤ self.width) (hdy : py + crop.h ≤ self.height) :
    ∃ r, self.composite other px py crop color = some r ∧ r.OK ∧ r.width = self.width ∧ r.height = self.height
      ∧ (∀ i j, i < crop.w → j < crop.h → ∃ s d p, other.at (crop.x + i) (crop.y + j) = some s
          ∧ self.at (px + i) (py + j) = some d ∧ blend (tint s color) d = some p
          ∧ r.at (px + i) (py + j) = some p)
      ∧ ∀ x y, x < self.width → ¬ (px ≤ x ∧ x < px + crop.w ∧ py ≤ y ∧ y < py + crop.h) →
        r.at x y = self.at x y := by
  obtain ⟨d', hr, hl, hok, hin, hout⟩ := rowsLoop_exact other color hother.px hc crop self.width px hdx crop.h
    crop.y py self.data hself.px
    (.inr (by rw [hself.len, Nat.mul_comm self.width]; exact Nat.mul_le_mul_right _ hdy))
    (fun j hj => by
      have : (crop.y + j + 1) * other.width ≤ other.height * other.width := Nat.mul_le_mul_right _ (by omega)
      rw [Nat.add_mul _ 1, Nat.one_mul] at this
      rw [hother.len, Nat.mul_comm other.width]
      omega)
  refine ⟨{ self with data := d' }, ?_, ⟨hl.trans hself.len, hok⟩, rfl, rfl, ?_, ?_⟩
  · unfold Image.composite
    rw [hr]
    rfl
  · intro i j hi hj
    obtain ⟨s, d, p, h1, h2, h3, h4⟩ := hin j i hj hi
    refine ⟨s, d, p, ?_, ?_, h3, ?_⟩
    · unfold Image.at; rw [← h1]; congr 1; omega
    · unfold Image.at; rw [← h2]; congr 1; omega
    · unfold Image.at; rw [← h4]; congr 1; simp only; omega
  · intro x y hx hn
    unfold Image.at
    simp only
    apply hout
    intro j i hj hi he
    apply hn
    have hrow : ∀ a b, a < b → a * self.width + self.width ≤ b * self.width := by
      intro a b hab
      have : (a + 1) * self.width ≤ b * self.width := Nat.mul_le_mul_right _ hab
      rw [Nat.add_mul, Nat.one_mul] at this
      exact this
    have hyj : y = py + j := by
      rcases Nat.lt_trichotomy y (py + j) with h | h | h
      · have := hrow _ _ h; omega
      · exact h
      · have := hrow _ _ h; omega
    subst hyj
    omega

/-- disagreement: a crop that is too wide for the place writes into the next row: pixel (0, 1) changes -/
theorem composite_spills :
    (Image.blank 2 2).composite ⟨2, 1, [⟨1, 1, 1, 255⟩, ⟨2, 2, 2, 255⟩]⟩ 1 0 ⟨0, 0, 2, 1⟩ ⟨255, 255, 255, 255⟩
      = some ⟨2, 2, [⟨0, 0, 0, 0⟩, ⟨1, 1, 1, 255⟩, ⟨2, 2, 2, 255⟩, ⟨0, 0, 0, 0⟩]⟩ := by decide

/-- disagreement: a place below the destination panics -/
theorem composite_panics :
    (Image.blank 2 1).composite ⟨1, 1, [⟨1, 1, 1, 255⟩]⟩ 0 1 ⟨0, 0, 1, 1⟩ ⟨255, 255, 255, 255⟩ = none := by
  decide

example : (Image.blank 3 3).OK := ⟨by decide, by decide⟩

end Verif.Dmi
