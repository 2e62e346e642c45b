import Verif.Minimap.Spec
import Mathlib.Data.List.Basic

/-! Lemmas about clipping, drawing and sorting. -/

namespace Verif.Minimap

open Verif.Dmi

variable {D : Type}

/-! ## `clip` -/

theorem clipSide_none {lo : Int} {start len bound : Nat} (h : clipSide lo start len bound = none) (X : Nat)
    (hX : X < bound) : ¬ (lo ≤ X ∧ (X : Int) < lo + len) := by
  unfold clipSide at h
  simp only at h
  by_cases h1 : lo < 0
  · rw [if_pos h1] at h
    by_cases h2 : (-lo).toNat ≤ len
    · rw [if_pos h2] at h
      simp only [Option.bind_some] at h
      split at h
      · split at h
        · cases h
        · omega
      · cases h
    · omega
  · rw [if_neg h1] at h
    simp only [Option.bind_some] at h
    split at h
    · split at h
      · cases h
      · omega
    · cases h

theorem clipSide_some {lo : Int} {start len bound : Nat} {l' : Int} {f' n' : Nat}
    (h : clipSide lo start len bound = some (l', f', n')) :
    0 ≤ l' ∧ l' + n' ≤ bound ∧ start ≤ f' ∧ f' + n' ≤ start + len ∧
    ∀ X : Nat, X < bound → ((l' ≤ X ∧ (X : Int) < l' + n' ↔ lo ≤ X ∧ (X : Int) < lo + len) ∧
      (l' ≤ X → (X : Int) < l' + n' → (f' : Int) + (X - l') = start + (X - lo))) := by
  unfold clipSide at h
  simp only at h
  by_cases h1 : lo < 0
  · rw [if_pos h1] at h
    by_cases h2 : (-lo).toNat ≤ len
    · rw [if_pos h2] at h
      simp only [Option.bind_some] at h
      split at h
      · split at h
        · simp only [Option.some.injEq, Prod.mk.injEq] at h
          obtain ⟨rfl, rfl, rfl⟩ := h
          refine ⟨by omega, by omega, by omega, by omega, fun X hX => ⟨by omega, by omega⟩⟩
        · cases h
      · simp only [Option.some.injEq, Prod.mk.injEq] at h
        obtain ⟨rfl, rfl, rfl⟩ := h
        refine ⟨by omega, by omega, by omega, by omega, fun X hX => ⟨by omega, by omega⟩⟩
    · rw [if_neg h2] at h
      cases h
  · rw [if_neg h1] at h
    simp only [Option.bind_some] at h
    split at h
    · split at h
      · simp only [Option.some.injEq, Prod.mk.injEq] at h
        obtain ⟨rfl, rfl, rfl⟩ := h
        refine ⟨by omega, by omega, by omega, by omega, fun X hX => ⟨by omega, by omega⟩⟩
      · cases h
    · simp only [Option.some.injEq, Prod.mk.injEq] at h
      obtain ⟨rfl, rfl, rfl⟩ := h
      refine ⟨by omega, by omega, by omega, by omega, fun X hX => ⟨by omega, by omega⟩⟩

/-- clipping away everything: no pixel of the image is covered -/
theorem clip_none {W H : Nat} {lx ly : Int} {r : Rect} (h : clip (W, H) (lx, ly) r = none) (X Y : Nat) (hX : X < W)
    (hY : Y < H) : ¬ (lx ≤ X ∧ (X : Int) < lx + r.w ∧ ly ≤ Y ∧ (Y : Int) < ly + r.h) := by
  unfold clip at h
  simp only at h
  cases h1 : clipSide lx r.x r.w W with
  | none => have := clipSide_none h1 X hX; omega
  | some a =>
    rw [h1] at h
    simp only [Option.bind_some, Option.map_eq_none_iff] at h
    have := clipSide_none h Y hY
    omega

/-- clipping keeps exactly the pixels of the sprite inside the image, each with its source pixel -/
theorem clip_some {W H : Nat} {lx ly : Int} {r r' : Rect} {px py : Nat}
    (h : clip (W, H) (lx, ly) r = some ((px, py), r')) :
    px + r'.w ≤ W ∧ py + r'.h ≤ H ∧ r'.x + r'.w ≤ r.x + r.w ∧ r'.y + r'.h ≤ r.y + r.h ∧
    ∀ X Y : Nat, X < W → Y < H →
      ((px ≤ X ∧ X < px + r'.w ∧ py ≤ Y ∧ Y < py + r'.h) ↔
        (lx ≤ X ∧ (X : Int) < lx + r.w ∧ ly ≤ Y ∧ (Y : Int) < ly + r.h))
      ∧ (px ≤ X → X < px + r'.w → r'.x + (X - px) = r.x + ((X : Int) - lx).toNat)
      ∧ (py ≤ Y → Y < py + r'.h → r'.y + (Y - py) = r.y + ((Y : Int) - ly).toNat) := by
  unfold clip at h
  simp only at h
  cases h1 : clipSide lx r.x r.w W with
  | none => rw [h1] at h; cases h
  | some a =>
    obtain ⟨a1, a2, a3⟩ := a
    rw [h1] at h
    simp only [Option.bind_some] at h
    cases h2 : clipSide ly r.y r.h H with
    | none => rw [h2] at h; cases h
    | some b =>
      obtain ⟨b1, b2, b3⟩ := b
      rw [h2] at h
      simp only [Option.map_some, Option.some.injEq, Prod.mk.injEq] at h
      obtain ⟨⟨rfl, rfl⟩, rfl⟩ := h
      obtain ⟨ha0, ha1, ha2, ha3, ha⟩ := clipSide_some h1
      obtain ⟨hb0, hb1, hb2, hb3, hb⟩ := clipSide_some h2
      simp only
      refine ⟨by omega, by omega, by omega, by omega, fun X Y hX hY => ?_⟩
      obtain ⟨hx1, hx2⟩ := ha X hX
      obtain ⟨hy1, hy2⟩ := hb Y hY
      refine ⟨by omega, fun g1 g2 => ?_, fun g1 g2 => ?_⟩
      · have := hx2 (by omega) (by omega)
        have := hx1.1 (by omega)
        omega
      · have := hy2 (by omega) (by omega)
        have := hy1.1 (by omega)
        omega

/-! ## Drawing -/

/-- `s` is what a pixel becomes -/
def over (o : Option Px) (p : Option Px) : Option Px :=
  match o with
  | none => p
  | some s => p.bind (blend s)

set_option maxHeartbeats 1000000 in
/-- drawing one sprite of tile `(tx, ty)` on the image of the rectangle from `(x0, y0)` to row `y1` puts its stamp
on every pixel -/
theorem drawOne_exact (icons : List Char → Option (Icon D)) (hic : ∀ f ic, icons f = some ic → SheetOK ic)
    (n x0 y0 y1 : Nat) (hy : y0 ≤ y1) (hn : y1 < n) (img : Image) (himg : img.OK) (hh : img.height = (y1 - y0 + 1) * 32)
    (p : Placed) (hx : x0 ≤ p.x) (hp1 : n - y1 - 1 ≤ p.y) (hp2 : p.y < n) (hc : p.sprite.color.OK) :
    ∃ r, drawOne icons x0 (n - y1 - 1) img p = some r ∧ r.OK ∧ r.width = img.width ∧ r.height = img.height ∧
      ∀ X V, X < img.width → V < img.height →
        r.at X (img.height - 1 - V) =
          over (stamp icons p.x (n - 1 - p.y) p.sprite (32 * x0 + X) (32 * y0 + V)) (img.at X (img.height - 1 - V)) := by
  unfold drawOne stamp
  cases h1 : icons p.sprite.icon with
  | none => exact ⟨img, rfl, himg, rfl, rfl, fun X V _ _ => rfl⟩
  | some ic =>
    obtain ⟨hio, hfr⟩ := hic _ ic h1
    obtain ⟨o, ho, hr⟩ := hfr p.sprite.iconState p.sprite.dir
    simp only [ho, Option.bind_some]
    cases o with
    | none => exact ⟨img, rfl, himg, rfl, rfl, fun X V _ _ => rfl⟩
    | some r =>
      obtain ⟨hrx, hry, hrh⟩ := hr r rfl
      simp only [Option.join_some, Option.bind_some, TILE, ← hrh]
      cases h2 : clip (img.width, img.height)
          ((((p.x - x0) * 32 : Nat) : Int) + p.sprite.ofsX,
            (((p.y + 1 - (n - y1 - 1)) * 32 : Nat) : Int) - (p.sprite.ofsY + r.h)) r with
      | none =>
        refine ⟨img, rfl, himg, rfl, rfl, fun X V hX hV => ?_⟩
        have := clip_none h2 X (img.height - 1 - V) hX (by omega)
        rw [if_neg]
        · rfl
        · intro hcov
          apply this
          omega
      | some qr =>
        obtain ⟨⟨px, py⟩, r'⟩ := qr
        obtain ⟨c1, c2, c3, c4, c5⟩ := clip_some h2
        obtain ⟨res, e1, e2, e3, e4, e5, e6⟩ := composite_exact img ic.image himg hio px py r' p.sprite.color hc
          (by omega) (by omega) c1 c2
        refine ⟨res, e1, e2, e3, e4, fun X V hX hV => ?_⟩
        obtain ⟨d1, d2, d3⟩ := c5 X (img.height - 1 - V) hX (by omega)
        by_cases hin : px ≤ X ∧ X < px + r'.w ∧ py ≤ img.height - 1 - V ∧ img.height - 1 - V < py + r'.h
        · have hcov := d1.1 hin
          rw [if_pos (by omega)]
          obtain ⟨s, d, q, g1, g2, g3, g4⟩ := e5 (X - px) (img.height - 1 - V - py) (by omega) (by omega)
          rw [show px + (X - px) = X by omega, show py + (img.height - 1 - V - py) = img.height - 1 - V by omega] at g2 g4
          have k1 := d2 hin.1 hin.2.1
          have k2 := d3 hin.2.2.1 hin.2.2.2
          rw [k1, k2] at g1
          have m1 : r.x + (32 * (x0 : Int) + X - (32 * p.x + p.sprite.ofsX)).toNat =
              r.x + ((X : Int) - ((((p.x - x0) * 32 : Nat) : Int) + p.sprite.ofsX)).toNat := by omega
          have m2 : r.y + (r.h - 1 - (32 * (y0 : Int) + V - (32 * ((n - 1 - p.y : Nat) : Int) + p.sprite.ofsY)).toNat) =
              r.y + (((img.height - 1 - V : Nat) : Int) -
                ((((p.y + 1 - (n - y1 - 1)) * 32 : Nat) : Int) - (p.sprite.ofsY + r.h))).toNat := by omega
          rw [m1, m2, g1, g2, g4]
          simp only [Option.map_some, over, Option.bind_some, g3]
        · rw [if_neg (fun hcov => hin (d1.2 (by omega))), e6 X _ hX (fun hcov => hin (by omega))]
          rfl

theorem paint_cons (o : Option Px) (l : List (Option Px)) (p : Px) :
    paint (o :: l) p = (over o (some p)).bind (paint l) := by
  cases o <;> rfl

theorem paint_over (o : Option Px) (l : List (Option Px)) (p : Option Px) :
    (p.bind fun q => paint (o :: l) q) = (over o p).bind (paint l) := by
  cases p with
  | none => cases o <;> rfl
  | some q => exact paint_cons o l q

/-- drawing a list of sprites paints their stamps -/
theorem drawAll_exact (icons : List Char → Option (Icon D)) (hic : ∀ f ic, icons f = some ic → SheetOK ic)
    (n x0 y0 y1 : Nat) (hy : y0 ≤ y1) (hn : y1 < n) (l : List Placed) :
    ∀ (img : Image), img.OK → img.height = (y1 - y0 + 1) * 32 →
    (∀ p ∈ l, x0 ≤ p.x ∧ n - y1 - 1 ≤ p.y ∧ p.y < n ∧ p.sprite.color.OK) →
    ∃ r, drawAll icons x0 (n - y1 - 1) l img = some r ∧ r.OK ∧ r.width = img.width ∧ r.height = img.height ∧
      ∀ X V, X < img.width → V < img.height →
        r.at X (img.height - 1 - V) = (img.at X (img.height - 1 - V)).bind
          (paint (l.map fun p => stamp icons p.x (n - 1 - p.y) p.sprite (32 * x0 + X) (32 * y0 + V))) := by
  induction l with
  | nil =>
    intro img himg _ _
    refine ⟨img, rfl, himg, rfl, rfl, fun X V _ _ => ?_⟩
    cases img.at X (img.height - 1 - V) <;> rfl
  | cons p l ih =>
    intro img himg hh hl
    obtain ⟨a1, a2, a3, a4⟩ := hl p (by simp)
    obtain ⟨r, e1, e2, e3, e4, e5⟩ := drawOne_exact icons hic n x0 y0 y1 hy hn img himg hh p a1 a2 a3 a4
    obtain ⟨r', f1, f2, f3, f4, f5⟩ := ih r e2 (by rw [e4, hh]) (fun q hq => hl q (by simp [hq]))
    refine ⟨r', by simp only [drawAll, e1, Option.bind_some, f1], f2, by rw [f3, e3], by rw [f4, e4], fun X V hX hV => ?_⟩
    have h1 := f5 X V (by rw [e3]; exact hX) (by rw [e4]; exact hV)
    rw [e4] at h1
    rw [h1, e5 X V hX hV, List.map_cons]
    exact (paint_over _ _ _).symm

/-! ## Sorting -/

theorem le_iff (a b : Sprite) : a.le b = true ↔ Deeper (depth a) (depth b) := by
  unfold Sprite.le Layer.le Deeper depth
  simp only [Bool.or_eq_true, Bool.and_eq_true, decide_eq_true_eq]

theorem Deeper.trans {a b c : Int × Int × Nat} (h : Deeper a b) (h' : Deeper b c) : Deeper a c := by
  unfold Deeper at *
  omega

theorem Deeper.total {a b : Int × Int × Nat} (h : ¬ Deeper a b) : Deeper b a := by
  unfold Deeper at *
  omega

theorem Deeper.refl (a : Int × Int × Nat) : Deeper a a := by
  unfold Deeper
  omega

/-- in drawing order -/
abbrev Sorted (l : List Placed) : Prop := l.Pairwise fun a b => Deeper (depth a.sprite) (depth b.sprite)

theorem insert_perm (p : Placed) (l : List Placed) : (insertPlaced p l).Perm (p :: l) := by
  induction l with
  | nil => exact .refl _
  | cons q l ih =>
    unfold insertPlaced
    split
    · exact .refl _
    · exact (ih.cons q).trans (.swap p q l)

theorem sort_perm (l : List Placed) : (sortPlaced l).Perm l := by
  induction l with
  | nil => exact .refl _
  | cons p l ih => exact (insert_perm p _).trans (ih.cons p)

theorem insert_sorted (p : Placed) (l : List Placed) (h : Sorted l) : Sorted (insertPlaced p l) := by
  induction l with
  | nil => simp [insertPlaced]
  | cons q l ih =>
    obtain ⟨h1, h2⟩ := List.pairwise_cons.1 h
    unfold insertPlaced
    by_cases hle : p.sprite.le q.sprite = true
    · rw [if_pos hle]
      refine List.pairwise_cons.2 ⟨fun x hx => ?_, h⟩
      rcases List.mem_cons.1 hx with rfl | hx
      · exact (le_iff _ _).1 hle
      · exact ((le_iff _ _).1 hle).trans (h1 x hx)
    · rw [if_neg hle]
      refine List.pairwise_cons.2 ⟨fun x hx => ?_, ih h2⟩
      rcases List.mem_cons.1 ((insert_perm p l).mem_iff.1 hx) with rfl | hx
      · exact Deeper.total (fun hd => hle ((le_iff _ _).2 hd))
      · exact h1 x hx

theorem sort_sorted (l : List Placed) : Sorted (sortPlaced l) := by
  induction l with
  | nil => exact .nil
  | cons p l ih => exact insert_sorted p _ ih

theorem insert_front (p : Placed) (l : List Placed) (h : ∀ q ∈ l, Deeper (depth p.sprite) (depth q.sprite)) :
    insertPlaced p l = p :: l := by
  cases l with
  | nil => rfl
  | cons q l =>
    unfold insertPlaced
    rw [if_pos ((le_iff _ _).2 (h q (by simp)))]

theorem filter_insert (f : Placed → Bool) (p : Placed) (l : List Placed) (h : Sorted l) :
    (insertPlaced p l).filter f = if f p then insertPlaced p (l.filter f) else l.filter f := by
  induction l with
  | nil => simp [insertPlaced, List.filter_cons]
  | cons q l ih =>
    obtain ⟨h1, h2⟩ := List.pairwise_cons.1 h
    by_cases hle : p.sprite.le q.sprite = true
    · have hd := (le_iff _ _).1 hle
      have : insertPlaced p (q :: l) = p :: q :: l := by unfold insertPlaced; rw [if_pos hle]
      rw [this, List.filter_cons]
      split
      · rw [insert_front]
        intro x hx
        have hx := (List.mem_filter.1 hx).1
        rcases List.mem_cons.1 hx with rfl | hx
        · exact hd
        · exact hd.trans (h1 x hx)
      · rfl
    · have : insertPlaced p (q :: l) = q :: insertPlaced p l := by
        conv_lhs => unfold insertPlaced
        rw [if_neg hle]
      rw [this, List.filter_cons, List.filter_cons, ih h2]
      by_cases hq : f q = true
      · simp only [hq, if_true]
        split
        · conv_rhs => unfold insertPlaced
          rw [if_neg hle]
        · rfl
      · simp only [hq]
        rfl

/-- leaving something out and sorting can be swapped -/
theorem filter_sort (f : Placed → Bool) (l : List Placed) : (sortPlaced l).filter f = sortPlaced (l.filter f) := by
  induction l with
  | nil => rfl
  | cons p l ih =>
    rw [sortPlaced, filter_insert f p _ (sort_sorted l), ih, List.filter_cons]
    split <;> rfl

theorem sort_same (l : List Placed) (k : Int × Int × Nat) (h : ∀ p ∈ l, depth p.sprite = k) : sortPlaced l = l := by
  induction l with
  | nil => rfl
  | cons p l ih =>
    rw [sortPlaced, ih (fun q hq => h q (by simp [hq])), insert_front]
    intro q hq
    rw [h p (by simp), h q (by simp [hq])]
    exact Deeper.refl k

theorem sort_order (l : List Placed) : DrawOrder l (sortPlaced l) where
  perm := sort_perm l
  sorted := sort_sorted l
  stable k := by
    rw [filter_sort]
    exact sort_same _ k fun p hp => by simpa using (List.mem_filter.1 hp).2

/-! ## The sprites of a rectangle -/

theorem tileSprites_at (c : Ctx) (x y : Nat) (as : List Atom) : ∀ l, tileSprites c x y as = some l →
    ∀ p ∈ l, p.x = x ∧ p.y = y := by
  induction as with
  | nil =>
    intro l h p hp
    simp only [tileSprites, Option.some.injEq] at h
    subst h
    cases hp
  | cons a as ih =>
    intro l h p hp
    simp only [tileSprites, Option.bind_eq_some_iff, Option.map_eq_some_iff] at h
    obtain ⟨s, _, r, hr, rfl⟩ := h
    rcases List.mem_append.1 hp with hp | hp
    · obtain ⟨s', _, rfl⟩ := List.mem_map.1 hp
      exact ⟨rfl, rfl⟩
    · exact ih r hr p hp

theorem rowSprites_eq (c : Ctx) (left right y : Nat) (f : Nat → List Placed) (es : List Nat) : ∀ x,
    (∀ i e, es[i]? = some e → left ≤ x + i → x + i ≤ right →
      ∃ as, c.atoms e = some as ∧ tileSprites c (x + i) y as = some (f (x + i))) →
    rowSprites c left right y x es =
      some (((List.range' x es.length).filter fun i => left ≤ i && i ≤ right).flatMap f) := by
  induction es with
  | nil => intro x _; rfl
  | cons e es ih =>
    intro x h
    have ih' := ih (x + 1) fun i e' he h1 h2 => by
      rw [show x + 1 + i = x + (i + 1) by omega]
      exact h (i + 1) e' (by simpa using he) (by omega) (by omega)
    unfold rowSprites
    rw [List.length_cons, List.range'_succ, List.filter_cons]
    by_cases hx : x < left ∨ right < x
    · rw [if_pos hx, ih', if_neg (by simp only [Bool.and_eq_true, decide_eq_true_eq]; omega)]
    · obtain ⟨as, h1, h2⟩ := h 0 e rfl (by omega) (by omega)
      simp only [Nat.add_zero] at h2
      rw [if_neg hx, ih', if_pos (by simp only [Bool.and_eq_true, decide_eq_true_eq]; omega), h1]
      simp only [Option.bind_some, h2, Option.map_some, List.flatMap_cons]

theorem levelSprites_eq (c : Ctx) (left right top bottom : Nat) (g : Nat → List Placed) (rs : List (List Nat)) : ∀ y,
    (∀ i r, rs[i]? = some r → top ≤ y + i → y + i ≤ bottom → rowSprites c left right (y + i) 0 r = some (g (y + i))) →
    levelSprites c left right top bottom y rs =
      some (((List.range' y rs.length).filter fun i => top ≤ i && i ≤ bottom).flatMap g) := by
  induction rs with
  | nil => intro y _; rfl
  | cons r rs ih =>
    intro y h
    have ih' := ih (y + 1) fun i r' he h1 h2 => by
      rw [show y + 1 + i = y + (i + 1) by omega]
      exact h (i + 1) r' (by simpa using he) (by omega) (by omega)
    unfold levelSprites
    rw [List.length_cons, List.range'_succ, List.filter_cons]
    by_cases hx : y < top ∨ bottom < y
    · rw [if_pos hx, ih', if_neg (by simp only [Bool.and_eq_true, decide_eq_true_eq]; omega)]
    · have h1 := h 0 r rfl (by omega) (by omega)
      simp only [Nat.add_zero] at h1
      rw [if_neg hx, ih', if_pos (by simp only [Bool.and_eq_true, decide_eq_true_eq]; omega), h1]
      simp only [Option.bind_some, Option.map_some, List.flatMap_cons]

theorem filter_range' (a b n : Nat) (hab : a ≤ b + 1) (hb : b < n) :
    (List.range' 0 n).filter (fun i => a ≤ i && i ≤ b) = List.range' a (b + 1 - a) := by
  have e : List.range' 0 n = List.range' 0 a ++ (List.range' a (b + 1 - a) ++ List.range' (b + 1) (n - (b + 1))) := by
    have h1 := List.range'_append (s := a) (m := b + 1 - a) (n := n - (b + 1)) (step := 1)
    have h2 := List.range'_append (s := 0) (m := a) (n := (b + 1 - a) + (n - (b + 1))) (step := 1)
    simp only [Nat.one_mul, Nat.zero_add] at h1 h2
    rw [show a + (b + 1 - a) = b + 1 by omega] at h1
    rw [show a + (b + 1 - a + (n - (b + 1))) = n by omega] at h2
    rw [h1, h2]
  rw [e, List.filter_append, List.filter_append, List.filter_eq_nil_iff.2, List.filter_eq_self.2,
    List.filter_eq_nil_iff.2]
  · simp
  · intro i hi; simp only [List.mem_range'_1] at hi; simp; omega
  · intro i hi; simp only [List.mem_range'_1] at hi; simp; omega
  · intro i hi; simp only [List.mem_range'_1] at hi; simp; omega

theorem range'_flip (n a k : Nat) (h : a + k ≤ n) :
    (List.range' (n - a - k) k) = (List.range' a k).reverse.map fun t => n - 1 - t := by
  apply List.ext_getElem
  · simp
  · intro i h1 h2
    simp only [List.length_range'] at h1
    simp only [List.getElem_range', List.getElem_map, List.getElem_reverse, List.length_range']
    omega

/-- the model collects the sprites of the specification -/
theorem levelSprites_tiles (c : Ctx) (lo hi : Nat × Nat) (h1 : lo.1 ≤ hi.1) (h2 : lo.2 ≤ hi.2)
    (hn : hi.2 < c.rows.length) (l : List Placed) (hl : tiles c lo hi l) :
    levelSprites c lo.1 hi.1 (c.rows.length - hi.2 - 1) (c.rows.length - lo.2 - 1) 0 c.rows = some l := by
  obtain ⟨look, hlook, rfl⟩ := hl
  have key : ∀ i, c.rows.length - hi.2 - 1 ≤ i → i ≤ c.rows.length - lo.2 - 1 → ∀ r, c.rows[i]? = some r →
      rowSprites c lo.1 hi.1 i 0 r =
        some ((List.range' lo.1 (hi.1 + 1 - lo.1)).flatMap fun tx => look tx (c.rows.length - 1 - i)) := by
    intro i hi1 hi2 r hr
    have hlen : hi.1 < r.length := by
      obtain ⟨key, _, hk, _, _⟩ := hlook hi.1 (c.rows.length - 1 - i) h1 (Nat.le_refl _) (by omega) (by omega)
      rw [show c.rows.length - 1 - (c.rows.length - 1 - i) = i by omega, hr, Option.bind_some] at hk
      exact (List.getElem?_eq_some_iff.1 hk).1
    rw [rowSprites_eq c lo.1 hi.1 i (fun tx => look tx (c.rows.length - 1 - i)), filter_range' _ _ _ (by omega) hlen]
    intro j e he hj1 hj2
    simp only [Nat.zero_add] at hj1 hj2 ⊢
    obtain ⟨key, as, hk, ha, ht⟩ := hlook j (c.rows.length - 1 - i) hj1 hj2 (by omega) (by omega)
    rw [show c.rows.length - 1 - (c.rows.length - 1 - i) = i by omega] at hk ht
    rw [hr, Option.bind_some, he, Option.some.injEq] at hk
    subst hk
    exact ⟨as, ha, ht⟩
  rw [levelSprites_eq c _ _ _ _
    (fun y => (List.range' lo.1 (hi.1 + 1 - lo.1)).flatMap fun tx => look tx (c.rows.length - 1 - y)) c.rows 0
    (fun i r hr g1 g2 => by
      simp only [Nat.zero_add] at g1 g2 ⊢
      exact key i g1 g2 r hr), filter_range' _ _ _ (by omega) (by omega)]
  congr 1
  have hf := range'_flip c.rows.length lo.2 (hi.2 + 1 - lo.2) (by omega)
  rw [show c.rows.length - lo.2 - (hi.2 + 1 - lo.2) = c.rows.length - hi.2 - 1 by omega] at hf
  rw [show c.rows.length - lo.2 - 1 + 1 - (c.rows.length - hi.2 - 1) = hi.2 + 1 - lo.2 by omega, hf, List.flatMap_map]
  apply List.flatMap_congr
  intro ty hty
  simp only [List.mem_reverse, List.mem_range'_1] at hty
  rw [show c.rows.length - 1 - (c.rows.length - 1 - ty) = ty by omega]

/-- where the sprites of a rectangle are -/
theorem tiles_at (c : Ctx) (lo hi : Nat × Nat) (hn : hi.2 < c.rows.length) (l : List Placed) (hl : tiles c lo hi l)
    (p : Placed) (hp : p ∈ l) :
    lo.1 ≤ p.x ∧ p.x ≤ hi.1 ∧ p.y < c.rows.length ∧ lo.2 ≤ c.rows.length - 1 - p.y ∧
      c.rows.length - 1 - p.y ≤ hi.2 := by
  obtain ⟨look, hlook, rfl⟩ := hl
  simp only [List.mem_flatMap, List.mem_reverse, List.mem_range'_1] at hp
  obtain ⟨ty, hty, tx, htx, hp⟩ := hp
  obtain ⟨_, as, _, _, ht⟩ := hlook tx ty (by omega) (by omega) (by omega) (by omega)
  obtain ⟨e1, e2⟩ := tileSprites_at c _ _ as _ ht p hp
  omega

end Verif.Minimap
