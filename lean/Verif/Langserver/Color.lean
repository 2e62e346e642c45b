import Verif.Langserver.ColorModel
import Mathlib.Algebra.Order.Round
import Mathlib.Data.List.TakeWhile
import Mathlib.Data.List.Induction
import Mathlib.Data.Rat.Floor
import Mathlib.Tactic.Linarith
import Mathlib.Tactic.NormNum

/-! # Colours in a document -/

namespace Verif.Color

/-- what is needed of the classes of digits and of white space: all true of `\d` and `\s` -/
structure Classes.Ok (k : Classes) : Prop where
  digit : ∀ d < 10, k.dg (hexChar d) = true
  disj : ∀ c, k.dg c = true → k.sp c = false
  space : k.sp ' ' = true
  comma : k.dg ',' = false
  commaSp : k.sp ',' = false
  close : k.dg ')' = false
  closeSp : k.sp ')' = false
  start : ∀ c, c = '"' ∨ c = '\'' ∨ c = 'r' → k.dg c = false ∧ k.sp c = false

theorem Classes.Ok.digitSp {k : Classes} (hk : k.Ok) (d : Nat) (h : d < 10) : k.sp (hexChar d) = false :=
  hk.disj _ (hk.digit d h)

/-! ## Specification: the texts that are colours -/

/-- a number of one to three digits -/
def Num (k : Classes) (u : List Char) : Prop := (∀ c ∈ u, k.dg c = true) ∧ 1 ≤ u.length ∧ u.length ≤ 3
/-- white space, or nothing -/
def Space (k : Classes) (u : List Char) : Prop := ∀ c ∈ u, k.sp c = true

/-- the texts of colours: `"#` digits `"`, `'#` digits `'`, `rgb(r, g, b)` and `rgb(r, g, b, a)` -/
inductive IsColor (k : Classes) : Capture → List Char → Prop
  | hex (single : Bool) (h : List Char) : (∀ c ∈ h, isHex c = true) → 3 ≤ h.length → h.length ≤ 8 →
      IsColor k (.hex h) (quote single :: '#' :: (h ++ [quote single]))
  | rgb (w1 r w2 g w3 b w4 : List Char) : Space k w1 → Num k r → Space k w2 → Num k g → Space k w3 → Num k b → Space k w4 →
      IsColor k (.rgb r g b none) (rgbWord ++ '(' :: (w1 ++ (r ++ ',' :: (w2 ++ (g ++ ',' :: (w3 ++ (b ++ (w4 ++ [')']))))))))
  | rgba (w1 r w2 g w3 b w4 a w5 : List Char) : Space k w1 → Num k r → Space k w2 → Num k g → Space k w3 → Num k b →
      Space k w4 → Num k a → Space k w5 →
      IsColor k (.rgb r g b (some a))
        (rgbWord ++ '(' :: (w1 ++ (r ++ ',' :: (w2 ++ (g ++ ',' :: (w3 ++ (b ++ ',' :: (w4 ++ (a ++ (w5 ++ [')'])))))))))) 

/-- a digit of base 16, in lower or upper case, and its value -/
def HexDigit (c : Char) (v : Nat) : Prop := v < 16 ∧ (c = Nat.digitChar v ∨ c = (Nat.digitChar v).toUpper)

/-- a number in decimal -/
inductive Decimal : List Char → Nat → Prop
  | one (v : Nat) : v < 10 → Decimal [Nat.digitChar v] v
  | snoc (u : List Char) (n v : Nat) : Decimal u n → v < 10 → Decimal (u ++ [Nat.digitChar v]) (10 * n + v)

/-- the colours that captures stand for -/
inductive Means : Capture → Rgba → Prop
  | short (x y z : Char) (r g b : Nat) : HexDigit x r → HexDigit y g → HexDigit z b →
      Means (.hex [x, y, z]) ⟨16 * r + r, 16 * g + g, 16 * b + b, 255⟩
  | shortAlpha (x y z w : Char) (r g b a : Nat) : HexDigit x r → HexDigit y g → HexDigit z b → HexDigit w a →
      Means (.hex [x, y, z, w]) ⟨16 * r + r, 16 * g + g, 16 * b + b, 16 * a + a⟩
  | long (x x' y y' z z' : Char) (r r' g g' b b' : Nat) : HexDigit x r → HexDigit x' r' → HexDigit y g → HexDigit y' g' →
      HexDigit z b → HexDigit z' b' →
      Means (.hex [x, x', y, y', z, z']) ⟨16 * r + r', 16 * g + g', 16 * b + b', 255⟩
  | longAlpha (x x' y y' z z' w w' : Char) (r r' g g' b b' a a' : Nat) : HexDigit x r → HexDigit x' r' → HexDigit y g →
      HexDigit y' g' → HexDigit z b → HexDigit z' b' → HexDigit w a → HexDigit w' a' →
      Means (.hex [x, x', y, y', z, z', w, w']) ⟨16 * r + r', 16 * g + g', 16 * b + b', 16 * a + a'⟩
  | rgb (r g b : List Char) (r' g' b' : Nat) : Decimal r r' → Decimal g g' → Decimal b b' → r' < 256 → g' < 256 → b' < 256 →
      Means (.rgb r g b none) ⟨r', g', b', 255⟩
  | rgba (r g b a : List Char) (r' g' b' a' : Nat) : Decimal r r' → Decimal g g' → Decimal b b' → Decimal a a' → r' < 256 →
      g' < 256 → b' < 256 → a' < 256 → Means (.rgb r g b (some a)) ⟨r', g', b', a'⟩

/-- the colours of a text from the left, without overlap: a place where no colour starts is passed over -/
inductive Scan (k : Classes) : Nat → List Char → List (Nat × Nat × Rgba) → Prop
  | nil (pos : Nat) : Scan k pos [] []
  | skip (pos : Nat) (c : Char) (s : List Char) (out : List (Nat × Nat × Rgba)) :
      (∀ cap m rest, c :: s = m ++ rest → ¬ IsColor k cap m) → Scan k (pos + c.utf8Size) s out → Scan k pos (c :: s) out
  | hit (pos : Nat) (cap : Capture) (m rest : List Char) (out : List (Nat × Nat × Rgba)) :
      IsColor k cap m → Scan k (pos + blen m) rest out →
      Scan k pos (m ++ rest) ((parseCapture cap).toList.map (fun c => (pos, pos + blen m, c)) ++ out)

/-! ## Lemmas -/

theorem toDigit_hexChar : ∀ d < 16, toDigit (hexChar d) = some d := by decide +kernel
theorem isHex_hexChar (d : Nat) (h : d < 16) : isHex (hexChar d) = true := by
  unfold isHex; rw [toDigit_hexChar d h]; rfl
theorem isHex_quote (b : Bool) : isHex (quote b) = false := by cases b <;> decide +kernel

theorem parseU8_dec : ∀ v < 256, parseU8 (dec v) = some v := by decide +kernel
theorem dec_length (v : Nat) : 1 ≤ (dec v).length ∧ (dec v).length ≤ 3 := by
  unfold dec; split
  · simp
  · split <;> simp
theorem dec_digits (v : Nat) (h : v < 256) : ∀ c ∈ dec v, ∃ d < 10, c = hexChar d := by
  intro c hc
  unfold dec at hc
  split at hc
  · simp only [List.mem_singleton] at hc; exact ⟨v, by omega, hc⟩
  · split at hc
    · simp only [List.mem_cons, List.not_mem_nil, or_false] at hc
      rcases hc with hc | hc
      · exact ⟨_, by omega, hc⟩
      · exact ⟨_, by omega, hc⟩
    · simp only [List.mem_cons, List.not_mem_nil, or_false] at hc
      rcases hc with hc | hc | hc
      · exact ⟨_, by omega, hc⟩
      · exact ⟨_, by omega, hc⟩
      · exact ⟨_, by omega, hc⟩

theorem run_eq {p : Char → Bool} {lo hi : Nat} {u t : List Char} {x : Char} (hu : ∀ c ∈ u, p c = true) (hx : p x = false)
    (h1 : lo ≤ u.length) (h2 : u.length ≤ hi) : run p lo hi (u ++ x :: t) = some (u, x :: t) := by
  have e1 : (u ++ x :: t).takeWhile p = u := by
    rw [List.takeWhile_append_of_pos hu]
    simp [hx]
  have e2 : (u ++ x :: t).dropWhile p = x :: t := by
    rw [List.dropWhile_append_of_pos hu]
    simp [hx]
  unfold run
  rw [e1, e2, if_pos ⟨h1, h2⟩]

theorem lit_cons (a : Char) (p s : List Char) : lit (a :: p) (a :: s) = lit p s := by
  rw [lit, if_pos rfl]

theorem matchHex_eq (q : Char) (h : List Char) (hq : isHex q = false) (hh : ∀ c ∈ h, isHex c = true) (h1 : 3 ≤ h.length)
    (h2 : h.length ≤ 8) (t : List Char) : matchHex q (q :: '#' :: (h ++ q :: t)) = some (.hex h, t) := by
  unfold matchHex
  rw [lit_cons, lit_cons, lit]
  simp only [Option.bind_eq_bind, Option.bind_some]
  rw [run_eq hh hq h1 h2]
  simp [lit]

theorem matchAt_hex (k : Classes) (single : Bool) (h : List Char) (hh : ∀ c ∈ h, isHex c = true) (h1 : 3 ≤ h.length)
    (h2 : h.length ≤ 8) (t : List Char) :
    matchAt k (quote single :: '#' :: (h ++ quote single :: t)) = some (.hex h, t) := by
  unfold matchAt
  cases single with
  | false =>
    change (match matchHex '"' ('"' :: '#' :: (h ++ '"' :: t)) with | some x => _ | none => _) = _
    rw [matchHex_eq '"' h (isHex_quote false) hh h1 h2]
  | true =>
    have : matchHex '"' (quote true :: '#' :: (h ++ quote true :: t)) = none := by
      unfold matchHex
      have : lit ['"', '#'] (quote true :: '#' :: (h ++ quote true :: t)) = none := by
        rw [lit, if_neg (by decide)]
      rw [this]; rfl
    rw [this]
    change (match matchHex '\'' ('\'' :: '#' :: (h ++ '\'' :: t)) with | some x => _ | none => _) = _
    rw [matchHex_eq '\'' h (isHex_quote true) hh h1 h2]

theorem skip_space {k : Classes} (hk : k.Ok) (v : Nat) (h : v < 256) (t : List Char) :
    (' ' :: (dec v ++ t)).dropWhile k.sp = dec v ++ t ∧ (dec v ++ t).dropWhile k.sp = dec v ++ t := by
  have key : (dec v ++ t).dropWhile k.sp = dec v ++ t := by
    cases hd : dec v with
    | nil => have := (dec_length v).1; rw [hd] at this; simp at this
    | cons c l =>
      obtain ⟨d, hd10, rfl⟩ := dec_digits v h c (by rw [hd]; simp)
      simp [hk.digitSp d hd10]
  refine ⟨?_, key⟩
  rw [List.dropWhile_cons, if_pos hk.space, key]

theorem run_dec {k : Classes} (hk : k.Ok) (v : Nat) (h : v < 256) (x : Char) (hx : k.dg x = false) (t : List Char) :
    run k.dg 1 3 (dec v ++ x :: t) = some (dec v, x :: t) := by
  refine run_eq ?_ hx (dec_length v).1 (dec_length v).2
  intro c hc
  obtain ⟨d, hd, rfl⟩ := dec_digits v h c hc
  exact hk.digit d hd

theorem matchRgb_three {k : Classes} (hk : k.Ok) (r g b : Nat) (hr : r < 256) (hg : g < 256) (hb : b < 256) (t : List Char) :
    matchRgb k (rgbWord ++ ['('] ++ (dec r ++ ',' :: ' ' :: (dec g ++ ',' :: ' ' :: (dec b ++ ')' :: t)))) =
      some (.rgb (dec r) (dec g) (dec b) none, t) := by
  unfold matchRgb
  have e0 : lit (rgbWord ++ ['(']) (rgbWord ++ ['('] ++ (dec r ++ ',' :: ' ' :: (dec g ++ ',' :: ' ' :: (dec b ++ ')' :: t)))) =
      some (dec r ++ ',' :: ' ' :: (dec g ++ ',' :: ' ' :: (dec b ++ ')' :: t))) := by
    simp [rgbWord, lit]
  rw [e0]
  simp only [Option.bind_eq_bind, Option.bind_some]
  rw [(skip_space hk r hr _).2, run_dec hk r hr ',' hk.comma]
  simp only [Option.bind_some, lit_cons, lit, if_true]
  rw [(skip_space hk g hg _).1, run_dec hk g hg ',' hk.comma]
  simp only [Option.bind_some, lit_cons, lit, if_true]
  rw [(skip_space hk b hb _).1, run_dec hk b hb ')' hk.close]
  simp only [Option.bind_some, lit]
  rw [if_neg (by decide), List.dropWhile_cons, if_neg (by rw [hk.closeSp]; simp)]
  simp [lit]

theorem matchRgb_four {k : Classes} (hk : k.Ok) (r g b a : Nat) (hr : r < 256) (hg : g < 256) (hb : b < 256) (ha : a < 256)
    (t : List Char) :
    matchRgb k (rgbWord ++ ['('] ++ (dec r ++ ',' :: ' ' :: (dec g ++ ',' :: ' ' :: (dec b ++ ',' :: ' ' :: (dec a ++ ')' :: t))))) =
      some (.rgb (dec r) (dec g) (dec b) (some (dec a)), t) := by
  unfold matchRgb
  have e0 : ∀ s, lit (rgbWord ++ ['(']) (rgbWord ++ ['('] ++ s) = some s := by
    intro s
    simp [rgbWord, lit]
  rw [e0]
  simp only [Option.bind_eq_bind, Option.bind_some]
  rw [(skip_space hk r hr _).2, run_dec hk r hr ',' hk.comma]
  simp only [Option.bind_some, lit_cons, lit, if_true]
  rw [(skip_space hk g hg _).1, run_dec hk g hg ',' hk.comma]
  simp only [Option.bind_some, lit_cons, lit, if_true]
  rw [(skip_space hk b hb _).1, run_dec hk b hb ',' hk.comma]
  simp only [Option.bind_some, lit_cons, lit, if_true]
  rw [(skip_space hk a ha _).1, run_dec hk a ha ')' hk.close]
  simp only
  rw [List.dropWhile_cons, if_neg (by rw [hk.closeSp]; simp)]
  simp [lit]

theorem matchAt_rgb {k : Classes} (s : List Char) : matchAt k (rgbWord ++ s) = matchRgb k (rgbWord ++ s) := by
  have : ∀ q, q ≠ 'r' → matchHex q (rgbWord ++ s) = none := by
    intro q hq
    unfold matchHex
    have : lit [q, '#'] (rgbWord ++ s) = none := by
      simp [rgbWord, lit, hq]
    rw [this]; rfl
  unfold matchAt
  rw [this _ (by decide), this _ (by decide)]

/-! ## The regular expression -/

theorem lit_iff (p s t : List Char) : lit p s = some t ↔ s = p ++ t := by
  induction p generalizing s with
  | nil => simp [lit]
  | cons a p ih =>
    cases s with
    | nil => simp [lit]
    | cons b s =>
      rw [lit]
      by_cases h : a = b
      · subst h; simp [ih]
      · rw [if_neg h]
        simp [Ne.symm h]

theorem run_some {p : Char → Bool} {lo hi : Nat} {s u t : List Char} (h : run p lo hi s = some (u, t)) :
    s = u ++ t ∧ (∀ c ∈ u, p c = true) ∧ lo ≤ u.length ∧ u.length ≤ hi ∧ t.head?.all (fun c => !p c) = true := by
  unfold run at h
  split at h
  · rename_i hl
    simp only [Option.some.injEq, Prod.mk.injEq] at h
    obtain ⟨rfl, rfl⟩ := h
    refine ⟨(List.takeWhile_append_dropWhile).symm, fun c hc => List.mem_takeWhile_imp hc, hl.1, hl.2, ?_⟩
    have := List.head?_dropWhile_not p s
    cases hd : (s.dropWhile p).head? with
    | none => rfl
    | some c => rw [hd] at this; simpa using this
  · exact absurd h (by simp)

theorem dropWhile_split {p : Char → Bool} (s : List Char) : ∃ w, (∀ c ∈ w, p c = true) ∧ s = w ++ s.dropWhile p :=
  ⟨s.takeWhile p, fun _ hc => List.mem_takeWhile_imp hc, (List.takeWhile_append_dropWhile).symm⟩

theorem dropWhile_eq {p : Char → Bool} {w t : List Char} {x : Char} (hw : ∀ c ∈ w, p c = true) (hx : p x = false) :
    (w ++ x :: t).dropWhile p = x :: t := by
  rw [List.dropWhile_append_of_pos hw]; simp [hx]

theorem Num.cons {k : Classes} {u : List Char} (h : Num k u) : ∃ x v, u = x :: v ∧ k.dg x = true := by
  obtain ⟨h1, h2, -⟩ := h
  cases u with
  | nil => simp at h2
  | cons x v => exact ⟨x, v, rfl, h1 x (by simp)⟩

theorem space_num {k : Classes} (hk : k.Ok) {w u : List Char} (hw : Space k w) (hu : Num k u) (x : Char) (hx : k.dg x = false)
    (t : List Char) : run k.dg 1 3 ((w ++ (u ++ x :: t)).dropWhile k.sp) = some (u, x :: t) := by
  obtain ⟨y, v, rfl, hy⟩ := hu.cons
  have := @dropWhile_eq k.sp w (v ++ x :: t) y hw (hk.disj _ hy)
  rw [List.cons_append, this]
  exact run_eq hu.1 hx hu.2.1 hu.2.2

theorem space_cons {k : Classes} (hk : k.Ok) {w : List Char} (hw : Space k w) (t : List Char) :
    ∃ y l, w ++ ')' :: t = y :: l ∧ k.dg y = false ∧ y ≠ ',' := by
  cases w with
  | nil => exact ⟨_, _, rfl, hk.close, by decide⟩
  | cons c w =>
    refine ⟨c, w ++ ')' :: t, rfl, ?_, ?_⟩
    · by_contra h
      have := hk.disj c (by simpa using h)
      rw [hw c (by simp)] at this
      exact absurd this (by decide)
    · rintro rfl
      have := hw ',' (by simp)
      rw [hk.commaSp] at this
      exact absurd this (by decide)

theorem matchHex_iff (single : Bool) (s rest : List Char) (cap : Capture) :
    matchHex (quote single) s = some (cap, rest) ↔
      ∃ h, cap = .hex h ∧ (∀ c ∈ h, isHex c = true) ∧ 3 ≤ h.length ∧ h.length ≤ 8 ∧
        s = (quote single :: '#' :: (h ++ [quote single])) ++ rest := by
  constructor
  · intro h
    simp only [matchHex, Option.bind_eq_bind, Option.bind_eq_some_iff, lit_iff, Prod.exists, Option.pure_def,
      Option.some.injEq, Prod.mk.injEq] at h
    obtain ⟨s1, rfl, u, s2, h2, s3, rfl, rfl, rfl⟩ := h
    obtain ⟨rfl, h4, h5, h6, -⟩ := run_some h2
    exact ⟨u, rfl, h4, h5, h6, by simp⟩
  · rintro ⟨h, rfl, h1, h2, h3, rfl⟩
    have := matchHex_eq (quote single) h (isHex_quote single) h1 h2 h3 rest
    simpa using this

theorem matchRgb_some {k : Classes} {s rest : List Char} {cap : Capture} (h : matchRgb k s = some (cap, rest)) :
    ∃ m, IsColor k cap m ∧ s = m ++ rest := by
  simp only [matchRgb, Option.bind_eq_bind, Option.bind_eq_some_iff, lit_iff, Prod.exists, Option.pure_def] at h
  obtain ⟨s1, rfl, r, s2, h2, s3, rfl, g, s4, h4, s5, rfl, b, s6, h6, h7⟩ := h
  obtain ⟨e2, r1, r2, r3, -⟩ := run_some h2
  obtain ⟨e4, g1, g2, g3, -⟩ := run_some h4
  obtain ⟨e6, b1, b2, b3, -⟩ := run_some h6
  obtain ⟨w1, hw1, e1⟩ := @dropWhile_split k.sp s1
  obtain ⟨w2, hw2, e3⟩ := @dropWhile_split k.sp s3
  obtain ⟨w3, hw3, e5⟩ := @dropWhile_split k.sp s5
  rw [e2] at e1
  rw [e4] at e3
  rw [e6] at e5
  subst e1 e3 e5
  split at h7
  · rename_i a s7 h8
    simp only [Option.bind_eq_some_iff, lit_iff] at h8
    obtain ⟨s8, rfl, h8⟩ := h8
    obtain ⟨e8, a1, a2, a3, -⟩ := run_some h8
    obtain ⟨w4, hw4, e9⟩ := @dropWhile_split k.sp s8
    rw [e8] at e9
    subst e9
    simp only [Option.bind_eq_some_iff, lit_iff, Option.some.injEq, Prod.mk.injEq] at h7
    obtain ⟨s9, h9, rfl, rfl⟩ := h7
    obtain ⟨w5, hw5, e10⟩ := @dropWhile_split k.sp s7
    rw [h9] at e10
    subst e10
    exact ⟨_, .rgba w1 r w2 g w3 b w4 a w5 hw1 ⟨r1, r2, r3⟩ hw2 ⟨g1, g2, g3⟩ hw3 ⟨b1, b2, b3⟩ hw4 ⟨a1, a2, a3⟩ hw5, by simp⟩
  · simp only [Option.bind_eq_some_iff, lit_iff, Option.some.injEq, Prod.mk.injEq] at h7
    obtain ⟨s9, h9, rfl, rfl⟩ := h7
    obtain ⟨w4, hw4, e10⟩ := @dropWhile_split k.sp s6
    rw [h9] at e10
    subst e10
    exact ⟨_, .rgb w1 r w2 g w3 b w4 hw1 ⟨r1, r2, r3⟩ hw2 ⟨g1, g2, g3⟩ hw3 ⟨b1, b2, b3⟩ hw4, by simp⟩

theorem lit_rgb (s : List Char) : lit (rgbWord ++ ['(']) (rgbWord ++ '(' :: s) = some s := by
  rw [lit_iff]; simp
theorem lit_one (x : Char) (s : List Char) : lit [x] (x :: s) = some s := by
  rw [lit_iff]; rfl

theorem matchRgb_rgb {k : Classes} (hk : k.Ok) {w1 r w2 g w3 b w4 : List Char} (h1 : Space k w1) (hr : Num k r)
    (h2 : Space k w2) (hg : Num k g) (h3 : Space k w3) (hb : Num k b) (h4 : Space k w4) (t : List Char) :
    matchRgb k (rgbWord ++ '(' :: (w1 ++ (r ++ ',' :: (w2 ++ (g ++ ',' :: (w3 ++ (b ++ (w4 ++ ')' :: t)))))))) =
      some (.rgb r g b none, t) := by
  obtain ⟨y, l, e, hy, hy'⟩ := space_cons hk h4 t
  rw [e]
  simp only [matchRgb, lit_rgb, lit_one, Option.bind_eq_bind, Option.bind_some, space_num hk h1 hr _ hk.comma,
    space_num hk h2 hg _ hk.comma, space_num hk h3 hb _ hy]
  have : lit [','] (y :: l) = none := by rw [lit, if_neg (Ne.symm hy')]
  simp only [this, Option.bind_none]
  rw [← e, dropWhile_eq h4 hk.closeSp, lit_one]
  rfl

theorem matchRgb_rgba {k : Classes} (hk : k.Ok) {w1 r w2 g w3 b w4 a w5 : List Char} (h1 : Space k w1) (hr : Num k r)
    (h2 : Space k w2) (hg : Num k g) (h3 : Space k w3) (hb : Num k b) (h4 : Space k w4) (ha : Num k a) (h5 : Space k w5)
    (t : List Char) :
    matchRgb k (rgbWord ++ '(' :: (w1 ++ (r ++ ',' :: (w2 ++ (g ++ ',' :: (w3 ++ (b ++ ',' :: (w4 ++ (a ++ (w5 ++ ')' :: t)))))))))) =
      some (.rgb r g b (some a), t) := by
  obtain ⟨y, l, e, hy, hy'⟩ := space_cons hk h5 t
  rw [e]
  simp only [matchRgb, lit_rgb, lit_one, Option.bind_eq_bind, Option.bind_some, space_num hk h1 hr _ hk.comma,
    space_num hk h2 hg _ hk.comma, space_num hk h3 hb _ hk.comma, space_num hk h4 ha _ hy]
  rw [← e, dropWhile_eq h5 hk.closeSp, lit_one]
  rfl

theorem matchAt_iff {k : Classes} (hk : k.Ok) (s rest : List Char) (cap : Capture) :
    matchAt k s = some (cap, rest) ↔ ∃ m, IsColor k cap m ∧ s = m ++ rest := by
  constructor
  · intro h
    unfold matchAt at h
    split at h
    · rename_i h1
      rw [h] at h1
      obtain ⟨u, rfl, h2, h3, h4, rfl⟩ := (matchHex_iff false s rest cap).1 h1
      exact ⟨_, .hex false u h2 h3 h4, rfl⟩
    · split at h
      · rename_i h1
        rw [h] at h1
        obtain ⟨u, rfl, h2, h3, h4, rfl⟩ := (matchHex_iff true s rest cap).1 h1
        exact ⟨_, .hex true u h2 h3 h4, rfl⟩
      · exact matchRgb_some h
  · rintro ⟨m, hm, rfl⟩
    cases hm with
    | hex single h h1 h2 h3 =>
      have := matchAt_hex k single h h1 h2 h3 rest
      simpa using this
    | rgb w1 r w2 g w3 b w4 h1 hr h2 hg h3 hb h4 =>
      have := matchRgb_rgb hk h1 hr h2 hg h3 hb h4 rest
      rw [← matchAt_rgb] at this
      simpa using this
    | rgba w1 r w2 g w3 b w4 a w5 h1 hr h2 hg h3 hb h4 ha h5 =>
      have := matchRgb_rgba hk h1 hr h2 hg h3 hb h4 ha h5 rest
      rw [← matchAt_rgb] at this
      simpa using this

theorem blen_append (a b : List Char) : blen (a ++ b) = blen a + blen b := by
  induction a with
  | nil => simp [blen]
  | cons c a ih => simp [blen, ih, Nat.add_assoc]

theorem IsColor.first {k : Classes} {cap : Capture} {m : List Char} (h : IsColor k cap m) :
    ∃ x mid z, m = x :: (mid ++ [z]) ∧ (x = '"' ∨ x = '\'' ∨ x = 'r') := by
  cases h with
  | hex single h => exact ⟨_, '#' :: h, _, rfl, by cases single <;> simp [quote]⟩
  | rgb w1 r w2 g w3 b w4 =>
    exact ⟨'r', 'g' :: 'b' :: '(' :: (w1 ++ (r ++ ',' :: (w2 ++ (g ++ ',' :: (w3 ++ (b ++ w4)))))), ')',
      by simp [rgbWord], by simp⟩
  | rgba w1 r w2 g w3 b w4 a w5 =>
    exact ⟨'r', 'g' :: 'b' :: '(' :: (w1 ++ (r ++ ',' :: (w2 ++ (g ++ ',' :: (w3 ++ (b ++ ',' :: (w4 ++ (a ++ w5)))))))), ')',
      by simp [rgbWord], by simp⟩

theorem extractGo_scan {k : Classes} (hk : k.Ok) : ∀ n pos s, s.length < n → Scan k pos s (extractGo k n pos s) := by
  intro n
  induction n with
  | zero => intro pos s h; omega
  | succ n ih =>
    intro pos s h
    cases s with
    | nil => exact .nil pos
    | cons c s =>
      rw [extractGo]
      cases hm : matchAt k (c :: s) with
      | none =>
        refine .skip pos c s _ ?_ (ih _ _ (by simpa using h))
        intro cap m rest e hc
        rw [(matchAt_iff hk _ _ _).2 ⟨m, hc, e⟩] at hm
        exact absurd hm (by simp)
      | some x =>
        obtain ⟨cap, rest⟩ := x
        obtain ⟨m, hc, e⟩ := (matchAt_iff hk _ _ _).1 hm
        obtain ⟨x, mid, z, hx, -⟩ := hc.first
        have hl : rest.length < n := by
          have := congrArg List.length e
          rw [hx] at this
          simp at this h
          omega
        have hb : blen (c :: s) - blen rest = blen m := by rw [e, blen_append]; omega
        simp only
        rw [hb]
        have := Scan.hit pos cap m rest _ hc (ih (pos + blen m) rest hl)
        rw [e]
        cases hp : parseCapture cap with
        | none => rw [hp] at this; simpa using this
        | some v => rw [hp] at this; simpa using this

theorem IsColor.unique {k : Classes} (hk : k.Ok) {cap cap' : Capture} {m m' rest rest' : List Char} (h : IsColor k cap m)
    (h' : IsColor k cap' m') (e : m ++ rest = m' ++ rest') : cap = cap' ∧ m = m' ∧ rest = rest' := by
  have h1 := (matchAt_iff hk (m ++ rest) rest cap).2 ⟨m, h, rfl⟩
  have h2 := (matchAt_iff hk (m ++ rest) rest' cap').2 ⟨m', h', e⟩
  rw [h1] at h2
  simp only [Option.some.injEq, Prod.mk.injEq] at h2
  obtain ⟨rfl, rfl⟩ := h2
  exact ⟨rfl, List.append_cancel_right e, rfl⟩

theorem Scan.unique {k : Classes} (hk : k.Ok) {pos : Nat} {s : List Char} {o1 o2 : List (Nat × Nat × Rgba)}
    (h1 : Scan k pos s o1) (h2 : Scan k pos s o2) : o1 = o2 := by
  induction h1 generalizing o2 with
  | nil => 
    generalize hs : ([] : List Char) = s at h2
    cases h2 with
    | nil => rfl
    | skip => cases hs
    | hit _ cap m rest out hc _ =>
      obtain ⟨x, mid, z, hx, -⟩ := hc.first
      rw [hx] at hs; cases hs
  | skip pos c s out hn _ ih =>
    generalize hs : c :: s = s' at h2
    cases h2 with
    | nil => cases hs
    | skip _ _ _ _ hn' h => cases hs; exact ih h
    | hit _ cap m rest out hc _ => exact absurd hc (hn _ _ _ hs)
  | hit pos cap m rest out hc _ ih =>
    generalize hs : m ++ rest = s' at h2
    cases h2 with
    | nil =>
      obtain ⟨x, mid, z, hx, -⟩ := hc.first
      rw [hx] at hs; cases hs
    | skip _ c s _ hn' h => exact absurd hc (hn' _ _ _ hs.symm)
    | hit _ cap' m' rest' out' hc' h' =>
      obtain ⟨rfl, rfl, rfl⟩ := IsColor.unique hk hc hc' hs
      rw [ih h']

/-- a colour found `d` bytes further -/
def shift (d : Nat) (x : Nat × Nat × Rgba) : Nat × Nat × Rgba := (x.1 + d, x.2.1 + d, x.2.2)

theorem Scan.shift {k : Classes} {pos : Nat} {s : List Char} {out : List (Nat × Nat × Rgba)} (h : Scan k pos s out) (d : Nat) :
    Scan k (pos + d) s (out.map (shift d)) := by
  induction h with
  | nil => exact .nil _
  | skip pos c s out hn _ ih =>
    refine .skip _ _ _ _ hn ?_
    rw [Nat.add_right_comm]; exact ih
  | hit pos cap m rest out hc _ ih =>
    have := Scan.hit (pos + d) cap m rest (out.map (Color.shift d)) hc (by rw [Nat.add_right_comm]; exact ih)
    rw [List.map_append]
    have e : ((parseCapture cap).toList.map (fun c => (pos, pos + blen m, c))).map (Color.shift d) =
        (parseCapture cap).toList.map (fun c => (pos + d, pos + d + blen m, c)) := by
      rw [List.map_map]
      refine List.map_congr_left fun c _ => ?_
      simp [Color.shift, Nat.add_right_comm]
    rw [e]; exact this

theorem extract_scan {k : Classes} (hk : k.Ok) (s : List Char) : Scan k 0 s (extractColors k s) :=
  extractGo_scan hk _ _ _ (Nat.lt_succ_self _)

theorem IsColor.interior {k : Classes} (hk : k.Ok) {cap : Capture} {m : List Char} (h : IsColor k cap m) :
    ∃ x mid z, m = x :: (mid ++ [z]) ∧ ∀ c ∈ mid, ¬ (c = '"' ∨ c = '\'' ∨ c = 'r') := by
  have hsp : ∀ {w : List Char}, Space k w → ∀ c ∈ w, ¬ (c = '"' ∨ c = '\'' ∨ c = 'r') := by
    intro w hw c hc hx
    have := hw c hc
    rw [(hk.start c hx).2] at this
    exact absurd this (by decide)
  have hnum : ∀ {w : List Char}, Num k w → ∀ c ∈ w, ¬ (c = '"' ∨ c = '\'' ∨ c = 'r') := by
    intro w hw c hc hx
    have := hw.1 c hc
    rw [(hk.start c hx).1] at this
    exact absurd this (by decide)
  cases h with
  | hex single h h1 =>
    refine ⟨_, '#' :: h, _, rfl, ?_⟩
    intro c hc hx
    rcases List.mem_cons.1 hc with rfl | hc
    · exact absurd hx (by decide)
    · have := h1 c hc
      rcases hx with rfl | rfl | rfl <;> exact absurd this (by decide +kernel)
  | rgb w1 r w2 g w3 b w4 h1 hr h2 hg h3 hb h4 =>
    refine ⟨'r', 'g' :: 'b' :: '(' :: (w1 ++ (r ++ ',' :: (w2 ++ (g ++ ',' :: (w3 ++ (b ++ w4)))))), ')', by simp [rgbWord], ?_⟩
    intro c hc
    simp only [List.mem_cons, List.mem_append] at hc
    rcases hc with rfl | rfl | rfl | hc | hc | rfl | hc | hc | rfl | hc | hc | hc
    · decide
    · decide
    · decide
    · exact hsp h1 c hc
    · exact hnum hr c hc
    · decide
    · exact hsp h2 c hc
    · exact hnum hg c hc
    · decide
    · exact hsp h3 c hc
    · exact hnum hb c hc
    · exact hsp h4 c hc
  | rgba w1 r w2 g w3 b w4 a w5 h1 hr h2 hg h3 hb h4 ha h5 =>
    refine ⟨'r', 'g' :: 'b' :: '(' :: (w1 ++ (r ++ ',' :: (w2 ++ (g ++ ',' :: (w3 ++ (b ++ ',' :: (w4 ++ (a ++ w5)))))))), ')',
      by simp [rgbWord], ?_⟩
    intro c hc
    simp only [List.mem_cons, List.mem_append] at hc
    rcases hc with rfl | rfl | rfl | hc | hc | rfl | hc | hc | rfl | hc | hc | rfl | hc | hc | hc
    · decide
    · decide
    · decide
    · exact hsp h1 c hc
    · exact hnum hr c hc
    · decide
    · exact hsp h2 c hc
    · exact hnum hg c hc
    · decide
    · exact hsp h3 c hc
    · exact hnum hb c hc
    · decide
    · exact hsp h4 c hc
    · exact hnum ha c hc
    · exact hsp h5 c hc

/-- a colour that starts before another either ends before it or shares its first character -/
theorem no_new_match {k : Classes} (hk : k.Ok) {c : Char} {u m m' post : List Char} {cap cap' : Capture} (hm : IsColor k cap m)
    (hm' : IsColor k cap' m') (hh : m'.head? = m.head?)
    (hn : ∀ cap m0 rest, c :: (u ++ (m ++ post)) = m0 ++ rest → ¬ IsColor k cap m0) :
    ∀ cap m0 rest, c :: (u ++ (m' ++ post)) = m0 ++ rest → ¬ IsColor k cap m0 := by
  intro cap0 m0 rest e h0
  have e' : (c :: u) ++ (m' ++ post) = m0 ++ rest := e
  rcases List.append_eq_append_iff.1 e' with ⟨v, hv, hv'⟩ | ⟨v, hv, hv'⟩
  · obtain ⟨x, t, z1, hx, hx3⟩ := hm.first
    obtain ⟨x', t', z2, hx', -⟩ := hm'.first
    rw [hx, hx'] at hh
    simp only [List.head?_cons, Option.some.injEq] at hh
    subst hh
    cases v with
    | nil =>
      rw [List.append_nil] at hv
      exact hn cap0 m0 (m ++ post) (by rw [hv]; simp) h0
    | cons y v =>
      rw [hx', List.cons_append, List.cons_append, List.cons.injEq] at hv'
      obtain ⟨rfl, -⟩ := hv'
      obtain ⟨x0, mid, z, hx0, hmid⟩ := h0.interior hk
      rcases List.eq_nil_or_concat v with rfl | ⟨v', z', rfl⟩
      · refine hn cap0 m0 (t ++ [z1] ++ post) ?_ h0
        rw [hv, hx]; simp
      · refine hmid x' ?_ hx3
        have : (c :: (u ++ x' :: v')) ++ [z'] = (x0 :: mid) ++ [z] := by
          have e2 : (x0 :: mid) ++ [z] = m0 := hx0.symm
          rw [e2, hv]; simp
        have := (List.append_inj' this rfl).1
        simp only [List.cons.injEq] at this
        rw [← this.2]; simp
  · exact hn cap0 m0 (v ++ (m ++ post)) (by rw [← List.append_assoc m0, ← hv]; simp) h0

theorem Scan.replace {k : Classes} (hk : k.Ok) {pos : Nat} {s : List Char} {out : List (Nat × Nat × Rgba)} (h : Scan k pos s out)
    {a b : Nat} {c : Rgba} (hm : (a, b, c) ∈ out) :
    ∃ u cap m post before after, s = u ++ (m ++ post) ∧ IsColor k cap m ∧ parseCapture cap = some c ∧ a = pos + blen u ∧
      b = a + blen m ∧ out = before ++ (a, b, c) :: after ∧ Scan k b post after ∧
      ∀ cap' m' c' after', IsColor k cap' m' → m'.head? = m.head? → parseCapture cap' = some c' → Scan k (a + blen m') post after' →
        Scan k pos (u ++ (m' ++ post)) (before ++ (a, a + blen m', c') :: after') := by
  induction h with
  | nil => simp at hm
  | skip pos c0 s out hn _ ih =>
    obtain ⟨u, cap, m, post, before, after, rfl, h1, h2, rfl, h4, h5, h6, h7⟩ := ih hm
    refine ⟨c0 :: u, cap, m, post, before, after, rfl, h1, h2, by simp [blen, Nat.add_assoc], h4, h5, h6, ?_⟩
    intro cap' m' c' after' g1 g2 g3 g4
    exact .skip _ _ _ _ (no_new_match hk h1 g1 g2 hn) (h7 _ _ _ _ g1 g2 g3 g4)
  | hit pos cap m rest out hc hs ih =>
    rcases List.mem_append.1 hm with hm | hm
    · simp only [List.mem_map, Option.mem_toList, Prod.mk.injEq] at hm
      obtain ⟨c', hc', rfl, rfl, rfl⟩ := hm
      refine ⟨[], cap, m, rest, [], out, rfl, hc, hc', by simp [blen], rfl, by simp [hc'], hs, ?_⟩
      intro cap' m' c'' after' g1 g2 g3 g4
      have := Scan.hit pos cap' m' rest after' g1 g4
      rw [g3] at this
      simpa using this
    · obtain ⟨u, cap0, m0, post, before, after, rfl, h1, h2, rfl, h4, h5, h6, h7⟩ := ih hm
      refine ⟨m ++ u, cap0, m0, post, (parseCapture cap).toList.map (fun c => (pos, pos + blen m, c)) ++ before, after, by simp,
        h1, h2, by rw [blen_append]; omega, h4, by rw [h5]; simp, h6, ?_⟩
      intro cap' m' c' after' g1 g2 g3 g4
      have := Scan.hit pos cap m _ _ hc (h7 cap' m' c' after' g1 g2 g3 g4)
      simpa using this

/-! ## Formatting -/

/-- the digits of a colour -/
def Format.digits (f : Format) (c : Rgba) : List Char :=
  match f with
  | .hex _ short alpha =>
    match (short && c.r % 17 == 0 && c.g % 17 == 0 && c.b % 17 == 0 && c.a % 17 == 0), (alpha || c.a != 255) with
    | false, false => hex2 c.r ++ hex2 c.g ++ hex2 c.b
    | false, true => hex2 c.r ++ hex2 c.g ++ hex2 c.b ++ hex2 c.a
    | true, false => hex1 c.r ++ hex1 c.g ++ hex1 c.b
    | true, true => hex1 c.r ++ hex1 c.g ++ hex1 c.b ++ hex1 c.a
  | .rgb _ => []

theorem format_hex (single short alpha : Bool) (c : Rgba) :
    (Format.hex single short alpha).format c =
      quote single :: '#' :: ((Format.hex single short alpha).digits c ++ quote single :: []) := by
  unfold Format.format Format.digits
  simp only
  generalize (short && c.r % 17 == 0 && c.g % 17 == 0 && c.b % 17 == 0 && c.a % 17 == 0) = s'
  generalize (alpha || c.a != 255) = a'
  cases s' <;> cases a' <;> simp

theorem digits_spec (single short alpha : Bool) (c : Rgba) (hc : c.Valid) :
    (∀ x ∈ (Format.hex single short alpha).digits c, isHex x = true) ∧
      3 ≤ ((Format.hex single short alpha).digits c).length ∧ ((Format.hex single short alpha).digits c).length ≤ 8 ∧
      parseHex ((Format.hex single short alpha).digits c) = some c := by
  obtain ⟨r, g, b, a⟩ := c
  obtain ⟨hr, hg, hb, ha⟩ := hc
  simp only at hr hg hb ha
  have h1 : ∀ v < 256, isHex (hexChar (v / 16)) = true ∧ isHex (hexChar (v % 16)) = true ∧ isHex (hexChar (v / 17)) = true :=
    fun v hv => ⟨isHex_hexChar _ (by omega), isHex_hexChar _ (by omega), isHex_hexChar _ (by omega)⟩
  have t1 : ∀ v < 256, toDigit (hexChar (v / 16)) = some (v / 16) := fun v hv => toDigit_hexChar _ (by omega)
  have t2 : ∀ v, toDigit (hexChar (v % 16)) = some (v % 16) := fun v => toDigit_hexChar _ (by omega)
  have t3 : ∀ v < 256, toDigit (hexChar (v / 17)) = some (v / 17) := fun v hv => toDigit_hexChar _ (by omega)
  unfold Format.digits
  simp only
  split
  · rename_i h2 h3
    simp only [Bool.or_eq_false_iff, bne_eq_false_iff_eq] at h3
    refine ⟨?_, by simp [hex2], by simp [hex2], ?_⟩
    · simp [hex2, h1 r hr, h1 g hg, h1 b hb]
    · simp only [parseHex, hex2, List.cons_append, List.nil_append, List.length_cons, List.length_nil, List.foldl_cons,
        List.foldl_nil, t1 r hr, t1 g hg, t1 b hb, t2, Option.getD_some]
      norm_num
      refine ⟨?_, ?_, ?_, h3.2.symm⟩ <;> omega
  · refine ⟨?_, by simp [hex2], by simp [hex2], ?_⟩
    · simp [hex2, h1 r hr, h1 g hg, h1 b hb, h1 a ha]
    · simp only [parseHex, hex2, List.cons_append, List.nil_append, List.length_cons, List.length_nil, List.foldl_cons,
        List.foldl_nil, t1 r hr, t1 g hg, t1 b hb, t1 a ha, t2, Option.getD_some]
      norm_num
      refine ⟨?_, ?_, ?_, ?_⟩ <;> omega
  · rename_i h2 h3
    simp only [Bool.or_eq_false_iff, bne_eq_false_iff_eq] at h3
    simp only [Bool.and_eq_true, beq_iff_eq] at h2
    obtain ⟨⟨⟨⟨-, hr'⟩, hg'⟩, hb'⟩, ha'⟩ := h2
    have er : ∃ x < 16, r = 17 * x := ⟨r / 17, by omega, by omega⟩
    have eg : ∃ x < 16, g = 17 * x := ⟨g / 17, by omega, by omega⟩
    have eb : ∃ x < 16, b = 17 * x := ⟨b / 17, by omega, by omega⟩
    have ea : ∃ x < 16, a = 17 * x := ⟨a / 17, by omega, by omega⟩
    obtain ⟨r, hr1, rfl⟩ := er
    obtain ⟨g, hg1, rfl⟩ := eg
    obtain ⟨b, hb1, rfl⟩ := eb
    obtain ⟨a, ha1, rfl⟩ := ea
    have d17 : ∀ x, 17 * x / 17 = x := fun x => by omega
    refine ⟨?_, by simp [hex1], by simp [hex1], ?_⟩
    · simp [hex1, isHex_hexChar _ hr1, isHex_hexChar _ hg1, isHex_hexChar _ hb1]
    · simp only [parseHex, hex1, List.cons_append, List.nil_append, List.length_cons, List.length_nil, List.foldl_cons,
        List.foldl_nil, d17, toDigit_hexChar _ hr1, toDigit_hexChar _ hg1, toDigit_hexChar _ hb1,
        Option.getD_some]
      norm_num
      have n1 : (16 * (16 * r + g) + b) / 256 % 16 = r := by omega
      have n2 : (16 * (16 * r + g) + b) / 16 % 16 = g := by omega
      have n3 : b % 16 = b := by omega
      rw [n1, n2, n3]
      refine ⟨?_, ?_, ?_, h3.2.symm⟩ <;> omega
  · rename_i h2 h3
    simp only [Bool.and_eq_true, beq_iff_eq] at h2
    obtain ⟨⟨⟨⟨-, hr'⟩, hg'⟩, hb'⟩, ha'⟩ := h2
    have er : ∃ x < 16, r = 17 * x := ⟨r / 17, by omega, by omega⟩
    have eg : ∃ x < 16, g = 17 * x := ⟨g / 17, by omega, by omega⟩
    have eb : ∃ x < 16, b = 17 * x := ⟨b / 17, by omega, by omega⟩
    have ea : ∃ x < 16, a = 17 * x := ⟨a / 17, by omega, by omega⟩
    obtain ⟨r, hr1, rfl⟩ := er
    obtain ⟨g, hg1, rfl⟩ := eg
    obtain ⟨b, hb1, rfl⟩ := eb
    obtain ⟨a, ha1, rfl⟩ := ea
    have d17 : ∀ x, 17 * x / 17 = x := fun x => by omega
    refine ⟨?_, by simp [hex1], by simp [hex1], ?_⟩
    · simp [hex1, isHex_hexChar _ hr1, isHex_hexChar _ hg1, isHex_hexChar _ hb1, isHex_hexChar _ ha1]
    · simp only [parseHex, hex1, List.cons_append, List.nil_append, List.length_cons, List.length_nil, List.foldl_cons,
        List.foldl_nil, d17, toDigit_hexChar _ hr1, toDigit_hexChar _ hg1, toDigit_hexChar _ hb1,
        toDigit_hexChar _ ha1, Option.getD_some]
      norm_num
      have n1 : (16 * (16 * (16 * r + g) + b) + a) / 4096 % 16 = r := by omega
      have n2 : (16 * (16 * (16 * r + g) + b) + a) / 256 % 16 = g := by omega
      have n3 : (16 * (16 * (16 * r + g) + b) + a) / 16 % 16 = b := by omega
      have n4 : a % 16 = a := by omega
      rw [n1, n2, n3, n4]
      refine ⟨?_, ?_, ?_, ?_⟩ <;> omega

theorem matchAt_format {k : Classes} (hk : k.Ok) (f : Format) (c : Rgba) (hc : c.Valid) (t : List Char) :
    ∃ cap, matchAt k (f.format c ++ t) = some (cap, t) ∧ parseCapture cap = some c := by
  cases f with
  | hex single short alpha =>
    obtain ⟨h1, h2, h3, h4⟩ := digits_spec single short alpha c hc
    refine ⟨.hex ((Format.hex single short alpha).digits c), ?_, h4⟩
    rw [format_hex]
    have := matchAt_hex k single _ h1 h2 h3 t
    simpa using this
  | rgb alpha =>
    obtain ⟨r, g, b, a⟩ := c
    obtain ⟨hr, hg, hb, ha⟩ := hc
    simp only at hr hg hb ha
    unfold Format.format
    simp only
    split
    · refine ⟨.rgb (dec r) (dec g) (dec b) (some (dec a)), ?_, ?_⟩
      · have := matchRgb_four hk r g b a hr hg hb ha t
        rw [List.append_assoc, ← matchAt_rgb, ← List.append_assoc] at this
        simpa using this
      · simp [parseCapture, parseRgba, parseU8_dec, hr, hg, hb, ha]
    · rename_i h
      have ha' : a = 255 := by
        simp only [Bool.or_eq_true, bne_iff_ne, ne_eq, not_or, Decidable.not_not] at h
        exact h.2
      refine ⟨.rgb (dec r) (dec g) (dec b) none, ?_, ?_⟩
      · have := matchRgb_three hk r g b hr hg hb t
        rw [List.append_assoc, ← matchAt_rgb, ← List.append_assoc] at this
        simpa using this
      · simp [parseCapture, parseRgba, parseU8_dec, hr, hg, hb, ha']

theorem quote_ne_r (b : Bool) : quote b ≠ 'r' := by cases b <;> decide

theorem parse_hex_text (single : Bool) (h : List Char) (hl : blen (quote single :: '#' :: (h ++ [quote single])) = h.length + 3) :
    Format.parse (quote single :: '#' :: (h ++ [quote single])) =
      some (.hex single (decide (h.length ≤ 4)) (decide (h.length = 4 ∨ h.length = 8))) := by
  unfold Format.parse
  rw [hl]
  have e1 : (h.length + 3 ≤ 7) = (h.length ≤ 4) := by simp
  have e2 : (h.length + 3 = 7 ∨ h.length + 3 = 11) = (h.length = 4 ∨ h.length = 8) := by simp
  have hlast : ∀ (x y : Char), (x :: y :: (h ++ [x])).getLast? = some x := by
    intro x y
    have : x :: y :: (h ++ [x]) = (x :: y :: h) ++ [x] := rfl
    rw [this, List.getLast?_concat]
  rw [if_neg (by simp [rgbWord, quote_ne_r])]
  cases single with
  | false =>
    rw [if_neg (by simp [quote]), if_pos ⟨rfl, hlast _ _⟩]
    simp only [e1, e2]
  | true =>
    rw [if_pos ⟨rfl, hlast _ _⟩]
    simp only [e1, e2]

theorem mem_of_lookup {l : List (Char × Nat)} {c : Char} {v : Nat} (h : l.lookup c = some v) : (c, v) ∈ l := by
  induction l with
  | nil => simp at h
  | cons x l ih =>
    obtain ⟨d, w⟩ := x
    rw [List.lookup_cons] at h
    split at h
    · rename_i hc
      have := eq_of_beq hc
      subst this
      cases h
      simp
    · exact List.mem_cons_of_mem _ (ih h)

theorem ascii_hex (c : Char) (h : isHex c = true) : c.utf8Size = 1 ∧ c.toLower = hexChar ((toDigit c).getD 0) ∧
    (toDigit c).getD 0 < 16 := by
  have key : ∀ x ∈ hexDigits, x.1.utf8Size = 1 ∧ x.1.toLower = hexChar ((toDigit x.1).getD 0) ∧ (toDigit x.1).getD 0 < 16 := by
    decide +kernel
  unfold isHex toDigit at h
  rw [Option.isSome_iff_exists] at h
  obtain ⟨v, hv⟩ := h
  exact key (c, v) (mem_of_lookup hv)

theorem blen_ascii (l : List Char) (h : ∀ c ∈ l, c.utf8Size = 1) : blen l = l.length := by
  induction l with
  | nil => rfl
  | cons c l ih =>
    rw [blen, h c (by simp), ih fun x hx => h x (by simp [hx]), List.length_cons, Nat.add_comm]

theorem blen_hex (single : Bool) (h : List Char) (hh : ∀ c ∈ h, isHex c = true) :
    blen (quote single :: '#' :: (h ++ [quote single])) = h.length + 3 := by
  rw [blen_ascii]
  · simp
  · intro c hc
    simp only [List.mem_cons, List.mem_append, List.not_mem_nil, or_false] at hc
    have hq : (quote single).utf8Size = 1 := by cases single <;> decide
    rcases hc with rfl | rfl | hc | rfl
    · exact hq
    · decide
    · exact (ascii_hex c (hh c hc)).1
    · exact hq

theorem IsColor.present_head {k : Classes} {cap : Capture} {m : List Char} (h : IsColor k cap m) (c : Rgba) :
    (present m c).head? = m.head? := by
  cases h with
  | hex single h h1 =>
    unfold present
    rw [parse_hex_text single h (blen_hex single h h1), Option.getD_some, format_hex]
    rfl
  | rgb w1 r w2 g w3 b w4 =>
    unfold present Format.parse
    rw [if_pos (by simp [rgbWord]), Option.getD_some]
    unfold Format.format
    simp only
    split <;> simp [rgbWord]
  | rgba w1 r w2 g w3 b w4 a w5 =>
    unfold present Format.parse
    rw [if_pos (by simp [rgbWord]), Option.getD_some]
    unfold Format.format
    simp only
    split <;> simp [rgbWord]

theorem present_color {k : Classes} (hk : k.Ok) (chunk : List Char) (c : Rgba) (hc : c.Valid) :
    ∃ cap, IsColor k cap (present chunk c) ∧ parseCapture cap = some c := by
  obtain ⟨cap, h1, h2⟩ := matchAt_format hk ((Format.parse chunk).getD .default) c hc []
  obtain ⟨m, hm, e⟩ := (matchAt_iff hk _ _ _).1 h1
  simp only [List.append_nil] at e
  exact ⟨cap, by unfold present; rw [e]; exact hm, h2⟩

theorem dec_comma (v : Nat) (h : v < 256) : (dec v).countP (· == ',') = 0 := by
  rw [List.countP_eq_zero]
  intro c hc
  obtain ⟨d, hd, rfl⟩ := dec_digits v h c hc
  have : ∀ d < 10, ¬ (hexChar d == ',') = true := by decide
  exact this d hd

/-! ## Properties -/

/-- C41: the colours of a document are those its texts of colours stand for, from the left and without overlap -/
theorem extract_exact {k : Classes} (hk : k.Ok) (s : List Char) (out : List (Nat × Nat × Rgba)) :
    extractColors k s = out ↔ Scan k 0 s out :=
  ⟨fun h => h ▸ extract_scan hk s, fun h => Scan.unique hk (extract_scan hk s) h⟩

theorem hexDigit_iff (c : Char) (v : Nat) : HexDigit c v ↔ toDigit c = some v := by
  constructor
  · rintro ⟨hv, h⟩
    have key : ∀ v < 16, toDigit (Nat.digitChar v) = some v ∧ toDigit (Nat.digitChar v).toUpper = some v := by decide +kernel
    rcases h with rfl | rfl
    · exact (key v hv).1
    · exact (key v hv).2
  · intro h
    have key : ∀ x ∈ hexDigits, x.2 < 16 ∧ (x.1 = Nat.digitChar x.2 ∨ x.1 = (Nat.digitChar x.2).toUpper) := by decide +kernel
    exact key (c, v) (mem_of_lookup h)

theorem decVal_iff (c : Char) (v : Nat) : decVal c = some v ↔ v < 10 ∧ c = Nat.digitChar v := by
  constructor
  · intro h
    have key : ∀ x ∈ hexDigits.take 10, x.2 < 10 ∧ x.1 = Nat.digitChar x.2 := by decide +kernel
    exact key (c, v) (mem_of_lookup h)
  · rintro ⟨hv, rfl⟩
    have key : ∀ v < 10, decVal (Nat.digitChar v) = some v := by decide +kernel
    exact key v hv

theorem decimal_iff (u : List Char) (n : Nat) :
    Decimal u n ↔ u ≠ [] ∧ u.foldlM (fun v c => (decVal c).map (10 * v + ·)) 0 = some n := by
  constructor
  · intro h
    induction h with
    | one v hv => simp [(decVal_iff _ v).2 ⟨hv, rfl⟩]
    | snoc u n v _ hv ih =>
      refine ⟨by simp, ?_⟩
      rw [List.foldlM_append, ih.2]
      simp [(decVal_iff _ v).2 ⟨hv, rfl⟩]
  · induction u using List.reverseRecOn generalizing n with
    | nil => simp
    | append_singleton u c ih =>
      rintro ⟨-, h⟩
      rw [List.foldlM_append] at h
      simp only [List.foldlM_cons, List.foldlM_nil, Option.bind_eq_bind, Option.bind_eq_some_iff, Option.map_eq_some_iff,
        Option.pure_def, Option.some.injEq] at h
      obtain ⟨m, hm, n', ⟨v, hv, rfl⟩, rfl⟩ := h
      obtain ⟨hv10, rfl⟩ := (decVal_iff _ _).1 hv
      by_cases hu : u = []
      · subst hu
        simp only [List.foldlM_nil, Option.pure_def, Option.some.injEq] at hm
        subst hm
        simpa using Decimal.one v hv10
      · exact .snoc u m v (ih m ⟨hu, hm⟩) hv10

theorem parseU8_iff (u : List Char) (n : Nat) : parseU8 u = some n ↔ Decimal u n ∧ n < 256 := by
  rw [decimal_iff]
  cases u with
  | nil => simp [parseU8]
  | cons c u =>
    unfold parseU8
    simp only [Option.filter_eq_some_iff, ne_eq, List.cons_ne_nil, not_false_eq_true, true_and, decide_eq_true_eq]

/-- C41: the colour of a text is what its digits say; the one exception is an alpha over 255, see `alpha_overflow` -/
theorem color_meaning (cap : Capture) (hcap : ∀ r g b a, cap = .rgb r g b (some a) → ∃ n < 256, Decimal a n)
    (hhex : ∀ h, cap = .hex h → ∀ c ∈ h, isHex c = true) (c : Rgba) : parseCapture cap = some c ↔ Means cap c := by
  constructor
  · intro h
    cases cap with
    | rgb r g b a =>
      simp only [parseCapture, parseRgba, Option.bind_eq_bind, Option.bind_eq_some_iff, Option.pure_def, Option.some.injEq,
        parseU8_iff] at h
      obtain ⟨r', ⟨h1, h2⟩, g', ⟨h3, h4⟩, b', ⟨h5, h6⟩, rfl⟩ := h
      cases a with
      | none => exact .rgb _ _ _ _ _ _ h1 h3 h5 h2 h4 h6
      | some a =>
        obtain ⟨n, hn, hd⟩ := hcap r g b a rfl
        have : parseU8 a = some n := (parseU8_iff _ _).2 ⟨hd, hn⟩
        simp only [Option.bind_some, this, Option.getD_some]
        exact .rgba _ _ _ _ _ _ _ _ h1 h3 h5 hd h2 h4 h6 hn
    | hex h' =>
      have hh : ∀ x ∈ h', HexDigit x ((toDigit x).getD 0) := by
        intro x hx
        rw [hexDigit_iff]
        obtain ⟨v, hv⟩ := Option.isSome_iff_exists.1 (show (toDigit x).isSome = true from hhex h' rfl x hx)
        rw [hv]; rfl
      simp only [parseCapture, parseHex] at h
      split at h
      · rename_i hl
        match h', hl with
        | [x, x', y, y', z, z', w, w'], _ =>
          simp only [List.mem_cons, List.not_mem_nil, or_false, forall_eq_or_imp, forall_eq] at hh
          obtain ⟨k0, k1, k2, k3, k4, k5, k6, k7⟩ := hh
          have := Means.longAlpha _ _ _ _ _ _ _ _ _ _ _ _ _ _ _ _ k0 k1 k2 k3 k4 k5 k6 k7
          simp only [HexDigit] at k0 k1 k2 k3 k4 k5 k6 k7
          simp only [List.foldl_cons, List.foldl_nil, Option.some.injEq] at h
          rw [← h]
          convert this using 2 <;> omega
      · split at h
        · rename_i hl
          match h', hl with
          | [x, x', y, y', z, z'], _ =>
            simp only [List.mem_cons, List.not_mem_nil, or_false, forall_eq_or_imp, forall_eq] at hh
            obtain ⟨k0, k1, k2, k3, k4, k5⟩ := hh
            have := Means.long _ _ _ _ _ _ _ _ _ _ _ _ k0 k1 k2 k3 k4 k5
            simp only [HexDigit] at k0 k1 k2 k3 k4 k5
            simp only [List.foldl_cons, List.foldl_nil, Option.some.injEq] at h
            rw [← h]
            convert this using 2 <;> omega
        · split at h
          · rename_i hl
            match h', hl with
            | [x, y, z, w], _ =>
              simp only [List.mem_cons, List.not_mem_nil, or_false, forall_eq_or_imp, forall_eq] at hh
              obtain ⟨k0, k1, k2, k3⟩ := hh
              have := Means.shortAlpha _ _ _ _ _ _ _ _ k0 k1 k2 k3
              simp only [HexDigit] at k0 k1 k2 k3
              simp only [List.foldl_cons, List.foldl_nil, Option.some.injEq] at h
              rw [← h]
              generalize (toDigit x).getD 0 = x at *
              generalize (toDigit y).getD 0 = y at *
              generalize (toDigit z).getD 0 = z at *
              generalize (toDigit w).getD 0 = w at *
              have n1 : (16 * (16 * (16 * (16 * 0 + x) + y) + z) + w) / 2 ^ 12 % 16 = x := by omega
              have n2 : (16 * (16 * (16 * (16 * 0 + x) + y) + z) + w) / 2 ^ 8 % 16 = y := by omega
              have n3 : (16 * (16 * (16 * (16 * 0 + x) + y) + z) + w) / 2 ^ 4 % 16 = z := by omega
              have n4 : (16 * (16 * (16 * (16 * 0 + x) + y) + z) + w) % 16 = w := by omega
              rw [n1, n2, n3, n4]
              convert this using 2 <;> omega
          · split at h
            · rename_i hl
              match h', hl with
              | [x, y, z], _ =>
                simp only [List.mem_cons, List.not_mem_nil, or_false, forall_eq_or_imp, forall_eq] at hh
                obtain ⟨k0, k1, k2⟩ := hh
                have := Means.short _ _ _ _ _ _ k0 k1 k2
                simp only [HexDigit] at k0 k1 k2
                simp only [List.foldl_cons, List.foldl_nil, Option.some.injEq] at h
                rw [← h]
                generalize (toDigit x).getD 0 = x at *
                generalize (toDigit y).getD 0 = y at *
                generalize (toDigit z).getD 0 = z at *
                have n1 : (16 * (16 * (16 * 0 + x) + y) + z) / 2 ^ 8 % 16 = x := by omega
                have n2 : (16 * (16 * (16 * 0 + x) + y) + z) / 2 ^ 4 % 16 = y := by omega
                have n3 : (16 * (16 * (16 * 0 + x) + y) + z) % 16 = z := by omega
                rw [n1, n2, n3]
                convert this using 2 <;> omega
            · cases h
  · intro h
    cases h with
    | rgb r g b r' g' b' h1 h3 h5 h2 h4 h6 =>
      simp [parseCapture, parseRgba, (parseU8_iff _ _).2 ⟨h1, h2⟩, (parseU8_iff _ _).2 ⟨h3, h4⟩, (parseU8_iff _ _).2 ⟨h5, h6⟩]
    | rgba r g b a r' g' b' a' h1 h3 h5 h7 h2 h4 h6 h8 =>
      simp [parseCapture, parseRgba, (parseU8_iff _ _).2 ⟨h1, h2⟩, (parseU8_iff _ _).2 ⟨h3, h4⟩, (parseU8_iff _ _).2 ⟨h5, h6⟩,
        (parseU8_iff _ _).2 ⟨h7, h8⟩]
    | short x y z r g b k0 k1 k2 =>
      have e0 := (hexDigit_iff _ _).1 k0
      have e1 := (hexDigit_iff _ _).1 k1
      have e2 := (hexDigit_iff _ _).1 k2
      replace k0 := k0.1; replace k1 := k1.1; replace k2 := k2.1
      simp only [parseCapture, parseHex, List.length_cons, List.length_nil, List.foldl_cons, List.foldl_nil, e0, e1, e2,
        Option.getD_some]
      have n1 : (16 * (16 * (16 * 0 + r) + g) + b) / 2 ^ 8 % 16 = r := by omega
      have n2 : (16 * (16 * (16 * 0 + r) + g) + b) / 2 ^ 4 % 16 = g := by omega
      have n3 : (16 * (16 * (16 * 0 + r) + g) + b) % 16 = b := by omega
      rw [n1, n2, n3]
      norm_num
      refine ⟨?_, ?_, ?_⟩ <;> omega
    | shortAlpha x y z w r g b a k0 k1 k2 k3 =>
      have e0 := (hexDigit_iff _ _).1 k0
      have e1 := (hexDigit_iff _ _).1 k1
      have e2 := (hexDigit_iff _ _).1 k2
      have e3 := (hexDigit_iff _ _).1 k3
      replace k0 := k0.1; replace k1 := k1.1; replace k2 := k2.1; replace k3 := k3.1
      simp only [parseCapture, parseHex, List.length_cons, List.length_nil, List.foldl_cons, List.foldl_nil, e0, e1, e2, e3,
        Option.getD_some]
      have n1 : (16 * (16 * (16 * (16 * 0 + r) + g) + b) + a) / 2 ^ 12 % 16 = r := by omega
      have n2 : (16 * (16 * (16 * (16 * 0 + r) + g) + b) + a) / 2 ^ 8 % 16 = g := by omega
      have n3 : (16 * (16 * (16 * (16 * 0 + r) + g) + b) + a) / 2 ^ 4 % 16 = b := by omega
      have n4 : (16 * (16 * (16 * (16 * 0 + r) + g) + b) + a) % 16 = a := by omega
      rw [n1, n2, n3, n4]
      norm_num
      refine ⟨?_, ?_, ?_, ?_⟩ <;> omega
    | long x x' y y' z z' r r' g g' b b' k0 k1 k2 k3 k4 k5 =>
      have e0 := (hexDigit_iff _ _).1 k0
      have e1 := (hexDigit_iff _ _).1 k1
      have e2 := (hexDigit_iff _ _).1 k2
      have e3 := (hexDigit_iff _ _).1 k3
      have e4 := (hexDigit_iff _ _).1 k4
      have e5 := (hexDigit_iff _ _).1 k5
      replace k0 := k0.1; replace k1 := k1.1; replace k2 := k2.1; replace k3 := k3.1; replace k4 := k4.1; replace k5 := k5.1
      simp only [parseCapture, parseHex, List.length_cons, List.length_nil, List.foldl_cons, List.foldl_nil, e0, e1, e2, e3,
        e4, e5, Option.getD_some]
      norm_num
      refine ⟨?_, ?_, ?_⟩ <;> omega
    | longAlpha x x' y y' z z' w w' r r' g g' b b' a a' k0 k1 k2 k3 k4 k5 k6 k7 =>
      have e0 := (hexDigit_iff _ _).1 k0
      have e1 := (hexDigit_iff _ _).1 k1
      have e2 := (hexDigit_iff _ _).1 k2
      have e3 := (hexDigit_iff _ _).1 k3
      have e4 := (hexDigit_iff _ _).1 k4
      have e5 := (hexDigit_iff _ _).1 k5
      have e6 := (hexDigit_iff _ _).1 k6
      have e7 := (hexDigit_iff _ _).1 k7
      replace k0 := k0.1; replace k1 := k1.1; replace k2 := k2.1; replace k3 := k3.1; replace k4 := k4.1; replace k5 := k5.1
      replace k6 := k6.1; replace k7 := k7.1
      simp only [parseCapture, parseHex, List.length_cons, List.length_nil, List.foldl_cons, List.foldl_nil, e0, e1, e2, e3,
        e4, e5, e6, e7, Option.getD_some]
      norm_num
      refine ⟨?_, ?_, ?_, ?_⟩ <;> omega

/-- C41: the text of a colour, in any format, is found as one colour, which is that colour -/
theorem format_extract {k : Classes} (hk : k.Ok) (f : Format) (c : Rgba) (hc : c.Valid) :
    extractColors k (f.format c) = [(0, blen (f.format c), c)] := by
  obtain ⟨cap, h1, h2⟩ := matchAt_format hk f c hc []
  rw [List.append_nil] at h1
  unfold extractColors
  cases hf : f.format c with
  | nil =>
    rw [hf] at h1
    simp [matchAt, matchHex, matchRgb, lit, rgbWord] at h1
  | cons x s =>
    rw [hf] at h1
    rw [List.length_cons, extractGo, h1]
    simp only
    rw [h2]
    simp [extractGo, blen]

/-- C41: the text offered for a colour is found as one colour, which is that colour, whatever it replaces -/
theorem present_extract {k : Classes} (hk : k.Ok) (chunk : List Char) (c : Rgba) (hc : c.Valid) :
    extractColors k (present chunk c) = [(0, blen (present chunk c), c)] :=
  format_extract hk _ c hc

/-- C41: when the text offered for `c'` replaces a colour of the document, that colour becomes `c'` and no other colour is
changed, lost or added: those before stay, and those behind move with the text -/
theorem present_replace {k : Classes} (hk : k.Ok) (doc : List Char) (a b : Nat) (c : Rgba) (h : (a, b, c) ∈ extractColors k doc) :
    ∃ u m post before, doc = u ++ (m ++ post) ∧ a = blen u ∧ b = a + blen m ∧
      extractColors k doc = before ++ (a, b, c) :: (extractColors k post).map (shift b) ∧
      ∀ c' : Rgba, c'.Valid →
        extractColors k (u ++ (present m c' ++ post)) =
          before ++ (a, a + blen (present m c'), c') :: (extractColors k post).map (shift (a + blen (present m c'))) := by
  obtain ⟨u, cap, m, post, before, after, h1, h2, h3, h4, h5, h6, h7, h8⟩ := (extract_scan hk doc).replace hk h
  rw [Nat.zero_add] at h4
  have hs : ∀ d, Scan k d post ((extractColors k post).map (shift d)) := by
    intro d
    have := (extract_scan hk post).shift d
    rwa [Nat.zero_add] at this
  refine ⟨u, m, post, before, h1, h4, h5, ?_, ?_⟩
  · rw [h6, Scan.unique hk h7 (hs b)]
  · intro c' hc'
    obtain ⟨cap', g1, g2⟩ := present_color hk m c' hc'
    exact Scan.unique hk (extract_scan hk _) (h8 cap' _ c' _ g1 (h2.present_head c') g2 (hs _))

/-- C41: a text this formatter wrote is offered again unchanged -/
theorem present_stable (f : Format) (c : Rgba) (hc : c.Valid) : present (f.format c) c = f.format c := by
  cases f with
  | hex single short alpha =>
    obtain ⟨h1, h2, h3, h4⟩ := digits_spec single short alpha c hc
    unfold present
    rw [format_hex, parse_hex_text _ _ (blen_hex single _ h1), Option.getD_some, format_hex]
    have : (Format.hex single (decide (((Format.hex single short alpha).digits c).length ≤ 4))
        (decide (((Format.hex single short alpha).digits c).length = 4 ∨ ((Format.hex single short alpha).digits c).length = 8))).digits c =
          (Format.hex single short alpha).digits c := by
      rcases Bool.eq_false_or_eq_true (short && c.r % 17 == 0 && c.g % 17 == 0 && c.b % 17 == 0 && c.a % 17 == 0) with hs | hs <;>
        rcases Bool.eq_false_or_eq_true (alpha || c.a != 255) with ha | ha
      · have hD : (Format.hex single short alpha).digits c = hex1 c.r ++ hex1 c.g ++ hex1 c.b ++ hex1 c.a := by
          unfold Format.digits; simp only [hs, ha]
        rw [hD]
        simp only [Bool.and_eq_true, beq_iff_eq] at hs
        simp [Format.digits, hex1, hs]
      · have hD : (Format.hex single short alpha).digits c = hex1 c.r ++ hex1 c.g ++ hex1 c.b := by
          unfold Format.digits; simp only [hs, ha]
        rw [hD]
        simp only [Bool.and_eq_true, beq_iff_eq] at hs
        simp only [Bool.or_eq_false_iff, bne_eq_false_iff_eq] at ha
        simp [Format.digits, hex1, hs, ha]
      · have hD : (Format.hex single short alpha).digits c = hex2 c.r ++ hex2 c.g ++ hex2 c.b ++ hex2 c.a := by
          unfold Format.digits; simp only [hs, ha]
        rw [hD]
        simp [Format.digits, hex2]
      · have hD : (Format.hex single short alpha).digits c = hex2 c.r ++ hex2 c.g ++ hex2 c.b := by
          unfold Format.digits; simp only [hs, ha]
        rw [hD]
        simp only [Bool.or_eq_false_iff, bne_eq_false_iff_eq] at ha
        simp [Format.digits, hex2, ha]
    rw [this]
  | rgb alpha =>
    obtain ⟨r, g, b, a⟩ := c
    obtain ⟨hr, hg, hb, ha⟩ := hc
    simp only at hr hg hb ha
    unfold present
    have hp : Format.parse ((Format.rgb alpha).format ⟨r, g, b, a⟩) = some (.rgb (alpha || a != 255)) := by
      unfold Format.parse Format.format
      simp only
      split
      · rename_i h
        rw [if_pos (by simp [rgbWord]), h]
        simp [rgbWord, List.countP_append, dec_comma, hr, hg, hb, ha]
      · rename_i h
        rw [Bool.not_eq_true] at h
        rw [if_pos (by simp [rgbWord]), h]
        simp [rgbWord, List.countP_append, dec_comma, hr, hg, hb]
    rw [hp, Option.getD_some]
    unfold Format.format
    simp [Bool.or_assoc]

/-- C41: a colour in hexadecimal is offered again in the same notation: the digits are the same in lower case -/
theorem present_hex {single : Bool} {h : List Char} {c : Rgba} (hh : ∀ x ∈ h, isHex x = true) (hc : parseHex h = some c) :
    present (quote single :: '#' :: (h ++ [quote single])) c =
      quote single :: '#' :: (h.map Char.toLower ++ [quote single]) := by
  have low : ∀ x ∈ h, x.toLower = hexChar ((toDigit x).getD 0) ∧ (toDigit x).getD 0 < 16 :=
    fun x hx => (ascii_hex x (hh x hx)).2
  have em : h.map Char.toLower = (h.map fun x => (toDigit x).getD 0).map hexChar := by
    rw [List.map_map]
    exact List.map_congr_left fun x hx => (low x hx).1
  have hd : ∀ d ∈ h.map (fun x => (toDigit x).getD 0), d < 16 := by
    intro d hd
    obtain ⟨x, hx, rfl⟩ := List.mem_map.1 hd
    exact (low x hx).2
  unfold present
  rw [parse_hex_text _ _ (blen_hex single h hh), Option.getD_some, format_hex, em]
  have hf : ∀ (l : List Char) (n : Nat), l.foldl (fun s c => 16 * s + (toDigit c).getD 0) n =
      (l.map fun x => (toDigit x).getD 0).foldl (fun s d => 16 * s + d) n := by
    intro l n; rw [List.foldl_map]
  unfold parseHex at hc
  rw [hf] at hc
  rw [← List.length_map (f := fun x => (toDigit x).getD 0) (as := h)] at hc ⊢
  generalize h.map (fun x => (toDigit x).getD 0) = ds at hc hd
  simp only at hc
  refine congrArg (fun l => quote single :: '#' :: (l ++ [quote single])) ?_
  split at hc
  · rename_i hl
    obtain ⟨a0, a1, a2, a3, a4, a5, a6, a7, rfl⟩ : ∃ a0 a1 a2 a3 a4 a5 a6 a7, ds = [a0, a1, a2, a3, a4, a5, a6, a7] := by
      match ds, hl with
      | [a0, a1, a2, a3, a4, a5, a6, a7], _ => exact ⟨_, _, _, _, _, _, _, _, rfl⟩
    simp only [List.mem_cons, List.not_mem_nil, or_false, forall_eq_or_imp, forall_eq] at hd
    simp only [List.foldl_cons, List.foldl_nil, Option.some.injEq] at hc
    subst hc
    simp only [Format.digits, List.length_cons, List.length_nil]
    norm_num [hex2]
    refine ⟨?_, ?_, ?_, ?_, ?_, ?_, ?_, ?_⟩ <;> congr 1 <;> omega
  · split at hc
    · rename_i hl
      obtain ⟨a0, a1, a2, a3, a4, a5, rfl⟩ : ∃ a0 a1 a2 a3 a4 a5, ds = [a0, a1, a2, a3, a4, a5] := by
        match ds, hl with
        | [a0, a1, a2, a3, a4, a5], _ => exact ⟨_, _, _, _, _, _, rfl⟩
      simp only [List.mem_cons, List.not_mem_nil, or_false, forall_eq_or_imp, forall_eq] at hd
      simp only [List.foldl_cons, List.foldl_nil, Option.some.injEq] at hc
      subst hc
      simp only [Format.digits, List.length_cons, List.length_nil]
      norm_num [hex2]
      refine ⟨?_, ?_, ?_, ?_, ?_, ?_⟩ <;> congr 1 <;> omega
    · split at hc
      · rename_i hl
        obtain ⟨a0, a1, a2, a3, rfl⟩ : ∃ a0 a1 a2 a3, ds = [a0, a1, a2, a3] := by
          match ds, hl with
          | [a0, a1, a2, a3], _ => exact ⟨_, _, _, _, rfl⟩
        simp only [List.mem_cons, List.not_mem_nil, or_false, forall_eq_or_imp, forall_eq] at hd
        simp only [List.foldl_cons, List.foldl_nil, Option.some.injEq] at hc
        have n1 : (16 * (16 * (16 * (16 * 0 + a0) + a1) + a2) + a3) / 2 ^ 12 % 16 = a0 := by omega
        have n2 : (16 * (16 * (16 * (16 * 0 + a0) + a1) + a2) + a3) / 2 ^ 8 % 16 = a1 := by omega
        have n3 : (16 * (16 * (16 * (16 * 0 + a0) + a1) + a2) + a3) / 2 ^ 4 % 16 = a2 := by omega
        have n4 : (16 * (16 * (16 * (16 * 0 + a0) + a1) + a2) + a3) % 16 = a3 := by omega
        rw [n1, n2, n3, n4] at hc
        rw [Nat.mod_eq_of_lt (by omega), Nat.mod_eq_of_lt (by omega), Nat.mod_eq_of_lt (by omega), Nat.mod_eq_of_lt (by omega)] at hc
        subst hc
        simp [Format.digits, hex1]
      · split at hc
        · rename_i hl
          obtain ⟨a0, a1, a2, rfl⟩ : ∃ a0 a1 a2, ds = [a0, a1, a2] := by
            match ds, hl with
            | [a0, a1, a2], _ => exact ⟨_, _, _, rfl⟩
          simp only [List.mem_cons, List.not_mem_nil, or_false, forall_eq_or_imp, forall_eq] at hd
          simp only [List.foldl_cons, List.foldl_nil, Option.some.injEq] at hc
          have n1 : (16 * (16 * (16 * 0 + a0) + a1) + a2) / 2 ^ 8 % 16 = a0 := by omega
          have n2 : (16 * (16 * (16 * 0 + a0) + a1) + a2) / 2 ^ 4 % 16 = a1 := by omega
          have n3 : (16 * (16 * (16 * 0 + a0) + a1) + a2) % 16 = a2 := by omega
          rw [n1, n2, n3] at hc
          rw [Nat.mod_eq_of_lt (by omega), Nat.mod_eq_of_lt (by omega), Nat.mod_eq_of_lt (by omega)] at hc
          subst hc
          simp [Format.digits, hex1]
        · exact absurd hc (by simp)

/-- C41: a channel goes to the editor as a fraction and comes back as itself, whatever the rounding, as long as it is that of
`f32` (main.rs:2324-2329, 2351-2354) -/
theorem channel_round_trip (rnd : ℚ → ℚ) (hr : ∀ x, |rnd x - x| ≤ |x| / 2 ^ 24) (v : Nat) (hv : v < 256) :
    round (rnd (rnd (v / 255) * 255)) = (v : ℤ) := by
  have h1 := hr (v / 255)
  have h2 := hr (rnd (v / 255) * 255)
  have hv0 : (0 : ℚ) ≤ v := by positivity
  have hv1 : (v : ℚ) ≤ 255 := by exact_mod_cast (by omega : v ≤ 255)
  rw [abs_of_nonneg (by positivity : (0 : ℚ) ≤ (v : ℚ) / 255), abs_le] at h1
  have h0 : (0 : ℚ) ≤ rnd (v / 255) * 255 := by nlinarith
  rw [abs_of_nonneg h0, abs_le] at h2
  rw [round_eq, Int.floor_eq_iff]
  constructor
  · push_cast; nlinarith
  · push_cast; nlinarith

/-! ## Examples -/

def ascii : Classes where
  dg c := decVal c |>.isSome
  sp c := c == ' ' || c == '\t' || c == '\n'

theorem ascii_ok : ascii.Ok where
  digit := by decide +kernel
  disj c h := by
    have key : ∀ x ∈ hexDigits.take 10, ascii.sp x.1 = false := by decide +kernel
    change (decVal c).isSome = true at h
    rw [Option.isSome_iff_exists] at h
    obtain ⟨v, hv⟩ := h
    exact key (c, v) (mem_of_lookup hv)
  space := by decide +kernel
  comma := by decide +kernel
  commaSp := by decide +kernel
  close := by decide +kernel
  closeSp := by decide +kernel
  start := by rintro c (rfl | rfl | rfl) <;> decide +kernel

example : extractColors ascii "color = \"#Fa0\" + rgb(1, 2,3)".toList = [(8, 14, ⟨255, 170, 0, 255⟩), (17, 28, ⟨1, 2, 3, 255⟩)] := by
  decide +kernel
example : present "\"#Fa0\"".toList ⟨255, 170, 1, 255⟩ = "\"#ffaa01\"".toList := by decide +kernel
example : Rgba.Valid ⟨255, 170, 0, 255⟩ := by unfold Rgba.Valid; decide

/-! ## Where the code disagrees -/

/-- an alpha over 255 is dropped without a word, where such a red, green or blue is no colour -/
theorem alpha_overflow : extractColors ascii "rgb(1,2,3,300)".toList = [(0, 14, ⟨1, 2, 3, 255⟩)] ∧
    extractColors ascii "rgb(300,2,3)".toList = [] := by decide +kernel

end Verif.Color
