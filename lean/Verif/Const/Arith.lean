import Verif.Const.Props

/-!
# Properties of folding: bitwise operators (C37), whole numbers (C52), `rgb()` (C51)
-/

namespace Verif.Const

/-- the constant for a whole number -/
def Cst.num (i : Int) : Cst := .float (F32.ofInt i)

/-! ## Bitwise operators -/

/-- the bitwise operators on natural numbers -/
def bitSpec : BinaryOp → Nat → Nat → Option Nat
  | .bitAnd, a, b => some (a &&& b)
  | .bitOr, a, b => some (a ||| b)
  | .bitXor, a, b => some (a ^^^ b)
  | .lShift, a, b => if b < 32 then some (a * 2 ^ b) else none
  | .rShift, a, b => if b < 32 then some (a / 2 ^ b) else none
  | _, _, _ => none

def isBitOp (op : BinaryOp) : Prop := op = .bitAnd ∨ op = .bitOr ∨ op = .bitXor ∨ op = .lShift ∨ op = .rShift

theorem ofBits_eq (x : Nat) : Cst.ofBits x = .num ((x % 2 ^ 24 : Nat) : Int) := by
  unfold Cst.ofBits Cst.num
  have : (0xffffff : Nat) = 2 ^ 24 - 1 := by norm_num
  rw [this, Nat.and_two_pow_sub_one_eq_mod]

theorem mod_mod_24 (x : Nat) : x % 2 ^ 32 % 2 ^ 24 = x % 2 ^ 24 := Nat.mod_mod_of_dvd x ⟨2 ^ 8, by norm_num⟩

/-- **C37** folding a bitwise operator: the operation on the operands as unsigned 32-bit numbers, reduced to 24 bits;
shifting by 32 or more is an error -/
theorem bit_ops_fold (lib : Lib) (op : BinaryOp) (hop : isBitOp op) (x y : F32) :
    binary lib op (.float x) (.float y) =
      match bitSpec op x.toU32 y.toU32 with
      | some r => .ok (.num ((r % 2 ^ 24 : Nat) : Int))
      | none => .error .other := by
  rcases hop with rfl | rfl | rfl | rfl | rfl
  · simp only [binary, binaryFloat, bitSpec, ofBits_eq]
  · simp only [binary, binaryFloat, bitSpec, ofBits_eq]
  · simp only [binary, binaryFloat, bitSpec, ofBits_eq]
  · simp only [binary, binaryFloat, bitSpec, checkedShl]
    by_cases h : y.toU32 < 32
    · simp only [h, if_true, shifted, ofBits_eq, mod_mod_24, Nat.shiftLeft_eq]
    · simp only [h, if_false, shifted]
  · simp only [binary, binaryFloat, bitSpec, checkedShr]
    by_cases h : y.toU32 < 32
    · simp only [h, if_true, shifted, ofBits_eq, Nat.shiftRight_eq_div_pow]
    · simp only [h, if_false, shifted]

/-- **C37** on whole numbers from 0 to 2^24 the operands are taken as they are -/
theorem bit_ops_on_naturals (lib : Lib) (op : BinaryOp) (hop : isBitOp op) (a b : Nat) (ha : a ≤ 2 ^ 24)
    (hb : b ≤ 2 ^ 24) :
    binary lib op (.num a) (.num b) =
      match bitSpec op a b with
      | some r => .ok (.num ((r % 2 ^ 24 : Nat) : Int))
      | none => .error .other := by
  unfold Cst.num
  rw [bit_ops_fold lib op hop, F32.toU32_ofInt a ha, F32.toU32_ofInt b hb]
  rfl

/-- **C37** a result is always a whole number from 0 to 0xffffff -/
theorem bit_ops_in_range (lib : Lib) (op : BinaryOp) (hop : isBitOp op) (x y : F32) (c : Cst)
    (h : binary lib op (.float x) (.float y) = .ok c) : ∃ r : Nat, r ≤ 0xffffff ∧ c = .float (.fin false (r : ℚ)) := by
  rw [bit_ops_fold lib op hop] at h
  cases hs : bitSpec op x.toU32 y.toU32 with
  | none => rw [hs] at h; cases h
  | some r =>
    rw [hs] at h
    simp only [Except.ok.injEq] at h
    have hlt : r % 2 ^ 24 < 2 ^ 24 := Nat.mod_lt _ (by norm_num)
    refine ⟨r % 2 ^ 24, by norm_num at hlt ⊢; omega, ?_⟩
    rw [← h, Cst.num, F32.ofInt_nat _ (by omega)]

/-- **C37** two's complement: `~` flips the low 24 bits -/
theorem bit_not_folds (x : F32) : unary .bitNot (.float x) = .ok (.num ((2 ^ 24 - 1 - x.toU32 % 2 ^ 24 : Nat) : Int)) := by
  simp only [unary, ofBits_eq]
  have h := F32.toU32_lt x
  have : (2 ^ 32 - 1 - x.toU32) % 2 ^ 24 = 2 ^ 24 - 1 - x.toU32 % 2 ^ 24 := by
    norm_num at h ⊢
    omega
  rw [this]

theorem bit_not_involutive (a : Nat) (ha : a < 2 ^ 24) :
    (unary .bitNot (.num a) = .ok (.num ((2 ^ 24 - 1 - a : Nat) : Int))) ∧
      unary .bitNot (.num ((2 ^ 24 - 1 - a : Nat) : Int)) = .ok (.num a) := by
  unfold Cst.num
  rw [bit_not_folds, bit_not_folds, F32.toU32_ofInt a (by omega), F32.toU32_ofInt _ (by omega)]
  constructor
  · rw [Nat.mod_eq_of_lt ha]; rfl
  · rw [Nat.mod_eq_of_lt (by omega)]
    have : 2 ^ 24 - 1 - (2 ^ 24 - 1 - a) = a := by omega
    rw [this]
    rfl

/-- **disagreement** a negative operand is taken as 0, where two's complement has its low bits set: `-1 & 255` is 0 -/
theorem negative_operand_is_zero (lib : Lib) (a b : Nat) (ha : 0 < a) (ha' : a ≤ 2 ^ 24) :
    binary lib .bitAnd (.num (-(a : Int))) (.num b) = .ok (.num 0) := by
  unfold Cst.num
  rw [bit_ops_fold lib .bitAnd (Or.inl rfl)]
  rw [F32.ofInt_exact (-(a : Int)) (by rw [abs_neg, abs_of_nonneg (by omega)]; exact_mod_cast ha')]
  rw [decide_eq_true (by omega), F32.toU32_negative]
  simp [bitSpec, Cst.num]

example : binary Demo.lib0 .bitOr (.num 5) (.num 10) = .ok (.num 15) := by
  have := bit_ops_on_naturals Demo.lib0 .bitOr (by simp [isBitOp]) 5 10 (by norm_num) (by norm_num)
  simpa [bitSpec] using this
-- the bits above the 24th are lost
example : binary Demo.lib0 .lShift (.num 3) (.num 23) = .ok (.num 8388608) := by
  have := bit_ops_on_naturals Demo.lib0 .lShift (by simp [isBitOp]) 3 23 (by norm_num) (by norm_num)
  simpa [bitSpec] using this
example : binary Demo.lib0 .rShift (.num 1) (.num 32) = .error .other := by
  have := bit_ops_on_naturals Demo.lib0 .rShift (by simp [isBitOp]) 1 32 (by norm_num) (by norm_num)
  simpa [bitSpec] using this

/-! ## Whole numbers -/

/-- the arithmetic operators on integers -/
def intSpec : BinaryOp → Int → Int → Option Int
  | .add, a, b => some (a + b)
  | .sub, a, b => some (a - b)
  | .mul, a, b => some (a * b)
  | .less, a, b => some (if a < b then 1 else 0)
  | .lessEq, a, b => some (if a ≤ b then 1 else 0)
  | .greater, a, b => some (if a > b then 1 else 0)
  | .greaterEq, a, b => some (if a ≥ b then 1 else 0)
  | .eq, a, b => some (if a = b then 1 else 0)
  | .notEq, a, b => some (if a ≠ b then 1 else 0)
  | .and, a, b => some (if a ≠ 0 then b else a)
  | .or, a, b => some (if a ≠ 0 then a else b)
  | _, _, _ => none

theorem ofBool_num (b : Bool) : Cst.ofBool b = .num (if b then 1 else 0) := by
  unfold Cst.ofBool Cst.num
  cases b <;> rfl

theorem ofBool_decide (p : Prop) [Decidable p] : Cst.ofBool (decide p) = .num (if p then 1 else 0) := by
  rw [ofBool_num]
  by_cases h : p <;> simp [h]

theorem ofBool_not_decide (p : Prop) [Decidable p] : Cst.ofBool (!decide p) = .num (if ¬ p then 1 else 0) := by
  rw [ofBool_num]
  by_cases h : p <;> simp [h]

/-- **C52** on whole numbers of magnitude up to 2^24 the operators give the exact result, rounded to `f32`; a product
with 0 may be the negative zero -/
theorem int_ops_fold (lib : Lib) (op : BinaryOp) (a b r : Int) (ha : |a| ≤ 2 ^ 24) (hb : |b| ≤ 2 ^ 24)
    (h0 : op = .mul → a ≠ 0 ∧ b ≠ 0) (h : intSpec op a b = some r) : binary lib op (.num a) (.num b) = .ok (.num r) := by
  unfold Cst.num
  simp only [binary]
  cases op <;> simp only [intSpec, Option.some.injEq, reduceCtorEq] at h <;> subst h <;>
    simp only [binaryFloat, F32.lt_ofInt _ _ ha hb, F32.lt_ofInt _ _ hb ha, F32.le_ofInt _ _ ha hb,
      F32.le_ofInt _ _ hb ha, F32.oeq_ofInt _ _ ha hb, F32.nonneg_zero _ ha, ofBool_decide, ofBool_not_decide]
  · rw [F32.add_ofInt a b ha hb]
  · rw [F32.sub_ofInt a b ha hb]
  · obtain ⟨h1, h2⟩ := h0 rfl
    rw [F32.mul_ofInt a b ha hb h1 h2]
  all_goals first
    | rfl
    | (by_cases h : a = 0 <;> simp [h])

/-- **C52** … and the rounding does nothing when the result is of magnitude up to 2^24 too -/
theorem int_result_exact (r : Int) (hr : |r| ≤ 2 ^ 24) :
    (Cst.num r).toInt = some r ∧ ∀ r', |r'| ≤ 2 ^ 24 → (Cst.num r).beq (.num r') = decide (r = r') := by
  constructor
  · simp only [Cst.num, Cst.toInt, F32.toI32_ofInt r hr]
  · intro r' hr'
    simp only [Cst.num, Cst.beq, F32.oeq_ofInt r r' hr hr']

/-- **C52** negation -/
theorem int_neg_folds (a : Int) (ha : |a| ≤ 2 ^ 24) (h0 : a ≠ 0) : unary .neg (.num a) = .ok (.num (-a)) := by
  simp only [Cst.num, unary, F32.neg_ofInt a ha h0]

/-- **C52** beyond 2^24 whole numbers are rounded: `16777216 + 1 == 16777216` -/
theorem beyond_is_rounded (lib : Lib) : binary lib .add (.num 16777216) (.num 1) = .ok (.num 16777216) := by
  rw [int_ops_fold lib .add 16777216 1 16777217 (by norm_num) (by norm_num) (by simp) rfl]
  unfold Cst.num
  have : F32.ofInt 16777217 = F32.ofInt 16777216 := by decide +kernel
  rw [this]

example : binary Demo.lib0 .mul (.num (-4095)) (.num 4096) = .ok (.num (-16773120)) :=
  int_ops_fold _ .mul _ _ _ (by norm_num) (by norm_num) (by norm_num) (by norm_num [intSpec])

/-! ## `rgb()` -/

/-- the value of a hexadecimal digit -/
def hexVal (c : Char) : Nat := if c.toNat < 58 then c.toNat - 48 else c.toNat - 87

theorem hexVal_hexDigit : ∀ n < 16, hexVal (hexDigit n) = n := by decide

/-- two hexadecimal digits read as a number -/
def hexByte (a b : Char) : Nat := hexVal a * 16 + hexVal b

theorem hex2_byte (n : Nat) (h : n < 256) : ∃ a b, hex2 n = [a, b] ∧ hexByte a b = n := by
  refine ⟨_, _, rfl, ?_⟩
  unfold hexByte
  rw [hexVal_hexDigit _ (by omega), hexVal_hexDigit _ (by omega)]
  omega

/-- positional numbers as arguments -/
def posArgs (l : List Int) : List (Cst × Option Cst) := l.map fun i => (.num i, none)

theorem scanKws_pos (l : List Int) (ca : ColorArgs) : scanKws (posArgs l) ca = .ok ca := by
  induction l with
  | nil => rfl
  | cons i t ih => exact ih

theorem checkValue_num (i max : Int) (hi : |i| ≤ 2 ^ 24) :
    checkValue (.num i) max = if 0 ≤ i ∧ i ≤ max then .ok i else .error .other := by
  unfold checkValue
  simp only [Cst.num, Cst.toInt, F32.toI32_ofInt i hi]

theorem collect_pos (l : List Int) (pos : Nat) (hl : ∀ i ∈ l, |i| ≤ 2 ^ 24) :
    collect .rgb pos (posArgs l) = if ∀ i ∈ l, 0 ≤ i ∧ i ≤ 255 then .ok l else .error .other := by
  induction l generalizing pos with
  | nil => rfl
  | cons i t ih =>
    have hm : posMax .rgb pos = 255 := by
      unfold posMax
      split <;> rfl
    have ht := ih (pos + 1) (fun j hj => hl j (List.mem_cons_of_mem _ hj))
    change collect .rgb pos ((Cst.num i, none) :: posArgs t) = _
    unfold collect
    rw [hm, checkValue_num i 255 (hl i (by simp)), ht]
    by_cases h1 : 0 ≤ i ∧ i ≤ 255
    · by_cases h2 : ∀ j ∈ t, 0 ≤ j ∧ j ≤ 255
      · rw [if_pos h1, if_pos h2, if_pos]
        intro j hj
        rcases List.mem_cons.1 hj with rfl | hj
        · exact h1
        · exact h2 j hj
      · rw [if_pos h1, if_neg h2, if_neg]
        intro h
        exact h2 fun j hj => h j (List.mem_cons_of_mem _ hj)
    · have hn : ¬ ∀ j ∈ i :: t, 0 ≤ j ∧ j ≤ 255 := fun h => h1 (h i (by simp))
      rw [if_neg h1, if_neg hn]

theorem rgbOf_pos (lib : Lib) (l : List Int) (hl : ∀ i ∈ l, |i| ≤ 2 ^ 24) :
    rgbOf lib (posArgs l) = if ∀ i ∈ l, 0 ≤ i ∧ i ≤ 255 then formatRgb lib .rgb none l else .error .other := by
  unfold rgbOf
  rw [scanKws_pos]
  change (match collect .rgb 0 (posArgs l) with | .error e => Except.error e | .ok vals => formatRgb lib .rgb none vals) = _
  rw [collect_pos l 0 hl]
  by_cases h : ∀ i ∈ l, 0 ≤ i ∧ i ≤ 255
  · rw [if_pos h, if_pos h]
  · rw [if_neg h, if_neg h]

theorem length_ofList (l : List Expr) : (ExprList.ofList l).length = l.length := by
  induction l with
  | nil => rfl
  | cons e l ih => simp [ExprList.ofList, ExprList.length, ih]

/-- **C51** `rgb(…)` with fewer than three or more than five arguments is an error, whatever they are -/
theorem rgb_wrong_count (ctx : Ctx) (hint : Option TreePath) (l : List Expr)
    (h : l.length < 3 ∨ 5 < l.length) :
    evalTerm ctx hint (.call "rgb".toList (.ofList l)) = .err .other := by
  have h1 : constFn "rgb".toList = none := by decide +kernel
  have h2 : trigFn ctx.lib "rgb".toList = none := by
    unfold trigFn
    rw [if_neg (by decide +kernel), if_neg (by decide +kernel), if_neg (by decide +kernel),
      if_neg (by decide +kernel)]
  rw [evalTerm, h1]
  simp only [h2, length_ofList]
  rw [if_pos trivial, if_neg (by omega)]

/-- **C51** with three to five, they are evaluated and combined -/
theorem rgb_right_count (ctx : Ctx) (hint : Option TreePath) (l : List Expr)
    (h : 3 ≤ l.length ∧ l.length ≤ 5) :
    evalTerm ctx hint (.call "rgb".toList (.ofList l)) =
      (evalArgs ctx (.ofList l)).bind fun as =>
        (Comp.lift (rgbOf ctx.lib as.toList)).bind fun s => .ret (.string s) := by
  have h1 : constFn "rgb".toList = none := by decide +kernel
  have h2 : trigFn ctx.lib "rgb".toList = none := by
    unfold trigFn
    rw [if_neg (by decide +kernel), if_neg (by decide +kernel), if_neg (by decide +kernel),
      if_neg (by decide +kernel)]
  rw [evalTerm, h1]
  simp only [h2, length_ofList]
  rw [if_pos trivial, if_pos (by omega)]

/-- **C51** `rgb(r, g, b)` with whole numbers from 0 to 255 is `#` and two hexadecimal digits for each -/
theorem rgb_three (lib : Lib) (r g b : Nat) (hr : r < 256) (hg : g < 256) (hb : b < 256) :
    ∃ a1 a2 b1 b2 c1 c2, rgbOf lib (posArgs [(r : Int), g, b]) = .ok ['#', a1, a2, b1, b2, c1, c2] ∧
      hexByte a1 a2 = r ∧ hexByte b1 b2 = g ∧ hexByte c1 c2 = b := by
  obtain ⟨a1, a2, ha, ha'⟩ := hex2_byte r hr
  obtain ⟨b1, b2, hb1, hb'⟩ := hex2_byte g hg
  obtain ⟨c1, c2, hc, hc'⟩ := hex2_byte b hb
  refine ⟨a1, a2, b1, b2, c1, c2, ?_, ha', hb', hc'⟩
  rw [rgbOf_pos, if_pos]
  · simp [formatRgb, toBytes, ha, hb1, hc]
  · simp; omega
  · simp only [List.mem_cons, List.not_mem_nil, or_false]
    rintro i (rfl | rfl | rfl) <;> rw [abs_of_nonneg (by omega)] <;> norm_num <;> omega

/-- **C51** `rgb(r, g, b, a)` has two more digits for the alpha -/
theorem rgb_four (lib : Lib) (r g b a : Nat) (hr : r < 256) (hg : g < 256) (hb : b < 256) (ha : a < 256) :
    ∃ a1 a2 b1 b2 c1 c2 d1 d2, rgbOf lib (posArgs [(r : Int), g, b, a]) = .ok ['#', a1, a2, b1, b2, c1, c2, d1, d2] ∧
      hexByte a1 a2 = r ∧ hexByte b1 b2 = g ∧ hexByte c1 c2 = b ∧ hexByte d1 d2 = a := by
  obtain ⟨a1, a2, ha1, ha'⟩ := hex2_byte r hr
  obtain ⟨b1, b2, hb1, hb'⟩ := hex2_byte g hg
  obtain ⟨c1, c2, hc, hc'⟩ := hex2_byte b hb
  obtain ⟨d1, d2, hd, hd'⟩ := hex2_byte a ha
  refine ⟨a1, a2, b1, b2, c1, c2, d1, d2, ?_, ha', hb', hc', hd'⟩
  rw [rgbOf_pos, if_pos]
  · simp [formatRgb, toBytes, ha1, hb1, hc, hd]
  · simp; omega
  · simp only [List.mem_cons, List.not_mem_nil, or_false]
    rintro i (rfl | rfl | rfl | rfl) <;> rw [abs_of_nonneg (by omega)] <;> norm_num <;> omega

/-- **C51** a number outside of 0 to 255 is an error -/
theorem rgb_out_of_range (lib : Lib) (l : List Int) (hl : ∀ i ∈ l, |i| ≤ 2 ^ 24) (i : Int) (hi : i ∈ l)
    (ho : i < 0 ∨ 255 < i) : rgbOf lib (posArgs l) = .error .other := by
  rw [rgbOf_pos lib l hl, if_neg]
  intro h
  have := h i hi
  omega

/-- the keyword argument `space` -/
def isSpace (p : Cst × Option Cst) : Bool := p.2.isSome && (p.1.asStr == some "space".toList)

theorem kwMax_none {c : Cst} {kw : Kw} (hk : c.asStr.bind kwOf = some kw) (hm : kwMax kw = none) :
    c.asStr = some "space".toList := by
  rw [Option.bind_eq_some_iff] at hk
  obtain ⟨s, hs, hk⟩ := hk
  have : kw = .space := by cases kw <;> simp [kwMax] at hm ⊢
  subst this
  unfold kwOf at hk
  split_ifs at hk with h1 h2 h3 h4 h5 h6 h7 h8 h9
  all_goals first
    | exact absurd (Option.some.inj hk) (by decide)
    | rw [hs, h9]

theorem collect_range (sp : Space) (args : List (Cst × Option Cst)) (pos : Nat) (vals : List Int)
    (h : collect sp pos args = .ok vals) : (∀ v ∈ vals, 0 ≤ v ∧ v ≤ 360) ∧ vals.length ≤ args.length ∧
      args.length ≤ vals.length + (args.filter isSpace).length := by
  induction args generalizing pos vals with
  | nil =>
    simp only [collect, Except.ok.injEq] at h
    subst h
    simp
  | cons p t ih =>
    obtain ⟨c, o⟩ := p
    have hcheck : ∀ (c : Cst) (m i : Int), m ≤ 360 → checkValue c m = .ok i → 0 ≤ i ∧ i ≤ 360 := by
      intro c m i hm hc
      unfold checkValue at hc
      cases hci : c.toInt with
      | none => rw [hci] at hc; cases hc
      | some j =>
        rw [hci] at hc
        simp only at hc
        split_ifs at hc with h1
        cases hc
        omega
    have hpm : posMax sp pos ≤ 360 := by
      unfold posMax
      split <;> (try split_ifs) <;> omega
    cases o with
    | none =>
      unfold collect at h
      cases hc : checkValue c (posMax sp pos) with
      | error e => rw [hc] at h; cases h
      | ok i =>
        rw [hc] at h
        simp only at h
        cases ht : collect sp (pos + 1) t with
        | error e => rw [ht] at h; cases h
        | ok l =>
          rw [ht] at h
          simp only [Except.ok.injEq] at h
          subst h
          obtain ⟨h1, h2, h3⟩ := ih _ _ ht
          refine ⟨?_, by simpa using h2, ?_⟩
          · intro v hv
            rcases List.mem_cons.1 hv with rfl | hv
            · exact hcheck _ _ _ hpm hc
            · exact h1 v hv
          · have hf : isSpace (c, none) = false := rfl
            simp only [List.length_cons, List.filter_cons, hf, Bool.false_eq_true, if_false]
            omega
    | some v =>
      unfold collect at h
      cases hk : c.asStr.bind kwOf with
      | none => rw [hk] at h; cases h
      | some kw =>
        rw [hk] at h
        simp only at h
        cases hm : kwMax kw with
        | none =>
          rw [hm] at h
          simp only at h
          obtain ⟨h1, h2, h3⟩ := ih _ _ h
          refine ⟨h1, by simp only [List.length_cons]; omega, ?_⟩
          have hf : isSpace (c, some v) = true := by simp [isSpace, kwMax_none hk hm]
          simp only [List.length_cons, List.filter_cons, hf, if_true]
          omega
        | some m =>
          rw [hm] at h
          simp only at h
          have hm' : m ≤ 360 := by cases kw <;> simp [kwMax] at hm <;> omega
          cases hc : checkValue v m with
          | error e => rw [hc] at h; cases h
          | ok i =>
            rw [hc] at h
            simp only at h
            cases ht : collect sp (pos + 1) t with
            | error e => rw [ht] at h; cases h
            | ok l =>
              rw [ht] at h
              simp only [Except.ok.injEq] at h
              subst h
              obtain ⟨h1, h2, h3⟩ := ih _ _ ht
              refine ⟨?_, by simpa using h2, ?_⟩
              · intro v hv
                rcases List.mem_cons.1 hv with rfl | hv
                · exact hcheck _ _ _ hm' hc
                · exact h1 v hv
              · rw [List.filter_cons]
                split_ifs <;> simp only [List.length_cons] <;> omega

theorem hex2_length (n : Nat) : (hex2 n).length = 2 := rfl

/-- **C51** whatever the arguments, a result is `#` with six or eight characters after it -/
theorem rgb_shape (lib : Lib) (args : List (Cst × Option Cst)) (s : List Char) (h : rgbOf lib args = .ok s) :
    s.head? = some '#' ∧ (s.length = 7 ∨ s.length = 9) := by
  unfold rgbOf at h
  cases h1 : scanKws args {} with
  | error e => rw [h1] at h; cases h
  | ok ca =>
    rw [h1] at h
    simp only at h
    cases h2 : pickSpace ca with
    | error e => rw [h2] at h; cases h
    | ok sp =>
      rw [h2] at h
      simp only at h
      cases h3 : collect sp 0 args with
      | error e => rw [h3] at h; cases h
      | ok vals =>
        rw [h3] at h
        simp only at h
        match vals, h with
        | [], h => cases h
        | [_], h => cases h
        | [_, _], h => cases h
        | x :: y :: z :: rest, h =>
          simp only [formatRgb] at h
          split at h
          · cases h
            simp [hex2]
          · cases h
            simp [hex2]

/-- keyword arguments -/
def kwArg (k : String) (v : Int) : Cst × Option Cst := (.string k.toList, some (.num v))

/-- **disagreement** keyword arguments are used by position: `rgb(b = 1, g = 2, r = 3)` is `#010203`, not `#030201` -/
theorem rgb_ignores_names (lib : Lib) :
    rgbOf lib [kwArg "b" 1, kwArg "g" 2, kwArg "r" 3] = .ok "#010203".toList ∧
      rgbOf lib [kwArg "r" 3, kwArg "g" 2, kwArg "b" 1] = .ok "#030201".toList := by
  have h1 : F32.toI32 (F32.ofInt 1) = 1 := F32.toI32_ofInt 1 (by norm_num)
  have h2 : F32.toI32 (F32.ofInt 2) = 2 := F32.toI32_ofInt 2 (by norm_num)
  have h3 : F32.toI32 (F32.ofInt 3) = 3 := F32.toI32_ofInt 3 (by norm_num)
  have kr : kwOf ['r'] = some .rgb := by decide +kernel
  have kg : kwOf ['g'] = some .rgb := by decide +kernel
  have kb : kwOf ['b'] = some .rgb := by decide +kernel
  have x1 : hex2 1 = ['0', '1'] := by decide +kernel
  have x2 : hex2 2 = ['0', '2'] := by decide +kernel
  have x3 : hex2 3 = ['0', '3'] := by decide +kernel
  constructor <;>
    simp [rgbOf, kwArg, scanKws, Cst.asStr, kr, kg, kb, noteKw, pickSpace, collect, kwMax, checkValue, Cst.num, Cst.toInt,
      h1, h2, h3, formatRgb, toBytes, x1, x2, x3]

/-- **disagreement** `rgb(1, 2, space = 0)` has three arguments but two values, and the assertion on the number of
values fails: a panic -/
theorem rgb_space_panics (lib : Lib) :
    rgbOf lib [(.num 1, none), (.num 2, none), kwArg "space" 0] = .error .panic := by
  have h0 : F32.toI32 (F32.ofInt 0) = 0 := F32.toI32_ofInt 0 (by norm_num)
  have h1 : F32.toI32 (F32.ofInt 1) = 1 := F32.toI32_ofInt 1 (by norm_num)
  have h2 : F32.toI32 (F32.ofInt 2) = 2 := F32.toI32_ofInt 2 (by norm_num)
  have ks : kwOf ['s', 'p', 'a', 'c', 'e'] = some .space := by decide +kernel
  simp [rgbOf, kwArg, scanKws, Cst.asStr, ks, noteKw, pickSpace, collect, kwMax, checkValue, Cst.num, Cst.toInt,
      h0, h1, h2, formatRgb, spaceOf, posMax]

/-- **C51** there is no panic when at least three of the arguments are not `space` -/
theorem rgb_no_panic (lib : Lib) (args : List (Cst × Option Cst)) (hp : 3 ≤ (args.filter fun p => !isSpace p).length) :
    rgbOf lib args ≠ .error .panic := by
  have hno : ∀ (l : List (Cst × Option Cst)) ca, scanKws l ca ≠ .error .panic := by
    intro l
    induction l with
    | nil => intro ca; simp [scanKws]
    | cons p t ih =>
      intro ca
      obtain ⟨c, o⟩ := p
      cases o with
      | none => exact ih ca
      | some v =>
        unfold scanKws
        cases c.asStr with
        | none => simp
        | some s =>
          simp only
          cases kwOf s with
          | none => simp
          | some kw =>
            simp only
            have : noteKw ca kw v ≠ .error .panic := by
              unfold noteKw
              cases kw <;> simp
              split <;> simp
            cases hn : noteKw ca kw v with
            | error e => rw [hn] at this; simpa using this
            | ok ca' => exact ih ca'
  have hsp : ∀ ca, pickSpace ca ≠ .error .panic := by
    intro ca
    unfold pickSpace
    split
    · simp
    · split_ifs <;> simp
  have hcheck : ∀ c m, checkValue c m ≠ .error .panic := by
    intro c m
    unfold checkValue
    split
    · split_ifs <;> simp
    · simp
  have hcol : ∀ (sp : Space) (l : List (Cst × Option Cst)) pos, collect sp pos l ≠ .error .panic := by
    intro sp l
    induction l with
    | nil => intro pos; simp [collect]
    | cons p t ih =>
      intro pos
      obtain ⟨c, o⟩ := p
      cases o with
      | none =>
        unfold collect
        have h1 := hcheck c (posMax sp pos)
        cases hc : checkValue c (posMax sp pos) with
        | error e => rw [hc] at h1; simpa using h1
        | ok i =>
          have h2 := ih (pos + 1)
          simp only
          cases ht : collect sp (pos + 1) t with
          | error e => rw [ht] at h2; simpa using h2
          | ok l => simp
      | some v =>
        unfold collect
        cases c.asStr.bind kwOf with
        | none => simp
        | some kw =>
          simp only
          cases kwMax kw with
          | none => exact ih (pos + 1)
          | some m =>
            simp only
            have h1 := hcheck v m
            cases hc : checkValue v m with
            | error e => rw [hc] at h1; simpa using h1
            | ok i =>
              have h2 := ih (pos + 1)
              simp only
              cases ht : collect sp (pos + 1) t with
              | error e => rw [ht] at h2; simpa using h2
              | ok l => simp
  unfold rgbOf
  cases h1 : scanKws args {} with
  | error e => have := hno args {}; rw [h1] at this; simpa using this
  | ok ca =>
    simp only
    cases h2 : pickSpace ca with
    | error e => have := hsp ca; rw [h2] at this; simpa using this
    | ok sp =>
      simp only
      cases h3 : collect sp 0 args with
      | error e => have := hcol sp args 0; rw [h3] at this; simpa using this
      | ok vals =>
        simp only
        have hlen := (collect_range sp args 0 vals h3).2.2
        have hsum : args.length = (args.filter fun p => !isSpace p).length + (args.filter isSpace).length := by
          clear hp h1 h3 hlen
          induction args with
          | nil => rfl
          | cons p t ih =>
            cases h : isSpace p <;> simp [h] <;> omega
        match vals, hlen with
        | [], h => simp at h; omega
        | [_], h => simp at h; omega
        | [_, _], h => simp at h; omega
        | x :: y :: z :: rest, _ =>
          simp only [formatRgb]
          split <;> simp

end Verif.Const
