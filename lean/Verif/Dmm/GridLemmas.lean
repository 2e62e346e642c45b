import Verif.Dmm.TextSpec
import Verif.Dmm.KeysProps
import Mathlib.Tactic.Common

/-! Simulation lemmas for the grid part of the map reader. -/

namespace Verif.Dmm

/-- reading the text `t` takes the grid loop from `s` to `s'` -/
def GRuns (kl : Nat) (s : GState) (t : List Char) (s' : GState) : Prop :=
  ∀ rest, gridLoop kl s (t ++ rest) = gridLoop kl s' rest

variable {kl : Nat}

theorem GRuns.nil (s : GState) : GRuns kl s [] s := fun _ => rfl

theorem GRuns.trans {s s' s'' : GState} {t u : List Char} (h : GRuns kl s t s')
    (h' : GRuns kl s' u s'') : GRuns kl s (t ++ u) s'' := by
  intro rest; rw [List.append_assoc, h, h']

theorem GRuns.one {s s' : GState} {c : Char} (h : gstep kl s c = .ok s') : GRuns kl s [c] s' := by
  intro rest; simp [gridLoop, h]

theorem GRuns.cons {s s' s'' : GState} {c : Char} {t : List Char}
    (h : gstep kl s c = .ok s') (h' : GRuns kl s' t s'') : GRuns kl s (c :: t) s'' :=
  GRuns.trans (t := [c]) (GRuns.one h) h'

theorem gridGet_cons (p q : Nat × Nat × Nat) (v : Nat) (g : List ((Nat × Nat × Nat) × Nat)) :
    gridGet ((p, v) :: g) q = if q = p then some v else gridGet g q := by
  unfold gridGet
  rw [List.lookup_cons]
  by_cases h : q = p
  · subst h; simp
  · rw [if_neg h]
    have : (q == p) = false := by simpa using h
    rw [this]

/-! ### numbers -/

theorem digitChar_val (d : Nat) (h : d < 10) :
    '0'.toNat ≤ d.digitChar.toNat ∧ d.digitChar.toNat ≤ '9'.toNat ∧
    d.digitChar.toNat - '0'.toNat = d ∧ d.digitChar ≠ ',' ∧ d.digitChar ≠ ')' := by
  have : ∀ d : Fin 10, '0'.toNat ≤ d.val.digitChar.toNat ∧ d.val.digitChar.toNat ≤ '9'.toNat ∧
    d.val.digitChar.toNat - '0'.toNat = d.val ∧ d.val.digitChar ≠ ',' ∧ d.val.digitChar ≠ ')' := by
    decide
  exact this ⟨d, h⟩

theorem gstep_digit (s : GState) (hs : s.inCoord = true) (d : Nat) (h : d < 10)
    (hn : 10 * s.num + d < 2 ^ 64) :
    gstep kl s d.digitChar = .ok { s with num := 10 * s.num + d } := by
  obtain ⟨h1, h2, h3, h4, h5⟩ := digitChar_val d h
  unfold gstep gstepCoord
  rw [if_pos hs, if_neg h4, if_neg h5, if_pos ⟨h1, h2⟩, h3, if_pos hn]

theorem gruns_decimal (n : Nat) (s : GState) (hs : s.inCoord = true) (h0 : s.num = 0)
    (hn : n < 2 ^ 64) : GRuns kl s (decimal n) { s with num := n } := by
  induction n using Nat.strong_induction_on with
  | _ n ih =>
    unfold decimal
    rw [Nat.toDigits_eq_if (by decide)]
    split
    · rename_i h
      have := gstep_digit (kl := kl) s hs n h (by omega)
      rw [h0] at this
      simpa using GRuns.one this
    · rename_i h
      have h1 := ih (n / 10) (by omega) (by omega)
      have h2 := gstep_digit (kl := kl) { s with num := n / 10 } hs (n % 10) (by omega)
        (by simp only; omega)
      have e : 10 * (n / 10) + n % 10 = n := by omega
      simp only [e] at h2
      exact GRuns.trans h1 (GRuns.one h2)

/-! ### states -/

/-- inside a coordinate, before the first digit -/
def coordSt (g : List ((Nat × Nat × Nat) × Nat)) (x y z mX mY mZ bx : Nat) : GState :=
  { grid := g, x, y, z, maxX := mX, maxY := mY, maxZ := mZ, baseX := bx, inCoord := true }

/-- between blocks -/
def outSt (g : List ((Nat × Nat × Nat) × Nat)) (x y z mX mY mZ bx : Nat) : GState :=
  { grid := g, x, y, z, maxX := mX, maxY := mY, maxZ := mZ, baseX := bx, inCoord := false }

/-- inside a map string -/
def strSt (g : List ((Nat × Nat × Nat) × Nat)) (x y z mX mY mZ bx : Nat) (adj : Bool) : GState :=
  { grid := g, x, y, z, maxX := mX, maxY := mY, maxZ := mZ, baseX := bx, inCoord := false,
    inStr := true, adjustY := adj }

variable {g : List ((Nat × Nat × Nat) × Nat)} {x y z mX mY mZ bx : Nat}

theorem advance_letter (c : Char) (a b : Nat) (h : advanceKey a c = some b) :
    c ≠ '\n' ∧ c ≠ '\r' ∧ c ≠ '"' := by
  refine ⟨?_, ?_, ?_⟩ <;>
    (rintro rfl; simp [advanceKey, base52Reverse] at h)

theorem gruns_key {adj : Bool} (t : List Char) : ∀ (a j k : Nat), t ≠ [] → j + t.length = kl → kl < 256 →
    t.foldlM advanceKey a = some k → gridGet g (x, y, z) = none → x + 1 < 2 ^ 64 →
    GRuns kl { strSt g x y z mX mY mZ bx adj with key := a, keyLen := j } t
      (strSt (((x, y, z), k) :: g) (x + 1) y z (max mX x) mY mZ bx adj) := by
  induction t with
  | nil => intro _ _ _ h; exact absurd rfl h
  | cons c t ih =>
    intro a j k _ hj hkl hf hg hx
    rw [List.foldlM_cons] at hf
    cases ha : advanceKey a c with
    | none => rw [ha] at hf; simp at hf
    | some a' =>
      rw [ha] at hf
      have hf : t.foldlM advanceKey a' = some k := by simpa using hf
      obtain ⟨h1, h2, h3⟩ := advance_letter c a a' ha
      simp only [List.length_cons] at hj
      cases t with
      | nil =>
        simp at hf hj
        subst hf
        apply GRuns.one
        have hj2 : j + 1 < 256 := by omega
        simp only [gstep, gstepStr, strSt, h1, h2, h3, ha, hg, hj, hkl, hx]
        simp
      | cons c2 t =>
        refine GRuns.cons ?_ (ih a' (j + 1) k (by simp) (by simp at hj ⊢; omega) hkl hf hg hx)
        simp only [List.length_cons] at hj
        simp [gstep, gstepStr, strSt, h1, h2, h3, ha, show j + 1 < 256 by omega,
          show j + 1 ≠ kl by omega]

theorem gruns_cells (ks : List Nat) : ∀ (g : List ((Nat × Nat × Nat) × Nat)) (y : Nat)
    (t : List Char), (∀ k ∈ ks, k < 65536) → (∀ i, i < ks.length → gridGet g (bx, y + i, z) = none) →
    y + ks.length < 2 ^ 64 → bx + 1 < 2 ^ 64 → bx ≤ mX → kl < 256 → cellsText kl ks = some t →
    ∃ g', GRuns kl (strSt g bx y z mX mY mZ bx false) t
        (strSt g' bx (y + ks.length) z mX mY mZ bx false) ∧
      ∀ q, gridGet g' q = if q.1 = bx ∧ q.2.2 = z ∧ y ≤ q.2.1 ∧ q.2.1 < y + ks.length
        then ks[q.2.1 - y]? else gridGet g q := by
  induction ks with
  | nil =>
    intro g y t _ _ _ _ _ _ ht
    simp [cellsText, catOpt] at ht
    subst ht
    refine ⟨g, by simpa using GRuns.nil _, ?_⟩
    intro q
    rw [if_neg]
    simp only [List.length_nil]; omega
  | cons k ks ih =>
    intro g y t hk hg hy hbx hm hkl ht
    simp only [cellsText, List.map_cons] at ht
    cases hf : formatKey kl k with
    | none => rw [hf] at ht; simp [catOpt] at ht
    | some kt =>
      rw [hf] at ht
      simp only [Option.map_some, catOpt] at ht
      change (cellsText kl ks).map _ = _ at ht
      cases hr : cellsText kl ks with
      | none => rw [hr] at ht; simp at ht
      | some tr =>
        rw [hr] at ht
        simp only [Option.map_some, Option.some.injEq] at ht
        obtain ⟨hlen, hparse⟩ := key_roundtrip kl k kt (hk k (by simp)) hf
        simp only [List.length_cons] at hg hy ⊢
        have hpos : kt ≠ [] := by
          intro h; subst h
          unfold formatKey at hf
          simp at hlen
          subst hlen
          simp at hf
        have h1 := gruns_key (adj := false) (kl := kl) (g := g) (x := bx) (y := y) (z := z) (mX := mX) (mY := mY)
          (mZ := mZ) (bx := bx) kt 0 0 k hpos (by omega) hkl hparse
          (by simpa using hg 0 (by omega)) hbx
        rw [Nat.max_eq_left hm] at h1
        have e1 : gstep kl (strSt (((bx, y, z), k) :: g) (bx + 1) y z mX mY mZ bx false) '\n' =
            .ok (strSt (((bx, y, z), k) :: g) bx (y + 1) z mX mY mZ bx false) := by
          have : y + 1 < 2 ^ 64 := by omega
          simp only [gstep, gstepStr, strSt, this]
          simp
        obtain ⟨g', h2, h3⟩ := ih (((bx, y, z), k) :: g) (y + 1) tr
          (fun k hk' => hk k (by simp [hk'])) (by
            intro i hi
            rw [gridGet_cons, if_neg (by simp only [Prod.mk.injEq]; omega)]
            have := hg (i + 1) (by omega)
            rw [show y + 1 + i = y + (i + 1) by omega]; exact this) (by omega) hbx hm hkl hr
        refine ⟨g', ?_, ?_⟩
        · have h1 : GRuns kl (strSt g bx y z mX mY mZ bx false) kt _ := h1
          have := GRuns.trans h1 (GRuns.cons e1 h2)
          rw [← ht, show y + (ks.length + 1) = y + 1 + ks.length by omega]
          simpa using this
        · rintro ⟨qx, qy, qz⟩
          rw [h3]
          simp only [gridGet_cons, Prod.mk.injEq]
          by_cases hq : qx = bx ∧ qz = z ∧ y ≤ qy ∧ qy < y + (ks.length + 1)
          · rw [if_pos hq]
            by_cases hqy : qy = y
            · rw [if_neg (by omega), if_pos (by omega)]
              subst hqy; simp
            · rw [if_pos (by omega)]
              rw [show qy - y = (qy - (y + 1)) + 1 by omega]
              simp
          · rw [if_neg hq, if_neg (by omega), if_neg (by omega)]

theorem gruns_column (col : List Nat) (cx cz : Nat) (t : List Char)
    (hk : ∀ k ∈ col, k < 65536)
    (hg : ∀ i, i < col.length → gridGet g (cx + 1, i + 1, cz + 1) = none)
    (hy : col.length + 1 < 2 ^ 64) (hx : cx + 2 < 2 ^ 64) (hz : cz + 1 < 2 ^ 64) (hkl : kl < 256)
    (ht : columnText kl cz cx col = some t) :
    ∃ g', GRuns kl (outSt g x y z mX mY mZ bx) t
        (outSt g' (cx + 1) col.length (cz + 1) (max mX (cx + 1)) (max mY 1) (max mZ (cz + 1))
          (cx + 1)) ∧
      ∀ q, gridGet g' q = if q.1 = cx + 1 ∧ q.2.2 = cz + 1 ∧ 1 ≤ q.2.1 ∧ q.2.1 < 1 + col.length
        then col[q.2.1 - 1]? else gridGet g q := by
  unfold columnText at ht
  cases hc : cellsText kl col with
  | none => rw [hc] at ht; simp at ht
  | some ct =>
    rw [hc] at ht
    simp only [Option.map_some, Option.some.injEq] at ht
    have e0 : gstep kl (outSt g x y z mX mY mZ bx) '(' = .ok (coordSt g x y z mX mY mZ bx) := by
      simp [gstep, outSt, coordSt]
    have h1 := gruns_decimal (kl := kl) (cx + 1) (coordSt g x y z mX mY mZ bx) rfl rfl (by omega)
    let s1 : GState := { coordSt g (cx + 1) y z (max mX (cx + 1)) mY mZ (cx + 1) with axis := .Y }
    have e1 : gstep kl { coordSt g x y z mX mY mZ bx with num := cx + 1 } ',' = .ok s1 := by
      simp [gstep, gstepCoord, coordSt, s1]
    have h2 := gruns_decimal (kl := kl) 1 s1 rfl rfl (by omega)
    have hd1 : decimal 1 = ['1'] := by decide
    rw [hd1] at h2
    let s2 : GState := { coordSt g (cx + 1) 1 z (max mX (cx + 1)) (max mY 1) mZ (cx + 1) with
      axis := .Z }
    have e2 : gstep kl { s1 with num := 1 } ',' = .ok s2 := by
      simp [gstep, gstepCoord, coordSt, s1, s2]
    have h3 := gruns_decimal (kl := kl) (cz + 1) s2 rfl rfl (by omega)
    let s3 := outSt g (cx + 1) 1 (cz + 1) (max mX (cx + 1)) (max mY 1) (max mZ (cz + 1)) (cx + 1)
    have e3 : gstep kl { s2 with num := cz + 1 } ')' = .ok s3 := by
      simp [gstep, gstepCoord, coordSt, outSt, s2, s3]
    have e4 : gstep kl s3 ' ' = .ok s3 := by simp [gstep, outSt, s3]
    have e5 : gstep kl s3 '=' = .ok s3 := by simp [gstep, outSt, s3]
    have e6 : gstep kl s3 '{' = .ok s3 := by simp [gstep, outSt, s3]
    let s4 := strSt g (cx + 1) 1 (cz + 1) (max mX (cx + 1)) (max mY 1) (max mZ (cz + 1)) (cx + 1)
    have e7 : gstep kl s3 '"' = .ok (s4 true) := by simp [gstep, outSt, strSt, s3, s4]
    have e8 : gstep kl (s4 true) '\n' = .ok (s4 false) := by simp [gstep, gstepStr, strSt, s4]
    obtain ⟨g', h4, h5⟩ := gruns_cells (kl := kl) (bx := cx + 1) (z := cz + 1)
      (mX := max mX (cx + 1)) (mY := max mY 1) (mZ := max mZ (cz + 1)) col g 1 ct hk
      (by intro i hi; rw [Nat.add_comm 1 i]; exact hg i hi) (by omega) (by omega)
      (Nat.le_max_right _ _) hkl hc
    let s5 := outSt g' (cx + 1) col.length (cz + 1) (max mX (cx + 1)) (max mY 1) (max mZ (cz + 1))
      (cx + 1)
    have e9 : gstep kl (strSt g' (cx + 1) (1 + col.length) (cz + 1) (max mX (cx + 1)) (max mY 1)
        (max mZ (cz + 1)) (cx + 1) false) '"' = .ok s5 := by
      simp [gstep, gstepStr, strSt, s5, outSt]
    have e10 : gstep kl s5 '}' = .ok s5 := by simp [gstep, outSt, s5]
    have e11 : gstep kl s5 '\n' = .ok s5 := by simp [gstep, outSt, s5]
    refine ⟨g', ?_, h5⟩
    have := GRuns.cons e0 (GRuns.trans h1 (GRuns.cons e1 (GRuns.trans h2 (GRuns.cons e2
      (GRuns.trans h3 (GRuns.cons e3 (GRuns.cons e4 (GRuns.cons e5 (GRuns.cons e4 (GRuns.cons e6
      (GRuns.cons e7 (GRuns.cons e8 (GRuns.trans h4 (GRuns.cons e9 (GRuns.cons e10
      (GRuns.one e11))))))))))))))))
    rw [← ht]
    simpa using this

/-- the columns `x0 … x0+n-1` of a level -/
theorem gruns_columns (level : List (List Nat)) (dx cz : Nat) (hne : level ≠ [])
    (hk : ∀ r ∈ level, ∀ k ∈ r, k < 65536) (hlen : ∀ r ∈ level, r.length = dx)
    (hy : level.length + 1 < 2 ^ 64) (hdx : dx + 1 < 2 ^ 64) (hz : cz + 1 < 2 ^ 64) (hkl : kl < 256)
    (n : Nat) : ∀ (x0 : Nat) (g : List ((Nat × Nat × Nat) × Nat)) (x y z mX mY mZ bx : Nat)
    (t : List Char), 0 < n → x0 + n = dx →
    (∀ i j, x0 ≤ i → i < dx → j < level.length → gridGet g (i + 1, j + 1, cz + 1) = none) →
    catOpt ((List.range' x0 n).map fun x => columnText kl cz x (column level x)) = some t →
    ∃ g', GRuns kl (outSt g x y z mX mY mZ bx) t
        (outSt g' dx level.length (cz + 1) (max mX dx) (max mY 1) (max mZ (cz + 1)) dx) ∧
      ∀ q, gridGet g' q = if x0 < q.1 ∧ q.1 ≤ dx ∧ q.2.2 = cz + 1 ∧ 1 ≤ q.2.1 ∧
          q.2.1 ≤ level.length
        then (level[q.2.1 - 1]?).bind (·[q.1 - 1]?) else gridGet g q := by
  induction n with
  | zero => intro _ _ _ _ _ _ _ _ _ _ h; omega
  | succ n ih =>
    intro x0 g x y z mX mY mZ bx t _ hx0 hg ht
    rw [List.range'_succ, List.map_cons] at ht
    cases hc : columnText kl cz x0 (column level x0) with
    | none => rw [hc] at ht; simp [catOpt] at ht
    | some ct =>
      rw [hc] at ht
      simp only [catOpt] at ht
      cases hr : catOpt ((List.range' (x0 + 1) n).map
          fun x => columnText kl cz x (column level x)) with
      | none => rw [hr] at ht; simp at ht
      | some rt =>
        rw [hr] at ht
        simp only [Option.map_some, Option.some.injEq] at ht
        have hcl : (column level x0).length = level.length := by simp [column]
        obtain ⟨g1, h1, h2⟩ := gruns_column (kl := kl) (g := g) (x := x) (y := y) (z := z)
          (mX := mX) (mY := mY) (mZ := mZ) (bx := bx) (column level x0) x0 cz ct
          (by
            intro k hk'
            simp only [column, List.mem_map] at hk'
            obtain ⟨r, hr, rfl⟩ := hk'
            have hl := hlen r hr
            rw [List.getD_eq_getElem?_getD, List.getElem?_eq_getElem (by omega), Option.getD_some]
            exact hk r hr _ (List.getElem_mem _))
          (by intro i hi; exact hg x0 i (le_refl _) (by omega) (by omega))
          (by omega) (by omega) hz hkl hc
        rw [hcl] at h1 h2
        have hcol : ∀ q2, 1 ≤ q2 → q2 ≤ level.length →
            (column level x0)[q2 - 1]? = (level[q2 - 1]?).bind (·[x0]?) := by
          intro q2 h1 h2
          simp only [column, List.getElem?_map]
          rw [List.getElem?_eq_getElem (by omega)]
          have hl := hlen level[q2 - 1] (List.getElem_mem _)
          simp only [Option.map_some, Option.bind_some]
          rw [List.getD_eq_getElem?_getD, List.getElem?_eq_getElem (by omega)]
          simp
        by_cases hn : n = 0
        · subst hn
          simp [catOpt] at hr
          subst hr
          refine ⟨g1, ?_, ?_⟩
          · rw [← ht, List.append_nil]
            have : x0 + 1 = dx := by omega
            rw [this] at h1; exact h1
          · rintro ⟨qx, qy, qz⟩
            rw [h2]
            simp only
            by_cases hq : qx = x0 + 1 ∧ qz = cz + 1 ∧ 1 ≤ qy ∧ qy < 1 + level.length
            · rw [if_pos hq, if_pos (by omega), hcol qy (by omega) (by omega), hq.1]
              simp
            · rw [if_neg hq, if_neg (by omega)]
        · obtain ⟨g2, h3, h4⟩ := ih (x0 + 1) g1 (x0 + 1) level.length (cz + 1) (max mX (x0 + 1))
            (max mY 1) (max mZ (cz + 1)) (x0 + 1) rt (by omega) (by omega) (by
              intro i j hi hi2 hj
              rw [h2, if_neg (by simp only; omega)]
              exact hg i j (by omega) hi2 hj) hr
          refine ⟨g2, ?_, ?_⟩
          · have := GRuns.trans h1 h3
            rw [← ht]
            convert this using 2 <;> omega
          · rintro ⟨qx, qy, qz⟩
            rw [h4]
            simp only [h2]
            by_cases hq : x0 < qx ∧ qx ≤ dx ∧ qz = cz + 1 ∧ 1 ≤ qy ∧ qy ≤ level.length
            · rw [if_pos hq]
              by_cases hqx : qx = x0 + 1
              · rw [if_neg (by omega), if_pos (by omega), hcol qy (by omega) (by omega), hqx]
                simp
              · rw [if_pos (by omega)]
            · rw [if_neg hq, if_neg (by omega), if_neg (by omega)]

theorem gruns_levels (dy dx : Nat) (hdy : 0 < dy) (hdx0 : 0 < dx) (hy : dy + 1 < 2 ^ 64)
    (hdx : dx + 1 < 2 ^ 64) (hkl : kl < 256) (ls : List (List (List Nat))) :
    ∀ (z0 : Nat) (g : List ((Nat × Nat × Nat) × Nat)) (x y z mX mY mZ bx : Nat) (t : List Char),
    ls ≠ [] → (∀ l ∈ ls, l.length = dy) → (∀ l ∈ ls, ∀ r ∈ l, r.length = dx) →
    (∀ l ∈ ls, ∀ r ∈ l, ∀ k ∈ r, k < 65536) → z0 + ls.length < 2 ^ 64 →
    (∀ i j k, z0 ≤ k → gridGet g (i + 1, j + 1, k + 1) = none) →
    levelsText kl dx z0 ls = some t →
    ∃ g', GRuns kl (outSt g x y z mX mY mZ bx) t
        (outSt g' dx dy (z0 + ls.length) (max mX dx) (max mY 1) (max mZ (z0 + ls.length)) dx) ∧
      ∀ q, gridGet g' q = if 1 ≤ q.1 ∧ q.1 ≤ dx ∧ 1 ≤ q.2.1 ∧ q.2.1 ≤ dy ∧
          z0 < q.2.2 ∧ q.2.2 ≤ z0 + ls.length
        then ((ls[q.2.2 - 1 - z0]?).bind (·[q.2.1 - 1]?)).bind (·[q.1 - 1]?) else gridGet g q := by
  induction ls with
  | nil => intro _ _ _ _ _ _ _ _ _ _ h; exact absurd rfl h
  | cons l ls ih =>
    intro z0 g x y z mX mY mZ bx t _ hly hlx hk hz hg ht
    simp only [levelsText] at ht
    cases hc : levelText kl dx z0 l with
    | none => rw [hc] at ht; simp at ht
    | some lt =>
      rw [hc] at ht
      simp only [Option.bind_some] at ht
      cases hr : levelsText kl dx (z0 + 1) ls with
      | none => rw [hr] at ht; simp at ht
      | some rt =>
        rw [hr] at ht
        simp only [Option.map_some, Option.some.injEq, List.length_cons] at ht hz ⊢
        unfold levelText at hc
        rw [List.range_eq_range'] at hc
        cases hcc : catOpt ((List.range' 0 dx).map fun x => columnText kl z0 x (column l x)) with
        | none => rw [hcc] at hc; simp at hc
        | some ct =>
          rw [hcc] at hc
          simp only [Option.map_some, Option.some.injEq] at hc
          have hll := hly l (by simp)
          obtain ⟨g1, h1, h2⟩ := gruns_columns (kl := kl) l dx z0
            (by intro h; subst h; simp at hll; omega) (hk l (by simp)) (hlx l (by simp))
            (by omega) hdx (by omega) hkl dx 0 g x y z mX mY mZ bx ct hdx0 (by omega)
            (by intro i j _ _ _; exact hg i j z0 (le_refl _)) hcc
          rw [hll] at h1 h2
          have e0 : gstep kl (outSt g x y z mX mY mZ bx) '\n' = .ok (outSt g x y z mX mY mZ bx) := by
            simp [gstep, outSt]
          have h1' := GRuns.cons e0 h1
          by_cases hn : ls = []
          · subst hn
            simp [levelsText] at hr
            subst hr
            refine ⟨g1, ?_, ?_⟩
            · rw [← ht, ← hc, List.append_nil]
              simpa using h1'
            · rintro ⟨qx, qy, qz⟩
              rw [h2]
              simp only [List.length_nil]
              by_cases hq : 0 < qx ∧ qx ≤ dx ∧ qz = z0 + 1 ∧ 1 ≤ qy ∧ qy ≤ dy
              · rw [if_pos hq, if_pos (by omega), show qz - 1 - z0 = 0 by omega]
                simp
              · rw [if_neg hq, if_neg (by omega)]
          · obtain ⟨g2, h3, h4⟩ := ih (z0 + 1) g1 dx dy (z0 + 1) (max mX dx) (max mY 1)
              (max mZ (z0 + 1)) dx rt hn (fun l h => hly l (by simp [h]))
              (fun l h => hlx l (by simp [h])) (fun l h => hk l (by simp [h])) (by omega)
              (by
                intro i j k hk
                rw [h2, if_neg (by simp only; omega)]
                exact hg i j k (by omega)) hr
            refine ⟨g2, ?_, ?_⟩
            · have := GRuns.trans h1' h3
              rw [← ht, ← hc]
              have e : z0 + (ls.length + 1) = z0 + 1 + ls.length := by omega
              rw [e]
              have e1 : max (max mX dx) dx = max mX dx := by omega
              have e2 : max (max mY 1) 1 = max mY 1 := by omega
              have e3 : max (max mZ (z0 + 1)) (z0 + 1 + ls.length) = max mZ (z0 + 1 + ls.length) := by
                omega
              rw [e1, e2, e3] at this
              simpa using this
            · rintro ⟨qx, qy, qz⟩
              rw [h4]
              simp only [h2]
              by_cases hq : 1 ≤ qx ∧ qx ≤ dx ∧ 1 ≤ qy ∧ qy ≤ dy ∧ z0 < qz ∧ qz ≤ z0 + (ls.length + 1)
              · rw [if_pos hq]
                by_cases hqz : qz = z0 + 1
                · rw [if_neg (by omega), if_pos (by omega), hqz]
                  simp
                · rw [if_pos (by omega), show qz - 1 - z0 = (qz - 1 - (z0 + 1)) + 1 by omega]
                  simp
              · rw [if_neg hq, if_neg (by omega), if_neg (by omega)]

/-! ### rebuilding the array -/

theorem mapM_range' {α : Type} (f : Nat → Option α) (l : List α) : ∀ k,
    (∀ i, i < l.length → f (k + i) = l[i]?) → (List.range' k l.length).mapM f = some l := by
  induction l with
  | nil => intro k _; simp
  | cons a l ih =>
    intro k h
    have h0 := h 0 (by simp)
    simp at h0
    have := ih (k + 1) (by
      intro i hi
      have := h (i + 1) (by simp; omega)
      rw [show k + 1 + i = k + (i + 1) by omega, this]; simp)
    simp [List.range'_succ, h0, this]

theorem mapM_range {α : Type} (f : Nat → Option α) (l : List α) (n : Nat) (hn : l.length = n)
    (h : ∀ i, i < n → f i = l[i]?) : (List.range n).mapM f = some l := by
  rw [List.range_eq_range', ← hn]
  exact mapM_range' f l 0 (by intro i hi; rw [Nat.zero_add]; exact h i (by omega))

end Verif.Dmm
