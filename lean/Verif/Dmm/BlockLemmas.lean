import Verif.Dmm.GridLemmas

/-!
General grid sections: blocks `(x,y,z) = {"⏎row⏎…⏎"}` with any coordinates and any row lengths
(covers both the classic DMM layout, one block per level, and the TGM layout, one block per column).
-/

namespace Verif.Dmm

/-- a grid block of a map file: coordinates of its first cell, the keys on the line of the opening
quote (usually none), and the rows on the following lines -/
structure Block where
  x : Nat
  y : Nat
  z : Nat
  lead : List Nat := []
  rows : List (List Nat)

/-- the cells a row gives, starting at column `x` -/
def rowCells (y z : Nat) : Nat → List Nat → List ((Nat × Nat × Nat) × Nat)
  | _, [] => []
  | x, k :: ks => ((x, y, z), k) :: rowCells y z (x + 1) ks

/-- the cells a list of rows gives, the first being row `y` -/
def rowsCells (x z : Nat) : Nat → List (List Nat) → List ((Nat × Nat × Nat) × Nat)
  | _, [] => []
  | y, r :: rs => rowCells y z x r ++ rowsCells x z (y + 1) rs

/-- the cells a block gives: the first row starts on the line of the quote *and* on the next one -/
def blockCells (b : Block) : List ((Nat × Nat × Nat) × Nat) :=
  rowCells b.y b.z b.x b.lead ++ rowsCells b.x b.z b.y b.rows

/-- the cells given by a list of blocks, in file order -/
def blocksCells (bs : List Block) : List ((Nat × Nat × Nat) × Nat) := bs.flatMap blockCells

/-- text of a row -/
def rowText (kl : Nat) (row : List Nat) : Option (List Char) :=
  (catOpt (row.map (formatKey kl))).map (· ++ ['\n'])

/-- text of a block -/
def blockText (kl : Nat) (b : Block) : Option (List Char) :=
  (catOpt (b.lead.map (formatKey kl))).bind fun l => (catOpt (b.rows.map (rowText kl))).map fun t =>
    ['('] ++ decimal b.x ++ [','] ++ decimal b.y ++ [','] ++ decimal b.z ++ ") = {\"".toList ++ l ++
      ['\n'] ++ t ++ "\"}\n".toList

/-- sequential insertion, failing on a position already present -/
def addCells : List ((Nat × Nat × Nat) × Nat) → List ((Nat × Nat × Nat) × Nat) →
    Option (List ((Nat × Nat × Nat) × Nat))
  | [], g => some g
  | (p, v) :: cs, g => if gridGet g p = none then addCells cs ((p, v) :: g) else none

theorem addCells_append (a b g : List ((Nat × Nat × Nat) × Nat)) :
    addCells (a ++ b) g = (addCells a g).bind (addCells b) := by
  induction a generalizing g with
  | nil => rfl
  | cons p a ih =>
    obtain ⟨p, v⟩ := p
    simp only [List.cons_append, addCells]
    split <;> simp [ih]

theorem gridGet_none_iff (g : List ((Nat × Nat × Nat) × Nat)) (p : Nat × Nat × Nat) :
    gridGet g p = none ↔ p ∉ g.map Prod.fst := by
  induction g with
  | nil => simp [gridGet]
  | cons q g ih =>
    obtain ⟨q, v⟩ := q
    rw [gridGet_cons]
    by_cases h : p = q
    · simp [h]
    · simp [h, ih]

theorem gridGet_mem (g : List ((Nat × Nat × Nat) × Nat)) (hn : (g.map Prod.fst).Nodup)
    (p : Nat × Nat × Nat) (v : Nat) : gridGet g p = some v ↔ (p, v) ∈ g := by
  induction g with
  | nil => simp [gridGet]
  | cons q g ih =>
    obtain ⟨q, w⟩ := q
    simp only [List.map_cons, List.nodup_cons] at hn
    rw [gridGet_cons]
    by_cases h : p = q
    · subst h
      simp only [if_true, Option.some.injEq, List.mem_cons, Prod.mk.injEq, true_and]
      constructor
      · intro h; exact Or.inl h.symm
      · rintro (h | h)
        · exact h.symm
        · exact absurd (List.mem_map_of_mem h) hn.1
    · rw [if_neg h, ih hn.2]
      simp [h]

theorem addCells_eq (cs g : List ((Nat × Nat × Nat) × Nat)) :
    addCells cs g = if (cs.map Prod.fst).Nodup ∧ (∀ p ∈ cs.map Prod.fst, p ∉ g.map Prod.fst)
      then some (cs.reverse ++ g) else none := by
  induction cs generalizing g with
  | nil => simp [addCells]
  | cons c cs ih =>
    obtain ⟨p, v⟩ := c
    simp only [addCells, gridGet_none_iff, ih]
    by_cases h : p ∈ g.map Prod.fst
    · rw [if_neg (by simpa using h), if_neg]
      rintro ⟨-, h2⟩
      exact h2 p (by simp) h
    · rw [if_pos h]
      by_cases h2 : (cs.map Prod.fst).Nodup ∧
          (∀ q ∈ cs.map Prod.fst, q ∉ ((p, v) :: g).map Prod.fst)
      · rw [if_pos h2, if_pos]
        · simp
        · refine ⟨?_, ?_⟩
          · simp only [List.map_cons, List.nodup_cons]
            refine ⟨fun hm => h2.2 p hm (by simp), h2.1⟩
          · intro q hq
            simp only [List.map_cons, List.mem_cons] at hq
            rcases hq with rfl | hq
            · exact h
            · have := h2.2 q hq
              simp only [List.map_cons, List.mem_cons, not_or] at this
              exact this.2
      · rw [if_neg h2, if_neg]
        rintro ⟨h3, h4⟩
        apply h2
        simp only [List.map_cons, List.nodup_cons] at h3
        refine ⟨h3.2, ?_⟩
        intro q hq hq2
        simp only [List.map_cons, List.mem_cons] at hq2
        rcases hq2 with rfl | hq2
        · exact h3.1 hq
        · exact h4 q (by simp [hq]) hq2

/-- reading `t` from `s` either fails with an error or arrives in a state -/
def GReads (kl : Nat) (s : GState) (t : List Char) (r : Option GState) : Prop :=
  ∀ rest, gridLoop kl s (t ++ rest) = match r with
    | some s' => gridLoop kl s' rest
    | none => .err

variable {kl : Nat}

theorem GRuns.reads {s s' : GState} {t : List Char} {u : List Char} {r : Option GState}
    (h : GRuns kl s t s') (h' : GReads kl s' u r) : GReads kl s (t ++ u) r := by
  intro rest; rw [List.append_assoc, h, h']

theorem GReads.trans {s : GState} {t u : List Char} {r : Option GState} {f : GState → Option GState}
    (h : GReads kl s t r) (h' : ∀ s', r = some s' → GReads kl s' u (f s')) :
    GReads kl s (t ++ u) (r.bind f) := by
  intro rest
  rw [List.append_assoc, h]
  cases r with
  | none => rfl
  | some s' => exact h' s' rfl rest

variable {x y z mX mY mZ bx : Nat}

/-- an already occupied cell is an error -/
theorem gerr_key {adj : Bool} {g : List ((Nat × Nat × Nat) × Nat)} (t : List Char) : ∀ (a j k : Nat), t ≠ [] →
    j + t.length = kl → kl < 256 →
    t.foldlM advanceKey a = some k → gridGet g (x, y, z) ≠ none →
    GReads kl { strSt g x y z mX mY mZ bx adj with key := a, keyLen := j } t none := by
  induction t with
  | nil => intro _ _ _ h; exact absurd rfl h
  | cons c t ih =>
    intro a j k _ hj hkl hf hg
    rw [List.foldlM_cons] at hf
    cases ha : advanceKey a c with
    | none => rw [ha] at hf; simp at hf
    | some a' =>
      rw [ha] at hf
      have hf : t.foldlM advanceKey a' = some k := by simpa using hf
      obtain ⟨h1, h2, h3⟩ := advance_letter c a a' ha
      simp only [List.length_cons] at hj
      cases t with
      | nil =>
        obtain ⟨v, hv⟩ := Option.ne_none_iff_exists'.1 hg
        simp at hf hj
        intro rest
        have : gstep kl { strSt g x y z mX mY mZ bx adj with key := a, keyLen := j } c = .err := by
          simp only [gstep, gstepStr, strSt, h1, h2, h3, ha, hv, hj, hkl]
          simp
        simp [gridLoop, this]
      | cons c2 t =>
        have e : gstep kl { strSt g x y z mX mY mZ bx adj with key := a, keyLen := j } c =
            .ok { strSt g x y z mX mY mZ bx adj with key := a', keyLen := j + 1 } := by
          simp only [List.length_cons] at hj
          simp [gstep, gstepStr, strSt, h1, h2, h3, ha, show j + 1 < 256 by omega,
            show j + 1 ≠ kl by omega]
        exact GRuns.reads (GRuns.one e)
          (ih a' (j + 1) k (by simp) (by simp at hj ⊢; omega) hkl hf hg)

theorem formatKey_bounds (n k : Nat) (t : List Char) (h : formatKey n k = some t) :
    0 < n ∧ n < 256 := by
  unfold formatKey at h
  split at h
  · cases h
  · split at h
    · cases h
    · split at h
      · cases h
      · rename_i h2 h3
        refine ⟨by omega, ?_⟩
        by_contra hc
        have : 52 ^ 13 ≤ 52 ^ (n - 1) := Nat.pow_le_pow_right (by decide) (by omega)
        have : (2 : Nat) ^ 64 ≤ 52 ^ 13 := by decide
        omega

theorem greads_keys {adj : Bool} (ks : List Nat) : ∀ (g : List ((Nat × Nat × Nat) × Nat)) (x mX : Nat)
    (t : List Char), (∀ k ∈ ks, k < 65536) → x + ks.length < 2 ^ 64 → x ≤ mX + 1 →
    catOpt (ks.map (formatKey kl)) = some t →
    GReads kl (strSt g x y z mX mY mZ bx adj) t
      ((addCells (rowCells y z x ks) g).map fun g' =>
        strSt g' (x + ks.length) y z (max mX (x + ks.length - 1)) mY mZ bx adj) := by
  induction ks with
  | nil =>
    intro g x mX t _ _ hm ht
    simp [catOpt] at ht
    subst ht
    have : max mX (x - 1) = mX := by omega
    intro rest
    simp [rowCells, addCells, this]
  | cons k ks ih =>
    intro g x mX t hk hx hm ht
    rw [List.map_cons] at ht
    cases hf : formatKey kl k with
    | none => rw [hf] at ht; simp [catOpt] at ht
    | some kt =>
      rw [hf] at ht
      simp only [catOpt] at ht
      cases hr : catOpt (ks.map (formatKey kl)) with
      | none => rw [hr] at ht; simp at ht
      | some tr =>
        rw [hr] at ht
        simp only [Option.map_some, Option.some.injEq] at ht
        obtain ⟨hlen, hparse⟩ := key_roundtrip kl k kt (hk k (by simp)) hf
        obtain ⟨hkl0, hkl⟩ := formatKey_bounds kl k kt hf
        have hne : kt ≠ [] := by intro h; subst h; simp at hlen; omega
        simp only [List.length_cons] at hx ⊢
        by_cases hg : gridGet g (x, y, z) = none
        · have h1 : GRuns kl (strSt g x y z mX mY mZ bx adj) kt _ :=
            gruns_key (kl := kl) (g := g) (x := x) (y := y) (z := z) (mX := mX) (mY := mY)
              (mZ := mZ) (bx := bx) kt 0 0 k hne (by omega) hkl hparse hg (by omega)
          have h2 := ih (((x, y, z), k) :: g) (x + 1) (max mX x) tr (fun k h => hk k (by simp [h]))
            (by omega) (by omega) hr
          have := GRuns.reads h1 h2
          rw [ht] at this
          simp only [rowCells, addCells, hg, if_true]
          have e : max (max mX x) (x + 1 + ks.length - 1) = max mX (x + (ks.length + 1) - 1) := by
            omega
          rw [e, show x + 1 + ks.length = x + (ks.length + 1) by omega] at this
          exact this
        · have h1 : GReads kl (strSt g x y z mX mY mZ bx adj) kt none :=
            gerr_key (kl := kl) (x := x) (y := y) (z := z) (mX := mX) (mY := mY)
              (mZ := mZ) (bx := bx) kt 0 0 k hne (by omega) hkl hparse hg
          simp only [rowCells, addCells, hg, if_false, Option.map_none]
          intro rest
          rw [← ht, List.append_assoc, h1]

theorem greads_rows (rows : List (List Nat)) : ∀ (g : List ((Nat × Nat × Nat) × Nat)) (y mX : Nat)
    (t : List Char), (∀ r ∈ rows, ∀ k ∈ r, k < 65536) → (∀ r ∈ rows, bx + r.length < 2 ^ 64) →
    y + rows.length < 2 ^ 64 → bx ≤ mX →
    catOpt (rows.map (rowText kl)) = some t →
    GReads kl (strSt g bx y z mX mY mZ bx false) t
      ((addCells (rowsCells bx z y rows) g).map fun g' =>
        strSt g' bx (y + rows.length) z (rows.foldl (fun m r => max m (bx + r.length - 1)) mX)
          mY mZ bx false) := by
  induction rows with
  | nil =>
    intro g y mX t _ _ _ _ ht
    simp [catOpt] at ht
    subst ht
    intro rest
    simp [rowsCells, addCells]
  | cons r rows ih =>
    intro g y mX t hk hx hy hm ht
    rw [List.map_cons] at ht
    cases hf : rowText kl r with
    | none => rw [hf] at ht; simp [catOpt] at ht
    | some rt =>
      rw [hf] at ht
      simp only [catOpt] at ht
      cases hr : catOpt (rows.map (rowText kl)) with
      | none => rw [hr] at ht; simp at ht
      | some tr =>
        rw [hr] at ht
        simp only [Option.map_some, Option.some.injEq] at ht
        unfold rowText at hf
        cases hkt : catOpt (r.map (formatKey kl)) with
        | none => rw [hkt] at hf; simp at hf
        | some kt =>
          rw [hkt] at hf
          simp only [Option.map_some, Option.some.injEq] at hf
          simp only [List.length_cons] at hy ⊢
          have h1 := greads_keys (adj := false) (kl := kl) (y := y) (z := z) (mY := mY) (mZ := mZ) (bx := bx)
            r g bx mX kt (hk r (by simp)) (hx r (by simp)) (by omega) hkt
          have hfull : GReads kl (strSt g bx y z mX mY mZ bx false) (kt ++ ('\n' :: tr)) _ :=
            GReads.trans (f := fun s' => (addCells (rowsCells bx z (y + 1) rows) s'.grid).map
              fun g' => strSt g' bx (y + 1 + rows.length) z
                (rows.foldl (fun m r => max m (bx + r.length - 1)) (max mX (bx + r.length - 1)))
                mY mZ bx false) h1 (by
              intro s' hs'
              cases ha : addCells (rowCells y z bx r) g with
              | none => rw [ha] at hs'; simp at hs'
              | some g1 =>
                rw [ha] at hs'
                simp only [Option.map_some, Option.some.injEq] at hs'
                subst hs'
                have h2 := ih g1 (y + 1) (max mX (bx + r.length - 1)) tr
                  (fun r h => hk r (by simp [h])) (fun r h => hx r (by simp [h])) (by omega)
                  (by omega) hr
                have e : gstep kl (strSt g1 (bx + r.length) y z (max mX (bx + r.length - 1)) mY mZ
                    bx false) '\n' =
                    .ok (strSt g1 bx (y + 1) z (max mX (bx + r.length - 1)) mY mZ bx false) := by
                  have : y + 1 < 2 ^ 64 := by omega
                  simp only [gstep, gstepStr, strSt, this]
                  simp
                exact GRuns.reads (GRuns.one e) h2)
          rw [← ht, ← hf]
          have e : (kt ++ ['\n']) ++ tr = kt ++ ('\n' :: tr) := by simp
          rw [e]
          convert hfull using 1
          simp only [rowsCells, addCells_append, List.foldl_cons]
          cases addCells (rowCells y z bx r) g with
          | none => rfl
          | some g1 =>
            simp only [Option.bind_some, Option.map_some, strSt]
            rw [show y + (rows.length + 1) = y + 1 + rows.length by omega]

/-- the largest column a block mentions -/
def blockMaxX (b : Block) : Nat :=
  b.rows.foldl (fun m r => max m (b.x + r.length - 1)) (max b.x (b.x + b.lead.length - 1))

theorem foldl_max_comm (rows : List (List Nat)) (bx : Nat) : ∀ m n,
    rows.foldl (fun m r => max m (bx + r.length - 1)) (max m n) =
      max m (rows.foldl (fun m r => max m (bx + r.length - 1)) n) := by
  induction rows with
  | nil => intro m n; rfl
  | cons r rows ih =>
    intro m n
    simp only [List.foldl_cons]
    rw [Nat.max_assoc, ih]

theorem greads_block (b : Block) (g : List ((Nat × Nat × Nat) × Nat)) (x y z mX mY mZ bx : Nat)
    (t : List Char) (hkl : ∀ k ∈ b.lead, k < 65536) (hk : ∀ r ∈ b.rows, ∀ k ∈ r, k < 65536)
    (hx : b.x < 2 ^ 64) (hxl : b.x + b.lead.length < 2 ^ 64)
    (hxr : ∀ r ∈ b.rows, b.x + r.length < 2 ^ 64)
    (hy : b.y + b.rows.length < 2 ^ 64) (hy1 : 1 ≤ b.y) (hz : b.z < 2 ^ 64)
    (ht : blockText kl b = some t) :
    GReads kl (outSt g x y z mX mY mZ bx) t
      ((addCells (blockCells b) g).map fun g' =>
        outSt g' b.x (b.y + b.rows.length - 1) b.z (max mX (blockMaxX b)) (max mY b.y) (max mZ b.z)
          b.x) := by
  obtain ⟨cx, cy, cz, lead, rows⟩ := b
  simp only at *
  unfold blockText at ht
  simp only at ht
  obtain ⟨lt, hl, ht⟩ := Option.bind_eq_some_iff.1 ht
  cases hc : catOpt (rows.map (rowText kl)) with
  | none => rw [hc] at ht; simp at ht
  | some ct =>
    rw [hc] at ht
    simp only [Option.map_some, Option.some.injEq] at ht
    have e0 : gstep kl (outSt g x y z mX mY mZ bx) '(' = .ok (coordSt g x y z mX mY mZ bx) := by
      simp [gstep, outSt, coordSt]
    have h1 := gruns_decimal (kl := kl) cx (coordSt g x y z mX mY mZ bx) rfl rfl (by omega)
    let s1 : GState := { coordSt g cx y z (max mX cx) mY mZ cx with axis := .Y }
    have e1 : gstep kl { coordSt g x y z mX mY mZ bx with num := cx } ',' = .ok s1 := by
      simp [gstep, gstepCoord, coordSt, s1]
    have h2 := gruns_decimal (kl := kl) cy s1 rfl rfl (by omega)
    let s2 : GState := { coordSt g cx cy z (max mX cx) (max mY cy) mZ cx with axis := .Z }
    have e2 : gstep kl { s1 with num := cy } ',' = .ok s2 := by
      simp [gstep, gstepCoord, coordSt, s1, s2]
    have h3 := gruns_decimal (kl := kl) cz s2 rfl rfl (by omega)
    let s3 := outSt g cx cy cz (max mX cx) (max mY cy) (max mZ cz) cx
    have e3 : gstep kl { s2 with num := cz } ')' = .ok s3 := by
      simp [gstep, gstepCoord, coordSt, outSt, s2, s3]
    have e4 : gstep kl s3 ' ' = .ok s3 := by simp [gstep, outSt, s3]
    have e5 : gstep kl s3 '=' = .ok s3 := by simp [gstep, outSt, s3]
    have e6 : gstep kl s3 '{' = .ok s3 := by simp [gstep, outSt, s3]
    let s4 := strSt g cx cy cz (max mX cx) (max mY cy) (max mZ cz) cx
    have e7 : gstep kl s3 '"' = .ok (s4 true) := by simp [gstep, outSt, strSt, s3, s4]
    have hpre := GRuns.cons e0 (GRuns.trans h1 (GRuns.cons e1 (GRuns.trans h2 (GRuns.cons e2
      (GRuns.trans h3 (GRuns.cons e3 (GRuns.cons e4 (GRuns.cons e5 (GRuns.cons e4 (GRuns.cons e6
      (GRuns.one e7)))))))))))
    have hlead := greads_keys (kl := kl) (adj := true) (y := cy) (z := cz) (mY := max mY cy)
      (mZ := max mZ cz) (bx := cx) lead g cx (max mX cx) lt hkl hxl (by omega) hl
    let F : GState → Option GState := fun s' => (addCells (rowsCells cx cz cy rows) s'.grid).map
      fun g' => outSt g' cx (cy + rows.length - 1) cz
        (max mX (blockMaxX ⟨cx, cy, cz, lead, rows⟩)) (max mY cy) (max mZ cz) cx
    have hall := GReads.trans (u := '\n' :: (ct ++ ['"', '}', '\n'])) (f := F) hlead (by
      intro s0 hs0
      cases ha0 : addCells (rowCells cy cz cx lead) g with
      | none => rw [ha0] at hs0; simp at hs0
      | some g0 =>
        rw [ha0] at hs0
        simp only [Option.map_some, Option.some.injEq] at hs0
        subst hs0
        let mX' := max (max mX cx) (cx + lead.length - 1)
        have e8 : gstep kl (strSt g0 (cx + lead.length) cy cz mX' (max mY cy) (max mZ cz) cx true)
            '\n' = .ok (strSt g0 cx cy cz mX' (max mY cy) (max mZ cz) cx false) := by
          simp [gstep, gstepStr, strSt]
        have h4 := greads_rows (kl := kl) (bx := cx) (z := cz) (mY := max mY cy) (mZ := max mZ cz)
          rows g0 cy mX' ct hk hxr hy (by omega) hc
        have h5 := GReads.trans (u := ['"', '}', '\n']) (f := fun s' => some (outSt s'.grid cx
          (cy + rows.length - 1) cz (max mX (blockMaxX ⟨cx, cy, cz, lead, rows⟩)) (max mY cy)
          (max mZ cz) cx))
          h4 (by
            intro s' hs'
            cases ha : addCells (rowsCells cx cz cy rows) g0 with
            | none => rw [ha] at hs'; simp at hs'
            | some g1 =>
              rw [ha] at hs'
              simp only [Option.map_some, Option.some.injEq] at hs'
              subst hs'
              rw [show mX' = max mX (max cx (cx + lead.length - 1)) by simp only [mX']; omega,
                foldl_max_comm]
              let s5 := outSt g1 cx (cy + rows.length - 1) cz
                (max mX (blockMaxX ⟨cx, cy, cz, lead, rows⟩)) (max mY cy) (max mZ cz) cx
              have e9 : gstep kl (strSt g1 cx (cy + rows.length) cz
                  (max mX (rows.foldl (fun m r => max m (cx + r.length - 1))
                    (max cx (cx + lead.length - 1)))) (max mY cy)
                  (max mZ cz) cx false) '"' = .ok s5 := by
                have : ¬ (cy + rows.length = 0) := by omega
                simp only [gstep, gstepStr, strSt, s5, outSt, this, blockMaxX]
                simp
              have e10 : gstep kl s5 '}' = .ok s5 := by simp [gstep, outSt, s5]
              have e11 : gstep kl s5 '\n' = .ok s5 := by simp [gstep, outSt, s5]
              intro rest
              exact GRuns.cons e9 (GRuns.cons e10 (GRuns.one e11)) rest)
        have h6 := GRuns.reads (GRuns.one e8) h5
        have hF : F (strSt g0 (cx + lead.length) cy cz mX' (max mY cy) (max mZ cz) cx true) =
            (addCells (rowsCells cx cz cy rows) g0).map
              fun g' => outSt g' cx (cy + rows.length - 1) cz
                (max mX (blockMaxX ⟨cx, cy, cz, lead, rows⟩)) (max mY cy) (max mZ cz) cx := rfl
        rw [hF]
        have hB : ((addCells (rowsCells cx cz cy rows) g0).map fun g' =>
            strSt g' cx (cy + rows.length) cz (rows.foldl (fun m r => max m (cx + r.length - 1)) mX')
              (max mY cy) (max mZ cz) cx false).bind (fun s' => some (outSt s'.grid cx
          (cy + rows.length - 1) cz (max mX (blockMaxX ⟨cx, cy, cz, lead, rows⟩)) (max mY cy)
          (max mZ cz) cx)) = (addCells (rowsCells cx cz cy rows) g0).map
              fun g' => outSt g' cx (cy + rows.length - 1) cz
                (max mX (blockMaxX ⟨cx, cy, cz, lead, rows⟩)) (max mY cy) (max mZ cz) cx := by
          cases addCells (rowsCells cx cz cy rows) g0 <;> rfl
        rw [hB] at h6
        exact h6)
    have := GRuns.reads hpre hall
    rw [← ht]
    convert this using 1
    · simp
    · simp only [blockCells, addCells_append]
      cases addCells (rowCells cy cz cx lead) g <;> simp [strSt, F]

/-- what the reader requires of a block to process it without running into a `usize` limit -/
structure BlockOk (b : Block) : Prop where
  keysLead : ∀ k ∈ b.lead, k < 65536
  keys : ∀ r ∈ b.rows, ∀ k ∈ r, k < 65536
  x64 : b.x < 2 ^ 64
  xl64 : b.x + b.lead.length < 2 ^ 64
  xr64 : ∀ r ∈ b.rows, b.x + r.length < 2 ^ 64
  y64 : b.y + b.rows.length < 2 ^ 64
  y1 : 1 ≤ b.y
  z64 : b.z < 2 ^ 64

theorem greads_blocks (bs : List Block) : ∀ (g : List ((Nat × Nat × Nat) × Nat))
    (x y z mX mY mZ bx : Nat) (t : List Char), (∀ b ∈ bs, BlockOk b) →
    catOpt (bs.map (blockText kl)) = some t →
    ∃ x' z' bx', GReads kl (outSt g x y z mX mY mZ bx) t
      ((addCells (blocksCells bs) g).map fun g' =>
        outSt g' x' (bs.foldl (fun _ b => b.y + b.rows.length - 1) y) z'
          (bs.foldl (fun m b => max m (blockMaxX b)) mX)
          (bs.foldl (fun m b => max m b.y) mY)
          (bs.foldl (fun m b => max m b.z) mZ) bx') := by
  induction bs with
  | nil =>
    intro g x y z mX mY mZ bx t _ ht
    simp [catOpt] at ht
    subst ht
    refine ⟨x, z, bx, ?_⟩
    intro rest
    simp [blocksCells, addCells]
  | cons b bs ih =>
    intro g x y z mX mY mZ bx t hb ht
    rw [List.map_cons] at ht
    cases hf : blockText kl b with
    | none => rw [hf] at ht; simp [catOpt] at ht
    | some bt =>
      rw [hf] at ht
      simp only [catOpt] at ht
      cases hr : catOpt (bs.map (blockText kl)) with
      | none => rw [hr] at ht; simp at ht
      | some tr =>
        rw [hr] at ht
        simp only [Option.map_some, Option.some.injEq] at ht
        obtain ⟨hkl, hk, hx, hxl, hxr, hy, hy1, hz⟩ := hb b (by simp)
        have h1 := greads_block (kl := kl) b g x y z mX mY mZ bx bt hkl hk hx hxl hxr hy hy1 hz hf
        cases ha : addCells (blockCells b) g with
        | none =>
          refine ⟨0, 0, 0, ?_⟩
          intro rest
          rw [ha] at h1
          simp only [blocksCells, List.flatMap_cons, addCells_append, ha, Option.bind_none,
            Option.map_none]
          rw [← ht, List.append_assoc, h1]
          rfl
        | some g1 =>
          obtain ⟨x', z', bx', h2⟩ := ih g1 b.x (b.y + b.rows.length - 1) b.z (max mX (blockMaxX b))
            (max mY b.y) (max mZ b.z) b.x tr (fun b h => hb b (by simp [h])) hr
          refine ⟨x', z', bx', ?_⟩
          intro rest
          rw [ha] at h1
          simp only [blocksCells, List.flatMap_cons, addCells_append, ha, Option.bind_some,
            List.foldl_cons]
          rw [← ht, List.append_assoc, h1]
          exact h2 rest

end Verif.Dmm
