import Verif.Dmi.MetadataText
import Mathlib.Tactic.IntervalCases

/-!
# C30: sprite indices and rectangles
-/

namespace Verif.Dmi

set_option linter.unusedSectionVars false

variable {D : Type}

/-- `ordered_dirs` (dmm-tools/src/dmi/render.rs:116-134): the directions of a state in the order of the
sheet -/
def orderedDirs : Dirs → List Dir
  | .one => [.south]
  | .four => [.south, .north, .east, .west]
  | .eight => [.south, .north, .east, .west, .southeast, .southwest, .northeast, .northwest]

theorem orderedDirs_length (d : Dirs) : (orderedDirs d).length = d.count := by cases d <;> rfl

theorem orderedDirs_nodup (d : Dirs) : (orderedDirs d).Nodup := by cases d <;> decide

/-- the place of a direction in its state's order is its index -/
theorem dirIdx_ordered (d : Dirs) (k : Nat) (dir : Dir) (h : (orderedDirs d)[k]? = some dir) :
    dirIdx d dir = k := by
  have hk : k < (orderedDirs d).length := (List.getElem?_eq_some_iff.1 h).1
  rw [orderedDirs_length] at hk
  cases d
  · simp only [Dirs.count] at hk
    interval_cases k
    cases h; rfl
  · simp only [Dirs.count] at hk
    interval_cases k <;> cases h <;> rfl
  · simp only [Dirs.count] at hk
    interval_cases k <;> cases h <;> rfl

/-- **C30**: frame `f` of the `k`-th direction is sprite `offset + f * directions + k`: all directions of
frame 0, then all directions of frame 1, and so on. -/
theorem indexOfFrame_exact (s : State D) (k f : Nat) (dir : Dir) (h : (orderedDirs s.dirs)[k]? = some dir) :
    s.indexOfFrame dir f = s.offset + f * s.dirs.count + k := by
  unfold State.indexOfFrame State.indexOfDir
  rw [dirIdx_ordered _ _ _ h]
  omega

/-- **C30**: a diagonal direction of a state without diagonals, and any direction of a state with one, gives
the first direction (south). -/
theorem indexOfFrame_missing (s : State D) (f : Nat) (dir : Dir) (h : dir ∉ orderedDirs s.dirs) :
    s.indexOfFrame dir f = s.indexOfFrame .south f := by
  unfold State.indexOfFrame State.indexOfDir
  congr 2
  cases hd : s.dirs <;> rw [hd] at h <;> cases dir <;> first | rfl | exact absurd (by decide) h

theorem count_pos (d : Dirs) : 0 < d.count := by cases d <;> decide

/-- **C30**: the sprites of a state are exactly the indices of its directions and frames, and different
directions or frames have different sprites. -/
theorem frames_of_state (s : State D) (n : Nat) :
    (s.offset ≤ n ∧ n < s.offset + s.dirs.count * s.frames.num) ↔
      ∃ dir ∈ orderedDirs s.dirs, ∃ f < s.frames.num, s.indexOfFrame dir f = n := by
  have hp := count_pos s.dirs
  constructor
  · rintro ⟨h1, h2⟩
    obtain ⟨m, rfl⟩ := Nat.le.dest h1
    have hm : m < s.dirs.count * s.frames.num := by omega
    have hk : m % s.dirs.count < (orderedDirs s.dirs).length := by
      rw [orderedDirs_length]; exact Nat.mod_lt _ hp
    refine ⟨(orderedDirs s.dirs)[m % s.dirs.count], List.getElem_mem hk, m / s.dirs.count,
      Nat.div_lt_of_lt_mul hm, ?_⟩
    rw [indexOfFrame_exact s _ _ _ (List.getElem?_eq_getElem hk)]
    have := Nat.div_add_mod m s.dirs.count
    rw [Nat.mul_comm] at this
    omega
  · rintro ⟨dir, hd, f, hf, rfl⟩
    obtain ⟨k, hk⟩ := List.mem_iff_getElem?.1 hd
    have hkl := (List.getElem?_eq_some_iff.1 hk).1
    rw [orderedDirs_length] at hkl
    rw [indexOfFrame_exact s k f dir hk]
    refine ⟨by omega, ?_⟩
    have : (f + 1) * s.dirs.count ≤ s.frames.num * s.dirs.count := Nat.mul_le_mul_right _ hf
    rw [Nat.add_mul, Nat.one_mul, Nat.mul_comm s.frames.num] at this
    omega

/-- **C30**: different directions or frames of a state have different sprites. -/
theorem frames_distinct (s : State D) {d1 d2 : Dir} (h1 : d1 ∈ orderedDirs s.dirs) (h2 : d2 ∈ orderedDirs s.dirs)
    {f1 f2 : Nat} (h : s.indexOfFrame d1 f1 = s.indexOfFrame d2 f2) : d1 = d2 ∧ f1 = f2 := by
  obtain ⟨k1, hk1⟩ := List.mem_iff_getElem?.1 h1
  obtain ⟨k2, hk2⟩ := List.mem_iff_getElem?.1 h2
  have hl1 := (List.getElem?_eq_some_iff.1 hk1).1
  have hl2 := (List.getElem?_eq_some_iff.1 hk2).1
  rw [orderedDirs_length] at hl1 hl2
  rw [indexOfFrame_exact s k1 f1 d1 hk1, indexOfFrame_exact s k2 f2 d2 hk2] at h
  have hf : f1 = f2 := by
    have e1 : (f1 * s.dirs.count + k1) / s.dirs.count = f1 := by
      rw [Nat.mul_comm, Nat.mul_add_div (count_pos _), Nat.div_eq_of_lt hl1]; rfl
    have e2 : (f2 * s.dirs.count + k2) / s.dirs.count = f2 := by
      rw [Nat.mul_comm, Nat.mul_add_div (count_pos _), Nat.div_eq_of_lt hl2]; rfl
    rw [← e1, ← e2]
    congr 1
    omega
  subst hf
  have : k1 = k2 := by omega
  subst this
  rw [hk1] at hk2
  cases hk2
  exact ⟨rfl, rfl⟩

variable (parseDelay : List Char → Option D) (isOne : D → Bool)

/-- **C30**: in every parsed metadata each sprite below the total is a frame in a direction of exactly one
state. -/
theorem sprites_partition {data : List Char} {m : Meta D} (h : parseMetadata parseDelay isOne data = .ok m)
    (n : Nat) (hn : n < (m.states.map fun t => t.dirs.count * t.frames.num).sum) :
    ∃ (i : Nat) (s : State D) (dir : Dir) (f : Nat),
      (m.states[i]? = some s ∧ dir ∈ orderedDirs s.dirs ∧ f < s.frames.num ∧ s.indexOfFrame dir f = n)
      ∧ ∀ (i' : Nat) (s' : State D) (dir' : Dir) (f' : Nat),
        (m.states[i']? = some s' ∧ dir' ∈ orderedDirs s'.dirs ∧ f' < s'.frames.num ∧ s'.indexOfFrame dir' f' = n)
        → i' = i ∧ dir' = dir ∧ f' = f := by
  obtain ⟨i, s, hs, h1, h2⟩ := (sprite_owner parseDelay isOne h n).1 hn
  obtain ⟨dir, hd, f, hf, he⟩ := (frames_of_state s n).1 ⟨h1, h2⟩
  refine ⟨i, s, dir, f, ⟨hs, hd, hf, he⟩, ?_⟩
  rintro i' s' dir' f' ⟨hs', hd', hf', he'⟩
  have hb' := (frames_of_state s' n).2 ⟨dir', hd', f', hf', he'⟩
  have hii : i' = i := by
    rcases Nat.lt_trichotomy i' i with hlt | heq | hlt
    · have := ranges_disjoint parseDelay isOne h hs' hs hlt; omega
    · exact heq
    · have := ranges_disjoint parseDelay isOne h hs hs' hlt; omega
  subst hii
  rw [hs] at hs'
  cases hs'
  exact ⟨rfl, frames_distinct s hd' hd (he'.trans he.symm)⟩

/-! ## Rectangles -/

/-- the pixels of a rectangle -/
def Rect.Has (r : Rect) (x y : Nat) : Prop := r.x ≤ x ∧ x < r.x + r.w ∧ r.y ≤ y ∧ y < r.y + r.h

/-- **C30**: a sheet at least as wide as a sprite, of positive width, gives every sprite a rectangle of the
sprite size, and for the sprites that fit in the sheet (`index < columns * rows`) it lies inside. -/
theorem rect_inside (m : Meta D) (bw bh idx : Nat) (hw : 0 < m.width) (hb : m.width ≤ bw) :
    ∃ r, m.rectOfIndex bw idx = some r ∧ r.w = m.width ∧ r.h = m.height ∧ r.x + r.w ≤ bw
      ∧ (idx < bw / m.width * (bh / m.height) → r.y + r.h ≤ bh) := by
  have hc : 0 < bw / m.width := Nat.div_pos hb hw
  unfold Meta.rectOfIndex
  rw [if_neg (by omega)]
  simp only [if_neg (show ¬ bw / m.width = 0 by omega)]
  refine ⟨_, rfl, rfl, rfl, ?_, ?_⟩
  · have h1 : idx % (bw / m.width) + 1 ≤ bw / m.width := Nat.mod_lt _ hc
    have h2 := Nat.mul_le_mul_right m.width h1
    have h3 := Nat.div_mul_le_self bw m.width
    rw [Nat.add_mul, Nat.one_mul] at h2
    simp only
    omega
  · intro hi
    have h1 : idx / (bw / m.width) + 1 ≤ bh / m.height := Nat.div_lt_of_lt_mul hi
    have h2 := Nat.mul_le_mul_right m.height h1
    have h3 := Nat.div_mul_le_self bh m.height
    rw [Nat.add_mul, Nat.one_mul] at h2
    simp only
    omega

/-- two multiples of `w` less than `w` apart from a common point are the same -/
theorem block_unique {a b w x : Nat} (ha : a * w ≤ x) (ha' : x < a * w + w) (hb : b * w ≤ x)
    (hb' : x < b * w + w) : a = b := by
  rcases Nat.lt_trichotomy a b with h | h | h
  · have := Nat.mul_le_mul_right w (show a + 1 ≤ b from h)
    rw [Nat.add_mul, Nat.one_mul] at this; omega
  · exact h
  · have := Nat.mul_le_mul_right w (show b + 1 ≤ a from h)
    rw [Nat.add_mul, Nat.one_mul] at this; omega

/-- **C30**: the rectangles of different sprites share no pixel. -/
theorem rect_disjoint (m : Meta D) (bw : Nat) {i j : Nat} {r r' : Rect} (hi : m.rectOfIndex bw i = some r)
    (hj : m.rectOfIndex bw j = some r') (x y : Nat) (h : r.Has x y) (h' : r'.Has x y) : i = j := by
  unfold Meta.rectOfIndex at hi hj
  split at hi
  · cases hi
  · rename_i hw
    rw [if_neg hw] at hj
    simp only at hi hj
    split at hi
    · cases hi
    · rename_i hc
      rw [if_neg hc] at hj
      cases hi; cases hj
      obtain ⟨h1, h2, h3, h4⟩ := h
      obtain ⟨g1, g2, g3, g4⟩ := h'
      simp only at h1 h2 h3 h4 g1 g2 g3 g4
      have e1 := block_unique h1 h2 g1 g2
      have e2 := block_unique h3 h4 g3 g4
      have := Nat.div_add_mod i (bw / m.width)
      rw [e1, e2, Nat.div_add_mod] at this
      exact this.symm

/-- **C30**: `rect_of` in a parsed metadata with at least one state never panics on a sheet at least one
sprite wide; it gives a rectangle exactly for the names and numbers that occur, and then the rectangle of the
sprite of that state, direction and frame. -/
theorem rectOf_exact {data : List Char} {m : Meta D} (h : parseMetadata parseDelay isOne data = .ok m)
    (hs : m.states ≠ []) (bw : Nat) (hw : 0 < m.width) (hb : m.width ≤ bw) (n : List Char) (k : Nat) (dir : Dir)
    (f : Nat) :
    ∃ o, m.rectOf bw (n, k) dir f = some o ∧
      ∀ r, o = some r ↔ ∃ s ∈ m.states, s.name = n ∧ s.dup = k ∧ m.rectOfIndex bw (s.indexOfFrame dir f) = some r := by
  obtain ⟨res, hr, hx⟩ := getIconState_exact parseDelay isOne h n k
  unfold Meta.rectOf
  rw [if_neg hs, hr]
  cases res with
  | none =>
    refine ⟨none, rfl, fun r => ?_⟩
    simp only [reduceCtorEq, false_iff, not_exists, not_and]
    intro s hm hn hk
    exact absurd ((hx s).2 ⟨hm, hn, hk⟩) (by simp)
  | some s =>
    obtain ⟨r, hri, _⟩ := rect_inside m bw 0 (s.indexOfFrame dir f) hw hb
    simp only [hri, Option.map_some]
    refine ⟨some r, rfl, fun r' => ?_⟩
    have hs' := (hx s).1 rfl
    constructor
    · intro e
      cases e
      exact ⟨s, hs'.1, hs'.2.1, hs'.2.2, hri⟩
    · rintro ⟨t, ht, hn, hk, hrt⟩
      have := (hx t).2 ⟨ht, hn, hk⟩
      cases this
      rw [hri] at hrt
      exact hrt

/-- disagreement: a sheet narrower than one sprite, or a sprite width of 0, divides by zero -/
theorem rect_narrow_panics (m : Meta D) (bw idx : Nat) (h : bw < m.width ∨ m.width = 0) :
    m.rectOfIndex bw idx = none := by
  unfold Meta.rectOfIndex
  split
  · rfl
  · rename_i hw
    simp only
    rw [if_pos (Nat.div_eq_of_lt (by omega))]

/-- disagreement: for a metadata without states `rect_of` gives the whole-sprite rectangle for any name,
even if the sheet is smaller -/
theorem rectOf_no_states (m : Meta D) (h : m.states = []) (bw : Nat) (k : List Char × Nat) (dir : Dir) (f : Nat) :
    m.rectOf bw k dir f = some (some ⟨0, 0, m.width, m.height⟩) := by
  unfold Meta.rectOf
  rw [if_pos h]

/-- the five sprites of a four-direction state and a plain one fill a sheet of 3 by 2 sprites but for one
place -/
example : (match parseMetadata Demo.pd (· == 1)
      "# BEGIN DMI\nversion = 4.0\n\twidth = 32\n\theight = 32\nstate = \"a\"\n\tdirs = 4\n\tframes = 1\nstate = \"b\"\n\tdirs = 1\n\tframes = 1\n# END DMI\n".toList with
    | .ok m => [m.rectOf 96 ("a".toList, 0) .west 0, m.rectOf 96 ("b".toList, 0) .north 0,
        m.rectOf 96 ("b".toList, 1) .north 0]
    | _ => []) = [some (some ⟨0, 32, 32, 32⟩), some (some ⟨32, 32, 32, 32⟩), some none] := by decide +kernel

end Verif.Dmi
