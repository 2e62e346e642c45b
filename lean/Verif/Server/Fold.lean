import Verif.Docs.Model
import Verif.Langserver.Jrpc

/-!
# C89: folding ranges

Model of `FoldingRangeRequest` and `is_region_marker` of `crates/dm-langserver/src/main.rs`, the
specification and the proof.
-/

namespace Verif.Server

/-- `str::strip_prefix`. -/
def stripPrefix (p l : List Char) : Option (List Char) :=
  if p.isPrefixOf l then some (l.drop p.length) else none

/-- `is_region_marker` (main.rs:2587-2601). -/
def isRegionMarker (line marker : List Char) : Bool :=
  match stripPrefix ['/', '/'] line with
  | none => false
  | some comment =>
    match stripPrefix marker ((stripPrefix [' '] comment).getD comment) with
    | none => false
    | some [] => true
    | some (c :: _) => Langserver.isWhite c

/-- `"#region"`. -/
def regionWord : List Char := ['#', 'r', 'e', 'g', 'i', 'o', 'n']

/-- `"#endregion"`. -/
def endregionWord : List Char := ['#', 'e', 'n', 'd', 'r', 'e', 'g', 'i', 'o', 'n']

/-- What a line is for the loop. -/
inductive Kind
  | opens
  | closes
  | other
  deriving DecidableEq, Repr

/-- The tests of the loop (main.rs:2291-2296) on a line. -/
def kindOf (line : List Char) : Kind :=
  let line := line.dropWhile Langserver.isWhite
  if isRegionMarker line regionWord then .opens
  else if isRegionMarker line endregionWord then .closes
  else .other

/-- The loop (main.rs:2290-2307) on the kinds of the lines from number `n` on: the lines of open regions,
the last one first, and the ranges found so far. -/
def foldLoop : Nat → List Kind → List Nat → List (Nat × Nat) → List (Nat × Nat)
  | _, [], _, ranges => ranges
  | n, .opens :: ks, st, ranges => foldLoop (n + 1) ks (n :: st) ranges
  | n, .closes :: ks, [], ranges => foldLoop (n + 1) ks [] ranges
  | n, .closes :: ks, s :: st, ranges => foldLoop (n + 1) ks st (ranges ++ [(s, n)])
  | n, .other :: ks, st, ranges => foldLoop (n + 1) ks st ranges

/-- `FoldingRangeRequest` (main.rs:2281-2310) on the text of the document; line numbers do not overflow
`u32` here. -/
def foldingRanges (text : List Char) : List (Nat × Nat) :=
  foldLoop 0 ((Docs.lines text).map kindOf) [] []

/-! ### The specification -/

/-- A line that is a marker: white space, two slashes, perhaps a space, the word, and then nothing or white
space and anything. -/
def Marks (word : List Char) (line : List Char) : Prop :=
  ∃ ws sp rest, line = ws ++ '/' :: '/' :: (sp ++ (word ++ rest)) ∧
    (∀ c ∈ ws, Langserver.isWhite c = true) ∧ (sp = [] ∨ sp = [' ']) ∧
    (rest = [] ∨ ∃ c r, rest = c :: r ∧ Langserver.isWhite c = true)

/-- How many more regions these lines open than they close. -/
def height : List Kind → Int
  | [] => 0
  | .opens :: ks => height ks + 1
  | .closes :: ks => height ks - 1
  | .other :: ks => height ks

/-- All regions that are opened here are closed here, and nothing else is. -/
def Balanced (ks : List Kind) : Prop := height ks = 0 ∧ ∀ p, p <+: ks → 0 ≤ height p

/-- Lines `i` and `j` belong together. -/
def Matches (ks : List Kind) (i j : Nat) : Prop :=
  ∃ a b c, ks = a ++ Kind.opens :: (b ++ Kind.closes :: c) ∧ a.length = i ∧ j = i + 1 + b.length ∧
    Balanced b

/-! ### Markers -/

theorem stripPrefix_eq {p l r : List Char} : stripPrefix p l = some r ↔ l = p ++ r := by
  unfold stripPrefix
  constructor
  · intro h
    split at h
    · rename_i hp
      rw [List.isPrefixOf_iff_prefix] at hp
      obtain ⟨t, rfl⟩ := hp
      rw [List.drop_left] at h
      rw [Option.some.inj h]
    · cases h
  · rintro rfl
    rw [if_pos (by rw [List.isPrefixOf_iff_prefix]; exact ⟨r, rfl⟩), List.drop_left]

theorem stripPrefix_none {p l : List Char} : stripPrefix p l = none ↔ ∀ r, l ≠ p ++ r := by
  constructor
  · intro h r hr
    rw [stripPrefix_eq.2 hr] at h
    cases h
  · intro h
    cases hs : stripPrefix p l with
    | none => rfl
    | some r => exact absurd (stripPrefix_eq.1 hs) (h r)

theorem isRegionMarker_iff (line word : List Char) (hw : ∃ w, word = '#' :: w) :
    isRegionMarker line word = true ↔ ∃ sp rest, line = '/' :: '/' :: (sp ++ (word ++ rest)) ∧
      (sp = [] ∨ sp = [' ']) ∧
      (rest = [] ∨ ∃ c r, rest = c :: r ∧ Langserver.isWhite c = true) := by
  obtain ⟨w, rfl⟩ := hw
  unfold isRegionMarker
  constructor
  · intro h
    split at h
    · cases h
    · rename_i comment hc
      have hl := stripPrefix_eq.1 hc
      have : ∃ sp, (sp = [] ∨ sp = [' ']) ∧ comment = sp ++ (stripPrefix [' '] comment).getD comment := by
        cases hs : stripPrefix [' '] comment with
        | none => exact ⟨[], .inl rfl, rfl⟩
        | some r => exact ⟨[' '], .inr rfl, stripPrefix_eq.1 hs⟩
      obtain ⟨sp, hsp, hcm⟩ := this
      split at h
      · cases h
      · rename_i hm
        have hm := stripPrefix_eq.1 hm
        refine ⟨sp, [], ?_, hsp, .inl rfl⟩
        rw [hl, hcm, hm]
        rfl
      · rename_i c r hm
        have hm := stripPrefix_eq.1 hm
        refine ⟨sp, c :: r, ?_, hsp, .inr ⟨c, r, rfl, h⟩⟩
        rw [hl, hcm, hm]
        rfl
  · rintro ⟨sp, rest, rfl, hsp, hr⟩
    rw [show stripPrefix ['/', '/'] ('/' :: '/' :: (sp ++ ('#' :: w ++ rest))) =
      some (sp ++ ('#' :: w ++ rest)) from stripPrefix_eq.2 rfl]
    have hs : (stripPrefix [' '] (sp ++ ('#' :: w ++ rest))).getD (sp ++ ('#' :: w ++ rest)) =
        '#' :: w ++ rest := by
      rcases hsp with rfl | rfl
      · rw [stripPrefix_none.2]
        · rfl
        · intro r h
          simp at h
      · rw [stripPrefix_eq.2 rfl]
        rfl
    simp only [hs]
    rw [stripPrefix_eq.2 rfl]
    rcases hr with rfl | ⟨c, r, rfl, hc⟩
    · rfl
    · exact hc

theorem dropWhile_split {f : Char → Bool} {line tail : List Char} {c : Char} (hc : f c = false) :
    line.dropWhile f = c :: tail ↔ ∃ ws, line = ws ++ c :: tail ∧ ∀ x ∈ ws, f x = true := by
  constructor
  · intro h
    refine ⟨line.takeWhile f, ?_, ?_⟩
    · rw [← h, List.takeWhile_append_dropWhile]
    · intro x hx
      exact List.all_eq_true.1 List.all_takeWhile x hx
  · rintro ⟨ws, rfl, hw⟩
    induction ws with
    | nil => rw [List.nil_append, List.dropWhile_cons_of_neg (by simp [hc])]
    | cons x ws ih =>
      rw [List.cons_append, List.dropWhile_cons_of_pos (hw x List.mem_cons_self)]
      exact ih (fun y hy => hw y (List.mem_cons_of_mem _ hy))

theorem marker_line (line word : List Char) (hw : ∃ w, word = '#' :: w) :
    isRegionMarker (line.dropWhile Langserver.isWhite) word = true ↔ Marks word line := by
  rw [isRegionMarker_iff _ _ hw]
  constructor
  · rintro ⟨sp, rest, h, h1, h2⟩
    obtain ⟨ws, h3, h4⟩ := (dropWhile_split (by decide)).1 h
    exact ⟨ws, sp, rest, h3, h4, h1, h2⟩
  · rintro ⟨ws, sp, rest, h3, h4, h1, h2⟩
    exact ⟨sp, rest, (dropWhile_split (by decide)).2 ⟨ws, h3, h4⟩, h1, h2⟩

/-- A line does not both open and close a region. -/
theorem marks_one {line : List Char} (h1 : Marks regionWord line)
    (h2 : Marks endregionWord line) : False := by
  have e1 := (marker_line line _ ⟨_, rfl⟩).2 h1
  have e2 := (marker_line line _ ⟨_, rfl⟩).2 h2
  obtain ⟨s1, r1, hl1, hs1, -⟩ := (isRegionMarker_iff _ _ ⟨_, rfl⟩).1 e1
  obtain ⟨s2, r2, hl2, hs2, -⟩ := (isRegionMarker_iff _ _ ⟨_, rfl⟩).1 e2
  rw [hl1] at hl2
  rcases hs1 with rfl | rfl <;> rcases hs2 with rfl | rfl <;>
    simp [regionWord, endregionWord] at hl2

theorem kindOf_opens (line : List Char) : kindOf line = .opens ↔ Marks regionWord line := by
  rw [← marker_line line regionWord ⟨_, rfl⟩]
  unfold kindOf
  constructor
  · intro h
    by_cases h1 : isRegionMarker (line.dropWhile Langserver.isWhite) regionWord = true
    · exact h1
    · simp only [if_neg h1] at h
      split at h <;> cases h
  · intro h
    simp only [if_pos h]

theorem kindOf_closes (line : List Char) :
    kindOf line = .closes ↔ Marks endregionWord line := by
  constructor
  · intro h
    rw [← marker_line line endregionWord ⟨_, rfl⟩]
    unfold kindOf at h
    by_cases h1 : isRegionMarker (line.dropWhile Langserver.isWhite) regionWord = true
    · simp only [if_pos h1] at h
      cases h
    · simp only [if_neg h1] at h
      split at h
      · assumption
      · cases h
  · intro h
    have h1 : ¬ isRegionMarker (line.dropWhile Langserver.isWhite) regionWord = true := by
      intro h1
      exact marks_one ((marker_line line _ ⟨_, rfl⟩).1 h1) h
    have h2 := (marker_line line endregionWord ⟨_, rfl⟩).2 h
    unfold kindOf
    simp only [if_neg h1, if_pos h2]

/-! ### Matching -/

theorem height_append (a b : List Kind) : height (a ++ b) = height a + height b := by
  induction a with
  | nil => simp [height]
  | cons k a ih => cases k <;> simp only [List.cons_append, height, ih] <;> omega

theorem balanced_nil : Balanced [] := ⟨rfl, fun p hp => by rw [List.prefix_nil.1 hp]; exact Int.le_refl _⟩

theorem prefix_append_cases {p a b : List Kind} (h : p <+: a ++ b) :
    p <+: a ∨ ∃ q, p = a ++ q ∧ q <+: b := by
  obtain ⟨t, ht⟩ := h
  rcases List.append_eq_append_iff.1 ht with ⟨x, h1, h2⟩ | ⟨x, h1, h2⟩
  · exact .inl ⟨x, h1.symm⟩
  · exact .inr ⟨x, h1, ⟨t, h2.symm⟩⟩

theorem balanced_append {a b : List Kind} (ha : Balanced a) (hb : Balanced b) : Balanced (a ++ b) := by
  refine ⟨by rw [height_append, ha.1, hb.1]; rfl, fun p hp => ?_⟩
  rcases prefix_append_cases hp with hp | ⟨q, rfl, hq⟩
  · exact ha.2 p hp
  · rw [height_append, ha.1]
    have := hb.2 q hq
    omega

theorem balanced_other : Balanced [.other] := by
  refine ⟨rfl, fun p hp => ?_⟩
  obtain ⟨t, ht⟩ := hp
  match p, ht with
  | [], _ => exact Int.le_refl _
  | x :: p, ht =>
    injection ht with h1 h2
    have : p = [] := (List.append_eq_nil_iff.1 h2).1
    subst this
    subst h1
    exact Int.le_refl _

theorem balanced_wrap {b : List Kind} (hb : Balanced b) : Balanced (.opens :: (b ++ [.closes])) := by
  refine ⟨by simp only [height, height_append, hb.1]; rfl, fun p hp => ?_⟩
  rw [show Kind.opens :: (b ++ [Kind.closes]) = [Kind.opens] ++ (b ++ [Kind.closes]) from rfl] at hp
  rcases prefix_append_cases hp with hp | ⟨q, rfl, hq⟩
  · obtain ⟨t, ht⟩ := hp
    match p, ht with
    | [], _ => exact Int.le_refl _
    | x :: p, ht =>
      injection ht with h1 h2
      have : p = [] := (List.append_eq_nil_iff.1 h2).1
      subst this
      subst h1
      decide
  · rw [height_append]
    rcases prefix_append_cases hq with hq | ⟨q, rfl, hq'⟩
    · have := hb.2 q hq
      simp only [height]
      omega
    · rw [height_append, hb.1]
      clear hp hq
      obtain ⟨t, ht⟩ := hq'
      match q, ht with
      | [], _ => decide
      | x :: p, ht =>
        injection ht with h1 h2
        have : p = [] := (List.append_eq_nil_iff.1 h2).1
        subst this
        subst h1
        decide

/-- The open regions after some lines. -/
inductive Open : List Kind → List Nat → Prop
  | nil (p) : (∀ s, s <:+ p → height s ≤ 0) → Open p []
  | push (a st b) : Open a st → Balanced b → Open (a ++ .opens :: b) (a.length :: st)

theorem suffix_append_cases {s a b : List Kind} (h : s <:+ a ++ b) :
    s <:+ b ∨ ∃ q, s = q ++ b ∧ q <:+ a := by
  obtain ⟨t, ht⟩ := h
  rcases List.append_eq_append_iff.1 ht with ⟨x, h1, h2⟩ | ⟨x, h1, h2⟩
  · exact .inr ⟨x, h2, ⟨t, h1.symm⟩⟩
  · exact .inl ⟨x, h2.symm⟩

theorem open_append {p w : List Kind} {st : List Nat} (h : Open p st) (hw : Balanced w) :
    Open (p ++ w) st := by
  cases h with
  | nil _ hp =>
    refine .nil _ (fun s hs => ?_)
    rcases suffix_append_cases hs with ⟨t, rfl⟩ | ⟨q, rfl, hq⟩
    · have h1 := hw.1
      have h2 := hw.2 t ⟨s, rfl⟩
      rw [height_append] at h1
      omega
    · rw [height_append, hw.1]
      have := hp q hq
      omega
  | push a st b ha hb =>
    rw [List.append_assoc, List.cons_append]
    exact .push a st (b ++ w) ha (balanced_append hb hw)

theorem open_close {p : List Kind} (h : Open p []) : Open (p ++ [.closes]) [] := by
  cases h with
  | nil _ hp =>
    refine .nil _ (fun s hs => ?_)
    rcases suffix_append_cases hs with ⟨t, ht⟩ | ⟨q, rfl, hq⟩
    · match t, ht with
      | [], ht => rw [show s = [Kind.closes] from ht]; decide
      | x :: t, ht =>
        injection ht with h1 h2
        rw [(List.append_eq_nil_iff.1 h2).2]
        exact Int.le_refl _
    · rw [height_append]
      have := hp q hq
      simp only [height]
      omega

theorem open_pop {p : List Kind} {n : Nat} {st : List Nat} (h : Open p (n :: st)) :
    Open (p ++ [.closes]) st ∧ ∃ a b, p = a ++ .opens :: b ∧ a.length = n ∧ Balanced b := by
  cases h with
  | push a _ b ha hb =>
    refine ⟨?_, a, b, rfl, rfl, hb⟩
    rw [List.append_assoc, List.cons_append]
    exact open_append ha (balanced_wrap hb)

/-- An opening line and balanced lines after it can be found in one way. -/
theorem opens_unique {a b a' b' : List Kind} (h : a ++ .opens :: b = a' ++ .opens :: b')
    (hb : Balanced b) (hb' : Balanced b') : a = a' := by
  rcases List.append_eq_append_iff.1 h with ⟨x, h1, h2⟩ | ⟨x, h1, h2⟩
  · cases x with
    | nil => rw [h1, List.append_nil]
    | cons y x =>
      injection h2 with _ h2
      have e := congrArg height h2
      rw [List.append_eq, height_append] at e
      simp only [height] at e
      have := hb.2 x ⟨_, h2.symm⟩
      rw [hb.1, hb'.1] at e
      omega
  · cases x with
    | nil => rw [h1, List.append_nil]
    | cons y x =>
      injection h2 with _ h2
      have e := congrArg height h2
      rw [List.append_eq, height_append] at e
      simp only [height] at e
      have := hb'.2 x ⟨_, h2.symm⟩
      rw [hb.1, hb'.1] at e
      omega

theorem open_head {a b : List Kind} {st : List Nat} (h : Open (a ++ .opens :: b) st) (hb : Balanced b) :
    ∃ st', st = a.length :: st' := by
  generalize hp : a ++ Kind.opens :: b = p at h
  cases h with
  | nil _ hs =>
    have := hs (.opens :: b) ⟨a, hp⟩
    simp only [height, hb.1] at this
    omega
  | push a' st' b' _ hb' => exact ⟨st', by rw [opens_unique hp hb hb']⟩

/-- What the loop does. -/
theorem foldLoop_eq (ks : List Kind) : ∀ (p : List Kind) (st : List Nat) (rs : List (Nat × Nat)),
    Open p st → (∀ i j, (i, j) ∈ rs ↔ Matches p i j) →
    rs.Pairwise (fun x y => x.2 < y.2) → (∀ x ∈ rs, x.2 < p.length) →
    (∀ i j, (i, j) ∈ foldLoop p.length ks st rs ↔ Matches (p ++ ks) i j) ∧
    (foldLoop p.length ks st rs).Pairwise (fun x y => x.2 < y.2) := by
  have other : ∀ (p : List Kind) (k : Kind), k ≠ .closes → ∀ i j,
      Matches (p ++ [k]) i j ↔ Matches p i j := by
    intro p k hk i j
    constructor
    · rintro ⟨a, b, c, h1, h2, h3, h4⟩
      rcases List.eq_nil_or_concat c with rfl | ⟨c', x, rfl⟩
      · have : p ++ [k] = (a ++ Kind.opens :: b) ++ [Kind.closes] := by simpa using h1
        obtain ⟨-, h⟩ := List.append_inj' this rfl
        exact absurd (List.singleton_inj.1 h) hk
      · have : p ++ [k] = (a ++ Kind.opens :: (b ++ Kind.closes :: c')) ++ [x] := by simpa using h1
        obtain ⟨h, -⟩ := List.append_inj' this rfl
        exact ⟨a, b, c', h, h2, h3, h4⟩
    · rintro ⟨a, b, c, rfl, h2, h3, h4⟩
      exact ⟨a, b, c ++ [k], by simp, h2, h3, h4⟩
  have closes : ∀ (p : List Kind) (i j : Nat), Matches (p ++ [.closes]) i j ↔ Matches p i j ∨
      (j = p.length ∧ ∃ a b, p = a ++ .opens :: b ∧ a.length = i ∧ Balanced b) := by
    intro p i j
    constructor
    · rintro ⟨a, b, c, h1, h2, h3, h4⟩
      rcases List.eq_nil_or_concat c with rfl | ⟨c', x, rfl⟩
      · have : p ++ [Kind.closes] = (a ++ Kind.opens :: b) ++ [Kind.closes] := by simpa using h1
        obtain ⟨h, -⟩ := List.append_inj' this rfl
        refine .inr ⟨?_, a, b, h, h2, h4⟩
        rw [h, h3, ← h2]
        simp only [List.length_append, List.length_cons]
        omega
      · have : p ++ [Kind.closes] = (a ++ Kind.opens :: (b ++ Kind.closes :: c')) ++ [x] := by
          simpa using h1
        obtain ⟨h, -⟩ := List.append_inj' this rfl
        exact .inl ⟨a, b, c', h, h2, h3, h4⟩
    · rintro (⟨a, b, c, rfl, h2, h3, h4⟩ | ⟨hj, a, b, rfl, h2, h4⟩)
      · exact ⟨a, b, c ++ [.closes], by simp, h2, h3, h4⟩
      · refine ⟨a, b, [], by simp, h2, ?_, h4⟩
        rw [hj, ← h2]
        simp only [List.length_append, List.length_cons]
        omega
  have grow : ∀ (p : List Kind) (k : Kind) (rs : List (Nat × Nat)), (∀ x ∈ rs, x.2 < p.length) →
      ∀ x ∈ rs, x.2 < (p ++ [k]).length := by
    intro p k rs h x hx
    have := h x hx
    rw [List.length_append]
    exact Nat.lt_of_lt_of_le this (Nat.le_add_right _ _)
  induction ks with
  | nil =>
    intro p st rs _ h1 h2 _
    rw [List.append_nil]
    exact ⟨h1, h2⟩
  | cons k ks ih =>
    intro p st rs ho h1 h2 h3
    have hl : p.length + 1 = (p ++ [k]).length := by simp
    have happ : p ++ k :: ks = (p ++ [k]) ++ ks := by simp
    cases k with
    | other =>
      rw [foldLoop, hl, happ]
      refine ih _ _ _ (open_append ho balanced_other) (fun i j => ?_) h2 (grow p _ rs h3)
      rw [other p _ (by decide), h1]
    | opens =>
      rw [foldLoop, hl, happ]
      refine ih _ _ _ (.push p st [] ho balanced_nil) (fun i j => ?_) h2 (grow p _ rs h3)
      rw [other p _ (by decide), h1]
    | closes =>
      cases st with
      | nil =>
        rw [foldLoop, hl, happ]
        refine ih _ _ _ (open_close ho) (fun i j => ?_) h2 (grow p _ rs h3)
        rw [closes, h1]
        refine ⟨.inl, fun h => h.elim id ?_⟩
        rintro ⟨-, a, b, rfl, -, hb⟩
        obtain ⟨st', h⟩ := open_head ho hb
        cases h
      | cons s st =>
        obtain ⟨ho', a, b, hp, ha, hb⟩ := open_pop ho
        rw [foldLoop, hl, happ]
        refine ih _ _ _ ho' (fun i j => ?_) ?_ ?_
        · rw [closes, ← h1, List.mem_append, List.mem_singleton, Prod.mk.injEq]
          refine or_congr Iff.rfl ⟨?_, ?_⟩
          · rintro ⟨rfl, rfl⟩
            exact ⟨rfl, a, b, hp, ha, hb⟩
          · rintro ⟨rfl, a', b', hp', rfl, hb'⟩
            rw [hp] at hp'
            rw [← opens_unique hp' hb hb', ha]
            exact ⟨rfl, rfl⟩
        · rw [List.pairwise_append]
          refine ⟨h2, by simp, fun x hx y hy => ?_⟩
          rw [List.mem_singleton.1 hy]
          exact h3 x hx
        · intro x hx
          rcases List.mem_append.1 hx with hx | hx
          · exact grow p _ rs h3 x hx
          · rw [List.mem_singleton.1 hx, List.length_append]
            exact Nat.lt_succ_self _

/-- **C89**: the folding ranges of a document are exactly the pairs of a line that opens a region and the
line that closes it: between them all regions are closed that are opened, and no others; markers
without a partner are ignored. -/
theorem foldingRanges_iff (text : List Char) (i j : Nat) :
    (i, j) ∈ foldingRanges text ↔ ∃ before inner after x y,
      Docs.lines text = before ++ x :: (inner ++ y :: after) ∧ before.length = i ∧
      j = i + 1 + inner.length ∧ Marks regionWord x ∧ Marks endregionWord y ∧
      Balanced (inner.map kindOf) := by
  have h := (foldLoop_eq ((Docs.lines text).map kindOf) [] [] []
    (.nil _ (fun s hs => by rw [List.suffix_nil.1 hs]; exact Int.le_refl _))
    (fun i j => ⟨nofun, fun h => by
      obtain ⟨a, b, c, h, -⟩ := h
      have := congrArg List.length h
      simp at this⟩) List.Pairwise.nil (by simp)).1 i j
  have hf : foldingRanges text = foldLoop ([] : List Kind).length ((Docs.lines text).map kindOf) [] [] := rfl
  rw [hf, h, List.nil_append]
  clear h hf
  constructor
  · rintro ⟨a, b, c, h, rfl, rfl, hb⟩
    obtain ⟨a', l1, e1, rfl, h1⟩ := List.map_eq_append_iff.1 h
    obtain ⟨x, l2, rfl, hx, h2⟩ := List.map_eq_cons_iff.1 h1
    obtain ⟨b', l3, rfl, rfl, h3⟩ := List.map_eq_append_iff.1 h2
    obtain ⟨y, c', rfl, hy, -⟩ := List.map_eq_cons_iff.1 h3
    exact ⟨a', b', c', x, y, e1, by simp, by simp, (kindOf_opens x).1 hx, (kindOf_closes y).1 hy, hb⟩
  · rintro ⟨a, b, c, x, y, h, rfl, rfl, hx, hy, hb⟩
    refine ⟨a.map kindOf, b.map kindOf, c.map kindOf, ?_, by simp, by simp, hb⟩
    rw [h]
    simp [(kindOf_opens x).2 hx, (kindOf_closes y).2 hy]

/-- **C89**: they come in the order of their last lines, each of which ends one range only. -/
theorem foldingRanges_sorted (text : List Char) :
    (foldingRanges text).Pairwise (fun x y => x.2 < y.2) :=
  (foldLoop_eq ((Docs.lines text).map kindOf) [] [] []
    (.nil _ (fun s hs => by rw [List.suffix_nil.1 hs]; exact Int.le_refl _))
    (fun i j => ⟨nofun, fun h => by
      obtain ⟨a, b, c, h, -⟩ := h
      have := congrArg List.length h
      simp at this⟩) List.Pairwise.nil (by simp)).2

/-- **C89**: ranges are one inside the other or apart. -/
theorem foldingRanges_nested (text : List Char) (i j k l : Nat) (h1 : (i, j) ∈ foldingRanges text)
    (h2 : (k, l) ∈ foldingRanges text) (hik : i < k) : j < k ∨ l < j := by
  obtain ⟨a, b, c, x, y, he, rfl, rfl, hx, hy, hb⟩ := (foldingRanges_iff text i j).1 h1
  obtain ⟨a', b', c', x', y', he', rfl, rfl, hx', hy', hb'⟩ := (foldingRanges_iff text k l).1 h2
  have hkx' := (kindOf_opens x').2 hx'
  have hky := (kindOf_closes y).2 hy
  refine Classical.byContradiction (fun hn => ?_)
  rw [not_or, Nat.not_lt, Nat.not_lt] at hn
  obtain ⟨h3, h4⟩ := hn
  -- the second opening line is within the first range
  rw [he] at he'
  rcases List.append_eq_append_iff.1 he' with ⟨u, hu1, hu2⟩ | ⟨u, hu1, hu2⟩
  · cases u with
    | nil => rw [hu1] at hik; simp at hik
    | cons z u =>
      injection hu2 with _ hu2
      rw [List.append_eq] at hu2
      have hlen : a'.length = a.length + 1 + u.length := by
        rw [hu1, List.length_append, List.length_cons]; omega
      rcases List.append_eq_append_iff.1 hu2 with ⟨v, hv1, hv2⟩ | ⟨v, hv1, hv2⟩
      · have : b.length = u.length := by
          have := congrArg List.length hv1
          rw [List.length_append] at this
          omega
        have hv : v = [] := by
          have := congrArg List.length hv1
          rw [List.length_append] at this
          exact List.length_eq_zero_iff.1 (by omega)
        subst hv
        injection hv2 with hv2 _
        rw [hv2, hkx'] at hky
        cases hky
      · cases v with
        | nil =>
          injection hv2 with hv2 _
          rw [hv2, hky] at hkx'
          cases hkx'
        | cons w v =>
          injection hv2 with hw hv2
          rw [List.append_eq] at hv2
          -- `b = u ++ w :: v`, and `b'` goes on to the end of the first range at least
          have hbl : b.length = u.length + 1 + v.length := by
            rw [hv1, List.length_append, List.length_cons]; omega
          have hv3 : v.length ≤ b'.length := by omega
          rcases List.append_eq_append_iff.1 hv2 with ⟨t, ht1, ht2⟩ | ⟨t, ht1, ht2⟩
          · have ht : t = [] := by
              have := congrArg List.length ht1
              rw [List.length_append] at this
              exact List.length_eq_zero_iff.1 (by omega)
            subst ht
            rw [List.append_nil] at ht1
            have e := hb.1
            rw [hv1, ← hw, List.map_append, List.map_cons, hkx', height_append, ht1] at e
            simp only [height, hb'.1] at e
            have := hb.2 (u.map kindOf) ⟨(w :: v).map kindOf, by rw [hv1, List.map_append]⟩
            omega
          · have e := hb.1
            rw [hv1, ← hw, List.map_append, List.map_cons, hkx', height_append] at e
            simp only [height] at e
            have h5 := hb.2 (u.map kindOf) ⟨(w :: v).map kindOf, by rw [hv1, List.map_append]⟩
            have h6 := hb'.2 (v.map kindOf) ⟨t.map kindOf, by rw [ht1, List.map_append]⟩
            omega
  · have := congrArg List.length hu1
    rw [List.length_append] at this
    omega

/-! ### Examples -/

/-- A document. -/
def foldDoc : String :=
  "// #region Outer\n\t//#region\nx = 1\n  // #endregion\n//  #region\n// #regional\n// #endregion\n// #endregion\n// #region"

/-- Two regions; two spaces are too many, `#regional` is another word, the `#endregion` at the end and the
last `#region` have no partner. -/
example : foldingRanges foldDoc.toList = [(1, 3), (0, 6)] := by decide +kernel

/-- The hypotheses of `foldingRanges_nested`. -/
example : (0, 6) ∈ foldingRanges foldDoc.toList ∧ (1, 3) ∈ foldingRanges foldDoc.toList := by
  decide +kernel

end Verif.Server
