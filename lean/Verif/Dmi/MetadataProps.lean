import Verif.Dmi.Metadata
import Mathlib.Data.List.Count
import Mathlib.Data.List.Induction
import Mathlib.Tactic.Ring

/-!
# C29: icon state offsets, duplicate numbers and the name index
-/

namespace Verif.Dmi

set_option linter.unusedSectionVars false

variable {D : Type}

/-! ## Specification -/

/-- how many sprites a list of states takes in all -/
def spriteSum (l : List (State D)) : Nat := (l.map fun s => s.dirs.count * s.frames.num).sum

/-- how many states of a list are called `n` -/
def named (n : List Char) (l : List (State D)) : Nat := l.countP fun s => decide (s.name = n)

/-- every state begins where the ones before it end, and is numbered among the earlier ones of its name -/
def Tiled (l : List (State D)) : Prop :=
  ∀ (i : Nat) (s : State D), l[i]? = some s →
    s.offset = spriteSum (l.take i) ∧ s.dup = named s.name (l.take i)

/-- the index finds exactly the states, by name and number among their namesakes -/
def Indexed (l : List (State D)) (names : List Char × Nat → Option Nat) : Prop :=
  ∀ (n : List Char) (k i : Nat),
    names (n, k) = some i ↔ ∃ s, l[i]? = some s ∧ s.name = n ∧ named n (l.take i) = k

/-! ## Proof -/

theorem spriteSum_append (a b : List (State D)) : spriteSum (a ++ b) = spriteSum a + spriteSum b := by
  simp [spriteSum]

theorem named_append (n : List Char) (a b : List (State D)) : named n (a ++ b) = named n a + named n b := by
  simp [named]

theorem tiled_snoc {l : List (State D)} {x : State D} :
    Tiled (l ++ [x]) ↔ Tiled l ∧ x.offset = spriteSum l ∧ x.dup = named x.name l := by
  constructor
  · intro h
    refine ⟨fun i s hs => ?_, ?_⟩
    · have hi : i < l.length := (List.getElem?_eq_some_iff.1 hs).1
      have := h i s (by rw [List.getElem?_append_left hi]; exact hs)
      rwa [List.take_append_of_le_length (by omega)] at this
    · have := h l.length x (by simp)
      rwa [List.take_append_of_le_length (Nat.le_refl _), List.take_length] at this
  · rintro ⟨h, h1, h2⟩ i s hs
    by_cases hi : i < l.length
    · rw [List.getElem?_append_left hi] at hs
      rw [List.take_append_of_le_length (by omega)]
      exact h i s hs
    · have hl := (List.getElem?_eq_some_iff.1 hs).1
      simp only [List.length_append, List.length_cons, List.length_nil] at hl
      have hil : i = l.length := by omega
      subst hil
      simp only [List.getElem?_append_right (Nat.le_refl _), Nat.sub_self, List.getElem?_cons_zero,
        Option.some.injEq] at hs
      subst hs
      rw [List.take_append_of_le_length (Nat.le_refl _), List.take_length]
      exact ⟨h1, h2⟩

theorem named_take_lt {l : List (State D)} {i : Nat} {s : State D} (h : l[i]? = some s) :
    named s.name (l.take i) < named s.name l := by
  obtain ⟨hi, hs⟩ := List.getElem?_eq_some_iff.1 h
  conv_rhs => rw [← List.take_append_drop i l]
  rw [named_append, List.drop_eq_getElem_cons hi, hs]
  have : named s.name (s :: List.drop (i + 1) l) = named s.name (List.drop (i + 1) l) + 1 := by
    simp [named, List.countP_cons]
  omega

/-- what the parser keeps true between lines -/
structure PInv (p : PState D) : Prop where
  tiled : Tiled (p.meta'.states ++ p.cur.toList)
  sum : p.framesSoFar = spriteSum p.meta'.states
  dups : ∀ n, p.dups n = named n (p.meta'.states ++ p.cur.toList)
  indexed : Indexed (p.meta'.states ++ p.cur.toList) p.meta'.names

theorem indexed_congr {l : List (State D)} {x y : State D} {names : List Char × Nat → Option Nat}
    (hn : x.name = y.name) (h : Indexed (l ++ [x]) names) : Indexed (l ++ [y]) names := by
  intro n k i
  rw [h n k i]
  by_cases hi : i < l.length
  · rw [List.getElem?_append_left hi, List.getElem?_append_left hi,
      List.take_append_of_le_length (by omega), List.take_append_of_le_length (by omega)]
  · by_cases hil : i = l.length
    · subst hil
      simp [List.take_append_of_le_length, hn]
    · rw [List.getElem?_eq_none (by simp; omega), List.getElem?_eq_none (by simp; omega)]
      simp

theorem onCur_inv {p q : PState D} {f : State D → Option (State D)} (hp : PInv p)
    (hf : ∀ s s', f s = some s' → s'.name = s.name ∧ s'.offset = s.offset ∧ s'.dup = s.dup)
    (h : p.onCur f = some q) : PInv q := by
  unfold PState.onCur at h
  cases hc : p.cur with
  | none => rw [hc] at h; cases h
  | some s =>
    rw [hc] at h
    obtain ⟨s', hs', rfl⟩ := Option.map_eq_some_iff.1 h
    obtain ⟨h1, h2, h3⟩ := hf s s' hs'
    have ht := hp.tiled
    have hd := hp.dups
    have hi := hp.indexed
    simp only [hc, Option.toList_some] at ht hd hi
    refine ⟨?_, hp.sum, ?_, ?_⟩
    · simp only [Option.toList_some]
      rw [tiled_snoc] at ht ⊢
      rw [h1, h2, h3]
      exact ht
    · intro n
      simp only [Option.toList_some]
      rw [hd n, named_append, named_append]
      simp [named, List.countP_cons, h1]
    · simp only [Option.toList_some]
      exact indexed_congr h1.symm hi

theorem newState_inv {p q : PState D} {value : List Char} (hp : PInv p) (h : p.newState value = some q) :
    PInv q := by
  unfold PState.newState at h
  cases hu : unquote value with
  | none => rw [hu] at h; cases h
  | some name =>
    rw [hu] at h
    simp only at h
    split at h
    · cases h
    · have hall : p.flush.2 = p.meta'.states ++ p.cur.toList := by
        unfold PState.flush; cases p.cur <;> simp
      have hso : p.flush.1 = spriteSum (p.meta'.states ++ p.cur.toList) := by
        rw [spriteSum_append, ← hp.sum]
        unfold PState.flush; cases p.cur <;> simp [spriteSum, Nat.mul_comm]
      rw [hall, hso] at h
      have ht := hp.tiled
      have hd := hp.dups
      have hi := hp.indexed
      generalize hl : p.meta'.states ++ p.cur.toList = l at h ht hd hi
      have hvac : p.meta'.names (name, p.dups name) = none := by
        cases hv : p.meta'.names (name, p.dups name) with
        | none => rfl
        | some i =>
          obtain ⟨s, hs, hn, hk⟩ := (hi _ _ _).1 hv
          rw [hd name] at hk
          have := named_take_lt hs
          rw [hn] at this
          omega
      rw [hvac] at h
      simp only [Option.some.injEq] at h
      subst h
      refine ⟨?_, rfl, ?_, ?_⟩
      · simp only [Option.toList_some]
        rw [tiled_snoc]
        exact ⟨ht, rfl, hd name⟩
      · intro n
        simp only [Option.toList_some]
        rw [named_append]
        by_cases hn : n = name
        · subst hn
          simp [named, List.countP_cons] at *
          rw [hd n]
        · rw [if_neg hn, hd n]
          have : ¬ name = n := fun e => hn e.symm
          simp [named, List.countP_cons, this]
      · intro n k i
        simp only [Option.toList_some]
        by_cases hi' : i < l.length
        · rw [List.getElem?_append_left hi', List.take_append_of_le_length (by omega), ← hi n k i]
          by_cases hk : (n, k) = (name, p.dups name)
          · rw [if_pos hk, hk, hvac]
            simp only [Option.some.injEq, reduceCtorEq, iff_false]
            omega
          · rw [if_neg hk]
        · by_cases hil : i = l.length
          · subst hil
            rw [List.take_append_of_le_length (Nat.le_refl _), List.take_length,
              List.getElem?_append_right (Nat.le_refl _)]
            simp only [Nat.sub_self, List.getElem?_cons_zero, Option.some.injEq, exists_eq_left']
            by_cases hk : (n, k) = (name, p.dups name)
            · rw [if_pos hk]
              simp only [Prod.mk.injEq] at hk
              obtain ⟨rfl, rfl⟩ := hk
              simp [hd]
            · rw [if_neg hk]
              constructor
              · intro hh
                obtain ⟨s, hs, _⟩ := (hi _ _ _).1 hh
                exact absurd (List.getElem?_eq_some_iff.1 hs).1 (by omega)
              · rintro ⟨rfl, rfl⟩
                exact absurd (by rw [hd]) hk
          · rw [List.getElem?_eq_none (by simp; omega)]
            simp only [reduceCtorEq, false_and, exists_false, iff_false]
            intro hh
            split at hh
            · simp only [Option.some.injEq] at hh; omega
            · obtain ⟨s, hs, _⟩ := (hi _ _ _).1 hh
              exact absurd (List.getElem?_eq_some_iff.1 hs).1 (by omega)

variable (parseDelay : List Char → Option D) (isOne : D → Bool)

theorem entry_inv {p q : PState D} {key value : List Char} (hp : PInv p)
    (h : p.entry parseDelay isOne key value = some q) : PInv q := by
  unfold PState.entry at h
  split at h
  · obtain ⟨n, _, rfl⟩ := Option.map_eq_some_iff.1 h
    exact ⟨hp.tiled, hp.sum, hp.dups, hp.indexed⟩
  split at h
  · obtain ⟨n, _, rfl⟩ := Option.map_eq_some_iff.1 h
    exact ⟨hp.tiled, hp.sum, hp.dups, hp.indexed⟩
  split at h
  · exact newState_inv hp h
  split at h
  · refine onCur_inv hp (fun s s' hs => ?_) h
    unfold setDirs at hs
    split at hs
    · cases hs
    · split_ifs at hs <;> cases hs <;> exact ⟨rfl, rfl, rfl⟩
  split at h
  · refine onCur_inv hp (fun s s' hs => ?_) h
    unfold setFrames at hs
    split at hs
    · obtain ⟨n, _, rfl⟩ := Option.map_eq_some_iff.1 hs; exact ⟨rfl, rfl, rfl⟩
    · cases hs
  split at h
  · refine onCur_inv hp (fun s s' hs => ?_) h
    unfold setDelay at hs
    split at hs
    · cases hs
    · split at hs
      · cases hs; exact ⟨rfl, rfl, rfl⟩
      · cases hs; exact ⟨rfl, rfl, rfl⟩
      · cases hs
  split at h
  · refine onCur_inv hp (fun s s' hs => ?_) h
    obtain ⟨n, _, rfl⟩ := Option.map_eq_some_iff.1 hs; exact ⟨rfl, rfl, rfl⟩
  split at h
  · refine onCur_inv hp (fun s s' hs => ?_) h
    obtain ⟨n, _, rfl⟩ := Option.map_eq_some_iff.1 hs; exact ⟨rfl, rfl, rfl⟩
  split at h
  · cases h; exact hp
  split at h
  · refine onCur_inv hp (fun s s' hs => ?_) h
    obtain ⟨n, _, rfl⟩ := Option.map_eq_some_iff.1 hs; exact ⟨rfl, rfl, rfl⟩
  · cases h

theorem lines_inv {ls : List (List Char)} {p q : PState D} (hp : PInv p)
    (h : PState.lines parseDelay isOne p ls = some q) : PInv q := by
  induction ls generalizing p with
  | nil => unfold PState.lines at h; cases h; exact hp
  | cons l ls ih =>
    unfold PState.lines at h
    split at h
    · cases h; exact hp
    · split at h
      · cases h
      · rename_i p' hp'
        refine ih ?_ h
        unfold PState.line at hp'
        split at hp'
        · cases hp'
        · exact entry_inv parseDelay isOne hp hp'

theorem parse_inv {data : List Char} {m : Meta D} (h : parseMetadata parseDelay isOne data = .ok m) :
    Tiled m.states ∧ Indexed m.states m.names := by
  have h0 : Tiled ([] : List (State D)) := by intro i s hs; simp at hs
  have h1 : Indexed ([] : List (State D)) (fun _ => none) := by intro n k i; simp
  unfold parseMetadata at h
  split at h
  · cases h; exact ⟨h0, h1⟩
  · split at h
    · split at h
      · split at h
        · cases h
        · rename_i p hp
          cases h
          have := lines_inv parseDelay isOne (p := ⟨Meta.init, none, 0, fun _ => 0⟩)
            ⟨by simpa [Meta.init] using h0, by simp [Meta.init, spriteSum],
              by intro n; simp [Meta.init, named], by simpa [Meta.init] using h1⟩ hp
          exact ⟨this.tiled, this.indexed⟩
      · cases h
    · cases h

/-! ## C29 -/

/-- **C29**: in every metadata text the parser accepts, the states take consecutive ranges of sprites in
the order of the text, the first starting at 0 and each having directions times frames sprites; and the
duplicate number of a state is the number of earlier states of its name. -/
theorem offsets_tile {data : List Char} {m : Meta D} (h : parseMetadata parseDelay isOne data = .ok m)
    (i : Nat) (s : State D) (hs : m.states[i]? = some s) :
    s.offset = ((m.states.take i).map fun t => t.dirs.count * t.frames.num).sum
      ∧ s.dup = (m.states.take i).countP fun t => decide (t.name = s.name) :=
  (parse_inv parseDelay isOne h).1 i s hs

/-- **C29**: every sprite below the total belongs to exactly one state. -/
theorem sprite_owner {data : List Char} {m : Meta D} (h : parseMetadata parseDelay isOne data = .ok m)
    (n : Nat) : n < (m.states.map fun t => t.dirs.count * t.frames.num).sum ↔
      ∃ (i : Nat) (s : State D), m.states[i]? = some s ∧ s.offset ≤ n ∧ n < s.offset + s.dirs.count * s.frames.num := by
  obtain ⟨ht, _⟩ := parse_inv parseDelay isOne h
  change n < spriteSum m.states ↔ _
  generalize m.states = l at ht
  induction l using List.reverseRecOn with
  | nil => simp [spriteSum]
  | append_singleton l x ih =>
    obtain ⟨h1, h2, h3⟩ := tiled_snoc.1 ht
    have hsum : spriteSum (l ++ [x]) = spriteSum l + x.dirs.count * x.frames.num := by
      rw [spriteSum_append]; simp [spriteSum]
    rw [hsum]
    constructor
    · intro hn
      by_cases hl : n < spriteSum l
      · obtain ⟨i, s, hs, hb⟩ := (ih h1).1 hl
        exact ⟨i, s, by rw [List.getElem?_append_left (List.getElem?_eq_some_iff.1 hs).1]; exact hs, hb⟩
      · exact ⟨l.length, x, by simp, by omega, by omega⟩
    · rintro ⟨i, s, hs, ha, hb⟩
      by_cases hi : i < l.length
      · rw [List.getElem?_append_left hi] at hs
        have := (ih h1).2 ⟨i, s, hs, ha, hb⟩
        omega
      · have hl := (List.getElem?_eq_some_iff.1 hs).1
        simp only [List.length_append, List.length_cons, List.length_nil] at hl
        have hil : i = l.length := by omega
        subst hil
        simp only [List.getElem?_append_right (Nat.le_refl _), Nat.sub_self, List.getElem?_cons_zero,
          Option.some.injEq] at hs
        subst hs
        omega

theorem spriteSum_take_mono (l : List (State D)) {i j : Nat} (h : i ≤ j) :
    spriteSum (l.take i) ≤ spriteSum (l.take j) := by
  obtain ⟨k, rfl⟩ := Nat.le.dest h
  rw [List.take_add, spriteSum_append]
  omega

theorem spriteSum_take_succ {l : List (State D)} {i : Nat} {s : State D} (h : l[i]? = some s) :
    spriteSum (l.take (i + 1)) = spriteSum (l.take i) + s.dirs.count * s.frames.num := by
  obtain ⟨hi, hs⟩ := List.getElem?_eq_some_iff.1 h
  rw [List.take_add_one, h, spriteSum_append]
  simp [spriteSum]

/-- **C29**: the sprite ranges of two states do not meet. -/
theorem ranges_disjoint {data : List Char} {m : Meta D} (h : parseMetadata parseDelay isOne data = .ok m)
    {i j : Nat} {s t : State D} (hs : m.states[i]? = some s) (ht : m.states[j]? = some t) (hij : i < j) :
    s.offset + s.dirs.count * s.frames.num ≤ t.offset := by
  obtain ⟨hT, _⟩ := parse_inv parseDelay isOne h
  rw [(hT i s hs).1, (hT j t ht).1, ← spriteSum_take_succ hs]
  exact spriteSum_take_mono _ hij

/-- **C29**: the index maps a name and a number `k` to the `k`-th state of that name (from 0), and to
nothing if there are not that many. -/
theorem names_exact {data : List Char} {m : Meta D} (h : parseMetadata parseDelay isOne data = .ok m)
    (n : List Char) (k i : Nat) :
    m.names (n, k) = some i ↔ ∃ s, m.states[i]? = some s ∧ s.name = n
      ∧ ((m.states.take i).countP fun t => decide (t.name = n)) = k :=
  (parse_inv parseDelay isOne h).2 n k i

/-- **C29**: looking a state up never fails in the index, and gives the state of that name and number. -/
theorem getIconState_exact {data : List Char} {m : Meta D} (h : parseMetadata parseDelay isOne data = .ok m)
    (n : List Char) (k : Nat) :
    ∃ r, m.getIconState (n, k) = some r ∧
      ∀ s, r = some s ↔ s ∈ m.states ∧ s.name = n ∧ s.dup = k := by
  obtain ⟨hT, hI⟩ := parse_inv parseDelay isOne h
  unfold Meta.getIconState
  cases hn : m.names (n, k) with
  | none =>
    refine ⟨none, rfl, fun s => ?_⟩
    simp only [reduceCtorEq, false_iff, not_and]
    intro hm hname hd
    obtain ⟨i, hi⟩ := List.mem_iff_getElem?.1 hm
    have : m.names (n, k) = some i := (hI n k i).2 ⟨s, hi, hname, by
      have := (hT i s hi).2
      rw [hname] at this
      omega⟩
    rw [hn] at this
    cases this
  | some i =>
    obtain ⟨s, hs, hname, hk⟩ := (hI n k i).1 hn
    refine ⟨some s, by simp [hs], fun s' => ?_⟩
    constructor
    · intro e
      cases e
      exact ⟨List.mem_of_getElem? hs, hname, by rw [(hT i s hs).2, hname, hk]⟩
    · rintro ⟨hm, hname', hd⟩
      obtain ⟨j, hj⟩ := List.mem_iff_getElem?.1 hm
      have hjn : m.names (n, k) = some j := (hI n k j).2 ⟨s', hj, hname', by
        have := (hT j s' hj).2
        rw [hname'] at this
        omega⟩
      rw [hn] at hjn
      cases hjn
      rw [hs] at hj
      exact hj

/-- **C29**: every state can be found by its name and duplicate number. -/
theorem getIconState_finds {data : List Char} {m : Meta D} (h : parseMetadata parseDelay isOne data = .ok m)
    {s : State D} (hs : s ∈ m.states) : m.getIconState (s.name, s.dup) = some (some s) := by
  obtain ⟨r, hr, hx⟩ := getIconState_exact parseDelay isOne h s.name s.dup
  rw [hr, (hx s).2 ⟨hs, rfl, rfl⟩]

end Verif.Dmi
