import Verif.Dmdoc.IndexSpec
import Mathlib.Data.List.Nodup

/-!
# The paths on the way to a name, and the loops over the parts of a name
-/

namespace Verif.Dmdoc

/-- The prefixes of a name that are followed by a slash, and the name. -/
def cuts : Str → List Str
  | [] => [[]]
  | c :: s => if c = '/' then [] :: (cuts s).map (c :: ·) else (cuts s).map (c :: ·)

/-- The paths on the way to a name, shortest first. -/
def paths (full : Str) : List Str := (cuts full).filter fun p => !p.isEmpty

theorem cuts_slash (s : Str) : cuts ('/' :: s) = [] :: (cuts s).map ('/' :: ·) := by simp [cuts]

theorem mem_cuts (s p : Str) : p ∈ cuts s ↔ p = s ∨ ∃ q, s = p ++ '/' :: q := by
  induction s generalizing p with
  | nil => simp [cuts]
  | cons c s ih =>
    unfold cuts
    have hm : p ∈ (cuts s).map (c :: ·) ↔ p = c :: s ∨ (p ≠ [] ∧ ∃ q, c :: s = p ++ '/' :: q) := by
      simp only [List.mem_map]
      constructor
      · rintro ⟨a, ha, rfl⟩
        rcases (ih a).1 ha with rfl | ⟨q, hq⟩
        · exact .inl rfl
        · exact .inr ⟨by simp, q, by rw [hq]; rfl⟩
      · rintro (rfl | ⟨hne, q, hq⟩)
        · exact ⟨s, (ih s).2 (.inl rfl), rfl⟩
        · cases p with
          | nil => exact absurd rfl hne
          | cons d p =>
            simp only [List.cons_append, List.cons.injEq] at hq
            obtain ⟨rfl, hq⟩ := hq
            exact ⟨p, (ih p).2 (.inr ⟨q, hq⟩), rfl⟩
    split
    · rename_i hc
      subst hc
      rw [List.mem_cons, hm]
      constructor
      · rintro (rfl | rfl | ⟨_, h⟩)
        · exact .inr ⟨s, rfl⟩
        · exact .inl rfl
        · exact .inr h
      · rintro (rfl | h)
        · exact .inr (.inl rfl)
        · by_cases hp : p = []
          · exact .inl hp
          · exact .inr (.inr ⟨hp, h⟩)
    · rename_i hc
      rw [hm]
      constructor
      · rintro (rfl | ⟨_, h⟩)
        · exact .inl rfl
        · exact .inr h
      · rintro (rfl | ⟨q, h⟩)
        · exact .inl rfl
        · refine .inr ⟨?_, q, h⟩
          rintro rfl
          simp only [List.nil_append, List.cons.injEq] at h
          exact hc h.1

theorem mem_paths (full p : Str) : p ∈ paths full ↔ OnWay p full := by
  unfold paths OnWay
  rw [List.mem_filter, mem_cuts]
  constructor
  · rintro ⟨h1, h2⟩; exact ⟨by rintro rfl; simp at h2, h1⟩
  · rintro ⟨h1, h2⟩; exact ⟨h2, by simpa using h1⟩

theorem cuts_append (q t : Str) : cuts (q ++ '/' :: t) = cuts q ++ (cuts t).map fun u => q ++ '/' :: u := by
  induction q with
  | nil => simp [cuts]
  | cons c q ih =>
    rw [List.cons_append, cuts, cuts, ih]
    split
    · simp [List.map_append, List.map_map, Function.comp_def]
    · simp [List.map_append, List.map_map, Function.comp_def]

theorem cuts_nodup (s : Str) : (cuts s).Nodup := by
  induction s with
  | nil => simp [cuts]
  | cons c s ih =>
    have h1 : ((cuts s).map (c :: ·)).Nodup := List.Nodup.map (fun a b h => by simpa using h) ih
    unfold cuts
    split
    · exact List.nodup_cons.2 ⟨by simp, h1⟩
    · exact h1

theorem paths_nodup (s : Str) : (paths s).Nodup := (cuts_nodup s).filter _

/-- The paths on the way to a path on the way come first. -/
theorem paths_prefix {q x : Str} (h : OnWay q x) : paths q <+: paths x := by
  rcases h.2 with rfl | ⟨t, rfl⟩
  · exact List.prefix_refl _
  · unfold paths
    rw [cuts_append, List.filter_append]
    exact List.prefix_append _ _

theorem self_mem_paths {q : Str} (h : q ≠ []) : q ∈ paths q := (mem_paths q q).2 ⟨h, .inl rfl⟩

/-! ## The parts of a name -/

theorem pieces_ne (s : Str) : pieces s ≠ [] := by
  cases s with
  | nil => simp [pieces]
  | cons c s =>
    unfold pieces
    split
    · simp
    · split <;> simp

/-- The first part of a name, and what follows. -/
theorem pieces_cons {s b : Str} {bs : List Str} (h : pieces s = b :: bs) :
    '/' ∉ b ∧ ((bs = [] ∧ s = b) ∨ ∃ t, s = b ++ '/' :: t ∧ pieces t = bs) := by
  induction s generalizing b bs with
  | nil => simp only [pieces, List.cons.injEq] at h; obtain ⟨rfl, rfl⟩ := h; exact ⟨by simp, .inl ⟨rfl, rfl⟩⟩
  | cons c s ih =>
    unfold pieces at h
    split at h
    · rename_i hc
      subst hc
      simp only [List.cons.injEq] at h
      obtain ⟨rfl, h⟩ := h
      exact ⟨by simp, .inr ⟨s, rfl, h⟩⟩
    · rename_i hc
      cases hp : pieces s with
      | nil => exact absurd hp (pieces_ne s)
      | cons b' bs' =>
        rw [hp] at h
        simp only [List.cons.injEq] at h
        obtain ⟨rfl, rfl⟩ := h
        obtain ⟨h1, h2⟩ := ih hp
        refine ⟨?_, ?_⟩
        · rw [List.mem_cons]
          rintro (h | h)
          · exact hc h.symm
          · exact h1 h
        · rcases h2 with ⟨rfl, rfl⟩ | ⟨t, rfl, ht⟩
          · exact .inl ⟨rfl, rfl⟩
          · exact .inr ⟨t, rfl, ht⟩

/-- The paths the loops compute. -/
def scan (full : Str) : List Str → Nat → List Str
  | [], _ => []
  | b :: bs, len => full.take (len + b.length) :: scan full bs (len + (1 + b.length))

theorem scan_pieces (pre rest : Str) :
    scan (pre ++ rest) (pieces rest) pre.length = (cuts rest).map fun p => pre ++ p := by
  induction rest generalizing pre with
  | nil => simp [pieces, cuts, scan]
  | cons c s ih =>
    have ih' := ih (pre ++ [c])
    simp only [List.append_assoc, List.singleton_append, List.length_append, List.length_singleton] at ih'
    unfold pieces cuts
    split
    · rename_i hc
      subst hc
      simp only [scan, List.length_nil, Nat.add_zero, List.map_cons, List.append_nil, List.map_map]
      rw [ih', List.take_left]
      rfl
    · cases hp : pieces s with
      | nil => exact absurd hp (pieces_ne s)
      | cons b bs =>
        rw [hp] at ih'
        simp only [scan, List.length_cons, List.map_map] at ih' ⊢
        have e1 : pre.length + (b.length + 1) = pre.length + 1 + b.length := by omega
        have e2 : pre.length + (1 + (b.length + 1)) = pre.length + 1 + (1 + b.length) := by omega
        rw [e1, e2, ih']
        rfl

theorem scan_first (full : Str) : scan full (firstBits full).1 (firstBits full).2 = paths full := by
  unfold firstBits paths
  cases full with
  | nil => simp [pieces, cuts, scan]
  | cons c s =>
    have hne : ∀ l : List Str, (l.map (c :: ·)).filter (fun p => !p.isEmpty) = l.map (c :: ·) := by
      intro l
      rw [List.filter_eq_self]
      simp
    by_cases hc : c = '/'
    · subst hc
      have hp : pieces ('/' :: s) = [] :: pieces s := by simp [pieces]
      rw [hp, cuts_slash]
      simp only [List.filter_cons, List.isEmpty_nil, Bool.not_true, Bool.false_eq_true, if_false]
      rw [hne]
      exact scan_pieces ['/'] s
    · have hp : ∃ b bs, pieces (c :: s) = (c :: b) :: bs := by
        unfold pieces
        rw [if_neg hc]
        cases hq : pieces s with
        | nil => exact absurd hq (pieces_ne s)
        | cons b bs => exact ⟨b, bs, rfl⟩
      have h0 := scan_pieces [] (c :: s)
      obtain ⟨b, bs, hp⟩ := hp
      have hc' : cuts (c :: s) = (cuts s).map (c :: ·) := by simp [cuts, hc]
      rw [hp] at h0 ⊢
      simp only [List.nil_append, List.length_nil] at h0
      simp only []
      rw [h0, hc', hne]
      simp

/-- Where the loops are in a name. -/
def Pos (full : Str) (bs : List Str) (len : Nat) : Prop :=
  bs = [] ∨ ∃ pre rest, full = pre ++ rest ∧ pre.length = len ∧ pieces rest = bs ∧ (pre = [] ∨ ∃ q, pre = q ++ ['/'])

theorem pos_first (full : Str) : Pos full (firstBits full).1 (firstBits full).2 := by
  unfold firstBits
  cases full with
  | nil => exact .inl rfl
  | cons c s =>
    by_cases hc : c = '/'
    · subst hc
      have hp : pieces ('/' :: s) = [] :: pieces s := by simp [pieces]
      rw [hp]
      exact .inr ⟨['/'], s, rfl, rfl, rfl, .inr ⟨[], rfl⟩⟩
    · have hp : ∃ b bs, pieces (c :: s) = (c :: b) :: bs := by
        unfold pieces
        rw [if_neg hc]
        cases hq : pieces s with
        | nil => exact absurd hq (pieces_ne s)
        | cons b bs => exact ⟨b, bs, rfl⟩
      obtain ⟨b, bs, hp⟩ := hp
      rw [hp]
      exact .inr ⟨[], c :: s, rfl, rfl, hp, .inl rfl⟩

theorem pos_next {full b : Str} {bs : List Str} {len : Nat} (h : Pos full (b :: bs) len) :
    Pos full bs (len + (1 + b.length)) := by
  rcases h with h | ⟨pre, rest, rfl, rfl, h, _⟩
  · cases h
  · obtain ⟨_, ⟨rfl, rfl⟩ | ⟨t, rfl, ht⟩⟩ := pieces_cons h
    · exact .inl rfl
    · refine .inr ⟨pre ++ b ++ ['/'], t, by simp, ?_, ht, .inr ⟨_, rfl⟩⟩
      simp only [List.length_append, List.length_singleton]
      omega

/-- The path at a position. -/
theorem pos_take {full b : Str} {bs : List Str} {len : Nat} (h : Pos full (b :: bs) len) :
    ∃ pre, full.take len = pre ∧ full.take (len + b.length) = pre ++ b ∧ '/' ∉ b ∧ (pre = [] ∨ ∃ q, pre = q ++ ['/']) ∧
      ((bs = [] ∧ full = pre ++ b) ∨ ∃ t, full = pre ++ b ++ '/' :: t) := by
  rcases h with h | ⟨pre, rest, rfl, rfl, h, hp⟩
  · cases h
  · obtain ⟨hb, ⟨rfl, rfl⟩ | ⟨t, rfl, ht⟩⟩ := pieces_cons h
    · refine ⟨pre, by simp, ?_, hb, hp, .inl ⟨rfl, rfl⟩⟩
      rw [List.take_of_length_le (by simp)]
    · refine ⟨pre, by simp, ?_, hb, hp, .inr ⟨t, by simp⟩⟩
      rw [← List.append_assoc, ← List.length_append, List.take_left]

end Verif.Dmdoc
