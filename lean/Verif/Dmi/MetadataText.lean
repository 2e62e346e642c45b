import Verif.Dmi.MetadataProps
import Verif.Langserver.JrpcProps

/-!
# C29: the parser reads back what a well-formed description says
-/

namespace Verif.Dmi

open Verif.Langserver (trim isWhite parseDigits stripPlus digit_facts parseDigits_eq)

set_option linter.unusedSectionVars false

variable {D : Type}

/-! ## Specification: what BYOND writes -/

/-- one state of a description -/
structure Desc where
  name : List Char
  dirs : Dirs
  frames : Nat
  /-- the texts of the delays; empty if there is no delay line -/
  delays : List (List Char)
  loop : Nat
  rewind : Bool
  movement : Bool
deriving DecidableEq

/-- texts joined by commas -/
def commas : List (List Char) → List Char
  | [] => []
  | [t] => t
  | t :: u :: r => t ++ ',' :: commas (u :: r)

/-- the lines of a state -/
def Desc.lines (d : Desc) : List (List Char) :=
  [ "state = \"".toList ++ d.name ++ "\"".toList,
    "\tdirs = ".toList ++ Nat.toDigits 10 d.dirs.count,
    "\tframes = ".toList ++ Nat.toDigits 10 d.frames ]
  ++ (if d.delays = [] then [] else ["\tdelay = ".toList ++ commas d.delays])
  ++ (if d.loop = 0 then [] else ["\tloop = ".toList ++ Nat.toDigits 10 d.loop])
  ++ (if d.rewind then ["\trewind = 1".toList] else [])
  ++ (if d.movement then ["\tmovement = 1".toList] else [])

/-- the text of a whole description -/
def renderMeta (w h : Nat) (ds : List Desc) : List Char :=
  ([ "# BEGIN DMI".toList, "version = 4.0".toList,
     "\twidth = ".toList ++ Nat.toDigits 10 w, "\theight = ".toList ++ Nat.toDigits 10 h ]
    ++ ds.flatMap Desc.lines ++ ["# END DMI".toList]).flatMap (· ++ ['\n'])

variable (parseDelay : List Char → Option D) (isOne : D → Bool)

/-- what a description must meet: names without line feeds, quotes and backslashes, numbers that fit their
types, delays that are numbers, without commas and white space -/
structure Desc.OK (d : Desc) : Prop where
  name : ∀ c ∈ d.name, c ≠ '\n' ∧ c ≠ '"' ∧ c ≠ '\\'
  frames : d.frames < 2 ^ 64
  loop : d.loop < 2 ^ 32
  delays : ∀ t ∈ d.delays, t ≠ [] ∧ (∀ c ∈ t, c ≠ ',' ∧ isWhite c = false) ∧ (parseDelay t).isSome

/-- the frames a description says: every frame lasts one tick, or the delays of the frames -/
def Desc.says (d : Desc) : Frames D :=
  if d.delays = [] then .count d.frames
  else if (d.delays.filterMap parseDelay).take d.frames |>.all isOne then .count d.frames
  else .delays ((d.delays.filterMap parseDelay).take d.frames)

/-- state `s` is the one `d` describes -/
def Describes (d : Desc) (s : State D) : Prop :=
  s.name = d.name ∧ s.dirs = d.dirs ∧ s.loop = d.loop ∧ s.rewind = d.rewind ∧ s.movement = d.movement
    ∧ s.frames = d.says parseDelay isOne

/-! ## Lines, fields and numbers -/

theorem linesOf_line {l : List Char} (t cur : List Char) (h : '\n' ∉ l) :
    linesOf cur (l ++ t) = linesOf (l.reverse ++ cur) t := by
  induction l generalizing cur with
  | nil => rfl
  | cons c r ih =>
    simp only [List.mem_cons, not_or] at h
    rw [List.cons_append, linesOf, if_neg (fun e => h.1 e.symm), ih (c :: cur) h.2]
    simp

theorem linesOf_flat (ls : List (List Char)) (h : ∀ l ∈ ls, '\n' ∉ l ∧ l.getLast? ≠ some '\r') :
    linesOf [] (ls.flatMap (· ++ ['\n'])) = ls := by
  induction ls with
  | nil => rfl
  | cons l ls ih =>
    obtain ⟨h1, h2⟩ := h l (by simp)
    rw [List.flatMap_cons, List.append_assoc, linesOf_line _ _ h1, List.append_nil, List.singleton_append,
      linesOf, if_pos rfl, ih (fun l' hl => h l' (by simp [hl]))]
    congr 1
    cases hr : l.reverse with
    | nil =>
      have : l = [] := by simpa using hr
      simp [stripCr, this]
    | cons d r =>
      have hl : l = r.reverse ++ [d] := by
        have := congrArg List.reverse hr
        simpa using this
      have hd : d ≠ '\r' := by
        rintro rfl
        apply h2
        rw [hl]; simp
      simp only [stripCr, if_neg hd]
      rw [hl]; simp

theorem splitEq_key {k v : List Char} (h : ' ' ∉ k) : splitEq (k ++ ' ' :: '=' :: ' ' :: v) = some (k, v) := by
  induction k with
  | nil => rw [List.nil_append, splitEq, if_pos (by simp)]; rfl
  | cons c t ih =>
    simp only [List.mem_cons, not_or] at h
    rw [List.cons_append, splitEq, if_neg, ih h.2]
    · rfl
    · simp only [List.isPrefixOf_cons_cons, Bool.and_eq_true, beq_iff_eq, not_and]
      intro e; exact absurd e h.1

theorem trim_core {pre core : List Char} (hp : ∀ c ∈ pre, isWhite c = true)
    (h1 : ∀ c, core.head? = some c → isWhite c = false)
    (h2 : ∀ c, core.getLast? = some c → isWhite c = false) : trim (pre ++ core) = core := by
  have hd : (pre ++ core).dropWhile isWhite = core := by
    induction pre with
    | nil =>
      cases core with
      | nil => rfl
      | cons c t => rw [List.nil_append, List.dropWhile_cons, if_neg (by simp [h1 c rfl])]
    | cons c t ih =>
      rw [List.cons_append, List.dropWhile_cons, if_pos (hp c (by simp))]
      exact ih fun c hc => hp c (by simp [hc])
  unfold trim
  rw [hd]
  cases hr : core.reverse with
  | nil =>
    have : core = [] := by simpa using hr
    simp [this]
  | cons c t =>
    have hc : core = t.reverse ++ [c] := by
      have := congrArg List.reverse hr
      simpa using this
    rw [List.dropWhile_cons, if_neg (by simp [h2 c (by rw [hc]; simp)]), hc]
    simp

theorem parseUInt_digits {bound n : Nat} (h : n < bound) : parseUInt bound (Nat.toDigits 10 n) = some n := by
  have hne : Nat.toDigits 10 n ≠ [] := Nat.toDigits_ne_nil
  have hm : stripPlus (Nat.toDigits 10 n) = Nat.toDigits 10 n := by
    cases e : Nat.toDigits 10 n with
    | nil => rfl
    | cons c t =>
      have := (digit_facts (n := n) (c := c) (by rw [e]; simp)).2.2.2.2.2
      simp [stripPlus, this]
  unfold parseUInt
  rw [hm]
  simp only [if_neg hne]
  rw [parseDigits_eq _ (fun c hc => (digit_facts hc).1), Nat.ofDigitChars_toDigits (by decide) (by decide)]
  simp [h]

theorem splitComma_none {l : List Char} (h : ',' ∉ l) : splitComma l = [l] := by
  induction l with
  | nil => rfl
  | cons c t ih =>
    simp only [List.mem_cons, not_or] at h
    rw [splitComma, if_neg (fun e => h.1 e.symm), ih h.2]

theorem splitComma_append {a : List Char} (b : List Char) (h : ',' ∉ a) :
    splitComma (a ++ ',' :: b) = a :: splitComma b := by
  induction a with
  | nil => simp [splitComma]
  | cons c t ih =>
    simp only [List.mem_cons, not_or] at h
    rw [List.cons_append, splitComma, if_neg (fun e => h.1 e.symm), ih h.2]

theorem splitComma_commas (l : List (List Char)) (hne : l ≠ []) (h : ∀ t ∈ l, ',' ∉ t) :
    splitComma (commas l) = l := by
  induction l with
  | nil => exact absurd rfl hne
  | cons t r ih =>
    cases r with
    | nil => rw [commas, splitComma_none (h t (by simp))]
    | cons u r =>
      rw [commas, splitComma_append _ (h t (by simp)), ih (by simp) fun t ht => h t (by simp at ht ⊢; tauto)]

theorem mapM_filterMap (l : List (List Char)) (h : ∀ t ∈ l, (parseDelay t).isSome) :
    l.mapM parseDelay = some (l.filterMap parseDelay) := by
  induction l with
  | nil => rfl
  | cons t r ih =>
    obtain ⟨x, hx⟩ := Option.isSome_iff_exists.1 (h t (by simp))
    rw [List.mapM_cons, hx, ih fun t ht => h t (by simp [ht])]
    simp [hx]

theorem mem_commas {l : List (List Char)} {c : Char} (h : c ∈ commas l) : c = ',' ∨ ∃ t ∈ l, c ∈ t := by
  induction l with
  | nil => simp [commas] at h
  | cons t r ih =>
    cases r with
    | nil => rw [commas] at h; exact .inr ⟨t, by simp, h⟩
    | cons u r =>
      rw [commas] at h
      simp only [List.mem_append, List.mem_cons] at h
      rcases h with h | h | h
      · exact .inr ⟨t, by simp, h⟩
      · exact .inl h
      · rcases ih h with h | ⟨t', ht', hc⟩
        · exact .inl h
        · exact .inr ⟨t', by simp at ht' ⊢; tauto, hc⟩

theorem commas_ne {l : List (List Char)} (hne : l ≠ []) (h : ∀ t ∈ l, t ≠ []) : commas l ≠ [] := by
  match l with
  | [] => exact absurd rfl hne
  | [t] => rw [commas]; exact h t (by simp)
  | t :: u :: r => rw [commas]; simp

/-! ## One line -/

/-- a line that does not end the description -/
def Plain (l : List Char) : Prop := "# END DMI".toList.isPrefixOf l = false

theorem lines_cons {p : PState D} {l : List Char} {ls : List (List Char)} (h : Plain l) :
    PState.lines parseDelay isOne p (l :: ls)
      = (p.line parseDelay isOne l).bind fun p' => PState.lines parseDelay isOne p' ls := by
  unfold Plain at h
  rw [PState.lines, h]
  simp only [Bool.false_eq_true, if_false]
  cases p.line parseDelay isOne l <;> rfl

/-- an entry, possibly indented, with a value that does not begin or end in white space -/
theorem line_entry {p : PState D} {key value : List Char} (pre : List Char) (hp : ∀ c ∈ pre, isWhite c = true)
    (hk0 : key ≠ []) (hk : ∀ c ∈ key, c ≠ ' ' ∧ isWhite c = false)
    (hv : ∃ c, value.getLast? = some c ∧ isWhite c = false) :
    p.line parseDelay isOne (pre ++ (key ++ ' ' :: '=' :: ' ' :: value)) = p.entry parseDelay isOne key value := by
  unfold PState.line
  rw [trim_core hp, splitEq_key (fun h => (hk _ h).1 rfl)]
  · intro c hc
    cases key with
    | nil => exact absurd rfl hk0
    | cons k t =>
      simp only [List.cons_append, List.head?_cons, Option.some.injEq] at hc
      subst hc
      exact (hk k (by simp)).2
  · intro c hc
    obtain ⟨d, hd, hw⟩ := hv
    have : (key ++ ' ' :: '=' :: ' ' :: value).getLast? = some d := by
      rw [List.getLast?_append, List.getLast?_cons, List.getLast?_cons, List.getLast?_cons, hd]
      simp
    rw [this] at hc
    cases hc
    exact hw

theorem digits_last (n : Nat) : ∃ c, (Nat.toDigits 10 n).getLast? = some c ∧ isWhite c = false := by
  have hne : Nat.toDigits 10 n ≠ [] := Nat.toDigits_ne_nil
  refine ⟨(Nat.toDigits 10 n).getLast hne, List.getLast?_eq_some_getLast hne, ?_⟩
  exact (digit_facts (List.getLast_mem hne)).2.2.2.1

/-- a state with a current icon state -/
def withCur (q : PState D) (s : State D) : PState D := { q with cur := some s }

theorem withCur_self {q : PState D} {s : State D} (h : q.cur = some s) : withCur q s = q := by
  unfold withCur
  rw [← h]

theorem entry_dirs (q : PState D) (s : State D) (d : Dirs) :
    (withCur q s).entry parseDelay isOne "dirs".toList (Nat.toDigits 10 d.count)
      = some (withCur q { s with dirs := d }) := by
  unfold PState.entry
  rw [if_neg (by decide +kernel), if_neg (by decide +kernel), if_neg (by decide +kernel), if_pos rfl]
  unfold PState.onCur setDirs withCur
  simp only
  rw [parseUInt_digits (by cases d <;> decide)]
  cases d <;> simp [Dirs.count]

theorem entry_frames (q : PState D) (s : State D) (hs : s.frames = .one) (n : Nat) (h : n < 2 ^ 64) :
    (withCur q s).entry parseDelay isOne "frames".toList (Nat.toDigits 10 n)
      = some (withCur q { s with frames := .count n }) := by
  unfold PState.entry
  rw [if_neg (by decide +kernel), if_neg (by decide +kernel), if_neg (by decide +kernel),
    if_neg (by decide +kernel), if_pos rfl]
  unfold PState.onCur setFrames withCur
  simp only [hs]
  rw [parseUInt_digits h]
  rfl

theorem entry_delay (q : PState D) (s : State D) (n : Nat) (hs : s.frames = .count n) (l : List (List Char))
    (hne : l ≠ []) (h : ∀ t ∈ l, ',' ∉ t ∧ (parseDelay t).isSome) :
    (withCur q s).entry parseDelay isOne "delay".toList (commas l)
      = some (withCur q { s with frames := (if ((l.filterMap parseDelay).take n).all isOne then .count n
          else .delays ((l.filterMap parseDelay).take n)) }) := by
  unfold PState.entry
  rw [if_neg (by decide +kernel), if_neg (by decide +kernel), if_neg (by decide +kernel),
    if_neg (by decide +kernel), if_neg (by decide +kernel), if_pos rfl]
  unfold PState.onCur setDelay withCur
  simp only
  rw [splitComma_commas l hne fun t ht => (h t ht).1, mapM_filterMap parseDelay l fun t ht => (h t ht).2]
  simp only [hs]
  rfl

theorem entry_loop (q : PState D) (s : State D) (n : Nat) (h : n < 2 ^ 32) :
    (withCur q s).entry parseDelay isOne "loop".toList (Nat.toDigits 10 n)
      = some (withCur q { s with loop := n }) := by
  unfold PState.entry
  rw [if_neg (by decide +kernel), if_neg (by decide +kernel), if_neg (by decide +kernel),
    if_neg (by decide +kernel), if_neg (by decide +kernel), if_neg (by decide +kernel), if_pos rfl]
  unfold PState.onCur withCur
  simp only
  rw [parseUInt_digits h]
  rfl

theorem entry_rewind (q : PState D) (s : State D) :
    (withCur q s).entry parseDelay isOne "rewind".toList "1".toList
      = some (withCur q { s with rewind := true }) := by
  unfold PState.entry
  rw [if_neg (by decide +kernel), if_neg (by decide +kernel), if_neg (by decide +kernel),
    if_neg (by decide +kernel), if_neg (by decide +kernel), if_neg (by decide +kernel),
    if_neg (by decide +kernel), if_pos rfl]
  unfold PState.onCur withCur
  simp only
  rw [show parseUInt 256 "1".toList = some 1 by decide +kernel]
  rfl

theorem entry_movement (q : PState D) (s : State D) :
    (withCur q s).entry parseDelay isOne "movement".toList "1".toList
      = some (withCur q { s with movement := true }) := by
  unfold PState.entry
  rw [if_neg (by decide +kernel), if_neg (by decide +kernel), if_neg (by decide +kernel),
    if_neg (by decide +kernel), if_neg (by decide +kernel), if_neg (by decide +kernel),
    if_neg (by decide +kernel), if_neg (by decide +kernel), if_neg (by decide +kernel), if_pos rfl]
  unfold PState.onCur withCur
  simp only
  rw [show parseUInt 256 "1".toList = some 1 by decide +kernel]
  rfl

theorem unquote_quoted (n : List Char) : unquote ('"' :: (n ++ ['"'])) = some n := by
  unfold unquote
  simp only [List.getLast?_append, List.getLast?_singleton, Option.some_or]
  rw [if_pos (by decide)]
  simp

/-- the state a `state` line begins -/
theorem entry_state (p : PState D) (n : List Char) (h : ∀ c ∈ n, c ≠ '"' ∧ c ≠ '\\') :
    ∃ (q : PState D) (o k : Nat), p.entry parseDelay isOne "state".toList ('"' :: (n ++ ['"']))
        = some (withCur q ⟨n, false, o, 0, k, false, .one, .one⟩)
      ∧ q.meta'.states = p.meta'.states ++ p.cur.toList ∧ q.meta'.width = p.meta'.width
      ∧ q.meta'.height = p.meta'.height := by
  unfold PState.entry
  rw [if_neg (by decide +kernel), if_neg (by decide +kernel), if_pos rfl]
  unfold PState.newState
  rw [unquote_quoted]
  simp only
  have hc : (n.contains '\\' || n.contains '"') = false := by
    rw [Bool.or_eq_false_iff]
    constructor
    · rw [Bool.eq_false_iff]; intro e; exact (h _ (List.contains_iff_mem.1 e)).2 rfl
    · rw [Bool.eq_false_iff]; intro e; exact (h _ (List.contains_iff_mem.1 e)).1 rfl
  rw [hc]
  simp only [Bool.false_eq_true, if_false]
  refine ⟨_, _, _, congrArg some (withCur_self rfl).symm, ?_, rfl, rfl⟩
  unfold PState.flush
  cases p.cur <;> simp

theorem plain_tab (k : List Char) : Plain ('\t' :: k) := by
  unfold Plain
  rw [show "# END DMI".toList = '#' :: " END DMI".toList by decide +kernel, List.isPrefixOf_cons_cons]
  simp

theorem field_line {p : PState D} (pre : List Char) (key value : List Char) (ls : List (List Char))
    (hpre : pre = ['\t'] ++ (key ++ [' ', '=', ' '])) (hk0 : key ≠ [])
    (hk : ∀ c ∈ key, c ≠ ' ' ∧ isWhite c = false)
    (hv : ∃ c, value.getLast? = some c ∧ isWhite c = false) :
    PState.lines parseDelay isOne p ((pre ++ value) :: ls)
      = (p.entry parseDelay isOne key value).bind fun p' => PState.lines parseDelay isOne p' ls := by
  have hl : pre ++ value = ['\t'] ++ (key ++ ' ' :: '=' :: ' ' :: value) := by
    rw [hpre]; simp
  rw [hl, lines_cons _ _ (l := ['\t'] ++ (key ++ ' ' :: '=' :: ' ' :: value)) (plain_tab _), line_entry parseDelay isOne ['\t'] (by decide) hk0 hk hv]

/-- the lines of a state -/
theorem lines_desc (p : PState D) (d : Desc) (hd : d.OK parseDelay) (rest : List (List Char)) :
    ∃ (q : PState D) (s : State D),
      PState.lines parseDelay isOne p (d.lines ++ rest)
        = PState.lines parseDelay isOne (withCur q s) rest
      ∧ q.meta'.states = p.meta'.states ++ p.cur.toList ∧ q.meta'.width = p.meta'.width
      ∧ q.meta'.height = p.meta'.height ∧ Describes parseDelay isOne d s := by
  obtain ⟨q, o, k, he, h1, h2, h3⟩ := entry_state parseDelay isOne p d.name fun c hc => (hd.name c hc).2
  refine ⟨q, ⟨d.name, d.movement, o, d.loop, k, d.rewind, d.dirs, d.says parseDelay isOne⟩, ?_, h1, h2, h3,
    rfl, rfl, rfl, rfl, rfl, rfl⟩
  unfold Desc.lines
  simp only [List.append_assoc, List.cons_append, List.nil_append]
  -- the state line
  have hst : "state = \"".toList ++ (d.name ++ "\"".toList)
      = [] ++ ("state".toList ++ ' ' :: '=' :: ' ' :: '"' :: (d.name ++ ['"'])) := by
    rw [show "state = \"".toList = "state".toList ++ [' ', '=', ' ', '"'] by decide +kernel,
      show "\"".toList = ['"'] by decide +kernel]
    simp
  rw [lines_cons, hst, line_entry parseDelay isOne [] (by simp) (by decide +kernel) (by decide +kernel)
    ⟨'"', by simp [List.getLast?_cons], by decide⟩, he]
  swap
  · unfold Plain
    rw [show "# END DMI".toList = '#' :: " END DMI".toList by decide +kernel,
      show "state = \"".toList = 's' :: "tate = \"".toList by decide +kernel, List.cons_append,
      List.isPrefixOf_cons_cons]
    simp
  rw [Option.bind_some]
  -- dirs and frames
  rw [field_line parseDelay isOne "\tdirs = ".toList "dirs".toList _ _ (by decide +kernel) (by decide +kernel)
    (by decide +kernel) (digits_last _), entry_dirs, Option.bind_some]
  rw [field_line parseDelay isOne "\tframes = ".toList "frames".toList _ _ (by decide +kernel)
    (by decide +kernel) (by decide +kernel) (digits_last _),
    entry_frames parseDelay isOne _ _ rfl _ hd.frames, Option.bind_some]
  -- delay
  have hdelay : ∀ (s : State D) (ls : List (List Char)), s.frames = .count d.frames →
      PState.lines parseDelay isOne (withCur q s)
        ((if d.delays = [] then [] else ["\tdelay = ".toList ++ commas d.delays]) ++ ls)
      = PState.lines parseDelay isOne (withCur q { s with frames := d.says parseDelay isOne }) ls := by
    intro s ls hs
    unfold Desc.says
    by_cases hn : d.delays = []
    · rw [if_pos hn, if_pos hn, List.nil_append, ← hs]
    · rw [if_neg hn, if_neg hn, List.singleton_append]
      rw [field_line parseDelay isOne "\tdelay = ".toList "delay".toList _ _ (by decide +kernel)
        (by decide +kernel) (by decide +kernel), entry_delay parseDelay isOne _ _ _ hs _ hn
        fun t ht => ⟨fun hc => ((hd.delays t ht).2.1 _ hc).1 rfl, (hd.delays t ht).2.2⟩, Option.bind_some]
      · have hne := commas_ne hn fun t ht => (hd.delays t ht).1
        refine ⟨(commas d.delays).getLast hne, List.getLast?_eq_some_getLast hne, ?_⟩
        rcases mem_commas (List.getLast_mem hne) with h | ⟨t, ht, hc⟩
        · rw [h]; decide
        · exact ((hd.delays t ht).2.1 _ hc).2
  rw [hdelay _ _ rfl]
  -- loop
  have hloop : ∀ (s : State D) (ls : List (List Char)), s.loop = 0 →
      PState.lines parseDelay isOne (withCur q s)
        ((if d.loop = 0 then [] else ["\tloop = ".toList ++ Nat.toDigits 10 d.loop]) ++ ls)
      = PState.lines parseDelay isOne (withCur q { s with loop := d.loop }) ls := by
    intro s ls hs
    by_cases hn : d.loop = 0
    · rw [if_pos hn, List.nil_append, hn, ← hs]
    · rw [if_neg hn, List.singleton_append]
      rw [field_line parseDelay isOne "\tloop = ".toList "loop".toList _ _ (by decide +kernel)
        (by decide +kernel) (by decide +kernel) (digits_last _), entry_loop parseDelay isOne _ _ _ hd.loop,
        Option.bind_some]
  rw [hloop _ _ rfl]
  -- rewind
  have hrew : ∀ (s : State D) (ls : List (List Char)), s.rewind = false →
      PState.lines parseDelay isOne (withCur q s)
        ((if d.rewind = true then ["\trewind = 1".toList] else []) ++ ls)
      = PState.lines parseDelay isOne (withCur q { s with rewind := d.rewind }) ls := by
    intro s ls hs
    cases hn : d.rewind with
    | false => rw [if_neg (by simp), List.nil_append, ← hs]
    | true =>
      rw [if_pos rfl, List.singleton_append,
        show "\trewind = 1".toList = "\trewind = ".toList ++ "1".toList by decide +kernel]
      rw [field_line parseDelay isOne "\trewind = ".toList "rewind".toList _ _ (by decide +kernel)
        (by decide +kernel) (by decide +kernel) ⟨'1', by decide +kernel, by decide⟩, entry_rewind,
        Option.bind_some]
  rw [hrew _ _ rfl]
  have hmov : ∀ (s : State D) (ls : List (List Char)), s.movement = false →
      PState.lines parseDelay isOne (withCur q s)
        ((if d.movement = true then ["\tmovement = 1".toList] else []) ++ ls)
      = PState.lines parseDelay isOne (withCur q { s with movement := d.movement }) ls := by
    intro s ls hs
    cases hn : d.movement with
    | false => rw [if_neg (by simp), List.nil_append, ← hs]
    | true =>
      rw [if_pos rfl, List.singleton_append,
        show "\tmovement = 1".toList = "\tmovement = ".toList ++ "1".toList by decide +kernel]
      rw [field_line parseDelay isOne "\tmovement = ".toList "movement".toList _ _ (by decide +kernel)
        (by decide +kernel) (by decide +kernel) ⟨'1', by decide +kernel, by decide⟩, entry_movement,
        Option.bind_some]
  rw [hmov _ _ rfl]

/-- the lines of all states -/
theorem lines_descs (ds : List Desc) (hds : ∀ d ∈ ds, d.OK parseDelay) (p : PState D) :
    ∃ (q : PState D), PState.lines parseDelay isOne p (ds.flatMap Desc.lines ++ ["# END DMI".toList]) = some q
      ∧ q.meta'.width = p.meta'.width ∧ q.meta'.height = p.meta'.height
      ∧ ∃ new, q.meta'.states ++ q.cur.toList = (p.meta'.states ++ p.cur.toList) ++ new
        ∧ List.Forall₂ (Describes parseDelay isOne) ds new := by
  induction ds generalizing p with
  | nil =>
    refine ⟨p, ?_, rfl, rfl, [], by simp, .nil⟩
    rw [List.flatMap_nil, List.nil_append, PState.lines, if_pos (by decide +kernel)]
  | cons d ds ih =>
    obtain ⟨q1, s, he, h1, h2, h3, hs⟩ := lines_desc parseDelay isOne p d (hds d (by simp))
      (ds.flatMap Desc.lines ++ ["# END DMI".toList])
    obtain ⟨q, hq, h4, h5, new, hn, hf⟩ := ih (fun d hd => hds d (by simp [hd])) (withCur q1 s)
    refine ⟨q, by rw [List.flatMap_cons, List.append_assoc, he, hq], h4.trans h2, h5.trans h3, s :: new, ?_,
      .cons hs hf⟩
    rw [hn]
    simp [withCur, h1]

/-- no line of a description contains a line feed or ends in a carriage return -/
theorem desc_lines_ok {d : Desc} (hd : d.OK parseDelay) {l : List Char} (hl : l ∈ d.lines) :
    '\n' ∉ l ∧ l.getLast? ≠ some '\r' := by
  have hw : ∀ c, isWhite c = false → c ≠ '\r' ∧ c ≠ '\n' := by
    intro c hc
    constructor <;> (rintro rfl; exact absurd hc (by decide))
  have key : ∀ (pre v : List Char), '\n' ∉ pre → v ≠ [] → (∀ c ∈ v, isWhite c = false) →
      '\n' ∉ pre ++ v ∧ (pre ++ v).getLast? ≠ some '\r' := by
    intro pre v h1 h2 h3
    refine ⟨?_, ?_⟩
    · simp only [List.mem_append, not_or]
      exact ⟨h1, fun h => (hw _ (h3 _ h)).2 rfl⟩
    · rw [List.getLast?_append_of_ne_nil _ h2]
      intro e
      exact (hw _ (h3 _ (List.mem_of_getLast? e))).1 rfl
  have hdig : ∀ n, ∀ c ∈ Nat.toDigits 10 n, isWhite c = false := fun n c hc => (digit_facts hc).2.2.2.1
  unfold Desc.lines at hl
  simp only [List.mem_append, List.mem_cons, List.not_mem_nil, or_false] at hl
  rcases hl with ((((rfl | rfl | rfl) | hl) | hl) | hl) | hl
  · refine ⟨?_, ?_⟩
    · simp only [List.mem_append, not_or]
      exact ⟨⟨by decide +kernel, fun h => (hd.name _ h).1 rfl⟩, by decide +kernel⟩
    · rw [List.getLast?_append_of_ne_nil _ (by decide +kernel)]
      decide +kernel
  · exact key _ _ (by decide +kernel) Nat.toDigits_ne_nil (hdig _)
  · exact key _ _ (by decide +kernel) Nat.toDigits_ne_nil (hdig _)
  · split at hl
    · cases hl
    · rename_i hn
      rw [List.mem_singleton] at hl
      subst hl
      refine key _ _ (by decide +kernel) (commas_ne hn fun t ht => (hd.delays t ht).1) ?_
      intro c hc
      rcases mem_commas hc with h | ⟨t, ht, hc⟩
      · rw [h]; decide
      · exact ((hd.delays t ht).2.1 _ hc).2
  · split at hl
    · cases hl
    · rw [List.mem_singleton] at hl
      subst hl
      exact key _ _ (by decide +kernel) Nat.toDigits_ne_nil (hdig _)
  · split at hl
    · rw [List.mem_singleton] at hl; subst hl; decide +kernel
    · cases hl
  · split at hl
    · rw [List.mem_singleton] at hl; subst hl; decide +kernel
    · cases hl

theorem entry_width (p : PState D) (n : Nat) (h : n < 2 ^ 32) :
    p.entry parseDelay isOne "width".toList (Nat.toDigits 10 n)
      = some { p with meta' := { p.meta' with width := n } } := by
  unfold PState.entry
  rw [if_pos rfl, parseUInt_digits h]
  rfl

theorem entry_height (p : PState D) (n : Nat) (h : n < 2 ^ 32) :
    p.entry parseDelay isOne "height".toList (Nat.toDigits 10 n)
      = some { p with meta' := { p.meta' with height := n } } := by
  unfold PState.entry
  rw [if_neg (by decide +kernel), if_pos rfl, parseUInt_digits h]
  rfl

/-- **C29**: the text of a description in the form BYOND writes, for any sizes and any list of states,
parses to exactly the states it describes, in order. -/
theorem render_parse (w h : Nat) (hw : w < 2 ^ 32) (hh : h < 2 ^ 32) (ds : List Desc)
    (hds : ∀ d ∈ ds, d.OK parseDelay) :
    ∃ m, parseMetadata parseDelay isOne (renderMeta w h ds) = .ok m ∧ m.width = w ∧ m.height = h
      ∧ List.Forall₂ (Describes parseDelay isOne) ds m.states := by
  have hlines : linesOf [] (renderMeta w h ds) = [ "# BEGIN DMI".toList, "version = 4.0".toList,
     "\twidth = ".toList ++ Nat.toDigits 10 w, "\theight = ".toList ++ Nat.toDigits 10 h ]
    ++ ds.flatMap Desc.lines ++ ["# END DMI".toList] := by
    refine linesOf_flat _ ?_
    have hdig : ∀ (pre : List Char) (n : Nat), '\n' ∉ pre →
        '\n' ∉ pre ++ Nat.toDigits 10 n ∧ (pre ++ Nat.toDigits 10 n).getLast? ≠ some '\r' := by
      intro pre n hp
      refine ⟨?_, ?_⟩
      · simp only [List.mem_append, not_or]
        exact ⟨hp, fun h => absurd (digit_facts h).2.2.2.1 (by decide)⟩
      · rw [List.getLast?_append_of_ne_nil _ Nat.toDigits_ne_nil]
        obtain ⟨c, hc, hw⟩ := digits_last n
        rw [hc]
        rintro e
        cases e
        exact absurd hw (by decide)
    intro l hl
    simp only [List.mem_append, List.mem_cons, List.not_mem_nil, or_false, List.mem_flatMap] at hl
    rcases hl with ((rfl | rfl | rfl | rfl) | ⟨d, hd, hl⟩) | rfl
    · decide +kernel
    · decide +kernel
    · exact hdig _ _ (by decide +kernel)
    · exact hdig _ _ (by decide +kernel)
    · exact desc_lines_ok parseDelay (hds d hd) hl
    · decide +kernel
  have hne : renderMeta w h ds ≠ [] := by
    intro e
    rw [e] at hlines
    simp [linesOf] at hlines
  unfold parseMetadata
  rw [if_neg hne, hlines]
  simp only [List.cons_append, List.nil_append, and_self, if_true]
  rw [field_line parseDelay isOne "\twidth = ".toList "width".toList _ _ (by decide +kernel) (by decide +kernel)
    (by decide +kernel) (digits_last _), entry_width _ _ _ _ hw, Option.bind_some]
  rw [field_line parseDelay isOne "\theight = ".toList "height".toList _ _ (by decide +kernel)
    (by decide +kernel) (by decide +kernel) (digits_last _), entry_height _ _ _ _ hh, Option.bind_some]
  obtain ⟨q, hq, h1, h2, new, hn, hf⟩ := lines_descs parseDelay isOne ds hds
    { meta' := { (Meta.init : Meta D) with
        width := w
        height := h }
      cur := none
      framesSoFar := 0
      dups := fun _ => 0 }
  rw [hq]
  refine ⟨_, rfl, h1, h2, ?_⟩
  simp only [Meta.init, Option.toList_none, List.append_nil, List.nil_append] at hn
  rw [hn]
  exact hf

/-- the sprites a described state takes are directions times frames, if it has a delay for every frame -/
theorem says_num {d : Desc} (hd : d.OK parseDelay) (hl : d.delays = [] ∨ d.frames ≤ d.delays.length) :
    (d.says parseDelay isOne).num = d.frames := by
  unfold Desc.says
  rcases hl with h | h
  · rw [if_pos h]; rfl
  · have hlen : (d.delays.filterMap parseDelay).length = d.delays.length := by
      have := hd.delays
      clear h
      generalize d.delays = l at *
      induction l with
      | nil => rfl
      | cons t r ih =>
        obtain ⟨x, hx⟩ := Option.isSome_iff_exists.1 (this t (by simp)).2.2
        rw [List.filterMap_cons, hx]
        simp only [List.length_cons]
        rw [ih fun t ht => this t (by simp [ht])]
    split
    · rfl
    · split
      · rfl
      · simp only [Frames.num, List.length_take, hlen]
        omega

/-- **C29**: and then the `i`-th state begins after the sprites the description gives the states before it:
the sum of directions times frames. -/
theorem render_offsets (w h : Nat) (hw : w < 2 ^ 32) (hh : h < 2 ^ 32) (ds : List Desc)
    (hds : ∀ d ∈ ds, d.OK parseDelay) (hdel : ∀ d ∈ ds, d.delays = [] ∨ d.frames ≤ d.delays.length) :
    ∃ m, parseMetadata parseDelay isOne (renderMeta w h ds) = .ok m ∧ m.states.length = ds.length
      ∧ ∀ (i : Nat) (s : State D), m.states[i]? = some s →
        s.offset = ((ds.take i).map fun d => d.dirs.count * d.frames).sum := by
  obtain ⟨m, hm, _, _, hf⟩ := render_parse parseDelay isOne w h hw hh ds hds
  refine ⟨m, hm, hf.length_eq.symm, fun i s hs => ?_⟩
  rw [(offsets_tile parseDelay isOne hm i s hs).1]
  generalize m.states = l at hf
  clear hs hm
  induction hf generalizing i with
  | nil => simp
  | @cons d t ds l hdt _ ih =>
    cases i with
    | zero => rfl
    | succ i =>
      simp only [List.take_succ_cons, List.map_cons, List.sum_cons]
      rw [ih (fun d hd => hds d (by simp [hd])) (fun d hd => hdel d (by simp [hd])), hdt.2.1,
        hdt.2.2.2.2.2, says_num parseDelay isOne (hds d (by simp)) (hdel d (by simp))]

/-! ## Non-vacuity and disagreements -/

namespace Demo

/-- delays that are one digit -/
def pd (t : List Char) : Option Nat := parseUInt 10 t

/-- two states, one animated -/
def two : List Desc :=
  [ { name := "a = b".toList
      dirs := .four
      frames := 3
      delays := ["1".toList, "2".toList, "1".toList]
      loop := 0
      rewind := true
      movement := false },
    { name := "a = b".toList
      dirs := .one
      frames := 1
      delays := []
      loop := 2
      rewind := false
      movement := true } ]

example : ∀ d ∈ two, d.OK pd := by
  intro d hd
  simp only [two, List.mem_cons, List.not_mem_nil, or_false] at hd
  rcases hd with rfl | rfl
  · exact ⟨by decide +kernel, by decide, by decide, by decide +kernel⟩
  · exact ⟨by decide +kernel, by decide, by decide, by decide +kernel⟩

/-- the second state begins after the 12 sprites of the first and is duplicate number 1 -/
example : (match parseMetadata pd (· == 1) (renderMeta 32 64 two) with
    | .ok m => m.states.map fun s => (s.offset, s.dup, s.frames)
    | _ => []) = [(0, 0, .delays [1, 2, 1]), (12, 1, .count 1)] := by decide +kernel

/-- a description whose state has three frames and a single delay that is not 1 -/
def short : List Desc :=
  [ { name := "a".toList
      dirs := .one
      frames := 3
      delays := ["2".toList]
      loop := 0
      rewind := false
      movement := false },
    { name := "b".toList
      dirs := .one
      frames := 1
      delays := []
      loop := 0
      rewind := false
      movement := false } ]

/-- disagreement: with fewer delays than frames the state keeps only as many frames as there are delays, so
the next state starts inside this one's frames (at 1, where the description puts it at 3) -/
theorem short_delays_shift : (match parseMetadata pd (· == 1) (renderMeta 32 32 short) with
    | .ok m => m.states.map fun s => (s.offset, s.frames)
    | _ => []) = [(0, .delays [2]), (1, .count 1)] := by decide +kernel

/-- disagreement: a text that gives the delays before the frame count, or an unknown entry, or no state
for an entry, panics instead of failing -/
theorem parse_panics :
    parseMetadata pd (· == 1)
        "# BEGIN DMI\nversion = 4.0\nstate = \"a\"\n\tdelay = 2,2\n\tframes = 2\n# END DMI\n".toList = .panic
    ∧ parseMetadata pd (· == 1) "# BEGIN DMI\nversion = 4.0\n\tcolour = 2\n# END DMI\n".toList = .panic
    ∧ parseMetadata pd (· == 1) "# BEGIN DMI\nversion = 4.0\n\tdirs = 4\n# END DMI\n".toList = .panic
    ∧ parseMetadata pd (· == 1) "# BEGIN DMI\nversion = 4.0\n\n# END DMI\n".toList = .panic := by
  refine ⟨?_, ?_, ?_, ?_⟩ <;> rfl

end Demo

end Verif.Dmi
