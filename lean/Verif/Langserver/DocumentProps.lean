import Verif.Langserver.Document
import Mathlib.Data.List.Induction

/-! # Specification and theorems for document synchronisation (C23, C24, C26, C45) -/

namespace Verif.Langserver

/-! ## Specification -/

/-- the current (unfinished) line at the end of `pre` -/
def lastLine (pre : List Char) : List Char := (pre.reverse.takeWhile (· ≠ '\n')).reverse

/-- number of UTF-16 code units of a text -/
def utf16Length (l : List Char) : Nat := (l.map fun c => if c.toNat < 0x10000 then 1 else 2).sum

/-- the position, in the client's terms, of the place after `pre`: the number of line feeds before
it, and the number of UTF-16 code units since the last of them -/
def posAfter (pre : List Char) : Pos := ⟨pre.count '\n', utf16Length (lastLine pre)⟩

/-- number of bytes of the UTF-8 encoding of a text -/
def utf8Length (l : List Char) : Nat := (l.map Char.utf8Size).sum

/-- An edit as the *client* makes it: its text is `before ++ old ++ after`, and `old` becomes `new`. -/
inductive ClientEdit : List Char → List Char → Change → Prop
  | splice (before old new after : List Char) :
      ClientEdit (before ++ old ++ after) (before ++ new ++ after)
        ⟨some (posAfter before, posAfter (before ++ old)), new⟩
  | whole (old new : List Char) : ClientEdit old new ⟨none, new⟩

/-- a sequence of edits the client makes, taking its text from one state to another -/
inductive ClientEdits : List Char → List Char → List Change → Prop
  | nil (t) : ClientEdits t t []
  | cons {t u v c cs} : ClientEdit t u c → ClientEdits u v cs → ClientEdits t v (c :: cs)

/-! ## Lemmas -/

theorem utf8Size_pos (c : Char) : 0 < c.utf8Size := Char.utf8Size_pos c

theorem bytes_eq (l : List Char) : bytes l = utf8Length l := by
  induction l with
  | nil => rfl
  | cons c t ih => simp [bytes, utf8Length, ih]

theorem units_eq (l : List Char) : units l = utf16Length l := by
  induction l with
  | nil => rfl
  | cons c t ih => simp [units, utf16Length, ih, u16]

theorem u16_pos (c : Char) : 0 < u16 c := by unfold u16; split <;> omega

theorem bytes_append (a b : List Char) : bytes (a ++ b) = bytes a + bytes b := by
  induction a with
  | nil => simp [bytes]
  | cons c t ih => simp [bytes, ih]; omega

theorem units_append (a b : List Char) : units (a ++ b) = units a + units b := by
  induction a with
  | nil => simp [units]
  | cons c t ih => simp [units, ih]; omega

theorem sliceFrom_append (a b : List Char) : sliceFrom (a ++ b) (bytes a) = some b := by
  induction a with
  | nil => cases b <;> simp [sliceFrom, bytes]
  | cons c t ih =>
    have := utf8Size_pos c
    simp only [List.cons_append, sliceFrom, bytes]
    rw [if_neg (by omega), if_neg (by omega), Nat.add_sub_cancel_left]
    exact ih

theorem sliceTo_append (a b : List Char) : sliceTo (a ++ b) (bytes a) = some a := by
  induction a with
  | nil => cases b <;> simp [sliceTo, bytes]
  | cons c t ih =>
    have := utf8Size_pos c
    simp only [List.cons_append, sliceTo, bytes]
    rw [if_neg (by omega), if_neg (by omega), Nat.add_sub_cancel_left, ih]
    rfl

theorem sliceFrom_some {t r : List Char} {n : Nat} (h : sliceFrom t n = some r) :
    ∃ a, t = a ++ r ∧ n = bytes a := by
  induction t generalizing n with
  | nil =>
    simp only [sliceFrom] at h
    split at h
    · next h0 => injection h with h; exact ⟨[], by simp [h], by simp [bytes, h0]⟩
    · cases h
  | cons c t ih =>
    simp only [sliceFrom] at h
    split at h
    · next h0 => injection h with h; exact ⟨[], by simp [h], by simp [bytes, h0]⟩
    · split at h
      · cases h
      · next h1 =>
        obtain ⟨a, e, f⟩ := ih h
        exact ⟨c :: a, by simp [e], by simp [bytes]; omega⟩

theorem findNl_append {a b : List Char} (h : '\n' ∉ a) : findNl (a ++ '\n' :: b) = some (bytes a) := by
  induction a with
  | nil => simp [findNl, bytes]
  | cons c t ih =>
    simp only [List.mem_cons, not_or] at h
    simp only [List.cons_append, findNl]
    rw [if_neg (fun e => h.1 e.symm), ih h.2]
    simp [bytes]; omega

theorem findNl_none {a : List Char} (h : '\n' ∉ a) : findNl a = none := by
  induction a with
  | nil => rfl
  | cons c t ih =>
    simp only [List.mem_cons, not_or] at h
    simp only [findNl]
    rw [if_neg (fun e => h.1 e.symm), ih h.2]
    rfl

theorem nl_size : '\n'.utf8Size = 1 := by decide

/-- split a text after its first line feed -/
theorem nl_split (l : List Char) : '\n' ∉ l ∨ ∃ a b, '\n' ∉ a ∧ l = a ++ '\n' :: b := by
  induction l with
  | nil => left; simp
  | cons c t ih =>
    by_cases hc : c = '\n'
    · right; exact ⟨[], t, by simp, by simp [hc]⟩
    · rcases ih with h | ⟨a, b, h, e⟩
      · left; simp [h]; exact fun e => hc e.symm
      · right; exact ⟨c :: a, b, by simp [h]; exact fun e => hc e.symm, by simp [e]⟩

theorem lastLine_of_not_mem {a : List Char} (h : '\n' ∉ a) : lastLine a = a := by
  unfold lastLine
  have : ∀ l : List Char, '\n' ∉ l → l.takeWhile (fun x => decide (x ≠ '\n')) = l := by
    intro l
    induction l with
    | nil => intro _; rfl
    | cons c t ih =>
      intro h
      simp only [List.mem_cons, not_or] at h
      rw [List.takeWhile_cons, if_pos (by simpa using fun e => h.1 e.symm), ih h.2]
  rw [this _ (by simpa using h), List.reverse_reverse]

theorem takeWhile_append_stop {p : Char → Bool} (l m : List Char) (x : Char) (hx : p x = false) :
    (l ++ x :: m).takeWhile p = l.takeWhile p := by
  induction l with
  | nil => simp [hx]
  | cons c t ih => simp only [List.cons_append, List.takeWhile_cons]; rw [ih]

theorem lastLine_append (a b : List Char) : lastLine (a ++ '\n' :: b) = lastLine b := by
  unfold lastLine
  congr 1
  rw [List.reverse_append, List.reverse_cons, List.append_assoc, List.singleton_append]
  exact takeWhile_append_stop _ _ _ (by simp)

/-- every text is its complete lines followed by its last line -/
theorem lines_split (pre : List Char) : ∃ a, pre = a ++ lastLine pre ∧ '\n' ∉ lastLine pre ∧
    (a = [] ∨ ∃ a', a = a' ++ ['\n']) := by
  induction pre using List.reverseRecOn with
  | nil => exact ⟨[], rfl, by simp [lastLine], Or.inl rfl⟩
  | append_singleton l c ih =>
    by_cases hc : c = '\n'
    · subst hc
      have : lastLine (l ++ ['\n']) = [] := by
        rw [lastLine_append]; rfl
      exact ⟨l ++ ['\n'], by rw [this]; simp, by rw [this]; simp, Or.inr ⟨l, rfl⟩⟩
    · have h : lastLine (l ++ [c]) = lastLine l ++ [c] := by
        unfold lastLine
        rw [List.reverse_append]
        simp [List.takeWhile_cons, hc]
      obtain ⟨a, e, n, k⟩ := ih
      refine ⟨a, ?_, ?_, k⟩
      · rw [h, ← List.append_assoc, ← e]
      · rw [h]; simp [n]; exact fun e => hc e.symm

/-- `line_offset` walks over complete lines -/
theorem lineOffset_lines (pre0 a b : List Char) (ha : a = [] ∨ ∃ a', a = a' ++ ['\n']) :
    lineOffset (pre0 ++ a ++ b) (a.count '\n') (bytes pre0) = .ok (bytes (pre0 ++ a)) := by
  induction h : a.length using Nat.strong_induction_on generalizing pre0 a with
  | _ n ih =>
    rcases nl_split a with hn | ⟨x, y, hx, e⟩
    · have : a = [] := by
        rcases ha with h | ⟨a', h⟩
        · exact h
        · exact absurd (by simp [h]) hn
      subst this
      simp [lineOffset]
    · subst e
      have hy : y = [] ∨ ∃ a', y = a' ++ ['\n'] := by
        rcases ha with h | ⟨a', h⟩
        · simp at h
        · rcases List.eq_nil_or_concat y with hy | ⟨y', z, hy⟩
          · exact Or.inl hy
          · right
            subst hy
            have : z = '\n' := by
              have := congrArg List.getLast? h
              rw [List.concat_eq_append, ← List.cons_append, ← List.append_assoc,
                List.getLast?_append, List.getLast?_append] at this
              simpa using this
            exact ⟨y', by simp [this]⟩
      have hcount : (x ++ '\n' :: y).count '\n' = y.count '\n' + 1 := by
        simp [List.count_append, List.count_eq_zero_of_not_mem hx]
      rw [hcount]
      simp only [lineOffset]
      rw [List.append_assoc, sliceFrom_append]
      simp only
      rw [List.append_assoc, List.cons_append, findNl_append hx]
      have hb : bytes (pre0 ++ x ++ ['\n']) = bytes pre0 + (bytes x + 1) := by
        simp [bytes_append, bytes, nl_size]
      have := ih y.length (by simp at h; omega) (pre0 ++ x ++ ['\n']) y hy rfl
      simp only [← hb]
      simpa using this

theorem takeUnits_line (l b : List Char) : takeUnits (l ++ b) (units l) = b := by
  induction l with
  | nil => cases b <;> simp [takeUnits, units]
  | cons c t ih =>
    have := u16_pos c
    simp only [List.cons_append, takeUnits, units]
    rw [if_neg (by omega), Nat.add_sub_cancel_left, ih]

theorem count_lastLine {pre a : List Char} (e : pre = a ++ lastLine pre) (h : '\n' ∉ lastLine pre) :
    pre.count '\n' = a.count '\n' := by
  conv_lhs => rw [e]
  rw [List.count_append, List.count_eq_zero_of_not_mem h, Nat.add_zero]

theorem totalOffset_split (pre post : List Char) :
    totalOffset (pre ++ post) (posAfter pre).line (posAfter pre).character = .ok (bytes pre) := by
  obtain ⟨a, e, n, k⟩ := lines_split pre
  have hl : lineOffset (pre ++ post) (pre.count '\n') 0 = .ok (bytes a) := by
    have := lineOffset_lines [] a (lastLine pre ++ post) k
    rw [count_lastLine e n]
    simp only [List.nil_append, bytes, ← List.append_assoc] at this
    rw [← e] at this
    exact this
  unfold totalOffset posAfter
  simp only [hl, Res.bind]
  have hs : sliceFrom (pre ++ post) (bytes a) = some (lastLine pre ++ post) := by
    conv_lhs => rw [e]
    rw [List.append_assoc, sliceFrom_append]
  rw [hs, ← units_eq]
  simp only [takeUnits_line]
  rw [bytes_append, Nat.add_sub_cancel]

theorem otpLoop_lines (l : List Char) (b : List Char) (hl : '\n' ∉ l) (pre0 a : List Char) (line fuel : Nat)
    (ha : a = [] ∨ ∃ a', a = a' ++ ['\n']) (hf : a.count '\n' < fuel) :
    otpLoop (pre0 ++ a ++ l ++ b) (bytes (pre0 ++ a ++ l)) fuel line (bytes pre0)
      = some (line + a.count '\n', bytes (pre0 ++ a)) := by
  induction h : a.length using Nat.strong_induction_on generalizing pre0 a line fuel with
  | _ n ih =>
    obtain ⟨fuel, rfl⟩ : ∃ f, fuel = f + 1 := ⟨fuel - 1, by omega⟩
    rcases nl_split a with hn | ⟨x, y, hx, e⟩
    · have : a = [] := by
        rcases ha with h | ⟨a', h⟩
        · exact h
        · exact absurd (by simp [h]) hn
      subst this
      simp only [otpLoop, List.append_nil, List.count_nil, Nat.add_zero]
      rw [List.append_assoc, sliceFrom_append]
      simp only
      cases hfn : findNl (l ++ b) with
      | none => rfl
      | some k =>
        simp only
        rw [if_neg]
        rcases nl_split b with hb | ⟨p, q, hp, eb⟩
        · rw [findNl_none (by simp [hl, hb])] at hfn
          cases hfn
        · subst eb
          rw [← List.append_assoc, findNl_append (by simp [hl, hp])] at hfn
          injection hfn with hfn
          rw [← hfn, bytes_append, bytes_append]; omega
    · subst e
      have hy : y = [] ∨ ∃ a', y = a' ++ ['\n'] := by
        rcases ha with h | ⟨a', h⟩
        · simp at h
        · rcases List.eq_nil_or_concat y with hy | ⟨y', z, hy⟩
          · exact Or.inl hy
          · right
            subst hy
            have : z = '\n' := by
              have := congrArg List.getLast? h
              rw [List.concat_eq_append, ← List.cons_append, ← List.append_assoc,
                List.getLast?_append, List.getLast?_append] at this
              simpa using this
            exact ⟨y', by simp [this]⟩
      have hcount : (x ++ '\n' :: y).count '\n' = y.count '\n' + 1 := by
        simp [List.count_append, List.count_eq_zero_of_not_mem hx]
      rw [hcount] at hf ⊢
      have hb : bytes (pre0 ++ x ++ ['\n']) = bytes pre0 + (bytes x + 1) := by
        simp [bytes_append, bytes, nl_size]
      have key := ih y.length (by simp at h; omega) (pre0 ++ x ++ ['\n']) y (line + 1) fuel hy (by omega) rfl
      simp only [otpLoop]
      have e1 : pre0 ++ (x ++ '\n' :: y) ++ l ++ b = pre0 ++ (x ++ '\n' :: (y ++ l ++ b)) := by simp
      have e2 : sliceFrom (pre0 ++ (x ++ '\n' :: y) ++ l ++ b) (bytes pre0)
          = some (x ++ '\n' :: (y ++ l ++ b)) := by rw [e1, sliceFrom_append]
      rw [e2]
      simp only [findNl_append hx]
      rw [if_pos, ← hb]
      · simp only [List.append_assoc, List.cons_append, List.nil_append] at key ⊢
        rw [key]
        congr 2
        omega
      · simp only [bytes_append, bytes, nl_size]; omega

theorem offsetToPosition_split (pre post : List Char) :
    offsetToPosition (pre ++ post) (bytes pre) = some (posAfter pre) := by
  obtain ⟨a, e, n, k⟩ := lines_split pre
  have h := otpLoop_lines (lastLine pre) post n [] a 0 ((pre ++ post).length + 1) k (by
    have := List.count_le_length (a := '\n') (l := a)
    have : a.length ≤ pre.length := by rw [e, List.length_append]; omega
    simp; omega)
  simp only [List.nil_append, bytes, Nat.zero_add] at h
  rw [← e] at h
  unfold offsetToPosition
  rw [h]
  simp only [sliceTo_append]
  have hs : sliceFrom pre (bytes a) = some (lastLine pre) := by
    conv_lhs => rw [e]
    rw [sliceFrom_append]
  rw [hs]
  simp only [posAfter, units_eq, count_lastLine e n]

theorem replaceRange_split (a m b new : List Char) :
    replaceRange (a ++ m ++ b) (bytes a) (bytes (a ++ m)) new = some (a ++ new ++ b) := by
  unfold replaceRange
  rw [if_pos (by rw [bytes_append]; omega), sliceFrom_append]
  rw [List.append_assoc, sliceTo_append]

theorem lineOffset_not_panic (text pre : List Char) (n : Nat) (h : ∃ b, text = pre ++ b) :
    lineOffset text n (bytes pre) = .err ∨
      ∃ pre', lineOffset text n (bytes pre) = .ok (bytes pre') ∧ ∃ b, text = pre' ++ b := by
  induction n generalizing pre with
  | zero => exact Or.inr ⟨pre, rfl, h⟩
  | succ n ih =>
    obtain ⟨b, rfl⟩ := h
    simp only [lineOffset, sliceFrom_append]
    rcases nl_split b with hn | ⟨x, y, hx, e⟩
    · rw [findNl_none hn]; exact Or.inl rfl
    · subst e
      rw [findNl_append hx]
      have hb : bytes (pre ++ x ++ ['\n']) = bytes pre + (bytes x + 1) := by
        simp [bytes_append, bytes, nl_size]
      simp only [← hb]
      exact ih _ ⟨y, by simp⟩

theorem takeUnits_suffix (l : List Char) (n : Nat) : ∃ x, l = x ++ takeUnits l n := by
  induction l generalizing n with
  | nil => exact ⟨[], rfl⟩
  | cons c t ih =>
    simp only [takeUnits]
    split
    · exact ⟨[], rfl⟩
    · obtain ⟨x, e⟩ := ih (n - u16 c)
      exact ⟨c :: x, by rw [List.cons_append, ← e]⟩

/-! ## Theorems -/

/-- **C24.** Converting a position of a text to an offset gives the number of bytes before it, and
converting that offset to a position gives the position back — for every place in every text. -/
theorem offset_position_inverse (pre post : List Char) :
    totalOffset (pre ++ post) (posAfter pre).line (posAfter pre).character = .ok (utf8Length pre) ∧
    offsetToPosition (pre ++ post) (utf8Length pre) = some (posAfter pre) := by
  rw [← bytes_eq]
  exact ⟨totalOffset_split pre post, offsetToPosition_split pre post⟩

example : posAfter "ab\nc😀é".toList = ⟨1, 4⟩ ∧ utf8Length "ab\nc😀é".toList = 10 := by
  decide +kernel

/-- Whatever position is asked for, the conversion does not panic, and the offset it gives is a
character boundary of the text. -/
theorem total_offset_boundary (text : List Char) (line character : Nat) :
    totalOffset text line character = .err ∨
    ∃ pre post, text = pre ++ post ∧ totalOffset text line character = .ok (utf8Length pre) := by
  unfold totalOffset
  rcases lineOffset_not_panic text [] line ⟨text, rfl⟩ with h | ⟨pre', h, b, e⟩
  · left; rw [show (0 : Nat) = bytes [] from rfl, h]; rfl
  · right
    rw [show (0 : Nat) = bytes [] from rfl, h]
    subst e
    obtain ⟨x, ex⟩ := takeUnits_suffix b character
    refine ⟨pre' ++ x, takeUnits b character, by rw [List.append_assoc, ← ex], ?_⟩
    simp only [Res.bind, sliceFrom_append]
    congr 1
    rw [← bytes_eq]
    conv_lhs => rw [ex]
    simp only [bytes_append]
    rw [← ex]
    omega

/-- `get_range` gives exactly the text between the two positions. -/
theorem get_range_exact (before mid after : List Char) :
    getRange (before ++ mid ++ after) (posAfter before) (posAfter (before ++ mid)) = .ok mid := by
  unfold getRange
  have h1 : totalOffset (before ++ mid ++ after) (posAfter before).line (posAfter before).character
      = .ok (bytes before) := by
    rw [List.append_assoc]; exact totalOffset_split before (mid ++ after)
  rw [h1, totalOffset_split (before ++ mid) after]
  simp only [Res.bind, sliceTo_append, Option.bind_some, sliceFrom_append]

theorem applyChange_exact {t u : List Char} {c : Change} (h : ClientEdit t u c) :
    applyChange t c = .ok u := by
  cases h with
  | whole => rfl
  | splice before old new after =>
    unfold applyChange
    have h1 : totalOffset (before ++ old ++ after) (posAfter before).line (posAfter before).character
        = .ok (bytes before) := by
      rw [List.append_assoc]; exact totalOffset_split before (old ++ after)
    simp only [h1, totalOffset_split (before ++ old) after, Res.bind, replaceRange_split]

/-- **C23.** For every sequence of edits the client makes to its text, applying the change events it
sends to the server's copy succeeds and leaves the server with the client's text. -/
theorem changes_exact {t u : List Char} {cs : List Change} (h : ClientEdits t u cs) :
    applyChanges t cs = some (u, true) := by
  induction h with
  | nil => rfl
  | cons h1 _ ih => simp only [applyChanges, applyChange_exact h1]; exact ih

/-- a two-edit session, the second one inside a line with a character outside the BMP -/
example : ClientEdits "x😀y\nz".toList "x😀q\n\nz".toList
    [⟨some (⟨0, 3⟩, ⟨0, 4⟩), "q".toList⟩, ⟨some (⟨1, 0⟩, ⟨1, 0⟩), "\n".toList⟩] :=
  .cons (u := "x😀q\nz".toList)
    (ClientEdit.splice "x😀".toList "y".toList "q".toList "\nz".toList)
    (.cons (ClientEdit.splice "x😀q\n".toList [] "\n".toList "z".toList) (.nil _))

/-! ### The store -/

section
variable {U : Type} [DecidableEq U]

/-- notifications from the client -/
inductive Note (U : Type) where
  | open (u : U) (version : Int) (text : List Char)
  | change (u : U) (version : Int) (cs : List Change)
  | close (u : U)

/-- the server's handling of one notification: the new store and whether it was accepted -/
def Store.handle (m : Store U) : Note U → Option (Store U × Bool)
  | .open u v t => some (m.open u v t)
  | .change u v cs => m.change u v cs
  | .close u => some (m.close u)

/-- a history of notifications; `none` is a panic; the results are listed in order -/
def Store.run (m : Store U) : List (Note U) → Option (Store U × List Bool)
  | [] => some (m, [])
  | n :: ns =>
    match m.handle n with
    | none => none
    | some (m', b) => (m'.run ns).map fun r => (r.1, b :: r.2)

/-- What the client has open: version and text of each open document.  `ClientStep` says which
notifications a client sends, and how they change what it has open. -/
inductive ClientStep : (U → Option (Int × List Char)) → Note U → (U → Option (Int × List Char)) → Prop
  | open (c u v t) : c u = none →
      ClientStep c (.open u v t) (fun w => if w = u then some (v, t) else c w)
  | change (c u v v' t t' cs) : c u = some (v, t) → v ≤ v' → ClientEdits t t' cs →
      ClientStep c (.change u v' cs) (fun w => if w = u then some (v', t') else c w)
  | close (c u d) : c u = some d →
      ClientStep c (.close u) (fun w => if w = u then none else c w)

inductive ClientRun : (U → Option (Int × List Char)) → List (Note U) → (U → Option (Int × List Char)) → Prop
  | nil (c) : ClientRun c [] c
  | cons {c c' c'' n ns} : ClientStep c n c' → ClientRun c' ns c'' → ClientRun c (n :: ns) c''

/-- **C23/C26.** Throughout any session of a client that follows the protocol, every notification is
accepted and the contents the server sees for each URL are the client's text if the document is open
there, and what is on disk otherwise. -/
theorem store_mirrors_client {E : Type} (disk : U → Except E (List Char))
    {c : U → Option (Int × List Char)} {ns : List (Note U)}
    (h : ClientRun (fun _ => none) ns c) :
    ∃ m, Store.run (fun _ => none) ns = some (m, ns.map fun _ => true) ∧
      ∀ u, m.getContents disk u = match c u with
        | some d => .ok d.2
        | none => disk u := by
  suffices H : ∀ (c0 : U → Option (Int × List Char)) (m : Store U),
      (∀ u, m u = (c0 u).map fun d => ⟨d.1, d.2⟩) → ClientRun c0 ns c →
      ∃ m', m.run ns = some (m', ns.map fun _ => true) ∧ ∀ u, m' u = (c u).map fun d => ⟨d.1, d.2⟩ by
    obtain ⟨m', e, hm⟩ := H _ (fun _ => none) (fun _ => rfl) h
    refine ⟨m', e, fun u => ?_⟩
    unfold Store.getContents
    rw [hm]
    cases c u <;> rfl
  clear h
  intro c0 m hm hr
  induction hr generalizing m with
  | nil c => exact ⟨m, rfl, hm⟩
  | @cons c c' c'' n ns hs _ ih =>
    have key : ∃ m', m.handle n = some (m', true) ∧ ∀ u, m' u = (c' u).map fun d => ⟨d.1, d.2⟩ := by
      cases hs with
      | «open» u v t h0 =>
        refine ⟨_, by simp only [Store.handle, Store.open, hm, h0]; rfl, fun w => ?_⟩
        simp only [Store.set]
        split
        · rfl
        · exact hm w
      | change u v v' t t' cs h0 hv he =>
        refine ⟨m.set u (some ⟨v', t'⟩), ?_, fun w => ?_⟩
        · simp only [Store.handle, Store.change, hm, h0, Option.map_some]
          rw [if_neg (by omega), changes_exact he]
        · simp only [Store.set]
          split
          · rfl
          · exact hm w
      | close u d h0 =>
        refine ⟨_, by simp only [Store.handle, Store.close, hm, h0]; rfl, fun w => ?_⟩
        simp only [Store.set]
        split
        · rfl
        · exact hm w
    obtain ⟨m', e, hm'⟩ := key
    obtain ⟨m'', e', hm''⟩ := ih m' hm'
    exact ⟨m'', by simp only [Store.run, e, e']; rfl, hm''⟩

example : ∃ c, ClientRun (U := Nat) (fun _ => none)
    [.open 1 0 "ab".toList, .open 2 5 [], .change 1 3 [⟨some (⟨0, 1⟩, ⟨0, 2⟩), "c".toList⟩], .close 2] c ∧
    c 1 = some (3, "ac".toList) ∧ c 2 = none := by
  refine ⟨_, .cons (.open _ _ _ _ rfl) (.cons (.open _ _ _ _ rfl)
    (.cons (.change _ 1 0 3 "ab".toList "ac".toList _ rfl (by decide)
      (.cons (ClientEdit.splice "a".toList "b".toList "c".toList []) (.nil _)))
    (.cons (.close _ 2 (5, []) rfl) (.nil _)))), rfl, rfl⟩

/-- **C26.** In every state of the store: changing or closing a document that is not open, and a
change older than the stored version, are refused and leave the store as it was. -/
theorem store_refuses (m : Store U) (u : U) (v : Int) (cs : List Change) :
    (m u = none → m.handle (.change u v cs) = some (m, false)) ∧
    (m u = none → m.handle (.close u) = some (m, false)) ∧
    (∀ d, m u = some d → v < d.version → m.handle (.change u v cs) = some (m, false)) := by
  refine ⟨fun h => by simp only [Store.handle, Store.change, h], fun h => ?_, fun d h hv => ?_⟩
  · simp only [Store.handle, Store.close, h]
    congr 2
    funext w
    unfold Store.set
    split
    · next e => rw [e, h]
    · rfl
  · simp only [Store.handle, Store.change, h]
    rw [if_pos hv]

/-- one notification never lowers the version of a document that stays open, other than reopening it,
and never touches another document -/
theorem handle_version {m m' : Store U} {n : Note U} {b : Bool} (h : m.handle n = some (m', b)) (u : U) :
    (∀ v t, n ≠ .open u v t) →
    ∀ d d', m u = some d → m' u = some d' → d.version ≤ d'.version := by
  intro hn d d' hd hd'
  cases n with
  | «open» w v t =>
    simp only [Store.handle, Store.open, Option.some.injEq, Prod.mk.injEq] at h
    obtain ⟨rfl, _⟩ := h
    simp only [Store.set] at hd'
    split at hd'
    · next e => exact absurd (by rw [e]) (hn v t)
    · rw [hd] at hd'; injection hd' with e; rw [e]
  | close w =>
    simp only [Store.handle, Store.close, Option.some.injEq, Prod.mk.injEq] at h
    obtain ⟨rfl, _⟩ := h
    simp only [Store.set] at hd'
    split at hd'
    · cases hd'
    · rw [hd] at hd'; injection hd' with e; rw [e]
  | change w v cs =>
    simp only [Store.handle, Store.change] at h
    split at h
    · simp only [Option.some.injEq, Prod.mk.injEq] at h
      obtain ⟨rfl, _⟩ := h
      rw [hd] at hd'; injection hd' with e; rw [e]
    · next d0 h0 =>
      split at h
      · simp only [Option.some.injEq, Prod.mk.injEq] at h
        obtain ⟨rfl, _⟩ := h
        rw [hd] at hd'; injection hd' with e; rw [e]
      · next hv =>
        split at h
        · cases h
        · next t okay _ =>
          simp only [Option.some.injEq, Prod.mk.injEq] at h
          obtain ⟨rfl, _⟩ := h
          simp only [Store.set] at hd'
          split at hd'
          · next e =>
            subst e
            rw [hd] at h0
            injection h0 with h0
            injection hd' with hd'
            subst h0 hd'
            exact Int.not_lt.1 hv
          · rw [hd] at hd'; injection hd' with e; rw [e]

/-- **C26.** A change that was accepted was for an open document and not older than it; the version
becomes the new one and no other document is touched. -/
theorem change_accepted {m m' : Store U} {u : U} {v : Int} {cs : List Change}
    (h : m.handle (.change u v cs) = some (m', true)) :
    ∃ d t, m u = some d ∧ d.version ≤ v ∧ m' u = some ⟨v, t⟩ ∧ ∀ w, w ≠ u → m' w = m w := by
  simp only [Store.handle, Store.change] at h
  split at h
  · simp at h
  · next d h0 =>
    split at h
    · simp at h
    · next hv =>
      split at h
      · cases h
      · next t okay _ =>
        simp only [Option.some.injEq, Prod.mk.injEq] at h
        obtain ⟨rfl, _⟩ := h
        exact ⟨d, t, h0, Int.not_lt.1 hv, by simp [Store.set], fun w hw => by simp [Store.set, hw]⟩

/-- Versions along an arbitrary history without reopening `u`, from any store: monotone. -/
theorem versions_monotone (u : U) {m m' : Store U} {ns : List (Note U)} {bs : List Bool}
    (h : m.run ns = some (m', bs)) (hn : ∀ n ∈ ns, ∀ v t, n ≠ .open u v t) :
    ∀ d d', m u = some d → m' u = some d' → d.version ≤ d'.version := by
  induction ns generalizing m bs with
  | nil =>
    simp only [Store.run, Option.some.injEq, Prod.mk.injEq] at h
    obtain ⟨rfl, _⟩ := h
    intro d d' h1 h2
    rw [h1] at h2; injection h2 with e; rw [e]
  | cons n ns ih =>
    simp only [Store.run] at h
    split at h
    · cases h
    · next m1 b h1 =>
      rw [Option.map_eq_some_iff] at h
      obtain ⟨⟨m2, bs'⟩, hr, he⟩ := h
      simp only [Prod.mk.injEq] at he
      obtain ⟨rfl, _⟩ := he
      intro d d' hd hd'
      cases hm1 : m1 u with
      | some d1 =>
        have := handle_version h1 u (hn n (by simp)) d d1 hd hm1
        have := ih hr (fun n hn' => hn n (by simp [hn'])) d1 d' hm1 hd'
        omega
      | none =>
        -- once closed it cannot become open again without an `open`
        exfalso
        have stays : ∀ (ns : List (Note U)) (m m' : Store U) (bs : List Bool), m.run ns = some (m', bs) →
            (∀ n ∈ ns, ∀ v t, n ≠ .open u v t) → m u = none → m' u = none := by
          intro ns
          induction ns with
          | nil =>
            intro m m' bs h _ h0
            simp only [Store.run, Option.some.injEq, Prod.mk.injEq] at h
            obtain ⟨rfl, _⟩ := h
            exact h0
          | cons n ns ih =>
            intro m m' bs h hn h0
            simp only [Store.run] at h
            split at h
            · cases h
            · next m1 b h1 =>
              rw [Option.map_eq_some_iff] at h
              obtain ⟨⟨m2, bs'⟩, hr, he⟩ := h
              simp only [Prod.mk.injEq] at he
              obtain ⟨rfl, _⟩ := he
              refine ih _ _ _ hr (fun n hn' => hn n (by simp [hn'])) ?_
              have hn1 := hn n (by simp)
              cases n with
              | «open» w v t =>
                simp only [Store.handle, Store.open, Option.some.injEq, Prod.mk.injEq] at h1
                obtain ⟨rfl, _⟩ := h1
                simp only [Store.set]
                split
                · next e => exact absurd (by rw [e]) (hn1 v t)
                · exact h0
              | close w =>
                simp only [Store.handle, Store.close, Option.some.injEq, Prod.mk.injEq] at h1
                obtain ⟨rfl, _⟩ := h1
                simp only [Store.set]
                split
                · rfl
                · exact h0
              | change w v cs =>
                by_cases e : u = w
                · subst e
                  rw [(store_refuses m u v cs).1 h0] at h1
                  simp only [Option.some.injEq, Prod.mk.injEq] at h1
                  rw [← h1.1]; exact h0
                · simp only [Store.handle, Store.change] at h1
                  split at h1
                  · simp only [Option.some.injEq, Prod.mk.injEq] at h1
                    rw [← h1.1]; exact h0
                  · split at h1
                    · simp only [Option.some.injEq, Prod.mk.injEq] at h1
                      rw [← h1.1]; exact h0
                    · split at h1
                      · cases h1
                      · simp only [Option.some.injEq, Prod.mk.injEq] at h1
                        rw [← h1.1]
                        simp only [Store.set]
                        rw [if_neg e]
                        exact h0
        have := stays ns m1 m2 bs' hr (fun n hn' => hn n (by simp [hn'])) hm1
        rw [this] at hd'
        cases hd'

end

/-! ### Disagreements with the LSP specification -/

/-- LSP: a character offset past the end of the line means the end of the line.  The code goes on into
the following lines. -/
theorem long_column_crosses_line :
    totalOffset "a\nbc".toList 0 3 = .ok 3 ∧ utf8Length "a".toList = 1 := by decide +kernel

/-- LSP: `\r` alone ends a line.  The code knows only `\n`. -/
theorem lone_cr_is_not_a_line : totalOffset "a\rb".toList 1 0 = .err := by decide +kernel

/-- a range whose end precedes its start panics -/
theorem reversed_range_panics : applyChange "abc".toList ⟨some (⟨0, 2⟩, ⟨0, 1⟩), []⟩ = .panic := by
  decide +kernel

/-- opening a document twice is refused, yet replaces the text -/
theorem open_twice_replaces (U : Type) [DecidableEq U] (m : Store U) (u : U) (d : Document) (v : Int)
    (t : List Char) (h : m u = some d) :
    (m.open u v t).2 = false ∧ (m.open u v t).1 u = some ⟨v, t⟩ := by
  simp [Store.open, Store.set, h]

/-! ### Reading an open document -/

/-- read with the given buffer sizes, one after another -/
def Cursor.reads : Cursor → List Nat → List UInt8 × Cursor
  | c, [] => ([], c)
  | c, n :: ns =>
    let r := c.read n
    let s := r.2.reads ns
    (r.1 ++ s.1, s.2)

/-- **C45.** However the reader's buffers are sized, the bytes it gets from an open document are the
document's bytes in order, as many as were asked for. -/
theorem cursor_reads (data : List UInt8) (sizes : List Nat) :
    (Cursor.reads ⟨data, 0⟩ sizes).1 = data.take sizes.sum := by
  suffices H : ∀ (c : Cursor), c.pos ≤ c.inner.length →
      (c.reads sizes).1 = (c.inner.drop c.pos).take sizes.sum from H ⟨data, 0⟩ (by simp)
  induction sizes with
  | nil => intro c _; simp [Cursor.reads]
  | cons n ns ih =>
    intro c hc
    simp only [Cursor.reads, Cursor.read, Cursor.fillBuf]
    rw [Nat.min_eq_left hc, ih _ (by simp; omega)]
    simp only [List.length_take, List.length_drop, List.sum_cons]
    rw [List.take_add, List.drop_drop]
    by_cases h : n ≤ c.inner.length - c.pos
    · rw [Nat.min_eq_left h]
    · rw [Nat.min_eq_right (by omega)]
      congr 1
      rw [List.drop_of_length_le (by omega), List.drop_of_length_le (by omega)]

example : (Cursor.reads ⟨[1, 2, 3, 4, 5], 0⟩ [2, 0, 1, 7, 4]).1 = [1, 2, 3, 4, 5] := by decide +kernel

end Verif.Langserver
