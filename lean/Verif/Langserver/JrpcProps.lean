import Verif.Langserver.Jrpc

/-! # Framing theorems (C25) -/

namespace Verif.Langserver

theorem decode_encode (m : List Char) : decode (encode m) = some m := by
  have := List.utf8Decode?_utf8Encode (l := m)
  unfold decode encode
  rw [show (m.flatMap String.utf8EncodeChar).toByteArray = m.utf8Encode from rfl, this]
  simp

theorem encode_append (a b : List Char) : encode (a ++ b) = encode a ++ encode b := by
  simp [encode]

/-- an ASCII character is one byte -/
theorem encode_ascii (c : Char) (h : c.toNat ≤ 127) : String.utf8EncodeChar c = [UInt8.ofNat c.toNat] := by
  unfold String.utf8EncodeChar
  simp only [Char.toNat] at h ⊢
  rw [if_pos h]

theorem readLine_append {a : List UInt8} (b : List UInt8) (h : (10 : UInt8) ∉ a) :
    readLine (a ++ 10 :: b) = (a ++ [10], b) := by
  induction a with
  | nil => simp [readLine]
  | cons c t ih =>
    simp only [List.mem_cons, not_or] at h
    simp only [List.cons_append, readLine]
    rw [if_neg (fun e => h.1 e.symm), ih h.2]

theorem readLine_split (inp : List UInt8) : inp = (readLine inp).1 ++ (readLine inp).2 := by
  induction inp with
  | nil => rfl
  | cons b t ih =>
    simp only [readLine]
    split
    · rfl
    · simp only [List.cons_append]; rw [← ih]

theorem digit_facts {n : Nat} {c : Char} (h : c ∈ Nat.toDigits 10 n) :
    c.isDigit = true ∧ c.toNat ≤ 127 ∧ c ≠ ' ' ∧ isWhite c = false ∧ c.toNat ≠ 10 ∧ c ≠ '+' := by
  have hd := Nat.isDigit_of_mem_toDigits (by decide) (by decide) h
  have h2 : 48 ≤ c.toNat ∧ c.toNat ≤ 57 := by
    have hd' := hd
    unfold Char.isDigit at hd'
    simp only [Bool.and_eq_true, decide_eq_true_eq, ge_iff_le, UInt32.le_iff_toNat_le] at hd'
    exact hd'
  refine ⟨hd, by omega, ?_, ?_, by omega, ?_⟩
  · rintro rfl; simp at h2
  · unfold isWhite
    simp only [Bool.or_eq_false_iff, Bool.and_eq_false_iff, decide_eq_false_iff_not]
    omega
  · rintro rfl; simp at h2

theorem parseDigits_eq (l : List Char) (h : ∀ c ∈ l, c.isDigit = true) (acc : Nat) :
    parseDigits acc l = some (Nat.ofDigitChars 10 l acc) := by
  induction l generalizing acc with
  | nil => simp [parseDigits]
  | cons c t ih =>
    simp only [parseDigits]
    rw [if_pos (h c (by simp)), ih (fun c hc => h c (by simp [hc])), Nat.ofDigitChars_cons]
    rfl

theorem parseUsize_digits (n : Nat) (h : n < 2 ^ 64) : parseUsize (Nat.toDigits 10 n) = some n := by
  have hne : Nat.toDigits 10 n ≠ [] := Nat.toDigits_ne_nil
  unfold parseUsize
  have hm : stripPlus (Nat.toDigits 10 n) = Nat.toDigits 10 n := by
    cases e : Nat.toDigits 10 n with
    | nil => rfl
    | cons c t =>
      simp only [stripPlus]
      rw [if_neg (digit_facts (n := n) (c := c) (by rw [e]; simp)).2.2.2.2.2]
  simp only [hm]
  rw [if_neg hne, parseDigits_eq _ (fun c hc => (digit_facts hc).1), Nat.ofDigitChars_ten_toDigits]
  simp only
  rw [if_pos h]

theorem splitSpace_none {l : List Char} (h : ' ' ∉ l) : splitSpace l = [l] := by
  induction l with
  | nil => rfl
  | cons c t ih =>
    simp only [List.mem_cons, not_or] at h
    simp only [splitSpace]
    rw [if_neg (fun e => h.1 e.symm), ih h.2]

theorem splitSpace_append {a : List Char} (b : List Char) (h : ' ' ∉ a) :
    splitSpace (a ++ ' ' :: b) = a :: splitSpace b := by
  induction a with
  | nil => simp [splitSpace]
  | cons c t ih =>
    simp only [List.mem_cons, not_or] at h
    simp only [List.cons_append, splitSpace]
    rw [if_neg (fun e => h.1 e.symm), ih h.2]

theorem dropWhile_none {l : List Char} (h : ∀ c ∈ l, isWhite c = false) : l.dropWhile isWhite = l := by
  cases l with
  | nil => rfl
  | cons c t => rw [List.dropWhile_cons, if_neg (by simp [h c (by simp)])]

theorem trim_crlf {d : List Char} (h : ∀ c ∈ d, isWhite c = false) :
    trim (d ++ ['\r', '\n']) = d := by
  have hcr : isWhite '\r' = true := by decide
  have hlf : isWhite '\n' = true := by decide
  unfold trim
  cases d with
  | nil => simp [hcr, hlf]
  | cons c t =>
    rw [List.cons_append, List.dropWhile_cons, if_neg (by simp [h c (by simp)])]
    rw [← List.cons_append, List.reverse_append]
    rw [show ['\r', '\n'].reverse = ['\n', '\r'] from rfl]
    rw [List.cons_append, List.dropWhile_cons, if_pos hlf, List.cons_append, List.dropWhile_cons,
      if_pos hcr, List.nil_append, dropWhile_none (by intro x hx; exact h x (List.mem_reverse.1 hx))]
    simp

theorem encode_no_nl {l : List Char} (h : ∀ c ∈ l, c.toNat ≤ 127 ∧ c.toNat ≠ 10) :
    (10 : UInt8) ∉ encode l := by
  intro hm
  unfold encode at hm
  rw [List.mem_flatMap] at hm
  obtain ⟨c, hc, hm⟩ := hm
  obtain ⟨h1, h2⟩ := h c hc
  rw [encode_ascii c h1, List.mem_singleton] at hm
  have := congrArg UInt8.toNat hm
  simp at this
  omega

/-- Reading a frame followed by anything gives the message and leaves what follows. -/
theorem read_frame (m : List Char) (rest : List UInt8) (h : (encode m).length < 2 ^ 64) :
    readMsg (frame m ++ rest) = .msg m rest := by
  generalize hn : (encode m).length = n at h
  have e1 : frame m ++ rest
      = encode ("Content-Length: ".toList ++ Nat.toDigits 10 n ++ ['\r']) ++ 10 ::
        (encode ['\r'] ++ 10 :: (encode m ++ rest)) := by
    unfold frame
    rw [hn]
    simp only [encode_append, List.append_assoc]
    congr 2
  have hA : ∀ c ∈ "Content-Length: ".toList ++ Nat.toDigits 10 n ++ ['\r'], c.toNat ≤ 127 ∧ c.toNat ≠ 10 := by
    intro c hc
    simp only [List.mem_append, List.mem_singleton] at hc
    rcases hc with (hc | hc) | hc
    · have : ∀ c ∈ "Content-Length: ".toList, c.toNat ≤ 127 ∧ c.toNat ≠ 10 := by decide +kernel
      exact this c hc
    · have := digit_facts hc; exact ⟨this.2.1, this.2.2.2.2.1⟩
    · subst hc; decide
  have l1 : readLine (frame m ++ rest)
      = (encode ("Content-Length: ".toList ++ Nat.toDigits 10 n ++ ['\r', '\n']),
         encode ['\r'] ++ 10 :: (encode m ++ rest)) := by
    rw [e1, readLine_append _ (encode_no_nl hA)]
    congr 1
    rw [show ['\r', '\n'] = ['\r'] ++ ['\n'] from rfl, ← List.append_assoc, encode_append (_ ++ _) ['\n']]
    rfl
  have l2 : readLine (encode ['\r'] ++ 10 :: (encode m ++ rest)) = (encode ['\r', '\n'], encode m ++ rest) := by
    rw [readLine_append _ (encode_no_nl (by decide))]
    rfl
  unfold readMsg
  simp only [l1, l2, decode_encode]
  rw [if_neg (by simp)]
  have hs : splitSpace ("Content-Length: ".toList ++ Nat.toDigits 10 n ++ ['\r', '\n'])
      = ["Content-Length:".toList, Nat.toDigits 10 n ++ ['\r', '\n']] := by
    rw [show "Content-Length: ".toList = "Content-Length:".toList ++ [' '] by decide +kernel]
    rw [List.append_assoc, List.append_assoc, List.singleton_append, splitSpace_append _ (by decide +kernel),
      splitSpace_none]
    intro hm
    simp only [List.mem_append, List.mem_cons, List.not_mem_nil, or_false] at hm
    rcases hm with hm | hm | hm
    · exact (digit_facts hm).2.2.1 rfl
    · exact absurd hm (by decide)
    · exact absurd hm (by decide)
  rw [hs]
  simp only
  rw [if_pos (by decide +kernel), trim_crlf (fun c hc => (digit_facts hc).2.2.2.1), parseUsize_digits n h]
  simp only
  rw [if_neg (by rw [List.length_append]; omega), ← hn, List.take_left, List.drop_left, decode_encode]

/-- a message always takes at least one byte off the stream -/
theorem read_shrinks {inp rest : List UInt8} {m : List Char} (h : readMsg inp = .msg m rest) :
    rest.length < inp.length := by
  cases inp with
  | nil =>
    have : readMsg [] = .done := by decide +kernel
    rw [this] at h; cases h
  | cons b t =>
    have e1 := readLine_split (b :: t)
    have hpos : 0 < (readLine (b :: t)).1.length := by
      simp only [readLine]; split <;> simp
    have e2 := readLine_split (readLine (b :: t)).2
    unfold readMsg at h
    simp only at h
    split at h
    · cases h
    · split at h
      · cases h
      · split at h
        · split at h
          · split at h
            · cases h
            · split at h
              · cases h
              · split at h
                · cases h
                · split at h
                  · cases h
                  · injection h with _ h
                    have l1 := congrArg List.length e1
                    have l2 := congrArg List.length e2
                    simp only [List.length_append] at l1 l2
                    rw [← h, List.length_drop]
                    omega
          · cases h
        · cases h

/-- enough fuel is enough -/
theorem runRead_fuel (f : Nat) (inp : List UInt8) (h : inp.length < f) : runRead f inp = run inp := by
  induction f using Nat.strong_induction_on generalizing inp with
  | _ f ih =>
    obtain ⟨f, rfl⟩ : ∃ g, f = g + 1 := ⟨f - 1, by omega⟩
    unfold run
    simp only [runRead]
    cases hr : readMsg inp with
    | done => rfl
    | fail => rfl
    | msg m rest =>
      have := read_shrinks hr
      simp only
      rw [ih f (by omega) rest (by omega)]
      by_cases hl : inp.length = f
      · rw [hl, ih f (by omega) rest (by omega)]
      · rw [ih inp.length (by omega) rest this]

theorem run_never_out_of_fuel (inp : List UInt8) : (run inp).2 ≠ .outOfFuel := by
  induction h : inp.length using Nat.strong_induction_on generalizing inp with
  | _ n ih =>
    unfold run
    simp only [runRead]
    cases hr : readMsg inp with
    | done => simp
    | fail => simp
    | msg m rest =>
      simp only
      rw [runRead_fuel _ _ (read_shrinks hr)]
      exact ih _ (by rw [← h]; exact read_shrinks hr) rest rfl

/-- **C25.** For every sequence of messages, whatever characters they contain, reading the
concatenation of the frames written for them delivers exactly these messages, in order, followed by
what reading the rest of the stream delivers; at the end of the stream the reader ends quietly. -/
theorem frames_roundtrip (ms : List (List Char)) (h : ∀ m ∈ ms, (encode m).length < 2 ^ 64)
    (rest : List UInt8) :
    run (ms.flatMap frame ++ rest) = (ms ++ (run rest).1, (run rest).2) := by
  induction ms with
  | nil => rfl
  | cons m ms ih =>
    rw [List.flatMap_cons, List.append_assoc]
    have hr := read_frame m (ms.flatMap frame ++ rest) (h m (by simp))
    have := read_shrinks hr
    unfold run
    simp only [runRead, hr]
    rw [runRead_fuel _ _ this, ih (fun m hm => h m (by simp [hm]))]
    rfl

theorem frames_roundtrip_eof (ms : List (List Char)) (h : ∀ m ∈ ms, (encode m).length < 2 ^ 64) :
    run (ms.flatMap frame) = (ms, .quietly) := by
  have := frames_roundtrip ms h []
  rw [List.append_nil, show run [] = ([], .quietly) by decide +kernel] at this
  simpa using this

example : run (frame "{\"x\":\"Content-Length: 1\\r\\n\"}".toList ++ frame [] ++ frame "é😀\n".toList)
    = (["{\"x\":\"Content-Length: 1\\r\\n\"}".toList, [], "é😀\n".toList], .quietly) := by decide +kernel

/-- The frames of concurrent writers: each frame is written under the lock, so the stream is the
concatenation of the frames in some interleaving order `ms` of the threads' messages; the reader
delivers every thread's messages in that thread's order. -/
theorem interleaved_writers (threads : List (List (List Char))) (ms : List (List Char))
    (hsub : ∀ t ∈ threads, t.Sublist ms) (h : ∀ m ∈ ms, (encode m).length < 2 ^ 64) :
    ∀ t ∈ threads, t.Sublist (run (ms.flatMap frame)).1 := by
  intro t ht
  rw [frames_roundtrip_eof ms h]
  exact hsub t ht

/-- **C25.** The other way round: whatever the stream holds, a delivered message is the decoding of
exactly as many bytes as its header announced, those right after the header's two lines, and the next
message is looked for right behind it. -/
theorem read_sound {inp rest : List UInt8} {m : List Char} (h : readMsg inp = .msg m rest) :
    ∃ header blank content n name value, inp = header ++ blank ++ content ++ rest ∧
      decode content = some m ∧ content.length = n ∧
      decode header = some (name ++ ' ' :: value) ∧ ' ' ∉ name ∧
      name.map Char.toLower = "content-length:".toList ∧ parseUsize (trim value) = some n := by
  have e1 := readLine_split inp
  have e2 := readLine_split (readLine inp).2
  have hsp : ∀ (l a b : List Char), splitSpace l = [a, b] → l = a ++ ' ' :: b ∧ ' ' ∉ a := by
    intro l
    induction l with
    | nil => intro a b h; simp [splitSpace] at h
    | cons c t ih =>
      intro a b h
      simp only [splitSpace] at h
      split at h
      · next hc =>
        subst hc
        injection h with h1 h2
        subst h1
        have hone : ∀ (t b : List Char), splitSpace t = [b] → t = b := by
          intro t
          induction t with
          | nil => intro b h; simp [splitSpace] at h; exact h.symm ▸ rfl
          | cons c t ih =>
            intro b h
            simp only [splitSpace] at h
            split at h
            · injection h with _ h
              cases t with
              | nil => simp [splitSpace] at h
              | cons d t =>
                exfalso
                simp only [splitSpace] at h
                split at h
                · cases h
                · split at h <;> cases h
            · split at h
              · next hs =>
                exfalso
                cases t with
                | nil => simp [splitSpace] at hs
                | cons d t =>
                  simp only [splitSpace] at hs
                  split at hs
                  · cases hs
                  · split at hs <;> cases hs
              · next p ps hs =>
                injection h with h1 h2
                subst h2
                rw [← h1, ih p hs]
        exact ⟨by rw [hone t b h2]; rfl, by simp⟩
      · next hc =>
        split at h
        · cases h
        · next p ps hs =>
          injection h with h1 h2
          subst h2
          obtain ⟨e, n⟩ := ih p b hs
          subst h1
          exact ⟨by rw [e]; rfl, by simp only [List.mem_cons, not_or]; exact ⟨fun e => hc e.symm, n⟩⟩
  unfold readMsg at h
  simp only at h
  split at h
  · cases h
  · next buffer hb =>
    split at h
    · cases h
    · split at h
      · next p0 p1 hsplit =>
        split at h
        · next hname =>
          split at h
          · cases h
          · next size hsize =>
            split at h
            · cases h
            · split at h
              · cases h
              · next hlen =>
                split at h
                · cases h
                · next m' hm =>
                  injection h with h1 h2
                  subst h1 h2
                  obtain ⟨eb, hn⟩ := hsp _ _ _ hsplit
                  refine ⟨_, (readLine (readLine inp).2).1, _, size, p0, p1, ?_, hm, ?_, by rw [hb, eb], hn, ?_, hsize⟩
                  · conv_lhs => rw [e1, e2]
                    simp only [List.append_assoc, List.take_append_drop]
                  · rw [List.length_take]; omega
                  · unfold eqIgnoreCase at hname
                    simp only [decide_eq_true_eq] at hname
                    rw [hname]; decide +kernel
        · cases h
      · cases h

/-- the characters trimmed from the header line are exactly those with Unicode property `White_Space` -/
theorem isWhite_iff (c : Char) : isWhite c = true ↔
    c.toNat ∈ [0x9, 0xA, 0xB, 0xC, 0xD, 0x20, 0x85, 0xA0, 0x1680, 0x2000, 0x2001, 0x2002, 0x2003,
      0x2004, 0x2005, 0x2006, 0x2007, 0x2008, 0x2009, 0x200A, 0x2028, 0x2029, 0x202F, 0x205F,
      0x3000] := by
  simp only [isWhite, Bool.or_eq_true, Bool.and_eq_true, decide_eq_true_eq, List.mem_cons,
    List.not_mem_nil, or_false]
  omega

/-! ### Disagreements with the LSP base protocol -/

/-- The base protocol allows a `Content-Type` header field; the reader takes it for the blank line
and the blank line for content. -/
theorem content_type_breaks_framing :
    (run (encode "Content-Length: 2\r\nContent-Type: x\r\n\r\n{}".toList)).1 = ["\r\n".toList] := by
  decide +kernel

/-- …and with the header fields in the other order the server stops reading, quietly. -/
theorem content_type_first_ends_session :
    run (encode "Content-Type: x\r\nContent-Length: 2\r\n\r\n{}".toList) = ([], .quietly) := by
  decide +kernel

end Verif.Langserver
