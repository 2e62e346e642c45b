import Verif.Dmm.DictLemmas

/-!
# C69: the layout of a map file does not matter to the reader

Line endings, a byte-order mark, text before the first entry, comments before the first entry, and an
empty variable block after a path: each reads the same as the plain file.  All theorems are about
`parseMap` (`Map::from_file` on the content of the file).
-/

namespace Verif.Dmm

variable {C : Type} (evalV : List Char → Option C)

/-! ## Specification -/

/-- the same text with Windows line endings: a carriage return before every line feed -/
def crlf (t : List Char) : List Char :=
  t.flatMap fun c => if c = '\n' then ['\r', '\n'] else [c]

/-- the UTF-8 byte-order mark -/
def bom : List Char := [Char.ofNat 0xEF, Char.ofNat 0xBB, Char.ofNat 0xBF]

/-! ## Lemmas -/

theorem crlf_nl (t : List Char) : crlf ('\n' :: t) = '\r' :: '\n' :: crlf t := by
  simp [crlf]

theorem crlf_cons (c : Char) (t : List Char) (h : c ≠ '\n') : crlf (c :: t) = c :: crlf t := by
  simp [crlf, h]

/-- a character that means nothing between entries -/
theorem step_idle (c : Char) (h : c ∉ ['"', '(', '/']) :
    step evalV ({} : DState C) c = .cont {} := by
  simp only [List.mem_cons, List.not_mem_nil, or_false, not_or] at h
  by_cases h1 : c = '\n' ∨ c = '\r'
  · rcases h1 with rfl | rfl <;> rfl
  · by_cases h2 : c = '\t'
    · subst h2; rfl
    · simp only [not_or] at h1
      simp [step, h1, h2, h, stepMain, stepTop]

theorem runs_junk (pre : List Char) (h : ∀ c ∈ pre, c ∉ ['"', '(', '/']) :
    Runs evalV ({} : DState C) pre {} := by
  induction pre with
  | nil => exact Runs.nil _
  | cons c pre ih =>
    exact Runs.cons (step_idle evalV c (h c (by simp))) (ih fun d hd => h d (by simp [hd]))

theorem bom_junk (a : Char) (h : a.toNat = 0xEF ∨ a.toNat = 0xBB ∨ a.toNat = 0xBF) :
    a ∉ ['"', '(', '/'] := by
  intro hm
  simp only [List.mem_cons, List.not_mem_nil, or_false] at hm
  rcases hm with rfl | rfl | rfl <;> revert h <;> decide

/-- skipping the mark makes no difference: its bytes would be ignored anyway -/
theorem dictLoop_skipBom (t : List Char) :
    dictLoop evalV ({} : DState C) (skipBom t) = dictLoop evalV {} t := by
  unfold skipBom
  split
  · rename_i a b c r
    split
    · rename_i h
      have := runs_junk evalV (C := C) [a, b, c] (by
        intro x hx
        simp only [List.mem_cons, List.not_mem_nil, or_false] at hx
        rcases hx with rfl | rfl | rfl
        · exact bom_junk _ (.inl h.1)
        · exact bom_junk _ (.inr (.inl h.2.1))
        · exact bom_junk _ (.inr (.inr h.2.2)))
      exact (this r).symm
    · rfl
  · rfl

/-- reading depends on the text only through the dictionary loop on the whole text -/
theorem parseMap_congr (t u : List Char)
    (h : dictLoop evalV ({} : DState C) t = dictLoop evalV {} u) :
    parseMap evalV t = parseMap evalV u := by
  unfold parseMap
  rw [dictLoop_skipBom, dictLoop_skipBom, h]

theorem dictLoop_crlf (t : List Char) : ∀ s : DState C,
    dictLoop evalV s (crlf t) = match dictLoop evalV s t with
      | .ok (s', r) => .ok (s', crlf r)
      | .err => .err
      | .panic => .panic := by
  induction t with
  | nil => intro s; rfl
  | cons c t ih =>
    intro s
    by_cases h : c = '\n'
    · subst h
      rw [crlf_nl]
      have e1 : ∀ s : DState C,
          step evalV s '\r' = .cont { s with inComment := false, trig := false } := by
        intro s; simp [step]
      have e2 : ∀ s : DState C,
          step evalV s '\n' = .cont { s with inComment := false, trig := false } := by
        intro s; simp [step]
      simp only [dictLoop, e1, e2]
      exact ih _
    · rw [crlf_cons c t h]
      simp only [dictLoop]
      cases step evalV s c with
      | cont s' => exact ih s'
      | brk s' => rfl
      | err => rfl
      | panic => rfl

theorem gridLoop_crlf (kl : Nat) (t : List Char) : ∀ s : GState,
    gridLoop kl s (crlf t) = gridLoop kl s t := by
  induction t with
  | nil => intro s; rfl
  | cons c t ih =>
    intro s
    by_cases h : c = '\n'
    · subst h
      rw [crlf_nl]
      by_cases hc : s.inCoord = true
      · have e1 : gstep kl s '\r' = .err := by simp [gstep, hc, gstepCoord]
        have e2 : gstep kl s '\n' = .err := by simp [gstep, hc, gstepCoord]
        simp only [gridLoop, e1, e2]
      · have e1 : gstep kl s '\r' = .ok s := by
          by_cases hs : s.inStr = true <;> simp [gstep, hc, hs, gstepStr]
        simp only [gridLoop, e1]
        cases gstep kl s '\n' with
        | ok s' => exact ih s'
        | err => rfl
        | panic => rfl
    · rw [crlf_cons c t h]
      simp only [gridLoop]
      cases gstep kl s c with
      | ok s' => exact ih s'
      | err => rfl
      | panic => rfl

/-! ## Theorems -/

/-- **C69.** A map file reads the same with Windows line endings as with Unix ones, whatever its
content: same map, same failure, same panic. -/
theorem line_endings_irrelevant (t : List Char) : parseMap evalV (crlf t) = parseMap evalV t := by
  unfold parseMap
  rw [dictLoop_skipBom, dictLoop_skipBom, dictLoop_crlf]
  cases dictLoop evalV ({} : DState C) t with
  | err => rfl
  | panic => rfl
  | ok p =>
    obtain ⟨s, r⟩ := p
    simp only [gridLoop_crlf]

/-- **C69.** Text before the first entry that contains no quote, parenthesis or slash is ignored. -/
theorem leading_junk_ignored (pre t : List Char) (h : ∀ c ∈ pre, c ∉ ['"', '(', '/']) :
    parseMap evalV (pre ++ t) = parseMap evalV t :=
  parseMap_congr evalV _ _ (runs_junk evalV pre h t)

/-- **C69.** A byte-order mark at the start of the file is ignored. -/
theorem byte_order_mark_ignored (t : List Char) :
    parseMap evalV (bom ++ t) = parseMap evalV t :=
  leading_junk_ignored evalV bom t (by decide)

/-- **C69.** A comment line before the first entry is ignored, whatever it contains. -/
theorem leading_comment_ignored (body t : List Char) (h : '\n' ∉ body ∧ '\r' ∉ body) :
    parseMap evalV ('/' :: '/' :: body ++ '\n' :: t) = parseMap evalV t := by
  apply parseMap_congr
  have e1 : step evalV ({} : DState C) '/' = .cont { trig := true } := by
    simp [step, stepMain, stepTop]
  have e2 : step evalV ({ trig := true } : DState C) '/' =
      .cont { trig := true, inComment := true } := by
    simp [step]
  have e3 : step evalV ({ trig := true, inComment := true } : DState C) '\n' = .cont {} := by
    simp [step]
  have hb := runs_comment (evalV := evalV) ({ trig := true, inComment := true } : DState C) rfl body
    (fun c hc => ⟨fun e => h.1 (e ▸ hc), fun e => h.2 (e ▸ hc)⟩)
  have := Runs.cons e1 (Runs.cons e2 (Runs.trans hb (Runs.one e3))) t
  simpa using this

/-- after the path of a prefab, before its separator: `{}` changes nothing -/
theorem runs_emptyBlock {kl key : Nat} {dict : List (Nat × List (Prefab C))}
    {data : List (Prefab C)} (p : List Char) (hp : PathOk p) (c : Char) (hc : c = ',' ∨ c = ')')
    (rest : List Char) :
    dictLoop evalV (dataSt kl key dict data ⟨[], []⟩ false []) (p ++ ('{' :: '}' :: c :: rest)) =
      dictLoop evalV (dataSt kl key dict data ⟨[], []⟩ false []) (p ++ c :: rest) := by
  obtain ⟨b, h⟩ := runs_path (evalV := evalV) (kl := kl) (key := key) (dict := dict) (data := data)
    (fab := ⟨[], []⟩) p hp
  rw [h, h]
  have e1 : step evalV (dataSt kl key dict data ⟨[], []⟩ b p) '{' =
      .cont (varSt kl key dict data ⟨p, []⟩ [] false false []) := by
    simp [step, dataSt, varSt, stepMain, stepData]
  have e2 : step evalV (varSt kl key dict data ⟨p, []⟩ [] false false []) '}' =
      .cont (dataSt kl key dict data ⟨p, []⟩ false []) := by
    simp [step, dataSt, varSt, stepMain, stepVar, stepVarCore]
  have hne := hp.ne
  rcases hc with rfl | rfl
  · simp only [dictLoop, e1, e2]
    simp [step, dataSt, stepMain, stepData, pushFab, hne]
  · simp only [dictLoop, e1, e2]
    simp [step, dataSt, stepMain, stepData, pushFab, hne]

theorem runs_paths {kl key : Nat} {dict : List (Nat × List (Prefab C))}
    (ps : List (List Char)) (hps : ∀ q ∈ ps, PathOk q) : ∀ data : List (Prefab C), ∃ data',
    Runs evalV (dataSt kl key dict data ⟨[], []⟩ false []) (ps.flatMap (· ++ [',']))
      (dataSt kl key dict data' ⟨[], []⟩ false []) := by
  induction ps with
  | nil => intro data; exact ⟨data, Runs.nil _⟩
  | cons q ps ih =>
    intro data
    have hq := hps q (by simp)
    obtain ⟨b, h⟩ := runs_path (evalV := evalV) (kl := kl) (key := key) (dict := dict)
      (data := data) (fab := ⟨[], []⟩) q hq
    obtain ⟨data', h'⟩ := ih (fun x hx => hps x (by simp [hx])) (data ++ [⟨q, []⟩])
    refine ⟨data', ?_⟩
    have hne := hq.ne
    have e1 : step evalV (dataSt kl key dict data ⟨[], []⟩ b q) ',' =
        .cont (dataSt kl key dict (data ++ [⟨q, []⟩]) ⟨[], []⟩ false []) := by
      simp [step, dataSt, stepMain, stepData, pushFab, hne]
    have := Runs.trans h (Runs.cons e1 h')
    simpa using this

/-- the opening of the first entry of a file -/
theorem runs_open (k : List Char) (key : Nat) (hk : parseKey k = some key) (hl : k.length < 256) :
    Runs evalV ({} : DState C) ('"' :: k ++ ['"', ' ', '=', ' ', '('])
      (dataSt k.length key [] [] ⟨[], []⟩ false []) := by
  have e1 : step evalV ({} : DState C) '"' = .cont { inKey := true } := by
    simp [step, stepMain, stepTop]
  have h1 := runs_key (evalV := evalV) (dict := []) k 0 0 0 key hk (by omega)
  rw [Nat.zero_add] at h1
  let s1 : DState C := { key := key, keyLen := k.length, mapKeyLen := k.length }
  have e2 : step evalV ({ key := key, keyLen := k.length, inKey := true } : DState C) '"' =
      .cont s1 := by
    simp [step, stepMain, stepKey, s1]
  have e3 : step evalV s1 ' ' = .cont s1 := by simp [step, stepMain, stepTop, s1]
  have e4 : step evalV s1 '=' = .cont s1 := by simp [step, stepMain, stepTop, s1]
  have e5 : step evalV s1 '(' = .cont (dataSt k.length key [] [] ⟨[], []⟩ false []) := by
    simp [step, stepMain, stepTop, s1, dataSt]
  exact Runs.cons e1 (Runs.trans h1 (Runs.cons e2 (Runs.cons e3 (Runs.cons e4 (Runs.cons e3
    (Runs.one e5))))))

/-- **C69.** In the first entry of a file, a path with an empty variable block `{}` reads the same as
the path alone; here after any list of other prefabs given as paths. -/
theorem empty_block_ignored (k : List Char) (key : Nat) (hk : parseKey k = some key)
    (hl : k.length < 256) (ps : List (List Char)) (hps : ∀ q ∈ ps, PathOk q)
    (p : List Char) (hp : PathOk p) (c : Char) (hc : c = ',' ∨ c = ')') (rest : List Char) :
    parseMap evalV ('"' :: k ++ ['"', ' ', '=', ' ', '('] ++ (ps.flatMap (· ++ [',']) ++
        (p ++ ('{' :: '}' :: c :: rest)))) =
      parseMap evalV ('"' :: k ++ ['"', ' ', '=', ' ', '('] ++ (ps.flatMap (· ++ [',']) ++
        (p ++ c :: rest))) := by
  apply parseMap_congr
  obtain ⟨data', h⟩ := runs_paths evalV (kl := k.length) (key := key) (dict := []) ps hps []
  rw [runs_open evalV k key hk hl, runs_open evalV k key hk hl, h, h]
  exact runs_emptyBlock evalV p hp c hc rest

/-! ## The claim is sharp -/

/-- a small file, and the same with a mark, a comment, Windows line endings and an empty block -/
def exPlain : List Char := "\"a\" = (/turf)\n\n(1,1,1) = {\"\na\na\n\"}\n".toList

def exFancy : List Char :=
  bom ++ "// \"(\r\n\"a\" = (/turf{})\r\n\r\n(1,1,1) = {\"\r\na\r\na\r\n\"}\r\n".toList

example : (parseMap (fun t => some t) exPlain) = .ok ⟨1, [(0, [⟨"/turf".toList, []⟩])], 1, 2, 1,
    [[[0], [0]]]⟩ := by decide +kernel

example : parseMap (fun t => some t) exFancy = parseMap (fun t => some t) exPlain := by
  decide +kernel

/-- tabs are another matter: the reader drops them everywhere in the dictionary, even inside a quoted
value, so `"a<TAB>b"` reads as `"ab"` (read.rs:74-76 comes before the test for a quoted value) -/
theorem tab_in_string_is_lost :
    parseMap (fun t => some t)
        ("\"a\" = (/turf{name = \"x\ty\"})\n(1,1,1) = {\"\na\n\"}\n".toList) =
      .ok ⟨1, [(0, [⟨"/turf".toList, [("name".toList, "\"xy\"".toList)]⟩])], 1, 1, 1, [[[0]]]⟩ := by
  decide +kernel

end Verif.Dmm
