import Verif.Langserver.SearchModel

/-! # Symbol search -/

namespace Verif.Search

variable (U : Uni)

/-! ## Specification -/

/-- every symbol there is: defines, types but the root, and the variables and procs declared by types -/
def allSymbols (defines : List (List Char)) (types : List Ty) : List Sym :=
  defines.map .define ++ types.flatMap fun ty =>
    (if ty.isRoot then [] else [.type ty.path ty.name]) ++
      ((ty.vars.filter (·.2)).map fun v => .var ty.path v.1) ++ (ty.procs.filter (·.2)).map fun p => .proc ty.path p.1

/-- what a query asks for: names of some kinds that start with some text, or paths that contain some text -/
inductive Asks where
  /-- names of anything -/
  | anything (text : List Char)
  /-- `#text`: defines -/
  | define (text : List Char)
  /-- text with a `/`: paths of types -/
  | path (text : List Char)
  /-- `var/text` -/
  | var (text : List Char)
  /-- `proc/text` -/
  | proc (text : List Char)

/-- the text has a letter or a digit -/
def HasAlnum (s : List Char) : Prop := ∃ c ∈ s, ∃ d ∈ U.lower c, U.alnum d = true

/-- how a query is read; a query without letters and digits is not read -/
inductive Reads : List Char → Asks → Prop where
  | define {t} : HasAlnum U t → Reads ('#' :: t) (.define t)
  | var {t} : HasAlnum U t → Reads ('v' :: 'a' :: 'r' :: '/' :: t) (.var t)
  | proc {t} : HasAlnum U t → Reads ('p' :: 'r' :: 'o' :: 'c' :: '/' :: t) (.proc t)
  | path {t} : HasAlnum U t → '/' ∈ t → (∀ r, t ≠ '#' :: r) → (∀ r, t ≠ 'v' :: 'a' :: 'r' :: '/' :: r) →
    (∀ r, t ≠ 'p' :: 'r' :: 'o' :: 'c' :: '/' :: r) → Reads t (.path t)
  | anything {t} : HasAlnum U t → '/' ∉ t → (∀ r, t ≠ '#' :: r) → Reads t (.anything t)

/-- the letters and digits of a text, in lower case; all else is ignored -/
def letters : List Char → List Char
  | [] => []
  | c :: s => (U.lower c).filter U.alnum ++ letters s

/-- the letters and digits of `text`, in lower case, are the first ones of `name` -/
def Begins (text name : List Char) : Prop := letters U text <+: letters U name

/-- what answers -/
def Answers : Asks → Sym → Prop
  | .anything t, .define n => Begins U t n
  | .anything t, .type _ n => Begins U t n
  | .anything t, .var _ n => Begins U t n
  | .anything t, .proc _ n => Begins U t n
  | .define t, .define n => Begins U t n
  | .path t, .type p _ => U.lowerStr t <:+: U.lowerStr p
  | .var t, .var _ n => Begins U t n
  | .proc t, .proc _ n => Begins U t n
  | _, _ => False

/-! ## Lemmas -/

theorem simplify_eq (s : List Char) : simplify U s = letters U s := by
  unfold simplify
  induction s with
  | nil => rfl
  | cons c s ih => rw [List.flatMap_cons, List.filter_append, ih]; rfl


theorem zipAll_iff (f q : List Char) : ((zipAll f q).1 && (zipAll f q).2.isEmpty) = true ↔ q <+: f := by
  induction f generalizing q with
  | nil => cases q <;> simp [zipAll]
  | cons a f ih =>
    cases q with
    | nil => simp [zipAll]
    | cons b q =>
      unfold zipAll
      by_cases h : a = b
      · subst h
        rw [if_pos rfl, ih, List.prefix_cons_inj]
      · rw [if_neg h, List.cons_prefix_cons]
        simp [Ne.symm h]

/-- C42: a name is found by a text exactly if the letters and digits of the text, whatever their case, are the first of
those of the name -/
theorem startsWith_iff (name text : List Char) : startsWith U name text = true ↔ Begins U text name := by
  unfold startsWith Begins
  rw [← simplify_eq, ← simplify_eq]
  exact zipAll_iff _ _

theorem containsGo_iff (q f : List Char) : containsGo q f = true ↔ q <:+: f := by
  induction f with
  | nil =>
    unfold containsGo
    simp only
    rw [zipAll_iff]
    simp
  | cons a f ih =>
    unfold containsGo
    simp only
    rw [Bool.or_eq_true, zipAll_iff, ih, List.infix_cons_iff]

/-- C42: completion offers a name exactly if the letters and digits of the text occur together in those of the name -/
theorem contains_iff (name text : List Char) : contains U name text = true ↔ letters U text <:+: letters U name := by
  rw [← simplify_eq, ← simplify_eq]
  exact containsGo_iff _ _

theorem stripPrefix_iff (p s r : List Char) : stripPrefix p s = some r ↔ s = p ++ r := by
  induction p generalizing s with
  | nil => simp [stripPrefix]
  | cons a p ih =>
    cases s with
    | nil => simp [stripPrefix]
    | cons b s =>
      unfold stripPrefix
      by_cases h : a = b
      · subst h
        rw [if_pos rfl, ih]
        simp
      · rw [if_neg h]
        simp [Ne.symm h]

theorem strContains_iff (q s : List Char) : strContains q s = true ↔ q <:+: s := by
  induction s with
  | nil => simp [strContains]
  | cons c s ih =>
    unfold strContains
    rw [Bool.or_eq_true, ih, List.infix_cons_iff, Option.isSome_iff_exists]
    refine or_congr ?_ Iff.rfl
    constructor
    · rintro ⟨r, hr⟩
      exact ⟨r, ((stripPrefix_iff _ _ _).1 hr).symm⟩
    · rintro ⟨r, hr⟩
      exact ⟨r, (stripPrefix_iff _ _ _).2 hr.symm⟩

theorem any_iff (s : List Char) : anyAlphanumeric U s = true ↔ HasAlnum U s := by
  unfold anyAlphanumeric HasAlnum
  simp only [List.any_eq_true, List.mem_flatMap]
  constructor
  · rintro ⟨d, ⟨c, hc, hd⟩, h⟩; exact ⟨c, hc, d, hd, h⟩
  · rintro ⟨c, hc, d, hd, h⟩; exact ⟨d, ⟨c, hc, hd⟩, h⟩

/-- the query for what is asked -/
def toQuery : Asks → Query
  | .anything t => .anything (U.lowerStr t)
  | .define t => .define (U.lowerStr t)
  | .path t => .type (U.lowerStr t)
  | .var t => .var (U.lowerStr t)
  | .proc t => .proc (U.lowerStr t)

/-- that `#`, `/` and such are not letters or digits -/
structure Plain : Prop where
  hash : ∀ d ∈ U.lower '#', U.alnum d = false
  /-- what is left of a text in lower case is what is left of the text -/
  lower : ∀ s, letters U (U.lowerStr s) = letters U s

theorem hasAlnum_suffix {t s : List Char} (h : HasAlnum U t) (hs : t <:+ s) : HasAlnum U s := by
  obtain ⟨c, hc, h⟩ := h
  exact ⟨c, hs.subset hc, h⟩

theorem parse_of_reads {t : List Char} {a : Asks} (h : Reads U t a) : parse U t = some (toQuery U a) := by
  unfold parse
  cases h with
  | @define t h =>
    rw [if_pos ((any_iff U ('#' :: t)).2 (hasAlnum_suffix U h ⟨['#'], rfl⟩))]
    rw [(stripPrefix_iff ['#'] ('#' :: t) t).2 rfl]
    rfl
  | @var t h =>
    rw [if_pos ((any_iff U ('v' :: 'a' :: 'r' :: '/' :: t)).2 (hasAlnum_suffix U h ⟨['v', 'a', 'r', '/'], rfl⟩))]
    have h1 : stripPrefix ['#'] ('v' :: 'a' :: 'r' :: '/' :: t) = none := rfl
    rw [h1, (stripPrefix_iff ['v', 'a', 'r', '/'] ('v' :: 'a' :: 'r' :: '/' :: t) t).2 rfl]
    simp only
    rw [if_pos ((any_iff U _).2 h)]
    rfl
  | @proc t h =>
    rw [if_pos ((any_iff U ('p' :: 'r' :: 'o' :: 'c' :: '/' :: t)).2 (hasAlnum_suffix U h ⟨['p', 'r', 'o', 'c', '/'], rfl⟩))]
    have h1 : stripPrefix ['#'] ('p' :: 'r' :: 'o' :: 'c' :: '/' :: t) = none := rfl
    have h2 : stripPrefix ['v', 'a', 'r', '/'] ('p' :: 'r' :: 'o' :: 'c' :: '/' :: t) = none := rfl
    rw [h1, h2, (stripPrefix_iff ['p', 'r', 'o', 'c', '/'] ('p' :: 'r' :: 'o' :: 'c' :: '/' :: t) t).2 rfl]
    simp only
    rw [if_pos ((any_iff U _).2 h)]
    rfl
  | path h hs h1 h2 h3 =>
    rw [if_pos ((any_iff U _).2 h)]
    have e1 : stripPrefix ['#'] t = none := by
      cases he : stripPrefix ['#'] t with
      | none => rfl
      | some r => exact absurd ((stripPrefix_iff _ _ _).1 he) (h1 r)
    have e2 : stripPrefix ['v', 'a', 'r', '/'] t = none := by
      cases he : stripPrefix ['v', 'a', 'r', '/'] t with
      | none => rfl
      | some r => exact absurd ((stripPrefix_iff _ _ _).1 he) (h2 r)
    have e3 : stripPrefix ['p', 'r', 'o', 'c', '/'] t = none := by
      cases he : stripPrefix ['p', 'r', 'o', 'c', '/'] t with
      | none => rfl
      | some r => exact absurd ((stripPrefix_iff _ _ _).1 he) (h3 r)
    rw [e1, e2, e3]
    simp only
    rw [if_pos (by simpa using hs)]
    rfl
  | anything h hs h1 =>
    rw [if_pos ((any_iff U _).2 h)]
    have e1 : stripPrefix ['#'] t = none := by
      cases he : stripPrefix ['#'] t with
      | none => rfl
      | some r => exact absurd ((stripPrefix_iff _ _ _).1 he) (h1 r)
    have e2 : stripPrefix ['v', 'a', 'r', '/'] t = none := by
      cases he : stripPrefix ['v', 'a', 'r', '/'] t with
      | none => rfl
      | some r =>
        have := (stripPrefix_iff _ _ _).1 he
        rw [this] at hs
        simp at hs
    have e3 : stripPrefix ['p', 'r', 'o', 'c', '/'] t = none := by
      cases he : stripPrefix ['p', 'r', 'o', 'c', '/'] t with
      | none => rfl
      | some r =>
        have := (stripPrefix_iff _ _ _).1 he
        rw [this] at hs
        simp at hs
    rw [e1, e2, e3]
    simp only
    rw [if_neg (by simpa using hs)]
    rfl

theorem reads_of_parse (hU : Plain U) {t : List Char} {q : Query} (h : parse U t = some q) :
    ∃ a, Reads U t a ∧ q = toQuery U a := by
  unfold parse at h
  split at h
  · rename_i hany
    have hany := (any_iff U _).1 hany
    split at h
    · rename_i r hr
      have hr := (stripPrefix_iff _ _ _).1 hr
      subst hr
      cases h
      refine ⟨.define r, .define ?_, rfl⟩
      obtain ⟨c, hc, d, hd, hdd⟩ := hany
      rcases List.mem_cons.1 hc with rfl | hc
      · rw [hU.hash d hd] at hdd; cases hdd
      · exact ⟨c, hc, d, hd, hdd⟩
    · rename_i h1
      have h1 : ∀ r, t ≠ '#' :: r := fun r hr => by
        rw [(stripPrefix_iff ['#'] t r).2 hr] at h1; cases h1
      split at h
      · rename_i r hr
        have hr := (stripPrefix_iff _ _ _).1 hr
        subst hr
        split at h
        · rename_i ha
          cases h
          exact ⟨.var r, .var ((any_iff U _).1 ha), rfl⟩
        · cases h
      · rename_i h2
        have h2 : ∀ r, t ≠ 'v' :: 'a' :: 'r' :: '/' :: r := fun r hr => by
          rw [(stripPrefix_iff ['v', 'a', 'r', '/'] t r).2 hr] at h2; cases h2
        split at h
        · rename_i r hr
          have hr := (stripPrefix_iff _ _ _).1 hr
          subst hr
          split at h
          · rename_i ha
            cases h
            exact ⟨.proc r, .proc ((any_iff U _).1 ha), rfl⟩
          · cases h
        · rename_i h3
          have h3 : ∀ r, t ≠ 'p' :: 'r' :: 'o' :: 'c' :: '/' :: r := fun r hr => by
            rw [(stripPrefix_iff ['p', 'r', 'o', 'c', '/'] t r).2 hr] at h3; cases h3
          split at h
          · rename_i hs
            cases h
            exact ⟨.path t, .path hany (by simpa using hs) h1 h2 h3, rfl⟩
          · rename_i hs
            cases h
            exact ⟨.anything t, .anything hany (by simpa using hs) h1, rfl⟩
  · cases h

theorem begins_lower (hU : Plain U) (t n : List Char) : startsWith U n (U.lowerStr t) = true ↔ Begins U t n := by
  rw [startsWith_iff]
  unfold Begins
  rw [hU.lower]

/-- the test the search makes of a symbol -/
def test (q : Query) : Sym → Bool
  | .define n => matchesDefine U n q
  | .type p n => matchesType U n p q
  | .var _ n => matchesVar U n q
  | .proc _ n => matchesProc U n q

theorem test_iff (hU : Plain U) (a : Asks) (s : Sym) : test U (toQuery U a) s = true ↔ Answers U a s := by
  cases a <;> cases s <;>
    simp only [test, toQuery, matchesDefine, matchesType, matchesVar, matchesProc, Answers, begins_lower U hU,
      strContains_iff, Bool.false_eq_true]

theorem flatMap_if {α β : Type} (l : List α) (p : α → Bool) (f : α → β) :
    (l.flatMap fun x => if p x = true then [f x] else []) = (l.filter p).map f := by
  induction l with
  | nil => rfl
  | cons a l ih =>
    rw [List.flatMap_cons, ih]
    cases h : p a <;> simp [h]

theorem typeSymbols_eq (q : Query) (ty : Ty) :
    typeSymbols U q ty =
      (((if ty.isRoot then [] else [.type ty.path ty.name]) ++
        ((ty.vars.filter (·.2)).map fun v => .var ty.path v.1) ++
          (ty.procs.filter (·.2)).map fun p => .proc ty.path p.1) : List Sym).filter (test U q) := by
  unfold typeSymbols
  rw [flatMap_if, flatMap_if, List.filter_append, List.filter_append, List.append_assoc]
  congr 1
  · cases ty.isRoot
    · simp only [Bool.not_false, Bool.and_true, Bool.false_eq_true, if_false]
      cases h : matchesType U ty.name ty.path q <;> simp [test, h]
    · simp
  · have hv : ∀ l : List (List Char × Bool), ((l.filter (·.2)).map fun v => Sym.var ty.path v.1).filter (test U q) =
        (l.filter fun v => v.2 && matchesVar U v.1 q).map fun v => .var ty.path v.1 := by
      intro l
      rw [List.filter_map, List.filter_filter]
      congr 1
      apply List.filter_congr
      intro x _
      simp [test, Bool.and_comm]
    have hp : ∀ l : List (List Char × Bool), ((l.filter (·.2)).map fun v => Sym.proc ty.path v.1).filter (test U q) =
        (l.filter fun v => v.2 && matchesProc U v.1 q).map fun v => .proc ty.path v.1 := by
      intro l
      rw [List.filter_map, List.filter_filter]
      congr 1
      apply List.filter_congr
      intro x _
      simp [test, Bool.and_comm]
    rw [hv, hp]
    split
    · rfl
    · rename_i h
      cases q <;> simp_all [matchesOnType, matchesVar, matchesProc]

/-! ## Properties -/

/-- C42: the search answers exactly if the query can be read -/
theorem search_answers_iff (hU : Plain U) (defines : List (List Char)) (types : List Ty) (query : List Char) :
    (workspaceSymbol U defines types query).isSome = true ↔ ∃ a, Reads U query a := by
  unfold workspaceSymbol
  constructor
  · intro h
    cases hq : parse U query with
    | none => rw [hq] at h; cases h
    | some q =>
      obtain ⟨a, ha, _⟩ := reads_of_parse U hU hq
      exact ⟨a, ha⟩
  · rintro ⟨a, ha⟩
    rw [parse_of_reads U ha]
    rfl

/-- C42: the answer has exactly the symbols that are asked for, each once, in order -/
theorem search_exact (hU : Plain U) (defines : List (List Char)) (types : List Ty) (query : List Char) (a : Asks)
    (h : Reads U query a) :
    ∃ l, workspaceSymbol U defines types query = some l ∧ l.Sublist (allSymbols defines types) ∧
      (∀ s ∈ l, List.count s l = List.count s (allSymbols defines types)) ∧
      ∀ s, s ∈ l ↔ s ∈ allSymbols defines types ∧ Answers U a s := by
  have key : workspaceSymbol U defines types query = some ((allSymbols defines types).filter (test U (toQuery U a))) := by
    unfold workspaceSymbol allSymbols
    rw [parse_of_reads U h]
    simp only [Option.some.injEq]
    rw [List.filter_append, flatMap_if, List.filter_map]
    congr 1
    rw [List.filter_flatMap]
    congr 1
    funext ty
    exact typeSymbols_eq U _ ty
  refine ⟨_, key, List.filter_sublist, ?_, ?_⟩
  · intro s hs
    exact List.count_filter (List.mem_filter.1 hs).2
  · intro s
    rw [List.mem_filter, test_iff U hU]

/-- C42: searching for a name finds it, if it has a letter or digit and is not a path -/
theorem search_self (name : List Char) (h : HasAlnum U name) (h1 : '/' ∉ name) (h2 : ∀ r, name ≠ '#' :: r) :
    Reads U name (.anything name) ∧ ∀ p, Answers U (.anything name) (.define name) ∧
      Answers U (.anything name) (.type p name) ∧ Answers U (.anything name) (.var p name) ∧
      Answers U (.anything name) (.proc p name) :=
  ⟨.anything h h1 h2, fun _ => ⟨List.prefix_refl _, List.prefix_refl _, List.prefix_refl _, List.prefix_refl _⟩⟩

/-- C42: no query finds a name without letters and digits, so none finds everything -/
theorem search_not_everything (query : List Char) (a : Asks) (h : Reads U query a) (p name : List Char)
    (hn : letters U name = []) : ¬ Answers U a (.define name) ∧ ¬ Answers U a (.var p name) ∧ ¬ Answers U a (.proc p name) := by
  have key : ∀ t, HasAlnum U t → ¬ Begins U t name := by
    rintro t ⟨c, hc, d, hd, hdd⟩ hb
    unfold Begins at hb
    rw [hn, List.prefix_nil] at hb
    have : d ∈ letters U t := by
      rw [← simplify_eq]
      unfold simplify
      rw [List.mem_filter, List.mem_flatMap]
      exact ⟨⟨c, hc, hd⟩, hdd⟩
    rw [hb] at this
    cases this
  cases h <;> rename_i h <;> simp only [Answers, not_false_eq_true, true_and, and_true, and_self] <;>
    (try exact key _ (by assumption))

/-! ## Example: ASCII -/

def upper : List Char := "ABCDEFGHIJKLMNOPQRSTUVWXYZ".toList
def toLow (c : Char) : Char := if c ∈ upper then Char.ofNat (c.toNat + 32) else c

def ascii : Uni where
  lower c := [toLow c]
  lowerStr s := s.map toLow
  alnum c := c.isAlphanum

theorem toLow_toLow (c : Char) : toLow (toLow c) = toLow c := by
  by_cases h : c ∈ upper
  · have : ∀ c ∈ upper, toLow (toLow c) = toLow c := by decide +kernel
    exact this c h
  · have : toLow c = c := if_neg h
    rw [this, this]

example : Plain ascii where
  hash := by decide +kernel
  lower := by
    intro s
    rw [← simplify_eq, ← simplify_eq]
    unfold simplify ascii
    simp only
    congr 1
    induction s with
    | nil => rfl
    | cons c s ih => simp [ih, toLow_toLow]

example : workspaceSymbol ascii ["MAX_HP".toList, "MIN".toList]
    [⟨"mob".toList, "/mob".toList, false, [("max_hp".toList, true), ("name".toList, false)], [("maximum".toList, true)]⟩]
    "MaxH".toList = some [.define "MAX_HP".toList, .var "/mob".toList "max_hp".toList] := by decide +kernel

end Verif.Search
