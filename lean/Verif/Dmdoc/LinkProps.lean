import Verif.Dmdoc.LinkLemmas

/-!
# C100: references and links of dmdoc lead somewhere
-/

namespace Verif.Dmdoc

/-! ## Resolving -/

def Reach (w : World) (p : Parsed) (q : Str) : Prop :=
  (p.ty = [] ∧ q = [] ∧ Documents w p.member []) ∨ (p.ty ≠ [] ∧ Nearest w p.member ('/' :: trimSlash p.ty) q)

def tooltip (q : Str) : Str := if q = [] then '/' :: globalWord else q

theorem resolve_is {w : World} (o : Ordinary w) (ref : Str) (p : Parsed) :
    (∃ q name, Reach w p q ∧ PageOf q name ∧
        resolve w ref p = (some (.page name (p.member.map fun m => anchorOf m.1 m.2), tooltip q),
          p.msgs ++ if p.ty = [] ∨ q = '/' :: trimSlash p.ty then [] else [.guessing p.known q])) ∨
      ((∀ q, (p.ty = [] ∧ q = []) ∨ (p.ty ≠ [] ∧ OnWay q ('/' :: trimSlash p.ty)) → ¬ Documents w p.member q) ∧
        ((∃ url, external w p = some url ∧ resolve w ref p = (some (.web url, ref), p.msgs)) ∨
          (external w p = none ∧ resolve w ref p = (none, p.msgs ++ [if p.known then .undocumented else .unknown])))) := by
  have hz : ∀ l : Str × Nat, locate w p = l → l.2 = 0 →
      (∃ url, external w p = some url ∧ resolve w ref p = (some (.web url, ref), p.msgs)) ∨
        (external w p = none ∧ resolve w ref p = (none, p.msgs ++ [if p.known then .undocumented else .unknown])) := by
    intro l hl h0
    unfold resolve
    simp only [hl, h0, gt_iff_lt, Nat.lt_irrefl, if_false]
    cases external w p with
    | none => exact .inr ⟨rfl, rfl⟩
    | some u => exact .inl ⟨u, rfl, rfl⟩
  by_cases ht : p.ty = []
  · have hl : locate w p = ('/' :: globalWord, if w.shows p.member [] then ('/' :: globalWord).length else 0) := by
      unfold locate; rw [if_pos ht]
    by_cases hs : w.shows p.member [] = true
    · left
      rw [if_pos hs] at hl
      refine ⟨[], globalWord, .inl ⟨ht, rfl, (wshows_iff o _ _).1 hs⟩, .inl ⟨rfl, rfl⟩, ?_⟩
      unfold resolve
      simp only [hl]
      rw [if_pos (by simp), if_neg (by simp), if_pos (.inl ht)]
      rfl
    · right
      rw [if_neg hs] at hl
      refine ⟨?_, hz _ hl rfl⟩
      rintro q (⟨_, rfl⟩ | ⟨h, _⟩)
      · exact fun h => hs ((wshows_iff o _ _).2 h)
      · exact absurd ht h
  · have hl : locate w p = climb (w.shows p.member) (pieces (trimSlash p.ty)) [] 0 := by
      unfold locate; rw [if_neg ht]
    rcases climb_found (w.shows p.member) (trimSlash p.ty) with ⟨q, h1, h2, h3, h4⟩ | ⟨h1, h2⟩
    · left
      rw [h4] at hl
      have hd := (wshows_iff o _ _).1 h2
      have hq0 : 0 < q.length := List.length_pos_iff.2 h1.1
      have hpage : PageOf q (q.drop 1) := by
        right
        obtain ⟨t, ht, rfl, _⟩ := hd
        rcases o.paths t ht with h | ⟨r, h, _⟩
        · exact absurd h h1.1
        · exact ⟨r, h, by rw [h]; rfl⟩
      refine ⟨q, q.drop 1, .inr ⟨ht, h1, hd, fun x hx hd' => h3 x hx ((wshows_iff o _ _).2 hd')⟩, hpage, ?_⟩
      have htake := onWay_take h1
      have htip : tooltip q = q := by unfold tooltip; rw [if_neg h1.1]
      unfold resolve
      simp only [hl]
      rw [if_pos hq0, htake, htip]
      by_cases hf : q = '/' :: trimSlash p.ty
      · have : ¬ q.length < ('/' :: trimSlash p.ty).length := by rw [← hf]; simp
        rw [if_neg this, if_pos (.inr hf)]
      · have hlen := onWay_length h1
        have hle : q.length ≤ ('/' :: trimSlash p.ty).length := by
          have := congrArg List.length htake
          rw [List.length_take] at this
          omega
        have : q.length < ('/' :: trimSlash p.ty).length := by
          rcases Nat.lt_or_eq_of_le hle with h | h
          · exact h
          · exact absurd (hlen.1 h) hf
        rw [if_pos this, if_neg (by rintro (h | h); exact ht h; exact hf h)]
    · right
      rw [h2] at hl
      refine ⟨?_, hz _ hl rfl⟩
      rintro q (⟨h, _⟩ | ⟨_, h⟩) hd
      · exact ht h
      · have := h1 q h
        rw [(wshows_iff o _ _).2 hd] at this
        cases this

theorem reach_documents {w : World} {p : Parsed} {q : Str} (h : Reach w p q) : Documents w p.member q := by
  rcases h with ⟨_, rfl, h⟩ | ⟨_, _, h, _⟩ <;> exact h

theorem onWay_antisymm {a b : Str} (h1 : OnWay a b) (h2 : OnWay b a) : a = b := by
  rcases h1.2 with h | ⟨x, hx⟩
  · exact h
  · rcases h2.2 with h | ⟨y, hy⟩
    · exact h.symm
    · have l1 := congrArg List.length hx
      have l2 := congrArg List.length hy
      simp at l1 l2
      omega

theorem reach_unique {w : World} {p : Parsed} {a b : Str} (h1 : Reach w p a) (h2 : Reach w p b) : a = b := by
  rcases h1 with ⟨_, rfl, _⟩ | ⟨t1, n1⟩ <;> rcases h2 with ⟨t2, rfl, _⟩ | ⟨t2, n2⟩
  · rfl
  · exact absurd ‹p.ty = []› t2
  · exact absurd t2 t1
  · exact onWay_antisymm (n2.2.2 a n1.1 n1.2.1) (n1.2.2 b n2.1 n2.2.1)

theorem resolve_reach {w : World} (o : Ordinary w) (ref : Str) {p : Parsed} {q name : Str} (h : Reach w p q)
    (hp : PageOf q name) :
    resolve w ref p = (some (.page name (p.member.map fun m => anchorOf m.1 m.2), tooltip q),
      p.msgs ++ if p.ty = [] ∨ q = '/' :: trimSlash p.ty then [] else [.guessing p.known q]) := by
  rcases resolve_is o ref p with ⟨q', name', h1, h2, h3⟩ | ⟨h1, _⟩
  · have := reach_unique h h1
    subst this
    rw [pageOf_fun hp h2]
    exact h3
  · exfalso
    rcases h with ⟨ht, rfl, hd⟩ | ⟨ht, hw, hd, _⟩
    · exact h1 [] (.inl ⟨ht, rfl⟩) hd
    · exact h1 q (.inr ⟨ht, hw⟩) hd

/-! ## Macros and files -/

theorem endsWith_iff (s ext : Str) : endsWith s ext = true ↔ ∃ a, s = a ++ ext := by
  unfold endsWith
  rw [List.isPrefixOf_iff_prefix]
  constructor
  · rintro ⟨t, ht⟩
    exact ⟨t.reverse, by have := congrArg List.reverse ht; simpa using this.symm⟩
  · rintro ⟨a, rfl⟩
    exact ⟨a.reverse, by simp⟩

theorem macroModule_some {w : World} {n m : Str} (h : w.macroModule n = some m) :
    ∃ x ∈ w.macros, x.documented = true ∧ x.name = n ∧ w.modulePath x.file = m := by
  unfold World.macroModule at h
  obtain ⟨x, hx, rfl⟩ := Option.map_eq_some_iff.1 h
  have := List.mem_of_getLast? hx
  obtain ⟨h1, h2⟩ := List.mem_filter.1 this
  simp only [Bool.and_eq_true, decide_eq_true_eq] at h2
  exact ⟨x, h1, h2.1, h2.2, rfl⟩

theorem macroModule_none {w : World} {n : Str} (h : ∀ x ∈ w.macros, x.documented = true → x.name ≠ n) :
    w.macroModule n = none := by
  unfold World.macroModule
  have : w.macros.filter (fun m => m.documented && decide (m.name = n)) = [] := by
    rw [List.filter_eq_nil_iff]
    intro x hx
    simp only [Bool.and_eq_true, decide_eq_true_eq, not_and]
    exact h x hx
  rw [this]
  rfl

theorem modules_mem {w : World} {f : Str} (h : f ∈ w.moduleFiles) : w.modulePath f ∈ w.modules := by
  unfold World.modules
  rw [List.mem_dedup]
  exact List.mem_map.2 ⟨f, h, rfl⟩

theorem macro_file {w : World} {x : MacroD} (h : x ∈ w.macros) (hd : x.documented = true) : x.file ∈ w.moduleFiles := by
  unfold World.moduleFiles
  simp only [List.mem_append]
  exact .inl (.inl (.inr (List.mem_map.2 ⟨x, List.mem_filter.2 ⟨h, hd⟩, rfl⟩)))

theorem define_leads {w : World} (o : Ordinary w) {x : MacroD} (h : x ∈ w.macros) (hd : x.documented = true) :
    Leads w (w.modulePath x.file) (some (defineAnchor x.name)) := by
  refine ⟨_, published o (modulePage_mem (modules_mem (macro_file h hd))), rfl, ?_⟩
  intro a ha
  cases ha
  exact section_mem (List.mem_map.2 ⟨x, List.mem_filter.2 ⟨h, by simp [hd]⟩, rfl⟩)

theorem module_leads {w : World} (o : Ordinary w) {m : Str} (h : m ∈ w.modules) : Leads w m none :=
  ⟨_, published o (modulePage_mem h), rfl, nofun⟩

theorem moduleExists_iff (w : World) (m : Str) : w.moduleExists m = true ↔
    ∃ f, (f ∈ w.comments ∨ ∃ x ∈ w.macros, x.documented = true ∧ x.file = f) ∧ w.modulePath f = m := by
  unfold World.moduleExists
  simp only [Bool.or_eq_true, List.any_eq_true, decide_eq_true_eq, Bool.and_eq_true]
  constructor
  · rintro (⟨f, h, e⟩ | ⟨x, h, hd, e⟩)
    · exact ⟨f, .inl h, e⟩
    · exact ⟨x.file, .inr ⟨x, h, hd, rfl⟩, e⟩
  · rintro ⟨f, h | ⟨x, h, hd, rfl⟩, e⟩
    · exact .inl ⟨f, h, e⟩
    · exact .inr ⟨x, h, hd, e⟩

theorem exists_module {w : World} {m : Str} (h : w.moduleExists m = true) : m ∈ w.modules := by
  obtain ⟨f, hf, rfl⟩ := (moduleExists_iff w m).1 h
  apply modules_mem
  rcases hf with h | ⟨x, hx, hd, rfl⟩
  · unfold World.moduleFiles
    simp only [List.mem_append]
    exact .inl (.inl (.inl h))
  · exact macro_file hx hd

/-! ## The fixer -/

inductive FixCase (w : World) (ref : Str) : Prop
  | «macro» (x : MacroD) : x ∈ w.macros → x.documented = true → x.name = ref →
      fixLink w ref = (some (.page (w.modulePath x.file) (some (defineAnchor ref)), ref), []) → FixCase w ref
  | noMacro : (∀ m ∈ w.macros, m.documented = true → m.name ≠ ref) → (∃ m ∈ w.macros, m.name = ref) →
      fixLink w ref = (none, [.macroUndocumented]) → FixCase w ref
  | file (ext a : Str) : ext ∈ moduleExts → ref = a ++ ext → w.moduleExists (w.modulePath ref) = true →
      fixLink w ref = (some (.page (w.modulePath ref) none, ref), []) → FixCase w ref
  | noFile (ext a : Str) : ext ∈ moduleExts → ref = a ++ ext → w.moduleExists (w.modulePath ref) = false →
      fixLink w ref = (none, [.noModule (w.fileExists ref)]) → FixCase w ref
  | other : Plain w ref → fixLink w ref = resolve w ref (parseRef w ref) → FixCase w ref

theorem fix_cases (w : World) (ref : Str) : FixCase w ref := by
  cases hm : w.macroModule ref with
  | some m =>
    obtain ⟨x, h1, h2, h3, h4⟩ := macroModule_some hm
    exact .macro x h1 h2 h3 (by unfold fixLink; rw [hm, h4])
  | none =>
    have hno : ∀ m ∈ w.macros, m.documented = true → m.name ≠ ref := by
      intro x hx hd he
      unfold World.macroModule at hm
      simp only [Option.map_eq_none_iff, List.getLast?_eq_none_iff, List.filter_eq_nil_iff] at hm
      exact hm x hx (by simp [hd, he])
    by_cases hex : (w.macros.any fun m => decide (m.name = ref)) = true
    · refine .noMacro hno ?_ (by unfold fixLink; rw [hm]; simp only; rw [if_pos hex])
      simpa using hex
    · by_cases he : (moduleExts.any (endsWith ref)) = true
      · have he' := he
        rw [List.any_eq_true] at he'
        obtain ⟨ext, h1, h2⟩ := he'
        obtain ⟨a, h2⟩ := (endsWith_iff _ _).1 h2
        cases hx : w.moduleExists (w.modulePath ref) with
        | true => exact .file ext a h1 h2 hx (by unfold fixLink; rw [hm]; simp only; rw [if_neg hex, if_pos he, if_pos hx])
        | false =>
          exact .noFile ext a h1 h2 hx (by unfold fixLink; rw [hm]; simp only; rw [if_neg hex, if_pos he, hx]; simp)
      · refine .other ⟨?_, ?_⟩ (by unfold fixLink; rw [hm]; simp only; rw [if_neg hex, if_neg he])
        · intro m hm' e
          exact hex (List.any_eq_true.2 ⟨m, hm', by simpa using e⟩)
        · rintro ext hext h
          exact he (List.any_eq_true.2 ⟨ext, hext, (endsWith_iff _ _).2 h⟩)

theorem fix_plain {w : World} {ref : Str} (h : Plain w ref) : fixLink w ref = resolve w ref (parseRef w ref) := by
  cases fix_cases w ref with
  | «macro» x hx _ e _ => exact absurd e (h.1 x hx)
  | noMacro _ h' _ => obtain ⟨m, hm, e⟩ := h'; exact absurd e (h.1 m hm)
  | file ext a h1 h2 _ _ => exact absurd ⟨a, h2⟩ (h.2 ext h1)
  | noFile ext a h1 h2 _ _ => exact absurd ⟨a, h2⟩ (h.2 ext h1)
  | other _ h => exact h

/-- **C100** A reference in a text that is turned into a link to the site leads to a page that is there and to an anchor on it. -/
theorem fix_leads {w : World} (o : Ordinary w) {ref name tip : Str} {anchor : Option Str} {msgs : List Msg}
    (h : fixLink w ref = (some (.page name anchor, tip), msgs)) : Leads w name anchor := by
  cases fix_cases w ref with
  | «macro» x h1 h2 h3 h4 =>
    rw [h4] at h
    cases h
    rw [← h3]
    exact define_leads o h1 h2
  | noMacro _ _ h4 => rw [h4] at h; cases h
  | file _ _ _ _ h1 h4 =>
    rw [h4] at h
    cases h
    exact module_leads o (exists_module h1)
  | noFile _ _ _ _ _ h4 => rw [h4] at h; cases h
  | other _ h4 =>
    rw [h4] at h
    rcases resolve_is o ref (parseRef w ref) with ⟨q, nm, h1, h2, h3⟩ | ⟨_, ⟨u, _, h3⟩ | ⟨_, h3⟩⟩
    · rw [h3] at h
      cases h
      exact documents_leads o (reach_documents h1) h2
    · rw [h3] at h; cases h
    · rw [h3] at h; cases h

/-- **C100** Without a link there is a message. -/
theorem fix_reported {w : World} (o : Ordinary w) {ref : Str} (h : (fixLink w ref).1 = none) : (fixLink w ref).2 ≠ [] := by
  cases fix_cases w ref with
  | «macro» _ _ _ _ h4 => rw [h4] at h; cases h
  | noMacro _ _ h4 => rw [h4]; simp
  | file _ _ _ _ _ h4 => rw [h4] at h; cases h
  | noFile _ _ _ _ _ h4 => rw [h4]; simp
  | other _ h4 =>
    rw [h4] at h ⊢
    rcases resolve_is o ref (parseRef w ref) with ⟨q, nm, h1, h2, h3⟩ | ⟨_, ⟨u, _, h3⟩ | ⟨_, h3⟩⟩
    · rw [h3] at h; cases h
    · rw [h3] at h; cases h
    · rw [h3]; simp

theorem has_iff (t : TypeD) (k : Kind) (n : Str) : t.has k n = true ↔ ∃ v ∈ t.members k, v.name = n := by
  cases k <;> simp [TypeD.has, TypeD.members, hasName]

theorem knownIn_iff {w : World} (o : Ordinary w) (ty : Str) (k : Kind) (n : Str) :
    knownIn w ty k n = true ↔ ∃ t ∈ w.types, t.path = ty ∧ ∃ v ∈ t.members k, v.name = n := by
  unfold knownIn
  cases hf : w.find ty with
  | none =>
    simp only [Option.elim_none, Bool.false_eq_true, false_iff]
    rintro ⟨t, ht, hp, _⟩
    rw [(find_iff o ty t).2 ⟨ht, hp⟩] at hf
    cases hf
  | some t =>
    obtain ⟨h1, h2⟩ := (find_iff o ty t).1 hf
    simp only [Option.elim_some, has_iff]
    constructor
    · intro h; exact ⟨t, h1, h2, h⟩
    · rintro ⟨s, hs, hp, h⟩
      rw [same_path o h1 hs (by rw [h2, hp])]
      exact h

theorem word_mark {k : Kind} {wd : Str} (h : Word k wd) : wd ∈ marks := by
  cases k with
  | aProc => rcases h with rfl | rfl <;> simp [marks]
  | aVar => rw [show wd = _ from h]; simp [marks]

theorem parse_member {w : World} {ty wd n : Str} {k : Kind} (hw : Word k wd) (hu : Unmarked ty) (hn : '/' ∉ n) :
    parseRef w (ty ++ marker wd ++ n) = ⟨ty, some (k, n), knownIn w ty k n, []⟩ := by
  have hc : ∀ x ∈ marks, cutAt (marker x) (ty ++ marker wd ++ n) = if x = wd then some (ty, n) else none :=
    fun x hx => cutAt_mark hx (word_mark hw) hn hu
  have h1 := hc (kindWord .aProc) (by simp [marks])
  have h2 := hc verbWord (by simp [marks])
  have h3 := hc (kindWord .aVar) (by simp [marks])
  have e1 : verbWord ≠ kindWord .aProc := by decide
  have e2 : kindWord .aProc ≠ kindWord .aVar := by decide
  have e3 : verbWord ≠ kindWord .aVar := by decide
  unfold parseRef
  cases k with
  | aProc =>
    rcases hw with rfl | rfl
    · rw [if_pos rfl] at h1; rw [h1]
    · rw [if_neg e1.symm] at h1; rw [if_pos rfl] at h2; rw [h1]; simp only; rw [h2]
  | aVar =>
    obtain rfl : wd = kindWord .aVar := hw
    rw [if_neg e2] at h1; rw [if_neg e3] at h2; rw [if_pos rfl] at h3
    rw [h1]; simp only; rw [h2]; simp only; rw [h3]

/-- **C100** A reference to a var or proc is linked to the longest path on the way to its type at which it is documented, without
a message when that is the type itself, and else with one that tells the guess and whether the type has it. -/
theorem member_linked {w : World} (o : Ordinary w) {ty wd n full p name : Str} {k : Kind} (hp : Plain w (ty ++ marker wd ++ n))
    (hw : Word k wd) (hu : Unmarked ty) (hn : '/' ∉ n) (h0 : ty ≠ []) (ha : Absolute ty full)
    (hne : Nearest w (some (k, n)) full p) (hpage : PageOf p name) :
    ∃ known, (known = true ↔ ∃ t ∈ w.types, t.path = ty ∧ ∃ v ∈ t.members k, v.name = n) ∧
      fixLink w (ty ++ marker wd ++ n) =
        (some (.page name (some (anchorOf k n)), p), if p = full then [] else [.guessing known p]) := by
  refine ⟨knownIn w ty k n, knownIn_iff o ty k n, ?_⟩
  rw [fix_plain hp, parse_member hw hu hn]
  have hr : Reach w ⟨ty, some (k, n), knownIn w ty k n, []⟩ p := .inr ⟨h0, by rw [← absolute_eq ha]; exact hne⟩
  rw [resolve_reach o _ hr hpage]
  simp only [List.nil_append, Option.map_some, ← absolute_eq ha, h0, false_or]
  have : tooltip p = p := if_neg hne.1.1
  rw [this]

/-- **C100** A reference to a documented global var or proc is linked to the page of the globals. -/
theorem global_linked {w : World} (o : Ordinary w) {wd n : Str} {k : Kind} (hp : Plain w (marker wd ++ n)) (hw : Word k wd)
    (hn : '/' ∉ n) (hd : Documents w (some (k, n)) []) :
    fixLink w (marker wd ++ n) = (some (.page globalWord (some (anchorOf k n)), '/' :: globalWord), []) := by
  have hu : Unmarked [] := by
    intro x hx a b e
    have h1 := congrArg List.length e
    simp [marker] at h1
    omega
  have hpr := parse_member (w := w) (ty := []) hw hu hn
  rw [List.nil_append] at hpr
  rw [fix_plain hp, hpr]
  rw [resolve_reach (q := []) (name := globalWord) o _ (.inl ⟨rfl, rfl, hd⟩) (.inl ⟨rfl, rfl⟩)]
  simp [tooltip]

theorem parse_type {w : World} {ref : Str} {t : TypeD} (hu : Unmarked ref) (hf : w.find ref = some t) :
    parseRef w ref = ⟨ref, none, true, []⟩ := by
  unfold parseRef
  rw [cutAt_unmarked (by simp [marks]) hu, cutAt_unmarked (by simp [marks]) hu, cutAt_unmarked (by simp [marks]) hu, hf]
  simp

/-- **C100** A reference to a type is linked to the page of the nearest type on the way to it that has one, without a message when
that is the type itself. -/
theorem type_linked {w : World} (o : Ordinary w) {t : TypeD} (ht : t ∈ w.types) (h0 : t.path ≠ []) (hp : Plain w t.path)
    {p name : Str} (hne : Nearest w none t.path p) (hpage : PageOf p name) :
    fixLink w t.path = (some (.page name none, p), if p = t.path then [] else [.guessing true p]) := by
  obtain htp := (o.paths t ht).resolve_left h0
  have hu : Unmarked t.path := by obtain ⟨_, _, _, _, h⟩ := htp; exact h
  rw [fix_plain hp, parse_type hu ((find_iff o _ _).2 ⟨ht, rfl⟩)]
  have hr : Reach w ⟨t.path, none, true, []⟩ p := .inr ⟨h0, by rw [trim_typePath htp]; exact hne⟩
  rw [resolve_reach o _ hr hpage]
  simp only [List.nil_append, Option.map_none, trim_typePath htp, h0, false_or]
  have : tooltip p = p := if_neg hne.1.1
  rw [this]

/-- **C100** The name of a macro is linked to the module of a documented definition of it. -/
theorem macro_linked {w : World} {x : MacroD} (h : x ∈ w.macros) (hd : x.documented = true)
    (last : ∀ a b, w.macros = a ++ x :: b → ∀ y ∈ b, y.documented = true → y.name ≠ x.name) :
    fixLink w x.name = (some (.page (w.modulePath x.file) (some (defineAnchor x.name)), x.name), []) := by
  obtain ⟨a, b, e⟩ := List.append_of_mem h
  have hm : w.macroModule x.name = some (w.modulePath x.file) := by
    unfold World.macroModule
    rw [e, List.filter_append, List.filter_cons, if_pos (by simp [hd])]
    have : b.filter (fun m => m.documented && decide (m.name = x.name)) = [] := by
      rw [List.filter_eq_nil_iff]
      intro y hy
      simp only [Bool.and_eq_true, decide_eq_true_eq, not_and]
      exact last a b e y hy
    rw [this]
    simp
  unfold fixLink
  rw [hm]

/-- **C100** The name of a file with documentation is linked to its module. -/
theorem file_linked {w : World} {ref ext a f : Str} (hm : ∀ m ∈ w.macros, m.name ≠ ref) (he : ext ∈ moduleExts)
    (hr : ref = a ++ ext) (hf : f ∈ w.comments ∨ ∃ m ∈ w.macros, m.documented = true ∧ m.file = f)
    (hs : w.modulePath f = w.modulePath ref) : fixLink w ref = (some (.page (w.modulePath ref) none, ref), []) := by
  have hx : w.moduleExists (w.modulePath ref) = true := (moduleExists_iff _ _).2 ⟨f, hf, hs⟩
  cases fix_cases w ref with
  | «macro» x h1 _ e _ => exact absurd e (hm x h1)
  | noMacro _ h' _ => obtain ⟨m, h1, e⟩ := h'; exact absurd e (hm m h1)
  | file _ _ _ _ _ h => exact h
  | noFile _ _ _ _ h _ => rw [hx] at h; cases h
  | other h _ => exact absurd ⟨a, hr⟩ (h.2 ext he)

/-! ## Silence -/

theorem parse_cases {w : World} (ref : Str) (h : (parseRef w ref).msgs = []) :
    (∃ ty wd n k, Word k wd ∧ ref = ty ++ marker wd ++ n ∧ parseRef w ref = ⟨ty, some (k, n), knownIn w ty k n, []⟩) ∨
      ∃ b, parseRef w ref = ⟨ref, none, b, []⟩ := by
  unfold parseRef at h ⊢
  cases h1 : cutAt (marker (kindWord .aProc)) ref with
  | some r => exact .inl ⟨r.1, _, r.2, .aProc, .inl rfl, cutAt_some h1, rfl⟩
  | none =>
    rw [h1] at h
    simp only at h ⊢
    cases h2 : cutAt (marker verbWord) ref with
    | some r => exact .inl ⟨r.1, _, r.2, .aProc, .inr rfl, cutAt_some h2, rfl⟩
    | none =>
      rw [h2] at h
      simp only at h ⊢
      cases h3 : cutAt (marker (kindWord .aVar)) ref with
      | some r => exact .inl ⟨r.1, _, r.2, .aVar, rfl, cutAt_some h3, rfl⟩
      | none =>
        rw [h3] at h
        simp only at h ⊢
        right
        split at h
        · rename_i hf; rw [if_pos hf]; exact ⟨_, rfl⟩
        · rename_i hf
          rw [if_neg hf]
          cases h4 : cutLast ref with
          | some r =>
            rw [h4] at h
            simp only at h ⊢
            cases h5 : w.find r.1 with
            | none => exact ⟨_, rfl⟩
            | some t =>
              rw [h5] at h
              simp only at h ⊢
              split at h
              · cases h
              · rename_i hc
                rw [if_neg hc]
                split at h
                · cases h
                · rename_i hc'; rw [if_neg hc']; exact ⟨_, rfl⟩
          | none =>
            rw [h4] at h
            simp only at h ⊢
            split at h
            · cases h
            · rename_i hc; rw [if_neg hc]; exact ⟨_, rfl⟩

theorem resolve_msgs {w : World} (o : Ordinary w) (ref : Str) (p : Parsed) (h : (resolve w ref p).2 = []) : p.msgs = [] := by
  rcases resolve_is o ref p with ⟨q, nm, _, _, h3⟩ | ⟨_, ⟨u, _, h3⟩ | ⟨_, h3⟩⟩
  · rw [h3] at h; exact (List.append_eq_nil_iff.1 h).1
  · rw [h3] at h; exact h
  · rw [h3] at h; exact (List.append_eq_nil_iff.1 h).1

/-- **C100** A link made without a message leads to what the reference names. -/
theorem silent_names {w : World} (o : Ordinary w) {ref name tip : Str} {anchor : Option Str}
    (h : fixLink w ref = (some (.page name anchor, tip), [])) : Names w ref name anchor := by
  cases fix_cases w ref with
  | «macro» x h1 h2 h3 h4 =>
    rw [h4] at h
    cases h
    exact .macro h1 h2 h3
  | noMacro _ _ h4 => rw [h4] at h; cases h
  | file ext a he hr h1 h4 =>
    rw [h4] at h
    cases h
    obtain ⟨f, hf, hs⟩ := (moduleExists_iff _ _).1 h1
    exact .file he hr hf hs
  | noFile _ _ _ _ _ h4 => rw [h4] at h; cases h
  | other _ h4 =>
    rw [h4] at h
    have hm := resolve_msgs o ref (parseRef w ref) (by rw [h])
    rcases resolve_is o ref (parseRef w ref) with ⟨q, nm, h1, h2, h3⟩ | ⟨_, ⟨u, _, h3⟩ | ⟨_, h3⟩⟩
    · have key : ∀ ty, (parseRef w ref).ty = ty → ty = q ∨ Absolute ty q := by
        intro ty hty
        rw [h3] at h
        have h5 := congrArg Prod.snd h
        simp only [hm, List.nil_append] at h5
        rcases h1 with ⟨hty', rfl, _⟩ | ⟨hty', _⟩
        · exact .inl (by rw [← hty, hty'])
        · right
          split at h5
          · rename_i hc
            rcases hc with hc | hc
            · exact absurd hc hty'
            · rw [hc, hty]; exact trimSlash_absolute ty
          · cases h5
      rw [h3] at h
      have hpg := congrArg Prod.fst h
      simp only [Option.some.injEq, Prod.mk.injEq, Href.page.injEq] at hpg
      obtain ⟨⟨rfl, rfl⟩, _⟩ := hpg
      rcases parse_cases ref hm with ⟨ty, wd, n, k, hw, hr, hp⟩ | ⟨b, hp⟩
      · have hd := reach_documents h1
        have hk := key ty (by rw [hp])
        rw [hp] at hd ⊢
        exact .member hr hw hd h2 hk
      · have hd := reach_documents h1
        have hk := key ref (by rw [hp])
        rw [hp] at hd ⊢
        exact .type hd h2 hk
    · rw [h3] at h; cases h
    · rw [h3] at h; cases h

/-! ## Corrections -/

theorem unmarked_none {w : World} {ref : Str} (hu : Unmarked ref) (hf : ∀ t ∈ w.types, t.path ≠ ref) (o : Ordinary w) :
    parseRef w ref =
      match cutLast ref with
      | some (up, rest) =>
        match w.find up with
        | some t =>
          if t.has .aProc rest && !t.has .aVar rest then ⟨up, some (.aProc, rest), true, [.correcting up .aProc rest]⟩
          else if t.has .aVar rest then ⟨up, some (.aVar, rest), true, [.correcting up .aVar rest]⟩
          else ⟨ref, none, false, []⟩
        | none => ⟨ref, none, false, []⟩
      | none =>
        if knownIn w [] .aVar ref then ⟨[], some (.aVar, ref), true, [.correcting [] .aVar ref]⟩
        else ⟨ref, none, false, []⟩ := by
  have : w.find ref = none := by
    cases h : w.find ref with
    | none => rfl
    | some t => obtain ⟨h1, h2⟩ := (find_iff o _ _).1 h; exact absurd h2 (hf t h1)
  unfold parseRef
  rw [cutAt_unmarked (by simp [marks]) hu, cutAt_unmarked (by simp [marks]) hu, cutAt_unmarked (by simp [marks]) hu, this]
  simp only [Option.isSome_none, Bool.false_eq_true, if_false]
  cases cutLast ref with
  | none => rfl
  | some r => cases w.find r.1 <;> rfl

theorem cutLast_is {a b : Str} (h : '/' ∉ b) : cutLast (a ++ '/' :: b) = some (a, b) := by
  have hn : ∀ b : Str, '/' ∉ b → cutLast b = none := by
    intro b hb
    cases hc : cutLast b with
    | none => rfl
    | some r =>
      have := (cutLast_some hc).1
      rw [this] at hb
      simp at hb
  induction a with
  | nil => simp [cutLast, hn b h]
  | cons c a ih => rw [List.cons_append, cutLast, ih]

theorem external_known {w : World} {ty : Str} {m : Option (Kind × Str)} {b : Bool} (hb : b = true) (msgs msgs' : List Msg) :
    external w ⟨ty, m, b, msgs⟩ = external w ⟨ty, m, true, msgs'⟩ := by
  subst hb; rfl

theorem resolve_with {w : World} (o : Ordinary w) (ref ref' : Str) {ty : Str} {m : Option (Kind × Str)} (msgs : List Msg) :
    ((resolve w ref ⟨ty, m, true, msgs⟩).1.map Prod.fst = (resolve w ref' ⟨ty, m, true, []⟩).1.map Prod.fst) ∧
      (resolve w ref ⟨ty, m, true, msgs⟩).2 = msgs ++ (resolve w ref' ⟨ty, m, true, []⟩).2 := by
  rcases resolve_is o ref' ⟨ty, m, true, []⟩ with ⟨q, nm, h1, h2, h3⟩ | ⟨h1, h2⟩
  · have hr : Reach w ⟨ty, m, true, msgs⟩ q := h1
    rw [h3, resolve_reach o ref hr h2]
    exact ⟨rfl, rfl⟩
  · rcases resolve_is o ref ⟨ty, m, true, msgs⟩ with ⟨q, nm, h1', h2', h3'⟩ | ⟨_, h2'⟩
    · exfalso
      rcases h1' with ⟨ht, rfl, hd⟩ | ⟨ht, hw, hd, _⟩
      · exact h1 [] (.inl ⟨ht, rfl⟩) hd
      · exact h1 q (.inr ⟨ht, hw⟩) hd
    · have he : external w ⟨ty, m, true, msgs⟩ = external w ⟨ty, m, true, []⟩ := rfl
      rw [he] at h2'
      rcases h2 with ⟨u, e, h⟩ | ⟨e, h⟩ <;> rcases h2' with ⟨u', e', h'⟩ | ⟨e', h'⟩
      · rw [e] at e'; cases e'; rw [h, h']; exact ⟨rfl, (List.append_nil _).symm⟩
      · rw [e] at e'; cases e'
      · rw [e] at e'; cases e'
      · rw [h, h']; exact ⟨rfl, by simp⟩

/-- **C100** `[/ty/name]`, where there is no such type but `/ty` has a proc or var of that name, is linked as `[/ty/proc/name]` or
`[/ty/var/name]` is (a var is preferred), and a message tells the correction. -/
theorem corrected {w : World} (o : Ordinary w) {up rest : Str} {t : TypeD} {k : Kind} (hp : Plain w (up ++ '/' :: rest))
    (hp' : Plain w (up ++ marker (kindWord k) ++ rest)) (hu : Unmarked (up ++ '/' :: rest)) (hr : '/' ∉ rest)
    (hf : ∀ s ∈ w.types, s.path ≠ up ++ '/' :: rest) (ht : t ∈ w.types) (hup : t.path = up)
    (hk : ∃ v ∈ t.members k, v.name = rest) (hvar : k = .aProc → ∀ v ∈ t.vars, v.name ≠ rest) :
    (fixLink w (up ++ '/' :: rest)).1.map Prod.fst = (fixLink w (up ++ marker (kindWord k) ++ rest)).1.map Prod.fst ∧
      (fixLink w (up ++ '/' :: rest)).2 = .correcting up k rest :: (fixLink w (up ++ marker (kindWord k) ++ rest)).2 := by
  have hu' : Unmarked up := by
    intro wd hwd a b e
    exact hu wd hwd a (b ++ rest ++ ['/']) (by
      have : up ++ '/' :: rest ++ ['/'] = (up ++ ['/']) ++ rest ++ ['/'] := by simp
      rw [this, e]; simp)
  have hword : Word k (kindWord k) := by cases k; exact .inl rfl; rfl
  have hknown : knownIn w up k rest = true := (knownIn_iff o up k rest).2 ⟨t, ht, hup, hk⟩
  rw [fix_plain hp, fix_plain hp', parse_member hword hu' hr, hknown, unmarked_none hu hf o, cutLast_is hr]
  simp only
  rw [(find_iff o up t).2 ⟨ht, hup⟩]
  simp only
  have hhas : t.has k rest = true := (has_iff _ _ _).2 hk
  cases k with
  | aProc =>
    have hnv : t.has .aVar rest = false := by
      cases h : t.has .aVar rest with
      | false => rfl
      | true => obtain ⟨v, hv, e⟩ := (has_iff _ _ _).1 h; exact absurd e (hvar rfl v hv)
    rw [hhas, hnv]
    exact resolve_with o _ _ [.correcting up .aProc rest]
  | aVar =>
    rw [hhas]
    simp only [Bool.not_true, Bool.and_false, Bool.false_eq_true, if_false, if_true]
    exact resolve_with o _ _ [.correcting up .aVar rest]

/-! ## The reference -/

theorem inherited_own {w : World} {t : TypeD} {sel : TypeD → List Member} {n : Str} (h : hasName (sel t) n = true) :
    inherited w t sel n = (sel t).find? fun m => decide (m.name = n) := by
  unfold inherited ownMember
  cases hf : (sel t).find? fun m => decide (m.name = n) with
  | some v => rfl
  | none =>
    exfalso
    unfold hasName at h
    obtain ⟨m, hm, he⟩ := List.any_eq_true.1 h
    exact absurd he (List.find?_eq_none.1 hf m hm)

theorem known_has {w : World} {ty : Str} {k : Kind} {n : Str} {t : TypeD} (h : knownIn w ty k n = true) (hf : w.find ty = some t) :
    t.has k n = true := by
  unfold knownIn at h
  rw [hf] at h
  exact h

theorem parse_known {w : World} {ref : Str} (hk : (parseRef w ref).known = true) {k : Kind} {n : Str}
    (hm : (parseRef w ref).member = some (k, n)) {t : TypeD} (hf : w.find (parseRef w ref).ty = some t) : t.has k n = true := by
  have key : ∀ {ty n' : Str} {k' : Kind} {p : Parsed}, parseRef w ref = p → p = ⟨ty, some (k', n'), knownIn w ty k' n', []⟩ →
      t.has k n = true := by
    rintro ty n' k' p h rfl
    rw [h] at hk hm hf
    cases hm
    exact known_has hk hf
  generalize hp : parseRef w ref = p at *
  unfold parseRef at hp
  split at hp
  · exact key rfl hp.symm
  · split at hp
    · exact key rfl hp.symm
    · split at hp
      · exact key rfl hp.symm
      · split at hp
        · subst hp; cases hm
        · split at hp
          · split at hp
            · next up rest _ s hs =>
              split at hp
              · next h =>
                subst hp
                cases hm
                rw [hs] at hf
                cases hf
                exact (Bool.and_eq_true _ _ ▸ h).1
              · split at hp
                · next h =>
                  subst hp
                  cases hm
                  rw [hs] at hf
                  cases hf
                  exact h
                · subst hp; cases hm
            · subst hp; cases hm
          · split at hp
            · next h =>
              subst hp
              cases hm
              exact known_has h hf
            · subst hp; cases hm

/-- **C100** A link to the reference of BYOND is given only for a builtin that is not documented on the page of its type, with the
place the builtin has there. -/
theorem external_builtin {w : World} (o : Ordinary w) {ref url tip : Str} {msgs : List Msg}
    (h : fixLink w ref = (some (.web url, tip), msgs)) :
    tip = ref ∧ ∃ t ∈ w.types,
      (∃ hash, t.builtin = some hash ∧ ¬ Documents w none t.path ∧ url = referenceBase ++ hash.getD t.path) ∨
        ∃ k, ∃ v ∈ t.members k, ∃ hash, v.builtin = some hash ∧ ¬ Documents w (some (k, v.name)) t.path ∧
          url = referenceBase ++ hash.getD (t.path ++ marker (kindWord k) ++ v.name) := by
  cases fix_cases w ref with
  | «macro» _ _ _ _ h4 => rw [h4] at h; cases h
  | noMacro _ _ h4 => rw [h4] at h; cases h
  | file _ _ _ _ _ h4 => rw [h4] at h; cases h
  | noFile _ _ _ _ _ h4 => rw [h4] at h; cases h
  | other _ h4 =>
    rw [h4] at h
    rcases resolve_is o ref (parseRef w ref) with ⟨q, nm, h1, h2, h3⟩ | ⟨h1, ⟨u, he, h3⟩ | ⟨_, h3⟩⟩
    · rw [h3] at h; cases h
    · rw [h3] at h
      cases h
      refine ⟨rfl, ?_⟩
      unfold external at he
      split at he
      · next hk =>
        cases hf : w.find (parseRef w ref).ty with
        | none => rw [hf] at he; cases he
        | some t =>
          rw [hf] at he
          simp only at he
          obtain ⟨ht, hp⟩ := (find_iff o _ _).1 hf
          have hno : ¬ Documents w (parseRef w ref).member t.path := by
            rcases o.paths t ht with h0 | h0
            · exact h1 t.path (.inl ⟨by rw [← hp, h0], h0⟩)
            · have hne : t.path ≠ [] := by obtain ⟨r, h, _⟩ := h0; rw [h]; simp
              refine h1 t.path (.inr ⟨by rw [← hp]; exact hne, ?_⟩)
              rw [← hp, trim_typePath h0]
              exact ⟨hne, .inl rfl⟩
          refine ⟨t, ht, ?_⟩
          match hm : (parseRef w ref).member with
          | some (.aVar, n) =>
            rw [hm] at he hno
            simp only at he
            rw [inherited_own (sel := TypeD.vars) (parse_known hk hm hf)] at he
            cases hv : t.vars.find? (fun m => decide (m.name = n)) with
            | none => rw [hv] at he; cases he
            | some v =>
              rw [hv] at he
              obtain ⟨b, hb, e⟩ := Option.map_eq_some_iff.1 he
              have hn : v.name = n := by simpa using List.find?_some hv
              exact .inr ⟨.aVar, v, List.mem_of_find?_eq_some hv, b, hb, by rw [hn]; exact hno, by rw [← e, hn]; rfl⟩
          | some (.aProc, n) =>
            rw [hm] at he hno
            simp only at he
            rw [inherited_own (sel := TypeD.procs) (parse_known hk hm hf)] at he
            cases hv : t.procs.find? (fun m => decide (m.name = n)) with
            | none => rw [hv] at he; cases he
            | some v =>
              rw [hv] at he
              obtain ⟨b, hb, e⟩ := Option.map_eq_some_iff.1 he
              have hn : v.name = n := by simpa using List.find?_some hv
              exact .inr ⟨.aProc, v, List.mem_of_find?_eq_some hv, b, hb, by rw [hn]; exact hno, by rw [← e, hn]; rfl⟩
          | none =>
            rw [hm] at he hno
            obtain ⟨b, hb, e⟩ := Option.map_eq_some_iff.1 he
            exact .inl ⟨b, hb, hno, e.symm⟩
      · cases he
    · rw [h3] at h; cases h

/-- **C100** A var or proc that is documented nowhere on the way, and is not a builtin the type has, is not linked, and the message
tells whether the type has it. -/
theorem member_unlinked {w : World} (o : Ordinary w) {ty wd n full : Str} {k : Kind} (hp : Plain w (ty ++ marker wd ++ n))
    (hw : Word k wd) (hu : Unmarked ty) (hn : '/' ∉ n) (h0 : ty ≠ []) (ha : Absolute ty full)
    (hno : ∀ q, OnWay q full → ¬ Documents w (some (k, n)) q)
    (hb : ∀ t ∈ w.types, t.path = ty → ∀ v ∈ t.members k, v.name = n → v.builtin = none) :
    ∃ known, (known = true ↔ ∃ t ∈ w.types, t.path = ty ∧ ∃ v ∈ t.members k, v.name = n) ∧
      fixLink w (ty ++ marker wd ++ n) = (none, [if known then .undocumented else .unknown]) := by
  refine ⟨knownIn w ty k n, knownIn_iff o ty k n, ?_⟩
  rw [fix_plain hp, parse_member hw hu hn]
  rcases resolve_is o (ty ++ marker wd ++ n) ⟨ty, some (k, n), knownIn w ty k n, []⟩ with ⟨q, nm, h1, _⟩ | ⟨_, ⟨u, he, _⟩ | ⟨_, h⟩⟩
  · exfalso
    rcases h1 with ⟨h, _⟩ | ⟨_, h, hd, _⟩
    · exact h0 h
    · simp only at h
      rw [← absolute_eq ha] at h
      exact hno q h hd
  · exfalso
    unfold external at he
    split at he
    · next hk =>
      simp only at he
      cases hf : w.find ty with
      | none => rw [hf] at he; cases he
      | some t =>
        rw [hf] at he
        simp only at he
        obtain ⟨ht, htp⟩ := (find_iff o _ _).1 hf
        cases k with
        | aVar =>
          simp only at he
          rw [inherited_own (sel := TypeD.vars) (known_has hk hf)] at he
          cases hv : t.vars.find? (fun m => decide (m.name = n)) with
          | none => rw [hv] at he; cases he
          | some v =>
            rw [hv] at he
            have hn : v.name = n := by simpa using List.find?_some hv
            simp only at he
            rw [hb t ht htp v (List.mem_of_find?_eq_some hv) hn] at he
            cases he
        | aProc =>
          simp only at he
          rw [inherited_own (sel := TypeD.procs) (known_has hk hf)] at he
          cases hv : t.procs.find? (fun m => decide (m.name = n)) with
          | none => rw [hv] at he; cases he
          | some v =>
            rw [hv] at he
            have hn : v.name = n := by simpa using List.find?_some hv
            simp only at he
            rw [hb t ht htp v (List.mem_of_find?_eq_some hv) hn] at he
            cases he
    · cases he
  · exact h

end Verif.Dmdoc
