import Verif.Dmdoc.LinkSpec
import Verif.Dmdoc.IndexProps

/-!
# Lemmas on paths, pages and references
-/

namespace Verif.Dmdoc

/-! ## Strings -/

theorem cutAt_some {pat s : Str} {r : Str × Str} (h : cutAt pat s = some r) : s = r.1 ++ pat ++ r.2 := by
  induction s generalizing r with
  | nil =>
    unfold cutAt at h
    split at h
    · rename_i hp
      simp only [Option.some.injEq] at h
      subst h
      rw [List.isPrefixOf_iff_prefix, List.prefix_nil] at hp
      simp [hp]
    · cases h
  | cons c s ih =>
    unfold cutAt at h
    split at h
    · rename_i hp
      simp only [Option.some.injEq] at h
      subst h
      rw [List.isPrefixOf_iff_prefix] at hp
      obtain ⟨t, ht⟩ := hp
      rw [← ht]
      simp
    · obtain ⟨r', h', rfl⟩ := Option.map_eq_some_iff.1 h
      rw [ih h']
      simp

theorem cutAt_none {pat s : Str} (h : ∀ a b, s ≠ a ++ pat ++ b) : cutAt pat s = none := by
  cases hc : cutAt pat s with
  | none => rfl
  | some r => exact absurd (cutAt_some hc) (h _ _)

theorem cutAt_ne_none {pat a b : Str} : cutAt pat (a ++ pat ++ b) ≠ none := by
  induction a with
  | nil =>
    cases h : [] ++ pat ++ b with
    | nil =>
      simp only [List.nil_append, List.append_eq_nil_iff] at h
      simp [cutAt, h.1]
    | cons c s =>
      have : pat.isPrefixOf (c :: s) = true := by
        rw [← h, List.isPrefixOf_iff_prefix]; simp
      unfold cutAt
      rw [if_pos this]
      simp
  | cons c a ih =>
    rw [List.cons_append, List.cons_append, cutAt]
    split
    · simp
    · simpa using ih

theorem slash_split {a u t v : Str} (h : a ++ '/' :: u = t ++ '/' :: v) :
    (a = t ∧ u = v) ∨ (∃ c, t = a ++ '/' :: c ∧ u = c ++ '/' :: v) ∨ ∃ c, a = t ++ '/' :: c ∧ v = c ++ '/' :: u := by
  rcases List.append_eq_append_iff.1 h with ⟨x, h1, h2⟩ | ⟨x, h1, h2⟩
  · cases x with
    | nil =>
      simp only [List.append_nil, List.nil_append, List.cons.injEq, true_and] at h1 h2
      exact .inl ⟨h1.symm, h2⟩
    | cons d x =>
      simp only [List.cons_append, List.cons.injEq] at h2
      obtain ⟨rfl, h2⟩ := h2
      exact .inr (.inl ⟨x, h1, h2⟩)
  · cases x with
    | nil =>
      simp only [List.append_nil, List.nil_append, List.cons.injEq, true_and] at h1 h2
      exact .inl ⟨h1, h2.symm⟩
    | cons d x =>
      simp only [List.cons_append, List.cons.injEq] at h2
      obtain ⟨rfl, h2⟩ := h2
      exact .inr (.inr ⟨x, h1, h2⟩)

/-- Where a marker can be in a reference to a member. -/
theorem mark_split {a b ty n wd wd' : Str} (hw : '/' ∉ wd) (hw' : '/' ∉ wd') (hn : '/' ∉ n)
    (h : ty ++ marker wd' ++ n = a ++ marker wd ++ b) :
    (∃ c, ty ++ ['/'] = a ++ marker wd ++ c) ∨ (a = ty ∧ wd = wd' ∧ b = n) := by
  unfold marker at *
  simp only [List.cons_append, List.append_assoc, List.nil_append] at h ⊢
  rcases slash_split h with ⟨rfl, h1⟩ | ⟨c, rfl, h1⟩ | ⟨c, rfl, h1⟩
  · rcases slash_split h1 with ⟨rfl, rfl⟩ | ⟨c, rfl, h2⟩ | ⟨c, rfl, h2⟩
    · exact .inr ⟨rfl, rfl, rfl⟩
    · simp at hw
    · simp at hw'
  · rcases slash_split h1 with ⟨rfl, rfl⟩ | ⟨d, rfl, h2⟩ | ⟨d, rfl, h2⟩
    · simp at hn
    · subst h2; simp at hn
    · simp at hw'
  · rcases slash_split h1 with ⟨rfl, rfl⟩ | ⟨d, rfl, h2⟩ | ⟨d, rfl, h2⟩
    · exact .inl ⟨[], by simp⟩
    · exact .inl ⟨d ++ ['/'], by simp⟩
    · simp at hw

theorem mark_plain {wd : Str} (h : wd ∈ marks) : '/' ∉ wd := by
  simp only [marks, List.mem_cons, List.not_mem_nil, or_false] at h
  rcases h with rfl | rfl | rfl <;> decide

theorem cutAt_mark {ty n wd wd' : Str} (hw : wd ∈ marks) (hw' : wd' ∈ marks) (hn : '/' ∉ n) (hu : Unmarked ty) :
    cutAt (marker wd) (ty ++ marker wd' ++ n) = if wd = wd' then some (ty, n) else none := by
  split
  · rename_i h
    subst h
    cases hc : cutAt (marker wd) (ty ++ marker wd ++ n) with
    | none => exact absurd hc cutAt_ne_none
    | some r =>
      rcases mark_split (mark_plain hw) (mark_plain hw) hn (cutAt_some hc) with ⟨c, h⟩ | ⟨h1, _, h2⟩
      · exact absurd h (hu wd hw _ _)
      · obtain ⟨r1, r2⟩ := r
        simp only at h1 h2
        rw [h1, h2]
  · rename_i h
    apply cutAt_none
    intro a b e
    rcases mark_split (mark_plain hw) (mark_plain hw') hn e with ⟨c, h'⟩ | ⟨_, h', _⟩
    · exact hu wd hw _ _ h'
    · exact h h'

theorem cutAt_unmarked {ref wd : Str} (hw : wd ∈ marks) (hu : Unmarked ref) : cutAt (marker wd) ref = none := by
  apply cutAt_none
  intro a b e
  exact hu wd hw a (b ++ ['/']) (by rw [e]; simp)

theorem cutLast_some {s : Str} {r : Str × Str} (h : cutLast s = some r) : s = r.1 ++ '/' :: r.2 ∧ '/' ∉ r.2 := by
  induction s generalizing r with
  | nil => simp [cutLast] at h
  | cons c s ih =>
    unfold cutLast at h
    cases hc : cutLast s with
    | some x =>
      rw [hc] at h
      simp only [Option.some.injEq] at h
      subst h
      obtain ⟨h1, h2⟩ := ih hc
      exact ⟨by rw [h1]; simp, h2⟩
    | none =>
      rw [hc] at h
      simp only at h
      split at h
      · rename_i e
        simp only [Option.some.injEq] at h
        subst h e
        refine ⟨rfl, ?_⟩
        simp only
        clear ih
        induction s with
        | nil => simp
        | cons d s ih =>
          unfold cutLast at hc
          cases hd : cutLast s with
          | some x => rw [hd] at hc; simp at hc
          | none =>
            rw [hd] at hc
            simp only at hc
            split at hc
            · simp at hc
            · rename_i hne
              rw [List.mem_cons]
              rintro (h | h)
              · exact hne h.symm
              · exact ih hd h
      · simp at h

theorem trimSlash_absolute (ty : Str) : Absolute ty ('/' :: trimSlash ty) := by
  refine ⟨ty.takeWhile (· = '/'), trimSlash ty, (List.takeWhile_append_dropWhile ..).symm, ?_, ?_, rfl⟩
  · intro c hc
    induction ty with
    | nil => simp at hc
    | cons d ty ih =>
      rw [List.takeWhile_cons] at hc
      split at hc
      · rename_i hd
        rcases List.mem_cons.1 hc with rfl | hc
        · simpa using hd
        · exact ih hc
      · simp at hc
  · unfold trimSlash
    intro h
    have := List.head?_dropWhile_not (fun c => decide (c = '/')) ty
    rw [h] at this
    simp at this

theorem absolute_eq {ty full : Str} (h : Absolute ty full) : full = '/' :: trimSlash ty := by
  obtain ⟨s, r, rfl, hs, hr, rfl⟩ := h
  have e : trimSlash (s ++ r) = r := by
    unfold trimSlash
    induction s with
    | nil =>
      cases r with
      | nil => rfl
      | cons c r =>
        have : c ≠ '/' := by simpa using hr
        simp [this]
    | cons c s ih =>
      have : c = '/' := hs c (by simp)
      subst this
      simpa using ih fun d hd => hs d (by simp [hd])
  rw [e]

theorem trim_typePath {p : Str} (h : TypePath p) : '/' :: trimSlash p = p := by
  obtain ⟨r, rfl, _, h2, _⟩ := h
  have : Absolute ('/' :: r) ('/' :: r) := ⟨['/'], r, rfl, by simp, h2, rfl⟩
  exact (absolute_eq this).symm

/-! ## Climbing -/

def progs : List Str → Str → List Str
  | [], _ => []
  | b :: bs, pre => (pre ++ '/' :: b) :: progs bs (pre ++ '/' :: b)

theorem climb_is (good : Str → Bool) (bs : List Str) (pre : Str) (best : Nat) :
    climb good bs pre best =
      ((progs bs pre).getLast?.getD pre, (((progs bs pre).filter good).getLast?.map List.length).getD best) := by
  induction bs generalizing pre best with
  | nil => rfl
  | cons b bs ih =>
    rw [climb, ih]
    simp only [progs]
    congr 1
    · rw [List.getLast?_cons, Option.getD_some]
    · rw [List.filter_cons]
      split
      · rw [List.getLast?_cons]
        cases (List.filter good (progs bs (pre ++ '/' :: b))).getLast? <;> simp
      · rfl

theorem cuts_single {b : Str} (h : '/' ∉ b) : cuts b = [b] := by
  induction b with
  | nil => rfl
  | cons c b ih =>
    simp only [List.mem_cons, not_or] at h
    rw [cuts, if_neg (fun e => h.1 e.symm), ih h.2]
    rfl

theorem progs_pieces (r pre : Str) : progs (pieces r) pre = (cuts r).map fun u => pre ++ '/' :: u := by
  generalize hn : r.length = n
  induction n using Nat.strongRecOn generalizing r pre with
  | _ n ih =>
    cases hp : pieces r with
    | nil => exact absurd hp (pieces_ne r)
    | cons b bs =>
      obtain ⟨hb, ⟨rfl, rfl⟩ | ⟨t, rfl, ht⟩⟩ := pieces_cons hp
      · rw [cuts_single hb]; rfl
      · rw [progs, ← ht, ih t.length (by rw [← hn]; simp; omega) t _ rfl, cuts_append, cuts_single hb]
        simp [Function.comp_def]

theorem paths_slash (r : Str) : paths ('/' :: r) = (cuts r).map fun u => '/' :: u := by
  unfold paths
  rw [cuts_slash, List.filter_cons, if_neg (by simp), List.filter_eq_self]
  simp

theorem cuts_way (s : Str) : (cuts s).Pairwise fun p x => p = x ∨ ∃ q, x = p ++ '/' :: q := by
  induction s with
  | nil => simp [cuts]
  | cons c s ih =>
    have h1 : ((cuts s).map (c :: ·)).Pairwise fun p x => p = x ∨ ∃ q, x = p ++ '/' :: q := by
      rw [List.pairwise_map]
      refine ih.imp ?_
      rintro a b (rfl | ⟨q, rfl⟩)
      · exact .inl rfl
      · exact .inr ⟨q, rfl⟩
    unfold cuts
    split
    · rename_i hc
      subst hc
      rw [List.pairwise_cons]
      refine ⟨?_, h1⟩
      intro x hx
      obtain ⟨u, _, rfl⟩ := List.mem_map.1 hx
      exact .inr ⟨u, rfl⟩
    · exact h1

theorem paths_way (s : Str) : (paths s).Pairwise OnWay := by
  have h : (paths s).Pairwise fun p x => p = x ∨ ∃ q, x = p ++ '/' :: q := (cuts_way s).filter _
  refine h.imp_of_mem ?_
  intro a b ha _ hab
  exact ⟨((mem_paths _ _).1 ha).1, hab⟩

theorem climb_found (good : Str → Bool) (r : Str) :
    (∃ p, OnWay p ('/' :: r) ∧ good p = true ∧ (∀ q, OnWay q ('/' :: r) → good q = true → OnWay q p) ∧
        climb good (pieces r) [] 0 = ('/' :: r, p.length)) ∨
      ((∀ q, OnWay q ('/' :: r) → good q = false) ∧ climb good (pieces r) [] 0 = ('/' :: r, 0)) := by
  have hl : ((progs (pieces r) []).getLast?.getD []) = '/' :: r := by
    rw [progs_pieces]
    obtain ⟨l, h⟩ := cuts_last r
    rw [h]
    simp
  have hp : progs (pieces r) [] = paths ('/' :: r) := by rw [progs_pieces, paths_slash]; rfl
  rw [climb_is, hl, hp]
  rcases List.eq_nil_or_concat ((paths ('/' :: r)).filter good) with h | ⟨l, p, h⟩
  · right
    rw [h]
    refine ⟨fun q hq => ?_, rfl⟩
    have := List.filter_eq_nil_iff.1 h q ((mem_paths _ _).2 hq)
    simpa using this
  · left
    have hmem : p ∈ (paths ('/' :: r)).filter good := by rw [h]; simp
    obtain ⟨h1, h2⟩ := List.mem_filter.1 hmem
    refine ⟨p, (mem_paths _ _).1 h1, h2, ?_, by rw [h]; simp⟩
    intro q hq hg
    have hq' : q ∈ (paths ('/' :: r)).filter good := List.mem_filter.2 ⟨(mem_paths _ _).2 hq, hg⟩
    have hw := (paths_way ('/' :: r)).filter good
    rw [h, List.concat_eq_append] at hw hq'
    rcases List.mem_append.1 hq' with hq' | hq'
    · exact (List.pairwise_append.1 hw).2.2 q hq' p (by simp)
    · simp only [List.mem_singleton] at hq'
      exact ⟨hq.1, .inl hq'⟩

theorem onWay_take {p x : Str} (h : OnWay p x) : x.take p.length = p := by
  rcases h.2 with rfl | ⟨q, rfl⟩
  · simp
  · simp

theorem onWay_length {p x : Str} (h : OnWay p x) : p.length = x.length ↔ p = x := by
  constructor
  · intro e
    rw [← onWay_take h, e, List.take_length]
  · rintro rfl; rfl

/-! ## Pages -/

theorem foldl_any (ms : List Member) (s : Bool) :
    ms.foldl (fun s v => if v.documented then true else s) s = (s || ms.any Member.documented) := by
  induction ms generalizing s with
  | nil => simp
  | cons m ms ih =>
    rw [List.foldl_cons, ih, List.any_cons]
    cases m.documented <;> simp

theorem substance_withDocs (t : TypeD) : t.substance = t.withDocs := by
  unfold TypeD.substance TypeD.withDocs
  simp only [foldl_any]
  cases t.docs <;> rfl

theorem withDocs_iff (t : TypeD) : t.withDocs = true ↔ HasPage t := by
  unfold TypeD.withDocs HasPage
  simp only [Bool.or_eq_true, List.any_eq_true]
  have hd : t.docs.getD false = true ↔ t.docs = some true := by
    cases t.docs with
    | none => simp
    | some d => simp
  rw [hd]
  constructor
  · rintro ((h | ⟨m, hm, h⟩) | ⟨m, hm, h⟩)
    · exact .inl h
    · exact .inr ⟨.aVar, m, hm, h⟩
    · exact .inr ⟨.aProc, m, hm, h⟩
  · rintro (h | ⟨k, m, hm, h⟩)
    · exact .inl (.inl h)
    · cases k with
      | aVar => exact .inl (.inr ⟨m, hm, h⟩)
      | aProc => exact .inr ⟨m, hm, h⟩

theorem hasDocs_iff (ms : List Member) (n : Str) :
    hasDocs ms n = true ↔ ∃ v ∈ ms, v.name = n ∧ v.documented = true := by
  unfold hasDocs
  simp only [List.any_eq_true, Bool.and_eq_true, decide_eq_true_eq]
  constructor
  · rintro ⟨v, h, h1, h2⟩; exact ⟨v, h, h2, h1⟩
  · rintro ⟨v, h, h1, h2⟩; exact ⟨v, h, h2, h1⟩

theorem shows_iff (t : TypeD) (m : Option (Kind × Str)) :
    t.shows m = true ↔ ∀ k n, m = some (k, n) → ∃ v ∈ t.members k, v.name = n ∧ v.documented = true := by
  match m with
  | none => simp [TypeD.shows]
  | some (.aProc, n) =>
    rw [TypeD.shows, hasDocs_iff]
    constructor
    · rintro h k n' e; cases e; exact h
    · intro h; exact h _ _ rfl
  | some (.aVar, n) =>
    rw [TypeD.shows, hasDocs_iff]
    constructor
    · rintro h k n' e; cases e; exact h
    · intro h; exact h _ _ rfl

theorem same_path {w : World} (o : Ordinary w) {s t : TypeD} (hs : s ∈ w.types) (ht : t ∈ w.types) (h : s.path = t.path) :
    s = t := List.inj_on_of_nodup_map o.distinct hs ht h

theorem find_iff {w : World} (o : Ordinary w) (p : Str) (t : TypeD) : w.find p = some t ↔ t ∈ w.types ∧ t.path = p := by
  unfold World.find
  constructor
  · intro h
    exact ⟨List.mem_of_find?_eq_some h, by simpa using List.find?_some h⟩
  · rintro ⟨h1, rfl⟩
    cases h : w.types.find? (fun s => decide (s.path = t.path)) with
    | none =>
      have := List.find?_eq_none.1 h t h1
      simp at this
    | some s =>
      have h2 := List.mem_of_find?_eq_some h
      have h3 : s.path = t.path := by simpa using List.find?_some h
      rw [same_path o h2 h1 h3]

theorem wshows_iff {w : World} (o : Ordinary w) (m : Option (Kind × Str)) (p : Str) :
    w.shows m p = true ↔ Documents w m p := by
  unfold World.shows World.withDocs Documents
  constructor
  · intro h
    cases hf : w.types.find? (fun t => t.withDocs && decide (t.path = p)) with
    | none => rw [hf] at h; simp at h
    | some t =>
      rw [hf] at h
      have h2 := List.find?_some hf
      simp only [Bool.and_eq_true, decide_eq_true_eq] at h2
      exact ⟨t, List.mem_of_find?_eq_some hf, h2.2, (withDocs_iff t).1 h2.1, (shows_iff t m).1 h⟩
  · rintro ⟨t, ht, hp, hd, hs⟩
    cases hf : w.types.find? (fun t => t.withDocs && decide (t.path = p)) with
    | none =>
      have := List.find?_eq_none.1 hf t ht
      simp [hp, (withDocs_iff t).2 hd] at this
    | some s =>
      have h2 := List.find?_some hf
      simp only [Bool.and_eq_true, decide_eq_true_eq] at h2
      have : s = t := same_path o (List.mem_of_find?_eq_some hf) ht (by rw [h2.2, hp])
      subst this
      exact (shows_iff s m).2 hs

theorem published {w : World} (o : Ordinary w) {p : Page} (h : p ∈ w.site) : Published w p := by
  obtain ⟨a, b, e⟩ := List.append_of_mem h
  refine ⟨a, b, e, fun q hq hn => ?_⟩
  have := o.apart
  rw [e, List.map_append, List.map_cons] at this
  have := (List.nodup_append.1 this).2.1
  rw [List.nodup_cons] at this
  exact this.1 (List.mem_map.2 ⟨q, hq, hn⟩)

theorem typePage_mem {w : World} {t : TypeD} (ht : t ∈ w.types) (hp : HasPage t) : t.page ∈ w.site := by
  unfold World.site
  have : t ∈ w.types.filter TypeD.substance :=
    List.mem_filter.2 ⟨ht, by rw [substance_withDocs]; exact (withDocs_iff t).2 hp⟩
  simp only [List.mem_cons, List.mem_append, List.mem_map]
  exact .inr (.inr ⟨t, this, rfl⟩)

theorem modulePage_mem {w : World} {m : Str} (h : m ∈ w.modules) : w.modulePage m ∈ w.site := by
  unfold World.site
  simp only [List.mem_cons, List.mem_append, List.mem_map]
  exact .inr (.inl ⟨m, h, rfl⟩)

theorem section_mem {word n : Str} {names : List Str} (h : n ∈ names) : word ++ '/' :: n ∈ section_ word names := by
  unfold section_
  rw [if_neg]
  · exact List.mem_cons_of_mem _ (List.mem_map.2 ⟨n, h, rfl⟩)
  · rw [List.isEmpty_iff]; rintro rfl; simp at h

theorem section_head {word : Str} {names : List Str} (h : names ≠ []) : word ∈ section_ word names := by
  unfold section_
  rw [if_neg (by rwa [List.isEmpty_iff])]
  simp

theorem documentedNames_mem {ms : List Member} {v : Member} (h : v ∈ ms) (hd : v.documented = true) :
    v.name ∈ documentedNames ms :=
  List.mem_map.2 ⟨v, List.mem_filter.2 ⟨h, hd⟩, rfl⟩

theorem member_anchor {t : TypeD} {k : Kind} {v : Member} (h : v ∈ t.members k) (hd : v.documented = true) :
    anchorOf k v.name ∈ t.page.anchors := by
  unfold TypeD.page anchorOf
  rw [List.mem_append]
  cases k with
  | aProc => exact .inr (section_mem (documentedNames_mem h hd))
  | aVar => exact .inl (section_mem (documentedNames_mem h hd))

theorem htmlName_pageOf {w : World} (o : Ordinary w) {t : TypeD} (ht : t ∈ w.types) : PageOf t.path t.htmlName := by
  unfold TypeD.htmlName TypeD.isRoot
  rcases o.paths t ht with h | ⟨r, h, _⟩
  · left; rw [h]; exact ⟨rfl, rfl⟩
  · right; rw [h]; exact ⟨r, rfl, rfl⟩

theorem pageOf_fun {p a b : Str} (h1 : PageOf p a) (h2 : PageOf p b) : a = b := by
  rcases h1 with ⟨rfl, rfl⟩ | ⟨r, rfl, rfl⟩
  · rcases h2 with ⟨_, rfl⟩ | ⟨r, h, _⟩
    · rfl
    · cases h
  · rcases h2 with ⟨h, _⟩ | ⟨r', h, rfl⟩
    · cases h
    · cases h; rfl

/-- A documented thing is on a page of the site. -/
theorem documents_leads {w : World} (o : Ordinary w) {m : Option (Kind × Str)} {p name : Str} (h : Documents w m p)
    (hp : PageOf p name) : Leads w name (m.map fun x => anchorOf x.1 x.2) := by
  obtain ⟨t, ht, rfl, hpage, hm⟩ := h
  refine ⟨t.page, published o (typePage_mem ht hpage), pageOf_fun (htmlName_pageOf o ht) hp, ?_⟩
  intro a ha
  obtain ⟨⟨k, n⟩, rfl, rfl⟩ := Option.map_eq_some_iff.1 ha
  obtain ⟨v, hv, rfl, hd⟩ := hm k n rfl
  exact member_anchor hv hd

end Verif.Dmdoc
