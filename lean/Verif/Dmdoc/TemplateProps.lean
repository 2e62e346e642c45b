import Verif.Dmdoc.LinkProps

/-!
# C101: the links of the templates of dmdoc
-/

namespace Verif.Dmdoc

/-- A link of a template leads somewhere. -/
def HrefLeads (w : World) : Href → Prop
  | .page name anchor => Leads w name anchor
  | .web _ => True

theorem name_hasPage {w : World} (o : Ordinary w) {r : Str} (h : '/' :: r ∈ w.allTypeNames) : Documents w none ('/' :: r) := by
  unfold World.allTypeNames at h
  obtain ⟨t, ht, hp⟩ := List.mem_map.1 h
  obtain ⟨h1, h2⟩ := List.mem_filter.1 ht
  rw [substance_withDocs] at h2
  unfold TypeD.prettyPath at hp
  split at hp
  · have := congrArg List.head? hp
    rw [List.head?_cons] at this
    exact absurd this (by decide)
  · exact ⟨t, h1, hp, (withDocs_iff t).1 h2, nofun⟩

theorem documents_name {w : World} {r : Str} (h : Documents w none ('/' :: r)) : '/' :: r ∈ w.allTypeNames := by
  obtain ⟨t, ht, hp, hpage, _⟩ := h
  unfold World.allTypeNames
  refine List.mem_map.2 ⟨t, List.mem_filter.2 ⟨ht, by rw [substance_withDocs]; exact (withDocs_iff t).2 hpage⟩, ?_⟩
  unfold TypeD.prettyPath TypeD.isRoot
  rw [hp]
  rfl

theorem name_leads {w : World} (o : Ordinary w) {p : Str} (h : p ∈ w.allTypeNames) (hs : p.head? = some '/') :
    Leads w (p.drop 1) none := by
  cases p with
  | nil => simp at hs
  | cons c r =>
    simp only [List.head?_cons, Option.some.injEq] at hs
    subst hs
    exact documents_leads (m := none) o (name_hasPage o h) (.inr ⟨r, rfl, rfl⟩)

/-! ## Type paths -/

def Piece.shown : Piece → Str
  | .text s => s
  | .link _ s => s

theorem linkify_leads_loop {w : World} (o : Ordinary w) (bits : List Str) (all progress : Str)
    (ha : all = [] ∨ all.head? = some '/') : ∀ h ∈ pieceLinks (linkifyLoop w.allTypeNames bits all progress), HrefLeads w h := by
  induction bits generalizing all progress with
  | nil => simp [linkifyLoop, pieceLinks]
  | cons b bs ih =>
    have ha' : (all ++ '/' :: b).head? = some '/' := by
      rcases ha with rfl | ha
      · rfl
      · cases all with
        | nil => cases ha
        | cons c s => exact ha
    intro h hh
    rw [linkifyLoop] at hh
    split at hh
    · rename_i hm
      simp only [pieceLinks, List.filterMap_cons, List.mem_cons] at hh
      rcases hh with rfl | hh
      · exact name_leads o hm ha'
      · exact ih _ _ (.inr ha') h hh
    · split at hh
      · simp only [pieceLinks, List.filterMap_cons] at hh
        exact ih _ _ (.inl rfl) h hh
      · exact ih _ _ (.inr ha') h hh

/-- **C101** The links in a type path lead to pages. -/
theorem linkify_leads {w : World} (o : Ordinary w) (bits : List Str) : ∀ h ∈ pieceLinks (w.linkify bits), HrefLeads w h :=
  linkify_leads_loop o bits [] [] (.inl rfl)

theorem linkify_text_loop {w : World} (bits : List Str) (all progress : Str) (hb : ∀ b ∈ bits, '/' ∉ b)
    (h1 : progress = [] ∨ progress.head? = some '/') (h2 : all = [] → progress = []) :
    (linkifyLoop w.allTypeNames bits all progress).flatMap Piece.shown = progress ++ bits.flatMap fun b => '/' :: b := by
  induction bits generalizing all progress with
  | nil => simp [linkifyLoop, Piece.shown]
  | cons b bs ih =>
    have hb' := fun x hx => hb x (List.mem_cons_of_mem _ hx)
    rw [linkifyLoop]
    have hhead : ∃ r, progress ++ '/' :: b = '/' :: r := by
      rcases h1 with rfl | h1
      · exact ⟨b, rfl⟩
      · cases progress with
        | nil => cases h1
        | cons c s =>
          simp only [List.head?_cons, Option.some.injEq] at h1
          subst h1
          exact ⟨s ++ '/' :: b, rfl⟩
    obtain ⟨r, hr⟩ := hhead
    split
    · simp only [List.flatMap_cons, Piece.shown]
      rw [ih _ _ hb' (.inl rfl) (fun _ => rfl), hr]
      have : progress ++ ('/' :: b ++ List.flatMap (fun b => '/' :: b) bs) =
          (progress ++ '/' :: b) ++ List.flatMap (fun b => '/' :: b) bs := by simp
      rw [this, hr]
      simp
    · split
      · rename_i he
        have hp : all = [] ∧ b = ['l', 'i', 's', 't'] := by
          have : all ++ '/' :: b = [] ++ '/' :: ['l', 'i', 's', 't'] := he
          rcases slash_split this with ⟨h1, h2⟩ | ⟨c, h1, _⟩ | ⟨c, h1, h2⟩
          · exact ⟨h1, h2⟩
          · cases all <;> simp at h1
          · have : '/' ∈ ['l', 'i', 's', 't'] := by rw [h2]; simp
            simp at this
        have hp' := h2 hp.1
        rw [List.flatMap_cons, ih _ _ hb' (.inl rfl) (fun _ => rfl), hp', hp.2]
        rfl
      · rw [ih _ _ hb' (.inr (by rw [hr]; rfl)) (by intro h; simp at h)]
        simp

/-- **C101** A type path with links reads as the path. -/
theorem linkify_text (w : World) (bits : List Str) (hb : ∀ b ∈ bits, '/' ∉ b) :
    (w.linkify bits).flatMap Piece.shown = bits.flatMap fun b => '/' :: b :=
  linkify_text_loop bits [] [] hb (.inl rfl) (fun _ => rfl)

theorem linkify_links_loop {w : World} (bits : List Str) (all progress : Str)
    (hl : listPath ∈ w.allTypeNames ∨ listPath ∉ progs bits all) :
    pieceLinks (linkifyLoop w.allTypeNames bits all progress) =
      ((progs bits all).filter fun p => decide (p ∈ w.allTypeNames)).map fun p => .page (p.drop 1) none := by
  induction bits generalizing all progress with
  | nil => rfl
  | cons b bs ih =>
    have hl' : listPath ∈ w.allTypeNames ∨ listPath ∉ progs bs (all ++ '/' :: b) :=
      hl.imp_right fun h hm => h (by rw [progs]; exact List.mem_cons_of_mem _ hm)
    rw [linkifyLoop, progs]
    simp only [List.filter_cons]
    by_cases hm : all ++ '/' :: b ∈ w.allTypeNames
    · rw [if_pos hm, if_pos (by simpa using hm)]
      simp only [pieceLinks, List.filterMap_cons, List.map_cons]
      congr 1
      exact ih _ _ hl'
    · rw [if_neg hm, if_neg (c := decide (all ++ '/' :: b ∈ w.allTypeNames) = true) (by simpa using hm)]
      split
      · rename_i he
        exfalso
        rcases hl with h | h
        · exact hm (by rw [he]; exact h)
        · exact h (by rw [progs, he]; simp)
      · exact ih _ _ hl'

theorem paths_of_bits (s : Str) : progs (pieces s) [] = paths ('/' :: s) := by
  rw [progs_pieces, paths_slash]; rfl

/-- **C101** In the path to a type, if not under `/list`, every path on the way that has a page is linked to it. -/
theorem linkify_complete {w : World} (s p name : Str) (h0 : s ≠ []) (hs : s.head? ≠ some '/')
    (hl : Documents w none listPath ∨ ¬ OnWay listPath ('/' :: s)) (hw : OnWay p ('/' :: s)) (hd : Documents w none p)
    (hp : PageOf p name) : Href.page name none ∈ pieceLinks (w.linkifyStr ('/' :: s)) := by
  have hb : (pieces ('/' :: s)).dropWhile List.isEmpty = pieces s ∨ s = [] := by
    have e : pieces ('/' :: s) = [] :: pieces s := by simp [pieces]
    rw [e]
    cases s with
    | nil => exact .inr rfl
    | cons c s =>
      left
      have hc : c ≠ '/' := by simpa using hs
      have : ∃ b bs, pieces (c :: s) = (c :: b) :: bs := by
        unfold pieces
        rw [if_neg hc]
        cases hq : pieces s with
        | nil => exact absurd hq (pieces_ne s)
        | cons b bs => exact ⟨b, bs, rfl⟩
      obtain ⟨b, bs, h⟩ := this
      rw [h]
      rfl
  obtain ⟨r, rfl, rfl⟩ : ∃ r, p = '/' :: r ∧ name = r := by
    rcases hp with ⟨h, _⟩ | h
    · exact absurd h hw.1
    · exact h
  rcases hb with hb | rfl
  · unfold World.linkifyStr World.linkify
    rw [hb, linkify_links_loop, paths_of_bits]
    · refine List.mem_map.2 ⟨'/' :: name, List.mem_filter.2 ⟨(mem_paths _ _).2 hw, ?_⟩, rfl⟩
      simpa using documents_name hd
    · rw [paths_of_bits, mem_paths]
      exact hl.imp_left documents_name
  · exact absurd rfl h0

/-- **C101** Under a `/list` without a page the rest is linked as a path of its own. -/
theorem linkify_list {w : World} (h : ¬ Documents w none listPath) (bits : List Str) :
    w.linkify (['l', 'i', 's', 't'] :: bits) = .text listPath :: w.linkify bits := by
  have hn : ([] ++ '/' :: ['l', 'i', 's', 't'] : Str) ∉ w.allTypeNames := fun hm => h (by
    unfold World.allTypeNames at hm
    obtain ⟨t, ht, hp⟩ := List.mem_map.1 hm
    obtain ⟨h1, h2⟩ := List.mem_filter.1 ht
    rw [substance_withDocs] at h2
    unfold TypeD.prettyPath at hp
    split at hp
    · exact absurd hp (by decide)
    · exact ⟨t, h1, hp, (withDocs_iff t).1 h2, nofun⟩)
  unfold World.linkify
  rw [linkifyLoop, if_neg hn, if_pos (show ([] ++ '/' :: ['l', 'i', 's', 't'] : Str) = listPath from rfl)]

/-- **C101** A word of an `as` that is linked leads to the page of the type. -/
theorem word_leads {w : World} (o : Ordinary w) {path : Str} (hs : path.head? = some '/') :
    ∀ h ∈ w.linkifyWord path, HrefLeads w h := by
  intro h hh
  unfold World.linkifyWord at hh
  split at hh
  · rename_i hm
    simp only [List.mem_singleton] at hh
    subst hh
    exact name_leads o hm hs
  · cases hh

/-! ## Pages -/

theorem details_lead {w : World} {p : Page} (hp : Published w p) {word : Str} {names : List Str}
    (ha : ∀ a ∈ section_ word names, a ∈ p.anchors) : ∀ h ∈ details p.name word names, HrefLeads w h := by
  intro h hh
  unfold details at hh
  split at hh
  · cases hh
  · rename_i hn
    have hne : names ≠ [] := by rwa [List.isEmpty_iff] at hn
    rcases List.mem_cons.1 hh with rfl | hh
    · exact ⟨p, hp, rfl, fun a e => by cases e; exact ha _ (section_head hne)⟩
    · obtain ⟨n, hm, rfl⟩ := List.mem_map.1 hh
      exact ⟨p, hp, rfl, fun a e => by cases e; exact ha _ (section_mem hm)⟩

theorem documentedParent_leads {w : World} (o : Ordinary w) {t : TypeD} (ht : t ∈ w.types) {k : Kind} {n name : Str}
    (h : documentedParent w t k n = some name) : Leads w name (some (anchorOf k n)) := by
  unfold documentedParent at h
  obtain ⟨p, hp, rfl⟩ := Option.map_eq_some_iff.1 h
  have h1 := List.mem_of_find?_eq_some hp
  have h2 := List.find?_some hp
  cases hf : w.find p with
  | none => rw [hf] at h2; simp at h2
  | some s =>
    rw [hf] at h2
    simp only [Option.elim_some] at h2
    obtain ⟨hs, hsp⟩ := (find_iff o _ _).1 hf
    have hv : ∃ v ∈ s.members k, v.name = n ∧ v.documented = true := by
      cases k <;> exact (hasDocs_iff _ _).1 h2
    have hd : Documents w (some (k, n)) p := by
      refine ⟨s, hs, hsp, ?_, ?_⟩
      · obtain ⟨v, hv, _, hvd⟩ := hv
        exact .inr ⟨k, v, hv, hvd⟩
      · intro k' n' e; cases e; exact hv
    have hp0 := o.supers t ht p h1
    have hpage : PageOf p (p.drop 1) := by
      right
      rcases o.paths s hs with h | ⟨r, h, _⟩
      · exact absurd (hsp ▸ h) hp0
      · rw [hsp] at h; exact ⟨r, h, by rw [h]; rfl⟩
    exact documents_leads o hd hpage

theorem arrows_lead {w : World} (o : Ordinary w) {t : TypeD} (ht : t ∈ w.types) (k : Kind) (ms : List Member) :
    ∀ h ∈ arrows w t k ms, HrefLeads w h := by
  intro h hh
  unfold arrows at hh
  obtain ⟨m, _, e⟩ := List.mem_filterMap.1 hh
  obtain ⟨p, hp, rfl⟩ := Option.map_eq_some_iff.1 e
  exact documentedParent_leads o ht hp

/-- **C101** All links of the page of a type lead somewhere. -/
theorem type_links_lead {w : World} (o : Ordinary w) {t : TypeD} (ht : t ∈ w.types) (hp : HasPage t) :
    ∀ h ∈ w.typeLinks t, HrefLeads w h := by
  intro h hh
  have hpub := published o (typePage_mem ht hp)
  unfold World.typeLinks at hh
  simp only [List.mem_append] at hh
  rcases hh with ((hh | hh) | hh) | hh
  · exact details_lead hpub (fun a ha => List.mem_append_left _ ha) h hh
  · exact details_lead hpub (fun a ha => List.mem_append_right _ ha) h hh
  · exact arrows_lead o ht _ _ h hh
  · exact arrows_lead o ht _ _ h hh

/-- **C101** The arrow at an overridden var or proc leads to the nearest parent type that documents it. -/
theorem arrow_nearest {w : World} (o : Ordinary w) {t : TypeD} {k : Kind} {n p : Str} {before after : List Str}
    (hs : t.supers = before ++ p :: after) (hd : ∃ s ∈ w.types, s.path = p ∧ ∃ v ∈ s.members k, v.name = n ∧ v.documented = true)
    (hb : ∀ q ∈ before, ∀ s ∈ w.types, s.path = q → ∀ v ∈ s.members k, v.name = n → v.documented = false) :
    documentedParent w t k n = some (p.drop 1) := by
  have good : ∀ q, ((w.find q).elim false fun s => s.shows (some (k, n))) = true ↔
      ∃ s ∈ w.types, s.path = q ∧ ∃ v ∈ s.members k, v.name = n ∧ v.documented = true := by
    intro q
    cases hf : w.find q with
    | none =>
      simp only [Option.elim_none, Bool.false_eq_true, false_iff]
      rintro ⟨s, hs, hp, _⟩
      rw [(find_iff o q s).2 ⟨hs, hp⟩] at hf
      cases hf
    | some s =>
      obtain ⟨h1, h2⟩ := (find_iff o q s).1 hf
      simp only [Option.elim_some]
      constructor
      · intro h
        exact ⟨s, h1, h2, by cases k <;> exact (hasDocs_iff _ _).1 h⟩
      · rintro ⟨s', hs', hp', h⟩
        have := same_path o h1 hs' (by rw [h2, hp'])
        subst this
        cases k <;> exact (hasDocs_iff _ _).2 h
  unfold documentedParent
  rw [hs, List.find?_append, List.find?_eq_none.2, Option.none_or, List.find?_cons_of_pos]
  · rfl
  · exact (good p).2 hd
  · intro q hq hg
    obtain ⟨s, h1, h2, v, h3, h4, h5⟩ := (good q).1 hg
    rw [hb q hq s h1 h2 v h3 h4] at h5
    cases h5

/-- **C101** All links of the page of a module lead somewhere, if the root has no docs of its own. -/
theorem module_links_lead {w : World} (o : Ordinary w) (hroot : ∀ t ∈ w.types, t.path = [] → t.docs = none) {m : Str}
    (hm : m ∈ w.modules) : ∀ h ∈ w.moduleLinks m, HrefLeads w h := by
  intro h hh
  unfold World.moduleLinks at hh
  rcases List.mem_append.1 hh with hh | hh
  · exact details_lead (p := w.modulePage m) (published o (modulePage_mem hm)) (fun a ha => ha) h hh
  · obtain ⟨t, ht, hh⟩ := List.mem_flatMap.1 hh
    rcases List.mem_append.1 hh with hh | hh
    · split at hh
      · rename_i hc
        simp only [Bool.and_eq_true] at hc
        have hr : t.path ≠ [] := by
          intro h0
          rw [hroot t ht h0] at hc
          simp at hc
        have hpp : t.prettyPath = t.path := by
          unfold TypeD.prettyPath TypeD.isRoot
          rw [if_neg (by rwa [List.isEmpty_iff])]
        split at hh
        · rename_i hsub
          simp only [List.mem_singleton] at hh
          subst hh
          rw [substance_withDocs] at hsub
          rw [hpp]
          have hpage : PageOf t.path (t.path.drop 1) := by
            rcases o.paths t ht with h | ⟨r, h, _⟩
            · exact absurd h hr
            · exact .inr ⟨r, h, by rw [h]; rfl⟩
          exact documents_leads (m := none) o ⟨t, ht, rfl, (withDocs_iff t).1 hsub, nofun⟩ hpage
        · exact linkify_leads o _ h hh
      · cases hh
    · split at hh
      · rename_i hroot'
        have h0 : t.path = [] := by simpa [TypeD.isRoot] using hroot'
        have key : ∀ (k : Kind), ∀ v ∈ t.members k, v.documented = true → HrefLeads w (.page globalWord (some (anchorOf k v.name))) := by
          intro k v hv hd
          exact documents_leads (m := some (k, v.name)) (p := []) o
            ⟨t, ht, h0, .inr ⟨k, v, hv, hd⟩, fun k' n' e => by cases e; exact ⟨v, hv, rfl, hd⟩⟩ (.inl ⟨rfl, rfl⟩)
        rcases List.mem_append.1 hh with hh | hh <;> obtain ⟨v, hv, rfl⟩ := List.mem_map.1 hh <;>
          obtain ⟨h1, h2⟩ := List.mem_filter.1 hv <;> simp only [Bool.and_eq_true] at h2
        · exact key .aVar v h1 h2.1
        · exact key .aProc v h1 h2.1
      · cases hh

/-- **C101** All links of the index lead somewhere, and every page but the index itself is linked from it. -/
theorem index_links_lead {w : World} (o : Ordinary w) :
    (∀ h ∈ w.indexLinks, HrefLeads w h) ∧ ∀ p, Published w p → p.name ≠ indexWord → Href.page p.name none ∈ w.indexLinks := by
  constructor
  · intro h hh
    unfold World.indexLinks at hh
    rcases List.mem_append.1 hh with hh | hh
    · obtain ⟨m, hm, rfl⟩ := List.mem_map.1 hh
      exact module_leads o hm
    · obtain ⟨t, ht, rfl⟩ := List.mem_map.1 hh
      obtain ⟨h1, h2⟩ := List.mem_filter.1 ht
      rw [substance_withDocs] at h2
      exact ⟨t.page, published o (typePage_mem h1 ((withDocs_iff t).1 h2)), rfl, nofun⟩
  · rintro p ⟨a, b, e, _⟩ hn
    have hp : p ∈ w.site := by rw [e]; simp
    unfold World.site at hp
    unfold World.indexLinks
    simp only [List.mem_cons, List.mem_append] at hp ⊢
    rcases hp with rfl | hp | hp
    · exact absurd rfl hn
    · obtain ⟨m, hm, rfl⟩ := List.mem_map.1 hp
      exact .inl (List.mem_map.2 ⟨m, hm, rfl⟩)
    · obtain ⟨t, ht, rfl⟩ := List.mem_map.1 hp
      exact .inr (List.mem_map.2 ⟨t, ht, rfl⟩)

/-- **C101** A type has a page of its own exactly when it has a description or a documented var or proc, and is in the index
exactly when it has any docs or a documented var or proc. -/
theorem type_page_iff (t : TypeD) :
    (t.substance = true ↔ HasPage t) ∧ (t.anything = true ↔ t.docs ≠ none ∨ ∃ k, ∃ m ∈ t.members k, m.documented = true) := by
  refine ⟨by rw [substance_withDocs]; exact withDocs_iff t, ?_⟩
  unfold TypeD.anything
  simp only [foldl_any, Bool.or_eq_true, List.any_eq_true, Option.isSome_iff_ne_none]
  constructor
  · rintro ((h | ⟨m, hm, h⟩) | ⟨m, hm, h⟩)
    · exact .inl h
    · exact .inr ⟨.aVar, m, hm, h⟩
    · exact .inr ⟨.aProc, m, hm, h⟩
  · rintro (h | ⟨k, m, hm, h⟩)
    · exact .inl (.inl h)
    · cases k with
      | aVar => exact .inl (.inr ⟨m, hm, h⟩)
      | aProc => exact .inr ⟨m, hm, h⟩

theorem section_iff {word n : Str} {names : List Str} : word ++ '/' :: n ∈ section_ word names ↔ n ∈ names := by
  refine ⟨fun h => ?_, section_mem⟩
  unfold section_ at h
  split at h
  · cases h
  · rcases List.mem_cons.1 h with h | h
    · have := congrArg List.length h
      simp at this
    · obtain ⟨m, hm, e⟩ := List.mem_map.1 h
      have := List.append_cancel_left e
      cases this
      exact hm

theorem section_prefix {word s : Str} {names : List Str} (h : s ∈ section_ word names) : word <+: s := by
  unfold section_ at h
  split at h
  · cases h
  · rcases List.mem_cons.1 h with h | h
    · rw [h]; exact List.prefix_refl _
    · obtain ⟨m, _, rfl⟩ := List.mem_map.1 h
      exact List.prefix_append _ _

theorem kindWord_apart {k k' : Kind} {n : Str} (h : kindWord k' <+: anchorOf k n) : k' = k := by
  obtain ⟨r, e⟩ := h
  cases k <;> cases k' <;> first | rfl | (exfalso; unfold anchorOf at e; revert e; exact fun e => absurd (congrArg List.head? e) (by
    rw [List.head?_append_of_ne_nil _ (by decide +kernel), List.head?_append_of_ne_nil _ (by decide +kernel)]; decide +kernel))

theorem documentedNames_iff {ms : List Member} {n : Str} :
    n ∈ documentedNames ms ↔ ∃ v ∈ ms, v.name = n ∧ v.documented = true := by
  unfold documentedNames
  simp only [List.mem_map, List.mem_filter]
  exact ⟨fun ⟨v, ⟨h1, h2⟩, h3⟩ => ⟨v, h1, h3, h2⟩, fun ⟨v, h1, h3, h2⟩ => ⟨v, ⟨h1, h2⟩, h3⟩⟩

/-- **C101** What a page shows: the page of a module has an entry for exactly the documented macros of its files, and the page of a
type an entry for exactly its documented vars and procs. -/
theorem page_entries (w : World) :
    (∀ m n, defineWord ++ '/' :: n ∈ (w.modulePage m).anchors ↔
      ∃ x ∈ w.macros, x.documented = true ∧ x.name = n ∧ w.modulePath x.file = m) ∧
    (∀ t k n, anchorOf k n ∈ (TypeD.page t).anchors ↔ ∃ v ∈ t.members k, v.name = n ∧ v.documented = true) := by
  constructor
  · intro m n
    unfold World.modulePage World.definesOf
    simp only [section_iff, List.mem_map, List.mem_filter, Bool.and_eq_true, decide_eq_true_eq]
    exact ⟨fun ⟨x, ⟨h1, h2, h3⟩, h4⟩ => ⟨x, h1, h2, h4, h3⟩, fun ⟨x, h1, h2, h4, h3⟩ => ⟨x, ⟨h1, h2, h3⟩, h4⟩⟩
  · intro t k n
    constructor
    · intro h
      unfold TypeD.page at h
      rcases List.mem_append.1 h with h | h
      · have e := kindWord_apart (section_prefix h)
        subst e
        exact documentedNames_iff.1 (section_iff.1 h)
      · have e := kindWord_apart (section_prefix h)
        subst e
        exact documentedNames_iff.1 (section_iff.1 h)
    · rintro ⟨v, hv, rfl, hd⟩
      exact member_anchor hv hd

end Verif.Dmdoc
