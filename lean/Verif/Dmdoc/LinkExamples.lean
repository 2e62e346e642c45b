import Verif.Dmdoc.TemplateProps

/-!
# C100 and C101 on examples
-/

namespace Verif.Dmdoc

private def mem (n : String) (documented declared : Bool) (file : String) : Member :=
  ⟨n.toList, documented, declared, file.toList, none⟩

private def root : TypeD := ⟨[], none, [mem "world_age" true true "a.dm"], [mem "helper" true true "a.dm"], "a.dm".toList, none, []⟩

private def datum : TypeD :=
  ⟨"/datum".toList, some true, [⟨"tag".toList, false, true, "b.dm".toList, some none⟩], [mem "Destroy" true true "d.dm"],
    "d.dm".toList, some none, []⟩

private def mob : TypeD :=
  ⟨"/mob".toList, none, [⟨"ckey".toList, false, true, "b.dm".toList, some (some "/mob/var/key".toList)⟩], [], "b.dm".toList, some none,
    ["/datum".toList]⟩

private def living : TypeD :=
  ⟨"/mob/living".toList, some false, [mem "health" true true "m.dm", mem "hidden" false true "m.dm"],
    [mem "Life" true true "m.dm", mem "Destroy" true false "m.dm"], "m.dm".toList, none, ["/mob".toList, "/datum".toList]⟩

private def simple : TypeD :=
  ⟨"/mob/living/simple".toList, none, [mem "health" false false "m.dm"], [], "m.dm".toList, none,
    ["/mob/living".toList, "/mob".toList, "/datum".toList]⟩

private def tree : List TypeD := [root, datum, mob, living, simple]

private def noExt (s : Str) : Str := s.takeWhile (· ≠ '.')

private def w1 : World :=
  ⟨tree, [⟨"MAX".toList, true, "m.dm".toList⟩, ⟨"MIN".toList, false, "m.dm".toList⟩], ["code/life.dm".toList], ["code/notes.md".toList],
    noExt, fun f => f = "x.dm".toList⟩

/-! ## The hypotheses are met -/

private theorem unmarked_dec (s : Str) (h : ∀ wd ∈ marks, cutAt (marker wd) (s ++ ['/']) = none) : Unmarked s := by
  intro wd hwd a b e
  have := h wd hwd
  rw [e] at this
  clear e h
  induction a with
  | nil =>
    rw [List.nil_append] at this
    have hp : (marker wd).isPrefixOf (marker wd ++ b) = true := List.isPrefixOf_iff_prefix.2 ⟨b, rfl⟩
    have hc : marker wd ++ b = '/' :: (wd ++ ['/'] ++ b) := rfl
    rw [hc] at this hp
    unfold cutAt at this
    rw [if_pos hp] at this
    cases this
  | cons c a ih =>
    rw [List.cons_append, List.cons_append] at this
    unfold cutAt at this
    split at this
    · cases this
    · exact ih (Option.map_eq_none_iff.1 this)

theorem w1_ordinary : Ordinary w1 where
  distinct := by decide +kernel
  paths := by
    have hp : ∀ r : Str, r ≠ [] → r.head? ≠ some '/' → (∀ wd ∈ marks, cutAt (marker wd) ('/' :: r ++ ['/']) = none) →
        TypePath ('/' :: r) := fun r h1 h2 h3 => ⟨r, rfl, h1, h2, unmarked_dec _ h3⟩
    intro t ht
    change t ∈ tree at ht
    simp only [tree, List.mem_cons, List.not_mem_nil, or_false] at ht
    rcases ht with rfl | rfl | rfl | rfl | rfl
    · exact .inl rfl
    · exact .inr (hp "datum".toList (by decide +kernel) (by decide +kernel) (by decide +kernel))
    · exact .inr (hp "mob".toList (by decide +kernel) (by decide +kernel) (by decide +kernel))
    · exact .inr (hp "mob/living".toList (by decide +kernel) (by decide +kernel) (by decide +kernel))
    · exact .inr (hp "mob/living/simple".toList (by decide +kernel) (by decide +kernel) (by decide +kernel))
  supers := by decide +kernel
  apart := by decide +kernel

private def lnk (name anchor : String) : Href := .page name.toList (some anchor.toList)

/-! ## References -/

theorem exact_proc : fixLink w1 "/mob/living/proc/Life".toList = (some (lnk "mob/living" "proc/Life", "/mob/living".toList), []) := by
  decide +kernel

theorem exact_verb : fixLink w1 "/mob/living/verb/Life".toList = (some (lnk "mob/living" "proc/Life", "/mob/living".toList), []) := by
  decide +kernel

theorem global_var : fixLink w1 "/var/world_age".toList = (some (lnk "global" "var/world_age", "/global".toList), []) := by
  decide +kernel

theorem macro_link : fixLink w1 "MAX".toList = (some (lnk "m" "define/MAX", "MAX".toList), []) := by decide +kernel

theorem macro_without_docs : fixLink w1 "MIN".toList = (none, [.macroUndocumented]) := by decide +kernel

theorem module_link : fixLink w1 "code/life.dm".toList = (some (.page "code/life".toList none, "code/life.dm".toList), []) := by
  decide +kernel

theorem guessed : fixLink w1 "/mob/living/simple/var/health".toList =
    (some (lnk "mob/living" "var/health", "/mob/living".toList), [.guessing true "/mob/living".toList]) := by decide +kernel

theorem correction : fixLink w1 "/mob/living/Life".toList =
    (some (lnk "mob/living" "proc/Life", "/mob/living".toList), [.correcting "/mob/living".toList .aProc "Life".toList]) := by
  decide +kernel

theorem without_docs : fixLink w1 "/mob/living/var/hidden".toList = (none, [.undocumented]) := by decide +kernel

theorem unknown_proc : fixLink w1 "/mob/proc/Fly".toList = (none, [.unknown]) := by decide +kernel

theorem builtin_var : fixLink w1 "/mob/var/ckey".toList =
    (some (.web (referenceBase ++ "/mob/var/key".toList), "/mob/var/ckey".toList), []) := by decide +kernel

/-- `member_linked` applies to a guess. -/
theorem guess_hypotheses :
    Plain w1 ("/mob/living/simple".toList ++ marker (kindWord .aVar) ++ "health".toList) ∧ Word .aVar (kindWord .aVar) ∧
      Unmarked "/mob/living/simple".toList ∧ '/' ∉ "health".toList ∧ "/mob/living/simple".toList ≠ [] ∧
      Absolute "/mob/living/simple".toList "/mob/living/simple".toList ∧
      Documents w1 (some (.aVar, "health".toList)) "/mob/living".toList := by
  refine ⟨⟨by decide +kernel, ?_⟩, rfl, unmarked_dec _ (by decide +kernel), by decide +kernel, by decide +kernel,
    ⟨['/'], "mob/living/simple".toList, rfl, by decide, by decide +kernel, rfl⟩, ?_⟩
  · intro ext he hx
    have := (endsWith_iff _ _).2 hx
    revert ext
    intro ext he _ this
    simp only [moduleExts, List.mem_cons, List.not_mem_nil, or_false] at he
    rcases he with rfl | rfl | rfl <;> revert this <;> decide +kernel
  · refine ⟨living, by simp [w1, tree], rfl, .inr ⟨.aVar, mem "health" true true "m.dm", List.mem_cons_self, rfl⟩, ?_⟩
    intro k n e
    cases e
    exact ⟨mem "health" true true "m.dm", List.mem_cons_self, rfl, rfl⟩

theorem guess_leads : Leads w1 "mob/living".toList (some "var/health".toList) := fix_leads w1_ordinary guessed

/-! ## Pages -/

theorem w1_pages : w1.site.map Page.name =
    ["index".toList, "code/life".toList, "code/notes".toList, "a".toList, "d".toList, "m".toList, "global".toList, "datum".toList,
      "mob/living".toList] := by decide +kernel

theorem living_arrow : lnk "datum" "proc/Destroy" ∈ w1.typeLinks living := by decide +kernel

theorem living_path : w1.linkifyStr "/mob/living/simple".toList =
    [.text ['/'], .link "mob/living".toList "mob/living".toList, .text "/simple".toList] := by decide +kernel

theorem list_path : w1.linkifyStr "/list/datum".toList =
    [.text "/list".toList, .text ['/'], .link "datum".toList "datum".toList, .text []] := by decide +kernel

/-! ## Where the code does not do what one would want -/

/-- A markdown file in the code has a page, but a reference to it is reported and not linked. -/
theorem markdown_not_linked :
    fixLink w1 "code/notes.md".toList = (none, [.noModule false]) ∧ Leads w1 "code/notes".toList none :=
  ⟨by decide +kernel, module_leads w1_ordinary (by decide +kernel)⟩

/-- The file `datum.dm` with a comment of its own and the type `/datum`: the page of the module is lost, and the link of its
macro leads to the page of the type, which has no such anchor. -/
private def w2 : World :=
  ⟨tree, [⟨"MAX".toList, true, "datum.dm".toList⟩], [], [], noExt, fun _ => true⟩

theorem page_lost : fixLink w2 "MAX".toList = (some (lnk "datum" "define/MAX", "MAX".toList), []) ∧
    ¬ Leads w2 "datum".toList (some "define/MAX".toList) := by
  refine ⟨by decide +kernel, ?_⟩
  rintro ⟨p, ⟨a, b, e, hb⟩, hn, ha⟩
  have hmem : p ∈ w2.site := by rw [e]; simp
  have hall : ∀ p ∈ w2.site, p.name = "datum".toList → p = w2.modulePage "datum".toList ∨ "define/MAX".toList ∉ p.anchors := by
    decide +kernel
  rcases hall p hmem hn with rfl | h
  · have hlast : datum.page ∈ w2.site := by decide +kernel
    have hpos : w2.site = w2.site.takeWhile (fun p => p ≠ w2.modulePage "datum".toList) ++ w2.modulePage "datum".toList ::
        (w2.site.dropWhile (fun p => p ≠ w2.modulePage "datum".toList)).drop 1 := by decide +kernel
    rw [e, List.mem_append, List.mem_cons] at hlast
    rcases hlast with h | h | h
    · have hall : ∀ q ∈ w2.site.dropWhile (fun p => p ≠ datum.page), q ≠ w2.modulePage "datum".toList := by decide +kernel
      obtain ⟨x, y, rfl⟩ := List.append_of_mem h
      have hsub : w2.modulePage "datum".toList ∈ w2.site.dropWhile (fun p => p ≠ datum.page) := by
        rw [e]
        have : ∀ (l r : List Page) (d m : Page), m ∈ r → m ∈ (l ++ d :: r).dropWhile (fun p => p ≠ d) := by
          intro l r d m hm
          induction l with
          | nil => simp [hm]
          | cons z l ih =>
            rw [List.cons_append, List.dropWhile_cons]
            split
            · exact ih
            · simp [hm]
        have h2 := this x (y ++ w2.modulePage "datum".toList :: b) datum.page (w2.modulePage "datum".toList) (by simp)
        simpa using h2
      exact hall _ hsub rfl
    · exact absurd h (by decide +kernel)
    · exact hb _ h (by decide +kernel)
  · exact h (ha _ rfl)

/-- With docs on the root (a documented `var/` block) the module page has a link to `global).html`. -/
private def w3 : World := ⟨[{ root with docs := some true }], [], [], [], noExt, fun _ => true⟩

theorem root_link_dead : Href.page "global)".toList none ∈ w3.moduleLinks "a".toList ∧ ∀ p ∈ w3.site, p.name ≠ "global)".toList := by
  decide +kernel

/-- 256 messages of a dry run are reported as success. -/
theorem dry_run_wraps : dryRunStatus (List.replicate 256 .unknown) = 0 := by decide +kernel

/-- The header of every page links to `index.html#modules`, which is not there when there is no module. -/
theorem no_modules_anchor : ¬ modulesWord ∈ (World.indexPage ⟨[mob], [], [], [], noExt, fun _ => true⟩).anchors := by decide +kernel

end Verif.Dmdoc
