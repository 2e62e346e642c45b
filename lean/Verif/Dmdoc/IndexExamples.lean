import Verif.Dmdoc.IndexProps

/-!
# C99 on examples
-/

namespace Verif.Dmdoc

private def ent (s : String) : Entry := ⟨s.toList, s.toList, lastElement s.toList, [], false⟩

private def types : List Entry := [ent "/datum", ent "/mob/living/carbon", ent "/mob/living/carbon/human", ent "/mob/living/silicon"]

theorem types_in_order : InOrder types := by
  unfold InOrder types
  simp only [List.pairwise_cons, List.mem_cons, List.not_mem_nil, or_false, forall_eq_or_imp, forall_eq, List.Pairwise.nil,
    false_imp_iff, implies_true, and_true]
  unfold Before ent
  refine ⟨⟨?_, ?_, ?_⟩, ⟨?_, ?_⟩, ?_⟩ <;>
    exact of_decide_eq_true (p := List.Lex (fun x y : Char => x.val < y.val) _ _) (by decide +kernel)

theorem types_shown :
    (shownAll (buildIndexTree types)).map Entry.full =
      ["/datum".toList, "/mob".toList, "/mob/living".toList, "/mob/living/carbon".toList, "/mob/living/carbon/human".toList,
        "/mob/living/silicon".toList] := by decide +kernel

theorem types_rows :
    (rowsAll (buildIndexTree types)).map (fun r => (r.lead, r.e.self)) =
      [([], "datum".toList), ("mob/".toList, "living".toList), ([], "carbon".toList), ([], "human".toList),
        ([], "silicon".toList)] := by decide +kernel

/-- Type paths, and what the global page is filed under, are clear. -/
theorem clear_of_plain {es : List Entry}
    (h : ∀ e ∈ es, (∀ c ∈ e.full, '/'.val ≤ c.val) ∨ e.full = ['(', 'g', 'l', 'o', 'b', 'a', 'l', ')']) : Clear es := by
  intro a ha b hb q hq c t e
  rcases h a ha with h1 | h1
  · exact h1 c (by rw [e]; simp)
  · exfalso
    rw [h1] at e
    obtain ⟨hq0, hw⟩ := hq
    cases q with
    | nil => exact hq0 rfl
    | cons d q =>
      simp only [List.cons_append, List.cons.injEq] at e
      obtain ⟨rfl, e⟩ := e
      rcases h b hb with h2 | h2
      · have : '(' ∈ b.full := by
          rcases hw with hw | ⟨t, hw⟩
          · rw [← hw]; simp
          · rw [hw]; simp
        exact absurd (h2 _ this) (by decide)
      · rw [h2] at hw
        rcases hw with hw | ⟨t', hw⟩
        · simp only [List.cons.injEq, true_and] at hw
          rw [hw] at e
          have := congrArg List.length e
          simp at this
        · have : '/' ∈ ['(', 'g', 'l', 'o', 'b', 'a', 'l', ')'] := by rw [hw]; simp
          simp at this

theorem types_clear : Clear (⟨[], ['(', 'g', 'l', 'o', 'b', 'a', 'l', ')'], [], [], false⟩ :: types) := by
  apply clear_of_plain
  intro e he
  rcases List.mem_cons.1 he with rfl | he
  · exact .inr rfl
  · left
    have : types.all (fun e => e.full.all fun c => decide ('/'.val ≤ c.val)) = true := by decide +kernel
    rw [List.all_eq_true] at this
    have h := this e he
    simpa using h

theorem types_once : ((shownAll (buildIndexTree types)).map Entry.full).Nodup :=
  index_once types_in_order fun a ha b hb => types_clear a (by simp [ha]) b (by simp [hb])

/-- With a character before the slash in a name a path may be shown twice, though the names are in order. -/
theorem shown_twice :
    (shownAll (buildIndexTree [ent "code/a", ent "code/a-b", ent "code/a/c"])).map Entry.full =
      ["code".toList, "code/a".toList, "code/a-b".toList, "code/a".toList, "code/a/c".toList] := by decide +kernel

/-- A name of a file in the root that stands for its directory. -/
theorem readme_shown : (shownAll (buildIndexTree [ent "", ent "code"])).map Entry.full = [[], "code".toList] := by
  decide +kernel

end Verif.Dmdoc
