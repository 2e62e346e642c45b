import Verif.Dmdoc.ModuleSpec
import Verif.Docs.Props

/-!
# C102: what is on the page of a module
-/

namespace Verif.Dmdoc

open Verif.Docs

/-! ## Empty comments in front do not matter -/

theorem linesGo_append (a b cur : List Char) : linesGo cur (a ++ '\n' :: b) = linesGo cur (a ++ ['\n']) ++ linesGo [] b := by
  induction a generalizing cur with
  | nil => simp [linesGo]
  | cons c a ih =>
    simp only [List.cons_append, linesGo]
    split
    · rw [ih, List.cons_append]
    · exact ih _

theorem linesGo_all {P : Char → Prop} (t cur : List Char) (ht : ∀ c ∈ t, P c) (hc : ∀ c ∈ cur, P c) :
    ∀ l ∈ linesGo cur t, ∀ c ∈ l, P c := by
  induction t generalizing cur with
  | nil =>
    intro l hl
    unfold linesGo at hl
    split at hl
    · cases hl
    · rw [List.mem_singleton] at hl; subst hl; exact hc
  | cons d t ih =>
    intro l hl
    unfold linesGo at hl
    split at hl
    · rcases List.mem_cons.1 hl with rfl | h
      · intro c hcm
        unfold stripCr at hcm
        split at hcm
        · exact hc c (List.dropLast_subset _ hcm)
        · exact hc c hcm
      · exact ih [] (fun c hc' => ht c (List.mem_cons_of_mem _ hc')) nofun l h
    · refine ih _ (fun c hc' => ht c (List.mem_cons_of_mem _ hc')) ?_ l hl
      intro c hcm
      rcases List.mem_append.1 hcm with h | h
      · exact hc c h
      · rw [List.mem_singleton] at h; subst h; exact ht _ List.mem_cons_self

theorem affixes_skip (ws : Char → Bool) (ic : Char) (es ls : List (List Char)) (acc : Option (List Char) × Option (List Char))
    (h : ∀ l ∈ es, Docs.isEmpty ws l ic = true) : affixes ws ic (es ++ ls) acc = affixes ws ic ls acc := by
  induction es with
  | nil => rfl
  | cons e es ih =>
    rw [List.cons_append]
    unfold affixes
    rw [if_pos (h e List.mem_cons_self)]
    rw [ih fun l hl => h l (List.mem_cons_of_mem _ hl)]
    cases ls <;> rfl

theorem strip_skip (ws : Char → Bool) (ic : Char) (pl sl : Nat) (es ls : List (List Char)) (any : Bool) (out : List Char)
    (h : ∀ l ∈ es, Docs.isEmpty ws l ic = true) : strip ws ic pl sl (es ++ ls) 0 any out = strip ws ic pl sl ls 0 any out := by
  induction es with
  | nil => rfl
  | cons e es ih =>
    rw [List.cons_append]
    conv => lhs; unfold strip
    rw [if_pos (h e List.mem_cons_self)]
    exact ih fun l hl => h l (List.mem_cons_of_mem _ hl)

theorem flush_skip (ws : Char → Bool) (out t lc : List Char)
    (hl : ∀ l ∈ lines (t ++ ['\n']), Docs.isEmpty ws l '/' = true) : flush ws out (t ++ '\n' :: lc) = flush ws out lc := by
  have hlines : lines (t ++ '\n' :: lc) = lines (t ++ ['\n']) ++ lines lc := linesGo_append t lc []
  unfold flush
  rw [if_neg (by simp)]
  unfold simplify
  rw [if_neg (by simp)]
  simp only [hlines]
  rw [affixes_skip ws '/' _ _ _ hl, strip_skip ws '/' _ _ _ _ _ _ hl]
  split
  · next h => subst h; rfl
  · rfl

theorem linesGo_noNl (t cur : List Char) (hc : ∀ c ∈ cur, c ≠ '\n') : ∀ l ∈ linesGo cur t, ∀ c ∈ l, c ≠ '\n' := by
  induction t generalizing cur with
  | nil =>
    intro l hl
    unfold linesGo at hl
    split at hl
    · cases hl
    · rw [List.mem_singleton] at hl; subst hl; exact hc
  | cons d t ih =>
    intro l hl
    unfold linesGo at hl
    split at hl
    · rcases List.mem_cons.1 hl with rfl | h
      · intro c hcm
        unfold stripCr at hcm
        split at hcm
        · exact hc c (List.dropLast_subset _ hcm)
        · exact hc c hcm
      · exact ih [] nofun l h
    · next hd =>
      refine ih _ ?_ l hl
      intro c hcm
      rcases List.mem_append.1 hcm with h | h
      · exact hc c h
      · rw [List.mem_singleton] at h; subst h; exact hd

theorem textGo_skip (ws : Char → Bool) (t : List Char) (ht : ∀ c ∈ t, ign ws '/' c = true) (cs : List Comment) (out lc : List Char) :
    textGo ws cs out (t ++ '\n' :: lc) = textGo ws cs out lc := by
  have hn : ∀ c ∈ t ++ ['\n'], c = '\n' ∨ ign ws '/' c = true := by
    intro c hc
    rcases List.mem_append.1 hc with h | h
    · exact .inr (ht c h)
    · exact .inl (by simpa using h)
  have hl : ∀ l ∈ lines (t ++ ['\n']), Docs.isEmpty ws l '/' = true := by
    intro l hl
    have h1 := linesGo_all (P := fun c => c = '\n' ∨ ign ws '/' c = true) _ [] hn nofun l hl
    have h2 := linesGo_noNl _ [] nofun l hl
    unfold Docs.isEmpty
    rw [List.all_eq_true]
    intro c hc
    exact (h1 c hc).resolve_left (h2 c hc)
  induction cs generalizing out lc with
  | nil => exact flush_skip ws out t lc hl
  | cons c cs ih =>
    unfold textGo
    split
    · rw [flush_skip ws out t lc hl]
    · have := ih out (lc ++ c.text ++ ['\n'])
      simpa using this

theorem text_skip (ws : Char → Bool) (e cs : List Comment) (h : ∀ c ∈ e, c.isEmpty ws = true) : text ws (e ++ cs) = text ws cs := by
  induction e with
  | nil => rfl
  | cons c e ih =>
    rw [← ih fun c hc => h c (List.mem_cons_of_mem _ hc), List.cons_append]
    have hc := h c List.mem_cons_self
    unfold text
    conv => lhs; unfold textGo
    cases hk : c.kind with
    | block =>
      have : (flush ws [] []).bind (fun o => pushBlock ws o c) = some [] := by
        unfold flush pushBlock
        simp [hc]
      simp only [this]
    | line =>
      have ht : ∀ d ∈ c.text, ign ws '/' d = true := by
        unfold Comment.isEmpty Docs.isEmpty at hc
        rw [List.all_eq_true, hk] at hc
        exact hc
      have := textGo_skip ws c.text ht (e ++ cs) [] []
      simpa using this

/-! ## The loop -/

theorem blank_empty (ws : Char → Bool) : blank.isEmpty ws = true := rfl

theorem spaced_snoc {r : List (Nat × Comment)} {cs : List Comment} (h : Spaced r cs) {last n : Nat} {c : Comment}
    (hl : r.getLast?.map Prod.fst = some last) :
    Spaced (r ++ [(n, c)]) (cs ++ (if n > last + 1 then [blank] else []) ++ [c]) := by
  induction h with
  | nil => cases hl
  | one m d =>
    have hm : m = last := by simpa using hl
    subst hm
    split
    · next h => exact .far h (.one n c)
    · next h => exact .near (by omega) (.one n c)
  | near h1 _ ih =>
    have := ih (by simpa [List.getLast?_cons_cons] using hl)
    exact .near h1 this
  | far h1 _ ih =>
    have := ih (by simpa [List.getLast?_cons_cons] using hl)
    exact .far h1 this

theorem spaced_empty {ws : Char → Bool} {r : List (Nat × Comment)} {cs : List Comment} (h : Spaced r cs) :
    collectionEmpty ws cs = true ↔ ∀ e ∈ r, e.2.isEmpty ws = true := by
  unfold collectionEmpty
  induction h with
  | nil => simp
  | one => simp
  | near _ _ ih => rw [List.all_cons, Bool.and_eq_true, ih]; simp
  | far _ _ ih =>
    rw [List.all_cons, List.all_cons, Bool.and_eq_true, Bool.and_eq_true, ih]
    have : Comment.isEmpty ws ⟨.line, []⟩ = true := rfl
    simp [this]

theorem pushDocs_shown {α : Type} {ws : Char → Bool} {e cs : List Comment} {run : List (Nat × Comment)}
    (he : ∀ c ∈ e, c.isEmpty ws = true) (hs : Spaced run cs) (first : Bool) :
    RunShown (α := α) ws first run (pushDocs ws (e ++ cs) first).2.2 ∧
      (pushDocs (α := α) ws (e ++ cs) first).2.1 = (first && (pushDocs (α := α) ws (e ++ cs) first).2.2.isEmpty) ∧
      ∀ c ∈ (pushDocs (α := α) ws (e ++ cs) first).1, c.isEmpty ws = true := by
  have hall : collectionEmpty ws (e ++ cs) = collectionEmpty ws cs := by
    unfold collectionEmpty
    rw [List.all_append, List.all_eq_true.2 he, Bool.true_and]
  unfold pushDocs
  rw [hall]
  cases h : collectionEmpty ws cs with
  | true =>
    rw [if_pos rfl]
    refine ⟨.inl ⟨(spaced_empty hs).1 h, rfl⟩, by simp, ?_⟩
    intro c hc
    rcases List.mem_append.1 hc with hc | hc
    · exact he c hc
    · exact List.all_eq_true.1 h c hc
  | false =>
    rw [if_neg (by simp)]
    refine ⟨.inr ⟨?_, cs, hs, by rw [text_skip ws e cs he]⟩, by simp, nofun⟩
    apply Classical.byContradiction
    intro hno
    have : collectionEmpty ws cs = true := (spaced_empty hs).2 fun x hx => by
      cases hx' : x.2.isEmpty ws with
      | true => rfl
      | false => exact absurd ⟨x, hx, hx'⟩ hno
    rw [this] at h
    cases h

theorem loop_laid {α : Type} (ws : Char → Bool) (l : List (Nat × Wip α)) (e cs : List Comment) (run : List (Nat × Comment))
    (first : Bool) (last : Nat) (he : ∀ c ∈ e, c.isEmpty ws = true) (hs : Spaced run cs)
    (hl : run ≠ [] → run.getLast?.map Prod.fst = some last) :
    Laid ws first (asComments run ++ l) (finalizeLoop ws l (e ++ cs) first last) := by
  induction l generalizing e cs run first last with
  | nil =>
    rw [List.append_nil]
    exact .last (pushDocs_shown he hs first).1
  | cons x l ih =>
    obtain ⟨line, w⟩ := x
    cases w with
    | item x =>
      unfold finalizeLoop
      obtain ⟨h1, h2, h3⟩ := pushDocs_shown (α := α) he hs first
      refine .item h1 ?_
      rw [h2]
      have := ih (pushDocs (α := α) ws (e ++ cs) first).1 [] [] (first && (pushDocs (α := α) ws (e ++ cs) first).2.2.isEmpty) last h3
        .nil (fun h => absurd rfl h)
      rw [List.append_nil] at this
      exact this
    | comment c =>
      unfold finalizeLoop
      have hrun : asComments run ++ (line, Wip.comment c) :: l = asComments (run ++ [(line, c)]) ++ l := by
        simp [asComments]
      rw [hrun]
      cases hr : run with
      | nil =>
        subst hr
        cases hs
        have := ih (e ++ if line > last + 1 then [blank] else []) [c] [(line, c)] first line
          (by
            intro d hd
            rcases List.mem_append.1 hd with hd | hd
            · exact he d hd
            · split at hd
              · rw [List.mem_singleton] at hd; subst hd; exact blank_empty ws
              · cases hd)
          (.one line c) (fun _ => rfl)
        have heq : (if line > last + 1 then (e ++ []) ++ [blank] else e ++ []) ++ [c] =
            (e ++ if line > last + 1 then [blank] else []) ++ [c] := by split <;> simp
        rw [heq]
        exact this
      | cons y ys =>
        rw [← hr]
        have hne : run ≠ [] := by rw [hr]; simp
        have := ih e (cs ++ (if line > last + 1 then [blank] else []) ++ [c]) (run ++ [(line, c)]) first line he
          (spaced_snoc hs (hl hne)) (fun _ => by simp)
        have heq : (if line > last + 1 then (e ++ cs) ++ [blank] else e ++ cs) ++ [c] =
            e ++ (cs ++ (if line > last + 1 then [blank] else []) ++ [c]) := by split <;> simp
        rw [heq]
        exact this

/-- **C102** The page of a module shows the comments and items in the order of their lines, those of the same line as they were
collected; the comments between two items are one text, in which those that are not on neighbouring lines are apart; the first
text has the title. -/
theorem module_laid {α : Type} (ws : Char → Bool) (wip : List (Nat × Wip α)) :
    ∃ l, l.Perm wip ∧ l.Pairwise (fun a b => a.1 ≤ b.1) ∧
      (∀ n, l.filter (fun e => decide (e.1 = n)) = wip.filter (fun e => decide (e.1 = n))) ∧ Laid ws true l (finalize ws wip) := by
  refine ⟨wip.mergeSort fun a b => decide (a.1 ≤ b.1), List.mergeSort_perm _ _, ?_, ?_, ?_⟩
  · have := List.pairwise_mergeSort (le := fun a b : Nat × Wip α => decide (a.1 ≤ b.1))
      (fun a b c h1 h2 => by simp only [decide_eq_true_eq] at *; omega) (fun a b => by simp; omega) wip
    exact this.imp fun h => by simpa using h
  · intro n
    have hsub : (wip.filter (fun e => decide (e.1 = n))).Sublist (wip.mergeSort fun a b => decide (a.1 ≤ b.1)) := by
      refine List.sublist_mergeSort (fun a b c h1 h2 => by simp only [decide_eq_true_eq] at *; omega) (fun a b => by simp; omega) ?_
        List.filter_sublist
      rw [List.pairwise_iff_forall_sublist]
      intro a b hab
      have ha := (List.mem_filter.1 (hab.subset (List.mem_cons_self))).2
      have hb := (List.mem_filter.1 (hab.subset (List.mem_cons_of_mem _ List.mem_cons_self))).2
      simp only [decide_eq_true_eq] at *
      omega
    have h1 := hsub.filter (fun e => decide (e.1 = n))
    rw [List.filter_filter] at h1
    simp only [Bool.and_self] at h1
    have hlen := ((List.mergeSort_perm wip fun a b => decide (a.1 ≤ b.1)).filter (fun e => decide (e.1 = n))).length_eq
    exact (h1.eq_of_length hlen.symm).symm
  · exact loop_laid ws _ [] [] [] true 0 nofun .nil (fun h => absurd rfl h)

def Shown.item? {α : Type} : Shown α → Option α
  | .item x => some x
  | .docs .. => none

def Wip.item? {α : Type} : Wip α → Option α
  | .item x => some x
  | .comment _ => none

theorem laid_items {α : Type} {ws : Char → Bool} {first : Bool} {l : List (Nat × Wip α)} {out : List (Shown α)}
    (h : Laid ws first l out) : out.filterMap Shown.item? = l.filterMap fun e => e.2.item? := by
  have hrun : ∀ run, (asComments (α := α) run).filterMap (fun e => e.2.item?) = [] := by
    intro run
    rw [List.filterMap_eq_nil_iff]
    intro e he
    obtain ⟨x, _, rfl⟩ := List.mem_map.1 he
    rfl
  have hp : ∀ {first : Bool} {run : List (Nat × Comment)} {p : List (Shown α)}, RunShown ws first run p →
      p.filterMap Shown.item? = [] := by
    rintro first run p (⟨_, rfl⟩ | ⟨_, cs, _, rfl⟩) <;> rfl
  induction h with
  | last hr => rw [hp hr, hrun]
  | item hr _ ih =>
    rw [List.filterMap_append, List.filterMap_append, hp hr, hrun]
    simp [Shown.item?, Wip.item?, ih]

/-- **C102** Everything documented in a module is shown on its page once. -/
theorem module_items {α : Type} (ws : Char → Bool) (wip : List (Nat × Wip α)) :
    ((finalize ws wip).filterMap Shown.item?).Perm (wip.filterMap fun e => e.2.item?) := by
  obtain ⟨l, hp, _, _, hl⟩ := module_laid ws wip
  rw [laid_items hl]
  exact hp.filterMap _

/-- A character that is text: not ignored in comments of either kind. -/
def content (ws : Char → Bool) (c : Char) : Bool := !ws c && c != '*' && c != '/'

def Shown.chars {α : Type} : Shown α → List Char
  | .item _ => []
  | .docs _ t => t.getD []

def Wip.chars {α : Type} : Wip α → List Char
  | .item _ => []
  | .comment c => c.text

theorem spaced_text {r : List (Nat × Comment)} {cs : List Comment} (h : Spaced r cs) :
    cs.flatMap (·.text) = r.flatMap fun e => e.2.text := by
  induction h with
  | nil => rfl
  | one => rfl
  | near _ _ ih => rw [List.flatMap_cons, List.flatMap_cons, ih]
  | far _ _ ih => rw [List.flatMap_cons, List.flatMap_cons, List.flatMap_cons, ih]; rfl

theorem runShown_text {α : Type} {ws : Char → Bool} (hn : ws '\n' = true) (hr : ws '\r' = true) {first : Bool}
    {run : List (Nat × Comment)} {p : List (Shown α)} (h : RunShown ws first run p) :
    (∀ b, Shown.docs b none ∉ p) ∧ (p.flatMap Shown.chars).filter (content ws) = (run.flatMap fun e => e.2.text).filter (content ws) := by
  rcases h with ⟨hall, rfl⟩ | ⟨_, cs, hs, rfl⟩
  · refine ⟨nofun, ?_⟩
    have : (run.flatMap fun e => e.2.text).filter (content ws) = [] := by
      rw [List.filter_eq_nil_iff]
      intro c hc
      obtain ⟨e, he, hc⟩ := List.mem_flatMap.1 hc
      have h1 := hall e he
      unfold Comment.isEmpty Docs.isEmpty at h1
      have h2 := List.all_eq_true.1 h1 c hc
      unfold ign at h2
      unfold content
      cases hk : e.2.kind <;> rw [hk] at h2 <;> simp [Kind.ignoreChar] at h2 ⊢ <;> intro h3 <;> simp [h3] at h2 <;> simp [h2]
    rw [this]
    rfl
  · obtain ⟨o, h1, h2⟩ := text_content ws hn hr cs
    rw [h1]
    refine ⟨by simp, ?_⟩
    rw [← spaced_text hs]
    rw [List.flatMap_cons, List.flatMap_nil, List.append_nil]
    exact h2

theorem laid_text {α : Type} {ws : Char → Bool} (hn : ws '\n' = true) (hr : ws '\r' = true) {first : Bool}
    {l : List (Nat × Wip α)} {out : List (Shown α)} (h : Laid ws first l out) :
    (∀ b, Shown.docs b none ∉ out) ∧
      (out.flatMap Shown.chars).filter (content ws) = (l.flatMap fun e => e.2.chars).filter (content ws) := by
  have hrun : ∀ run, (asComments (α := α) run).flatMap (fun e => e.2.chars) = run.flatMap fun e => e.2.text := by
    intro run
    unfold asComments
    rw [List.flatMap_map]
    rfl
  induction h with
  | last h =>
    rw [hrun]
    exact runShown_text hn hr h
  | item h _ ih =>
    obtain ⟨h1, h2⟩ := runShown_text hn hr h
    refine ⟨?_, ?_⟩
    · intro b hb
      rcases List.mem_append.1 hb with hb | hb
      · exact h1 b hb
      · rcases List.mem_cons.1 hb with hb | hb
        · cases hb
        · exact ih.1 b hb
    · rw [List.flatMap_append, List.flatMap_append, List.filter_append, List.filter_append, hrun, h2, List.flatMap_cons,
        List.flatMap_cons, List.filter_append, List.filter_append, ih.2]
      rfl

/-- **C102** Nothing that is said in the comments of a module is lost, and making the page does not panic: but for white space,
`*` and `/` the texts of the page are those of the comments in the order of their lines. -/
theorem module_text {α : Type} (ws : Char → Bool) (hn : ws '\n' = true) (hr : ws '\r' = true) (wip : List (Nat × Wip α)) :
    (∀ b, Shown.docs b none ∉ finalize ws wip) ∧
      ∃ l : List (Nat × Wip α), l.Perm wip ∧ l.Pairwise (fun a b => a.1 ≤ b.1) ∧
        (∀ n, l.filter (fun e => decide (e.1 = n)) = wip.filter (fun e => decide (e.1 = n))) ∧
        ((finalize ws wip).flatMap Shown.chars).filter (content ws) = (l.flatMap fun e => e.2.chars).filter (content ws) := by
  obtain ⟨l, h1, h2, h3, hl⟩ := module_laid ws wip
  obtain ⟨h4, h5⟩ := laid_text hn hr hl
  exact ⟨h4, l, h1, h2, h3, h5⟩

/-- **C102** At most one text of a page is parsed for a title, and that is the first. -/
theorem module_title {α : Type} (ws : Char → Bool) (wip : List (Nat × Wip α)) {b : Bool} {t : Option (List Char)}
    {before after : List (Shown α)} (h : finalize ws wip = before ++ .docs b t :: after) :
    b = true ↔ ∀ x ∈ before, ∃ y, x = .item y := by
  obtain ⟨l, _, _, _, hl⟩ := module_laid ws wip
  rw [h] at hl
  have key : ∀ {first : Bool} {l : List (Nat × Wip α)} {out : List (Shown α)}, Laid ws first l out →
      ∀ (before after : List (Shown α)) (b : Bool) (t : Option (List Char)), out = before ++ .docs b t :: after →
        (b = true ↔ first = true ∧ ∀ x ∈ before, ∃ y, x = .item y) := by
    intro first l out hl
    have hone : ∀ {first : Bool} {run : List (Nat × Comment)} {p : List (Shown α)}, RunShown ws first run p →
        ∀ (before after : List (Shown α)) (b : Bool) (t : Option (List Char)), p = before ++ .docs b t :: after →
          before = [] ∧ after = [] ∧ b = first := by
      rintro first run p (⟨_, rfl⟩ | ⟨_, cs, _, rfl⟩) before after b t e
      · cases before <;> cases e
      · cases before with
        | nil => cases e; exact ⟨rfl, rfl, rfl⟩
        | cons x before => cases before <;> cases e
    induction hl with
    | last hr =>
      intro before after b t e
      obtain ⟨rfl, rfl, rfl⟩ := hone hr before after b t e
      simp
    | @item first run p out n x rest hr _ ih =>
      intro before after b t e
      rcases List.append_eq_append_iff.1 e with ⟨m, h1, h2⟩ | ⟨m, h1, h2⟩
      · cases m with
        | nil => cases h2
        | cons y m =>
          rw [List.cons_append] at h2
          cases h2
          rw [ih m after b t rfl, h1]
          rcases hr with ⟨_, rfl⟩ | ⟨_, cs, _, rfl⟩
          · simp
          · simp
      · cases m with
        | nil => cases h2
        | cons y m =>
          rw [List.cons_append] at h2
          injection h2 with h3 h4
          subst h3
          obtain ⟨rfl, rfl, rfl⟩ := hone hr before m b t h1
          simp
  have := key hl before after b t rfl
  simpa using this

end Verif.Dmdoc
