import Verif.Server.OutlineProps

/-!
# C90: the main theorems, examples
-/

namespace Verif.Server

/-- The order of the outline: what starts first; of two that start together the one that ends last; of two
with the same extent a block of declarations. -/
def InOrder (a b : Item) : Prop :=
  ¬ b.start.Lt a.start ∧ (a.start = b.start → ¬ a.stop.Lt b.stop ∧
    (a.stop = b.stop → (∃ p, b.ann = .treeBlock p) → ∃ p, a.ann = .treeBlock p))

theorem Place.tri (a b : Place) : a.Lt b ∨ a = b ∨ b.Lt a := by
  have : a.Lt b ∨ (a.file = b.file ∧ a.line = b.line ∧ a.column = b.column) ∨ b.Lt a := by
    unfold Place.Lt
    omega
  rcases this with h | ⟨h1, h2, h3⟩ | h
  · exact .inl h
  · obtain ⟨af, al, ac⟩ := a
    obtain ⟨bf, bl, bc⟩ := b
    simp only at h1 h2 h3
    subst h1 h2 h3
    exact .inr (.inl rfl)
  · exact .inr (.inr h)

theorem Place.irrefl (a : Place) : ¬ a.Lt a := by unfold Place.Lt; omega

theorem Place.asymm {a b : Place} (h : a.Lt b) : ¬ b.Lt a := by unfold Place.Lt at *; omega

theorem Place.trans {a b c : Place} (h : a.Lt b) (h' : b.Lt c) : a.Lt c := by unfold Place.Lt at *; omega

theorem keyLe_iff (a b : Item) : keyLe a b = true ↔
    a.start.Lt b.start ∨ (a.start = b.start ∧ (b.stop.Lt a.stop ∨ (a.stop = b.stop ∧ rankOf a ≤ rankOf b))) := by
  simp [keyLe]

theorem keyLe_trans (a b c : Item) (h1 : keyLe a b = true) (h2 : keyLe b c = true) : keyLe a c = true := by
  rw [keyLe_iff] at *
  rcases h1 with h1 | ⟨e1, h1⟩
  · rcases h2 with h2 | ⟨e2, h2⟩
    · exact .inl (Place.trans h1 h2)
    · exact .inl (e2 ▸ h1)
  · rcases h2 with h2 | ⟨e2, h2⟩
    · exact .inl (e1 ▸ h2)
    · refine .inr ⟨e1.trans e2, ?_⟩
      rcases h1 with h1 | ⟨f1, h1⟩
      · rcases h2 with h2 | ⟨f2, h2⟩
        · exact .inl (Place.trans h2 h1)
        · exact .inl (f2 ▸ h1)
      · rcases h2 with h2 | ⟨f2, h2⟩
        · exact .inl (f1 ▸ h2)
        · exact .inr ⟨f1.trans f2, Nat.le_trans h1 h2⟩

theorem keyLe_total (a b : Item) : (keyLe a b || keyLe b a) = true := by
  rw [Bool.or_eq_true, keyLe_iff, keyLe_iff]
  rcases Place.tri a.start b.start with h | h | h
  · exact .inl (.inl h)
  · rcases Place.tri a.stop b.stop with g | g | g
    · exact .inr (.inr ⟨h.symm, .inl g⟩)
    · rcases Nat.le_total (rankOf a) (rankOf b) with k | k
      · exact .inl (.inr ⟨h, .inr ⟨g, k⟩⟩)
      · exact .inr (.inr ⟨h.symm, .inr ⟨g.symm, k⟩⟩)
    · exact .inl (.inr ⟨h, .inl g⟩)
  · exact .inr (.inl h)

theorem keyLe_inOrder {a b : Item} (h : keyLe a b = true) : InOrder a b := by
  rw [keyLe_iff] at h
  refine ⟨?_, ?_⟩
  · rcases h with h | ⟨h, -⟩
    · exact Place.asymm h
    · rw [h]; exact Place.irrefl _
  · intro hs
    rcases h with h | ⟨-, h⟩
    · rw [hs] at h; exact absurd h (Place.irrefl _)
    rcases h with h | ⟨h, h'⟩
    · exact ⟨Place.asymm h, fun he => by rw [he] at h; exact absurd h (Place.irrefl _)⟩
    · refine ⟨by rw [h]; exact Place.irrefl _, ?_⟩
      rintro - ⟨p, hp⟩
      have hb : rankOf b = 0 := by simp only [rankOf, hp]
      rw [hb] at h'
      unfold rankOf at h'
      split at h'
      · rename_i q hq
        exact ⟨q, hq⟩
      · exact absurd h' (by decide)

/-- **C90**: the outline lists, in the order of the document and from outside to inside, exactly the symbols
of the annotations, each within the last block or body before it that is not over where it starts. -/
theorem documentSymbols_rows (fileEnd : Place) (annotations : List Item) (hne : annotations ≠ [])
    (hend : ∀ x ∈ annotations, x.start.Lt fileEnd)
    (hv : ∀ x ∈ annotations, ∀ p, x.ann = .variable p → p ≠ []) :
    ∃ syms sorted, documentSymbols fileEnd annotations = some (some syms) ∧
      sorted.Perm annotations ∧ sorted.Pairwise InOrder ∧ Sym.rowsAll none syms = rowsOf [] sorted := by
  have hperm : (annotations.mergeSort keyLe).Perm annotations := List.mergeSort_perm _ _
  have hsort : (annotations.mergeSort keyLe).Pairwise (fun a b => keyLe a b = true) :=
    List.pairwise_mergeSort keyLe_trans keyLe_total _
  obtain ⟨syms, used, rest, h1, h2, h3, -, h5⟩ := findSymbols_rows (annotations.mergeSort keyLe).length
    (annotations.mergeSort keyLe) [] none fileEnd (Nat.le_refl _)
    (hsort.imp (fun h => (keyLe_inOrder h).1)) (fun _ _ _ => rfl)
    (fun x hx => hv x (hperm.mem_iff.1 hx))
  have hrest : rest = [] := by
    cases rest with
    | nil => rfl
    | cons y rest =>
      have hy : y ∈ annotations.mergeSort keyLe := by rw [h2]; simp
      exact absurd (hend y (hperm.mem_iff.1 hy)) (h3 y List.mem_cons_self)
  rw [hrest, List.append_nil] at h2
  refine ⟨syms, annotations.mergeSort keyLe, ?_, hperm, hsort.imp keyLe_inOrder, ?_⟩
  · unfold documentSymbols
    rw [if_neg hne]
    simp only []
    rw [show (0 : Nat) = skipOf none from rfl, h1]
    rfl
  · rw [h5, ← h2]

theorem headerOf_isSome (p q : Option Item) (x : Item) :
    (headerOf p x).isSome = (headerOf q x).isSome := by
  unfold headerOf
  cases x.ann <;> simp

theorem rowsOf_items (l before : List Item) :
    (rowsOf before l).map (fun r => r.2.1) = l.filter (fun x => (headerOf none x).isSome) := by
  induction l generalizing before with
  | nil => rfl
  | cons x l ih =>
    rw [rowsOf, List.map_append, ih]
    have := headerOf_isSome (parentOf before x) none x
    cases h : headerOf (parentOf before x) x with
    | none =>
      rw [h] at this
      rw [List.filter_cons_of_neg (by rw [← this]; simp)]
      rfl
    | some hd =>
      rw [h] at this
      rw [List.filter_cons_of_pos (by rw [← this]; rfl)]
      rfl

/-- **C90**: nothing is missing from the outline and nothing is in it twice. -/
theorem documentSymbols_once (fileEnd : Place) (annotations : List Item) (hne : annotations ≠ [])
    (hend : ∀ x ∈ annotations, x.start.Lt fileEnd)
    (hv : ∀ x ∈ annotations, ∀ p, x.ann = .variable p → p ≠ []) :
    ∃ syms, documentSymbols fileEnd annotations = some (some syms) ∧
      ((Sym.rowsAll none syms).map (fun r => r.2.1)).Perm
        (annotations.filter (fun x => (headerOf none x).isSome)) := by
  obtain ⟨syms, sorted, h1, h2, -, h4⟩ := documentSymbols_rows fileEnd annotations hne hend hv
  refine ⟨syms, h1, ?_⟩
  rw [h4, rowsOf_items]
  exact h2.filter _

/-- **C90**: the parent of a symbol is a block or body that starts before it and is not over; of all of these
it is the one that starts last. -/
theorem parentOf_innermost (before : List Item) (x c : Item) (hs : (before ++ [x]).Pairwise InOrder)
    (h : parentOf before x = some c) :
    c ∈ before ∧ c.Holds ∧ ¬ x.start.Lt c.start ∧ x.start.Lt c.stop ∧
      ∀ d ∈ before, d.Holds → x.start.Lt d.stop → ¬ c.start.Lt d.start := by
  unfold parentOf at h
  obtain ⟨ys, hys⟩ := List.getLast?_eq_some_iff.1 h
  have hc : c ∈ before.filter (fun c => decide (c.Holds ∧ x.start.Lt c.stop)) := by
    rw [hys]; simp
  rw [List.mem_filter, decide_eq_true_eq] at hc
  rw [List.pairwise_append] at hs
  refine ⟨hc.1, hc.2.1, (hs.2.2 c hc.1 x List.mem_cons_self).1, hc.2.2, ?_⟩
  intro d hd hh hx
  have hd' : d ∈ before.filter (fun c => decide (c.Holds ∧ x.start.Lt c.stop)) := by
    rw [List.mem_filter, decide_eq_true_eq]
    exact ⟨hd, hh, hx⟩
  have hp := hs.1.filter (fun c => decide (c.Holds ∧ x.start.Lt c.stop))
  rw [hys] at hd' hp
  rcases List.mem_append.1 hd' with hd' | hd'
  · exact ((List.pairwise_append.1 hp).2.2 d hd' c List.mem_cons_self).1
  · rw [List.mem_singleton.1 hd']
    exact Place.irrefl _

/-- **C90**: a symbol without a parent is in no block or body. -/
theorem parentOf_none (before : List Item) (x : Item) (h : parentOf before x = none) :
    ∀ d ∈ before, d.Holds → ¬ x.start.Lt d.stop := by
  intro d hd hh hx
  unfold parentOf at h
  rw [List.getLast?_eq_none_iff, List.filter_eq_nil_iff] at h
  exact h d hd (by simp [hh, hx])

/-! ### An example

```
/obj/item
    var/mob/owner
    proc/Use(x)
        var/y
#define LIMIT 5
```
-/

/-- The annotations. -/
def outlineDoc : List Item :=
  [⟨⟨1, 1, 1⟩, ⟨1, 4, 14⟩, .treeBlock ["obj", "item"]⟩,
   ⟨⟨1, 2, 5⟩, ⟨1, 2, 18⟩, .variable ["obj", "item", "var", "mob", "owner"]⟩,
   ⟨⟨1, 3, 5⟩, ⟨1, 4, 14⟩, .procBody ["obj", "item", "proc", "Use"]⟩,
   ⟨⟨1, 4, 9⟩, ⟨1, 4, 14⟩, .localVar "y"⟩,
   ⟨⟨1, 4, 9⟩, ⟨1, 4, 13⟩, .other⟩,
   ⟨⟨1, 5, 1⟩, ⟨1, 5, 16⟩, .macroDef "LIMIT"⟩]

/-- The end of the file. -/
def outlineEnd : Place := ⟨1, 4294967295, 65535⟩

/-- The hypotheses of `documentSymbols_rows`, `documentSymbols_once`. -/
example : outlineDoc ≠ [] ∧ (∀ x ∈ outlineDoc, x.start.Lt outlineEnd) ∧
    (∀ x ∈ outlineDoc, ∀ p, x.ann = .variable p → p ≠ []) := by
  refine ⟨by decide, by decide, ?_⟩
  intro x hx p hp
  simp only [outlineDoc, List.mem_cons, List.not_mem_nil, or_false] at hx
  rcases hx with rfl | rfl | rfl | rfl | rfl | rfl <;> cases hp
  decide

/-- The names, with those of the parents. -/
def names (rs : List (Option Item × Item × Header)) : List (Option Ann × String × Option String × SymKind) :=
  rs.map (fun r => (r.1.map Item.ann, r.2.2.name, r.2.2.detail, r.2.2.kind))

theorem outlineDoc_sorted : outlineDoc.mergeSort keyLe = outlineDoc :=
  List.mergeSort_of_pairwise (by decide +kernel)

/-- What the outline is. -/
example : (documentSymbols outlineEnd outlineDoc).map (Option.map (fun s => names (Sym.rowsAll none s))) =
    some (some [(none, "item", some "obj", .cls),
      (some (.treeBlock ["obj", "item"]), "owner", some "mob", .field),
      (some (.treeBlock ["obj", "item"]), "Use", none, .method),
      (some (.procBody ["obj", "item", "proc", "Use"]), "y", none, .variable),
      (none, "LIMIT", none, .constant)]) := by
  unfold documentSymbols
  rw [if_neg (by decide)]
  simp only [outlineDoc_sorted]
  rfl

/-- The hypotheses of `parentOf_innermost`. -/
example : parentOf (outlineDoc.take 3) ⟨⟨1, 4, 9⟩, ⟨1, 4, 14⟩, .localVar "y"⟩ =
    some ⟨⟨1, 3, 5⟩, ⟨1, 4, 14⟩, .procBody ["obj", "item", "proc", "Use"]⟩ := by decide +kernel

/-- A variable without a path would end the server; the parser makes none. -/
theorem empty_variable_panics :
    documentSymbols outlineEnd [⟨⟨1, 2, 5⟩, ⟨1, 2, 18⟩, .variable []⟩] = none := by
  unfold documentSymbols
  rw [if_neg (by decide)]
  rw [List.mergeSort_singleton]
  rfl

end Verif.Server
