import Verif.Debug.DbProps

/-!
# C92: examples and disagreements
-/

namespace Verif.Debug

/-- `/mob` has `Life`, builtin and defined in file 1 line 10 and again in file 1 line 30, and `Bump` in
file 1 line 20; the root has `main` in file 2 line 1; `/icon` has the `stddef.dm` proc `Turn`, overridden in
file 2 line 5 -/
def exTree : Tree := ⟨[
  ⟨[], [(['m', 'a', 'i', 'n'], [⟨2, 1⟩])]⟩,
  ⟨['/', 'm', 'o', 'b'], [(['L', 'i', 'f', 'e'], [⟨0, 1⟩, ⟨1, 10⟩, ⟨1, 30⟩]), (['B', 'u', 'm', 'p'], [⟨1, 20⟩])]⟩,
  ⟨['/', 'i', 'c', 'o', 'n'], [(['T', 'u', 'r', 'n'], [⟨0, 1⟩, ⟨2, 5⟩])]⟩]⟩

theorem exTree_wf : exTree.WF where
  paths := by decide +kernel
  names := by decide +kernel
  noSlash := by decide +kernel
  rooted := by
    intro ty ht
    simp only [exTree, List.mem_cons, List.not_mem_nil, or_false] at ht
    rcases ht with rfl | rfl | rfl
    · exact .inl rfl
    · exact .inr ⟨_, rfl⟩
    · exact .inr ⟨_, rfl⟩
  noKind := by
    intro ty ht w hw q h
    have h' : (splitSlash ty.path).getLast? = some w := by
      have hw' : '/' ∉ w := by
        simp only [kindWords, List.mem_cons, List.not_mem_nil, or_false] at hw
        rcases hw with rfl | rfl <;> decide
      rw [h, splitSlash_append _ _ hw']; simp
    have : ∀ ty ∈ exTree.types, ∀ w ∈ kindWords, (splitSlash ty.path).getLast? ≠ some w := by
      decide +kernel
    exact this ty ht w hw h'

example : exTree.locationToProcRef 1 9 = none := by decide +kernel
example : exTree.locationToProcRef 1 25 =
    some (['/', 'm', 'o', 'b'], ['B', 'u', 'm', 'p'], 0) := by decide +kernel
example : exTree.locationToProcRef 1 99 =
    some (['/', 'm', 'o', 'b'], ['L', 'i', 'f', 'e'], 1) := by decide +kernel
example : exTree.getProc (['/', 'm', 'o', 'b'] ++ '/' :: ['L', 'i', 'f', 'e']) 1 = some ⟨1, 30⟩ := by
  decide +kernel
example : exTree.locationToProcRef 2 7 =
    some (['/', 'i', 'c', 'o', 'n'], ['T', 'u', 'r', 'n'], 1) := by decide +kernel
example : exTree.locationToProcRef 2 2 = some ([], ['m', 'a', 'i', 'n'], 0) := by decide +kernel

/-- byte code of `Life`: lines 31 and 32 -/
def exCode : List Instr :=
  [⟨0, ['D', 'B', 'G', ' ', 'F', 'I', 'L', 'E'], []⟩, ⟨2, dbgLineno, linePrefix ++ ['3', '1']⟩,
   ⟨4, ['P', 'U', 'S', 'H'], []⟩, ⟨6, dbgLineno, linePrefix ++ ['3', '2']⟩, ⟨8, ['R', 'E', 'T'], []⟩]

example : Ordered exCode := by unfold Ordered; decide +kernel
example : lineToOffset exCode 32 = some 6 := by decide +kernel
example : offsetToLine exCode 4 = some 31 := by decide +kernel
example : offsetToLine exCode 8 = some 32 := by decide +kernel
example : lineToOffset exCode 33 = none := by decide +kernel
example : offsetToLine exCode 0 = none := by decide +kernel
example : parseLineno (linePrefix ++ ['-', '4', '2']) = some (-42) := by decide +kernel
example : parseLineno (linePrefix ++ ['+']) = none := by decide +kernel
example : parseLineno ['3', '1'] = none := by decide +kernel

/-- the whole way for the breakpoint on line 32 of file 1 -/
example : (⟨[['r']], [[['a', '.', 'd', 'm']], [['b', '.', 'd', 'm']]], exTree⟩ : Db).frame none exCode
    ⟨['/', 'm', 'o', 'b'] ++ '/' :: ['L', 'i', 'f', 'e'], 1, 6⟩ =
      (.file [['r'], ['a', '.', 'd', 'm']], 32) := by
  have h := (frame_at_breakpoint (db := ⟨[['r']], [[['a', '.', 'd', 'm']], [['b', '.', 'd', 'm']]], exTree⟩)
    exTree_wf (by unfold Db.Files; decide +kernel) (stddef := none) (bc := exCode)
    (by unfold Ordered; decide +kernel) (f := 1) (line := 32) (k := 1) (p := [['a', '.', 'd', 'm']])
    (path := ['/', 'm', 'o', 'b']) (name := ['L', 'i', 'f', 'e']) (off := 6)
    rfl (by decide +kernel) (by decide +kernel)).1
  exact h

/-- **C92** (disagreement): written with the word `proc`, as DM writes it, a proc of `stddef.dm` gets
different numbers: without the word number 0 is the definition of `stddef.dm`, with it the override. -/
theorem getProc_kind_word_disagrees :
    exTree.getProc ['/', 'i', 'c', 'o', 'n', '/', 'T', 'u', 'r', 'n'] 0 = some ⟨0, 1⟩ ∧
    exTree.getProc ['/', 'i', 'c', 'o', 'n', '/', 'p', 'r', 'o', 'c', '/', 'T', 'u', 'r', 'n'] 0 =
      some ⟨2, 5⟩ := by decide +kernel

end Verif.Debug
