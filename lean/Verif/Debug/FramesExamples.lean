import Verif.Debug.VarsProps

/-!
# C93: examples and disagreements
-/

namespace Verif.Debug

/-- a number -/
def exNum : Val := ⟨none, false, false, ['5']⟩
/-- a list -/
def exListVal : Val := ⟨some 0x0F000007, false, true, ['l']⟩
/-- an object -/
def exObj : Val := ⟨some 0x03000002, true, false, ['o']⟩

/-- a frame with the locals `x`, `y`, `x`, one without a name, and the arguments `src`, `a`, and one more -/
def exFrame : Frame := ⟨['/', 'm', '/', 'f'], 0, 12, exObj, exNum, exNum,
  [exNum, exListVal, exObj, exNum], [exNum, exObj, exListVal], [['x'], ['y'], ['x']], [nSrc, ['a']]⟩

/-- another frame -/
def exFrame2 : Frame := { exFrame with proc := ['/', 'g'], locals := [], args := [] }

/-- two threads -/
def exThreads : Threads := callStack [exFrame2, exFrame] [[exFrame2], [exFrame, exFrame2]]

example : (stackTrace exThreads 2) = .ok [
    ⟨['/', 'm', '/', 'f'], 2, ['/', 'm', '/', 'f', '@', '0', '#', '1', '2']⟩,
    ⟨['/', 'g'], 5, ['/', 'g', '@', '0', '#', '1', '2']⟩] := by decide +kernel

example : ∃ locals args, GivenScopes exThreads 3 locals args 0x0e000001 ∧
    variables exThreads ⟨fun _ => none, fun _ => none⟩ locals = .ok (localVars exFrame) ∧
    variables exThreads ⟨fun _ => none, fun _ => none⟩ args = .ok (argVars exFrame) :=
  frame_scopes (t := 0) (i := 1) _ ⟨_, rfl, rfl⟩ (givenId_iff.2 ⟨⟨_, _, rfl, rfl⟩, rfl⟩) (by decide)

example : (localVars exFrame).map (·.name) =
    [['.'], ['x'], ['y'], ['x', ' ', '#', '1'], ['3']] := by decide +kernel
example : (argVars exFrame).map (·.name) =
    [nSrc, nUsr, ['s', 'r', 'c', ' ', '#', '1'], ['a'], ['a', 'r', 'g', 's', '[', '3', ']']] := by decide +kernel
example : (localVars exFrame).map (·.ref) = [0, 0, 0x0F000007, 0x03000002, 0] := by decide +kernel

example : ((localVars exFrame).map (·.name)).Nodup := by
  refine localVars_distinct fun n hn => ?_
  simp only [exFrame, List.mem_cons, List.not_mem_nil, or_false] at hn
  rcases hn with rfl | rfl | rfl <;>
    exact ⟨by intro c hc; simp at hc; subst hc; decide, by decide, by decide, by decide, by decide⟩

example : threadsRequest exThreads =
    .ok [(0, ['/', 'm', '/', 'f']), (1, ['/', 'g']), (2, ['/', 'g'])] := by decide +kernel

example : ∃ c, variables exThreads ⟨fun _ => some (.assoc [(exNum, exObj)]), fun _ => none⟩ 0x0F000007 = .ok c ∧
    c.map (·.name) = [['k', 'e', 'y', 's', '[', '1', ']'], ['v', 'a', 'l', 's', '[', '1', ']']] :=
  ⟨_, rfl, by decide +kernel⟩

example : sortFields [(['b'], exNum), (['a'], exObj), (['a', 'b'], exNum)] =
    [(['a'], exObj), (['a', 'b'], exNum), (['b'], exNum)] := by decide +kernel

example : (disassemble Char.isDigit (fun _ _ => [⟨0, ['X'], []⟩, ⟨17, ['Y'], ['c']⟩]) ['/', 'f', '#', '0', '@', '3']) =
    .ok [(['/', 'f', '#', '0', '@', '0'], ['X', ' ', ' ']),
      (['/', 'f', '#', '0', '@', '1', '7'], ['Y', ' ', ' ', 'c'])] := by decide +kernel

example : disassemble Char.isDigit (fun _ _ => [⟨0, ['X'], []⟩]) (pointerOf exFrame) = .error :=
  pointer_disagrees _ _ _ (by decide)

/-- **C93** (disagreement): names of the game that look like the suffixes collide (auxtools shows keys of
lists as names). -/
theorem aux_suffix_disagrees : ¬ ((auxLabels (fun _ => none)
    [(['x'], [], 0), (['x'], [], 0), (['x', ' ', '#', '1'], [], 0)]).map (·.name)).Nodup := by decide +kernel

/-- **C93** (disagreement): the reference 0 of a value without children is the reference of the locals of
frame 0. -/
theorem zero_reference_disagrees : variables exThreads ⟨fun _ => none, fun _ => none⟩ exNum.reference =
    .ok (localVars exFrame2) := by decide +kernel

end Verif.Debug
