import Verif.Debug.AuxProps
import Verif.Debug.DbExamples

/-!
# C91: examples and disagreements
-/

namespace Verif.Debug

/-- the environment of the examples -/
def exDb : Db := ⟨[['r']], [[['a', '.', 'd', 'm']], [['b', '.', 'd', 'm']]], exTree⟩

/-- the byte code of `/mob/Life` number 1, other procs have none -/
def exCodes : Text → Nat → List Instr := fun p k =>
  if p = ['/', 'm', 'o', 'b', '/', 'L', 'i', 'f', 'e'] ∧ k = 1 then exCode else []

theorem exCodes_start : NoLineAtStart (exOff exCodes) := by
  intro p k line h
  unfold exOff exCodes at h
  split at h
  · have : ∀ i ∈ exCode, i.mnemonic = dbgLineno → i.offset ≠ 0 := by decide +kernel
    obtain ⟨before, i, after, hb, hbg, ho, -⟩ := (lineToOffset_iff ..).1 h
    exact this i (by rw [hb]; simp) hbg.1 ho
  · simp [lineToOffset] at h

/-- file `a.dm` of the environment -/
def pathA : Path := [['r'], ['a', '.', 'd', 'm']]

/-- line 32, then 31 and a line without code, then a function, then a malformed one -/
def exHist : List Req := [
  .funcs [(['/', 'm', 'o', 'b', '/', 'B', 'u', 'm', 'p'], none), (['x', '#', 'y'], none)],
  .funcs [(['/', 'm', 'o', 'b', '/', 'L', 'i', 'f', 'e', '#', '1'], none)],
  .lines (some pathA) false [(31, none), (33, none)],
  .lines (some pathA) false [(32, none)]]

/-- the game has line 31 (offset 2) and both functions, line 32 is gone -/
example : (exSession exDb exCodes exHist).2 =
    [⟨['/', 'm', 'o', 'b', '/', 'B', 'u', 'm', 'p'], 0, 0⟩,
     ⟨['/', 'm', 'o', 'b', '/', 'L', 'i', 'f', 'e'], 1, 0⟩,
     ⟨['/', 'm', 'o', 'b', '/', 'L', 'i', 'f', 'e'], 1, 2⟩] := by decide +kernel

example (b : Bp) : b ∈ (exSession exDb exCodes exHist).2 ↔
    ∃ f, b ∈ places (wishes exDb (exOff exCodes) (exKnown exDb) exHist f) :=
  exSession_exact exTree_wf (by decide) exCodes_start exHist b

example : (exRequest exDb exCodes true (fun _ => []) (.lines (some pathA) false [(31, none), (33, none), (5, none)])).2.2 =
    some [⟨none, some 31⟩, ⟨some .noOffset, some 33⟩, ⟨some .noProc, some 5⟩] := by decide +kernel

example : parseFunction ['a', '#', '1', '2'] = some (['a'], 12) := by decide +kernel
example : parseFunction ['a', '#'] = none := by decide +kernel

/-- auxtools: everything is accepted, no call lost -/
def exEnv : AuxEnv := ⟨fun _ _ line => some (line + 1), fun b => some (some b.ov), fun _ => false⟩

/-- two conditions for the same line: the later one stands -/
def auxHist : List Req := [
  .lines (some pathA) false [(31, some ['c']), (31, some ['d'])],
  .lines (some pathA) false [(31, some ['e']), (11, none)]]

example : (auxSession exDb exEnv auxHist).2.bps =
    [(⟨['/', 'm', 'o', 'b', '/', 'L', 'i', 'f', 'e'], 1, 32⟩, some ['d'])] ∧
    (auxSession exDb exEnv auxHist).2.down = false := by decide +kernel

theorem exEnv_start : NoLineAtStart (auxOff exEnv) := by
  intro p k line h
  have h' : some (((line + 1 : Nat) : Int)) = some (0 : Int) := h
  rw [Option.some.injEq] at h'
  omega

example : (⟨['/', 'm', 'o', 'b', '/', 'L', 'i', 'f', 'e'], 1, 32⟩, some ['d']) ∈
      (auxSession exDb exEnv auxHist).2.bps ↔
    (exEnv.accepts ⟨['/', 'm', 'o', 'b', '/', 'L', 'i', 'f', 'e'], 1, 32⟩).isSome ∧
      ∃ f, LastWish (wishes exDb (auxOff exEnv) auxKnown auxHist f)
        ⟨['/', 'm', 'o', 'b', '/', 'L', 'i', 'f', 'e'], 1, 32⟩ (some ['d']) :=
  auxSession_exact exTree_wf (by decide) exEnv_start auxHist (by decide +kernel) _ _

/-- with the third call lost the link is down and the request an error -/
example : (auxRequest exDb { exEnv with lost := fun n => n == 2 } (fun _ => []) ⟨[], 0, false⟩
    (.lines (some pathA) false [(31, none), (11, none)])).2.2 = none := by decide +kernel

/-! ## Disagreements -/

/-- byte code whose first instruction begins line 21 -/
def startCodes : Text → Nat → List Instr := fun p k =>
  if p = ['/', 'm', 'o', 'b', '/', 'B', 'u', 'm', 'p'] ∧ k = 0 then
    [⟨0, dbgLineno, linePrefix ++ ['2', '1']⟩] else []

/-- **C91** (disagreement): where a line begins at offset 0, a function breakpoint and a line breakpoint
share a place; removing the function breakpoint takes the line breakpoint out of the game, although the
editor was told that it is verified and still wishes it. -/
theorem exSession_shared_place_disagrees :
    (exSession exDb startCodes
      [.funcs [], .funcs [(['/', 'm', 'o', 'b', '/', 'B', 'u', 'm', 'p'], none)],
       .lines (some pathA) false [(21, none)]]).2 = [] ∧
    places (wishes exDb (exOff startCodes) (exKnown exDb)
      [.funcs [], .funcs [(['/', 'm', 'o', 'b', '/', 'B', 'u', 'm', 'p'], none)],
       .lines (some pathA) false [(21, none)]] 1) =
      [⟨['/', 'm', 'o', 'b', '/', 'B', 'u', 'm', 'p'], 0, 0⟩] := by decide +kernel

/-- **C91** (disagreement): the saved breakpoints outlive the game.  If the adapter connects to a second
game, a breakpoint that the first one had is answered as verified but not sent. -/
theorem exRequest_second_game_disagrees :
    let saved := (exSession exDb exCodes [.lines (some pathA) false [(32, none)]]).1
    (exRequest exDb exCodes true saved (.lines (some pathA) false [(32, none)])).2 =
      ([], some [⟨none, some 32⟩]) := by decide +kernel

end Verif.Debug
