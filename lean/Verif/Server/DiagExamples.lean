import Verif.Server.DiagQuiet

/-!
# C88: examples
-/

namespace Verif.Server

/-- An error in file 1 with a note in file 2, one in file 3, which has no document. -/
def twoErrors : List DMError :=
  [⟨⟨1, 10, 5⟩, .error, some "dreamchecker", "undefined var", some "undefined_var", [⟨⟨2, 1, 1⟩, "see here"⟩]⟩,
   ⟨⟨3, 1, 1⟩, .warning, none, "lost", none, [⟨⟨1, 7, 7⟩, "lost too"⟩]⟩,
   ⟨⟨1, 0, 0⟩, .hint, none, "whole file", none, []⟩]

/-- Documents. -/
def docOf : Nat → Option String
  | 1 => some "a.dm"
  | 2 => some "b.dm"
  | _ => none

/-- A client that knows related information. -/
example : build docOf true twoErrors =
    [("a.dm", [⟨"undefined var", .error, (⟨9, 4⟩, ⟨9, 4⟩), "dreamchecker", some "undefined_var",
        some [⟨"b.dm", (⟨0, 0⟩, ⟨0, 0⟩), "see here"⟩]⟩,
      ⟨"whole file", .hint, (⟨0, 0⟩, ⟨0, 0⟩), "dm-langserver", none, none⟩])] := by
  decide +kernel

/-- A client that does not. -/
example : build docOf false twoErrors =
    [("a.dm", [⟨"undefined var", .error, (⟨9, 4⟩, ⟨9, 4⟩), "dreamchecker", some "undefined_var", none⟩,
      ⟨"whole file", .hint, (⟨0, 0⟩, ⟨0, 0⟩), "dm-langserver", none, none⟩]),
     ("b.dm", [⟨"see here", .info, (⟨0, 0⟩, ⟨0, 0⟩), "dreamchecker", none, none⟩])] := by
  decide +kernel

/-- A finding. -/
def finding : Diagnostic String := ⟨"undefined var", .error, (⟨9, 4⟩, ⟨9, 4⟩), "dreamchecker", none, none⟩

/-- One run: the parser finds something in `b.dm`, the check only something in `a.dm`. -/
theorem one_run : ∃ s : System String, Reach s ∧ s.Quiet ∧
    s.checkers = [⟨0, [("a.dm", [finding])], .done⟩] ∧ s.runs = 1 ∧
    s.out = [⟨"b.dm", [finding]⟩, ⟨"a.dm", [finding]⟩, ⟨"b.dm", []⟩] := by
  have r := Reach.init (U := String)
  have r := r.step (.parse _ [("b.dm", [finding])] (some [("a.dm", [finding])]) rfl (by decide)
    (by rintro m ⟨⟩; decide))
  have r := r.step (.lock _ _ _ rfl rfl)
  have r := r.step (.spawn _ _ _ rfl)
  have r := r.step (.mainSend _ _ _ _ _ _ _ rfl (.publish _ _ _ _))
  have r := r.step (.mainSend _ _ _ _ _ _ _ rfl (.swap _ [] (List.Perm.refl _)))
  have r := r.step (.mainDone _ _ _ _ _ _ rfl .finish)
  have r := r.step (.checkLock _ 0 _ rfl rfl rfl)
  have r := r.step (.checkSend _ 0 _ _ _ _ _ rfl rfl (.publish _ _ _ _))
  have r := r.step (.checkSend _ 0 _ _ _ _ _ rfl rfl (.swap _ ["b.dm"] (List.Perm.refl _)))
  have r := r.step (.checkSend _ 0 _ _ _ _ _ rfl rfl (.erase _ _))
  have r := r.step (.checkDone _ 0 _ _ _ _ rfl rfl .finish)
  refine ⟨_, r, ⟨rfl, ?_⟩, rfl, rfl, rfl⟩
  intro c hc
  rw [List.mem_singleton.1 hc]

/-- The threads of earlier runs are not waited for: the first check finds something in `a.dm`, the user
repairs it and asks for a reparse; the second check finds nothing and is faster.  In the end the client
shows the old finding. -/
theorem stale_check : ∃ s : System String, Reach s ∧ s.Quiet ∧ s.runs = 2 ∧
    s.checkers = [⟨0, [("a.dm", [finding])], .done⟩, ⟨1, [], .done⟩] ∧
    shown s.out "a.dm" = [finding] := by
  have r := Reach.init (U := String)
  have r := r.step (.parse _ [] (some [("a.dm", [finding])]) rfl (by decide) (by rintro m ⟨⟩; decide))
  have r := r.step (.lock _ _ _ rfl rfl)
  have r := r.step (.spawn _ _ _ rfl)
  have r := r.step (.mainSend _ _ _ _ _ _ _ rfl (.swap _ [] (List.Perm.refl _)))
  have r := r.step (.mainDone _ _ _ _ _ _ rfl .finish)
  have r := r.step (.parse _ [] (some []) rfl (by decide) (by rintro m ⟨⟩; decide))
  have r := r.step (.lock _ _ _ rfl rfl)
  have r := r.step (.spawn _ _ _ rfl)
  have r := r.step (.mainSend _ _ _ _ _ _ _ rfl (.swap _ [] (List.Perm.refl _)))
  have r := r.step (.mainDone _ _ _ _ _ _ rfl .finish)
  have r := r.step (.checkLock _ 1 _ rfl rfl rfl)
  have r := r.step (.checkSend _ 1 _ _ _ _ _ rfl rfl (.swap _ [] (List.Perm.refl _)))
  have r := r.step (.checkDone _ 1 _ _ _ _ rfl rfl .finish)
  have r := r.step (.checkLock _ 0 _ rfl rfl rfl)
  have r := r.step (.checkSend _ 0 _ _ _ _ _ rfl rfl (.publish _ _ _ _))
  have r := r.step (.checkSend _ 0 _ _ _ _ _ rfl rfl (.swap _ [] (List.Perm.refl _)))
  have r := r.step (.checkDone _ 0 _ _ _ _ rfl rfl .finish)
  refine ⟨_, r, ⟨rfl, ?_⟩, rfl, rfl, ?_⟩
  · intro c hc
    rcases List.mem_cons.1 hc with rfl | hc
    · rfl
    · rw [List.mem_singleton.1 hc]
  · decide +kernel

end Verif.Server
