import Verif.Debug.SessionProps

/-!
# C94: examples and disagreements
-/

namespace Verif.Debug

/-- **C94** (disagreement): the comment at the top of `launched.rs` has `Terminated` sent when the game is
killed; it never is, neither then nor at the end. -/
theorem kill_not_terminated_disagrees : LifeReach
    ⟨[⟨.exited, .done 9⟩], none, [.disconnect 0 true, .signal 0, .ended 0 9, .exited 0 9]⟩ := by
  have h1 := LifeReach.step .start (.launch _)
  have h2 := LifeReach.step h1 (.disconnect _ 0 _ none rfl rfl rfl)
  have h3 := LifeReach.step h2 (.ends _ 0 _ 9 rfl rfl)
  have h4 := LifeReach.step h3 (.waited _ 0 _ 9 rfl rfl)
  have h5 := LifeReach.step h4 (.lock _ 0 _ 9 rfl rfl)
  have h6 := LifeReach.step h5 (.tell _ 0 _ 9 rfl rfl)
  have h7 := LifeReach.step h6 (.exit _ 0 _ 9 rfl rfl)
  exact h7

/-- **C94** (disagreement): a kill can come after `wait` has returned, when the number of the process may
belong to another one. -/
theorem signal_reaped_disagrees : ∃ w w', LifeReach w ∧ LifeStep w w' ∧
    w.children[0]? = some ⟨.active, .reaped 0⟩ ∧ w'.log = [.ended 0 0, .disconnect 0 true, .signal 0] := by
  have h1 := LifeReach.step .start (.launch _)
  have h2 := LifeReach.step h1 (.ends _ 0 _ 0 rfl rfl)
  have h3 := LifeReach.step h2 (.waited _ 0 _ 0 rfl rfl)
  exact ⟨_, _, h3, .disconnect _ 0 _ none rfl rfl rfl, rfl, rfl⟩

/-- **C94** (disagreement): a second launch forgets the first game: it is not killed, and the editor is told
that debugging is over when it ends, while the second game runs. -/
theorem relaunch_disagrees : LifeReach
    ⟨[⟨.exited, .told 0⟩, ⟨.active, .running⟩], some 1, [.ended 0 0, .terminated 0]⟩ := by
  have h1 := LifeReach.step .start (.launch _)
  have h2 := LifeReach.step h1 (.launch _)
  have h3 := LifeReach.step h2 (.ends _ 0 _ 0 rfl rfl)
  have h4 := LifeReach.step h3 (.waited _ 0 _ 0 rfl rfl)
  have h5 := LifeReach.step h4 (.lock _ 0 _ 0 rfl rfl)
  have h6 := LifeReach.step h5 (.tell _ 0 _ 0 rfl rfl)
  exact h6

/-- a disconnect after the end does nothing -/
example : LifeReach ⟨[⟨.exited, .done 3⟩], none,
    [.ended 0 3, .terminated 0, .exited 0 3, .disconnect 0 false]⟩ := by
  have h1 := LifeReach.step .start (.launch _)
  have h2 := LifeReach.step h1 (.ends _ 0 _ 3 rfl rfl)
  have h3 := LifeReach.step h2 (.waited _ 0 _ 3 rfl rfl)
  have h4 := LifeReach.step h3 (.lock _ 0 _ 3 rfl rfl)
  have h5 := LifeReach.step h4 (.tell _ 0 _ 3 rfl rfl)
  have h6 := LifeReach.step h5 (.exit _ 0 _ 3 rfl rfl)
  have h7 := LifeReach.step h6 (.disconnect _ 0 _ (some false) rfl rfl rfl)
  exact h7

example : Complete 0 9 (Life.story ⟨[⟨.exited, .done 9⟩], none,
    [.disconnect 0 true, .signal 0, .ended 0 9, .exited 0 9]⟩ 0) :=
  (life_story kill_not_terminated_disagrees rfl).1 9 rfl

/-- handlers that count and know `next`, which fails every other time, and `evaluate`, which fails -/
def exHandlers : Handlers Nat Nat Unit Nat :=
  ⟨fun c => c = ['n', 'e', 'x', 't'] ∨ c = cEvaluate,
   fun n c _ => (n + 1, [n], if c = cEvaluate ∨ n % 2 = 1 then .error ['e'] else .ok n)⟩

example : (dapSession exHandlers ⟨0, 0, []⟩ [.request 5 ['n', 'e', 'x', 't'] (), .request 6 ['n', 'e', 'x', 't'] (),
      .request 7 cEvaluate (), .request 8 ['x'] ()]).map (fun a => a.out.map (·.1)) =
    some [0, 1, 2, 4, 3, 5, 6, 8, 7] := by decide +kernel

end Verif.Debug
