import Verif.Debug.LinkProps

/-!
# C95: disagreements and examples
-/

namespace Verif.Debug


/-- two calls of the same kind to extools, the first of which timed out before its answer came -/
theorem ex_late : ∃ l, LinkReach exEngine .connected l ∧ l.results = [(0, .failed), (1, .answer 0)] := by
  have h0 : LinkReach exEngine .connected (Link.start .connected) := .start
  have h1 := LinkReach.step h0 (.call _ 3 rfl)
  have h2 := LinkReach.step h1 (.timeout _ 0 3 rfl rfl rfl)
  have h3 := LinkReach.step h2 (.serve _ 0 [] rfl)
  have h4 := LinkReach.step h3 (.deliver _ 0 3 [] rfl rfl)
  have h5 := LinkReach.step h4 (.call _ 3 rfl)
  have h6 := LinkReach.step h5 (.receive _ 1 3 0 [] rfl rfl rfl)
  exact ⟨_, h6, rfl⟩

/-- **C95**, disagreement: that every call ends with its own answer or without one.  With extools the answer
to a call that was given up stays in the queue and becomes the answer to the next call of the kind. -/
theorem ex_stale_disagrees :
    ¬ ∀ l, LinkReach exEngine .connected l → ∀ n m, (n, Ending.answer m) ∈ l.results → m = n := by
  intro h
  obtain ⟨l, hl, hr⟩ := ex_late
  exact absurd (h l hl 1 0 (by rw [hr]; simp)) (by decide)

/-- a call to auxtools that gives up while its answer is on the way: the next call is sent nowhere, and gets
that answer -/
theorem aux_late : ∃ l, LinkReach auxEngine .connected l ∧ l.conn = .disconnected ∧ l.toGame = [] ∧
    l.results = [(0, .failed), (1, .answer 0)] := by
  have h0 : LinkReach auxEngine .connected (Link.start .connected) := .start
  have h1 := LinkReach.step h0 (.call _ 3 rfl)
  have h2 := LinkReach.step h1 (.serve _ 0 [] rfl)
  have h3 := LinkReach.step h2 (.timeout _ 0 3 rfl rfl rfl)
  have h4 := LinkReach.step h3 (.deliver _ 0 3 [] rfl rfl)
  have h5 := LinkReach.step h4 (.call _ 3 rfl)
  have h6 := LinkReach.step h5 (.receive _ 1 3 0 [] rfl rfl rfl)
  exact ⟨_, h6, rfl, rfl, rfl⟩

/-- **C95**, disagreement: that a call on a connection that is over fails.  With auxtools an answer that came
after its call had been given up answers a call that was never sent. -/
theorem aux_stale_disagrees :
    ¬ ∀ l, LinkReach auxEngine .connected l → ∀ n m, (n, Ending.answer m) ∈ l.results → m = n := by
  intro h
  obtain ⟨l, hl, -, -, hr⟩ := aux_late
  exact absurd (h l hl 1 0 (by rw [hr]; simp)) (by decide)

/-- with auxtools, the stale answer may be of the wrong kind -/
theorem aux_unexpected : ∃ l, LinkReach auxEngine .connected l ∧
    l.results = [(0, .failed), (1, .unexpected 0)] := by
  have h0 : LinkReach auxEngine .connected (Link.start .connected) := .start
  have h1 := LinkReach.step h0 (.call _ 3 rfl)
  have h2 := LinkReach.step h1 (.serve _ 0 [] rfl)
  have h3 := LinkReach.step h2 (.timeout _ 0 3 rfl rfl rfl)
  have h4 := LinkReach.step h3 (.deliver _ 0 3 [] rfl rfl)
  have h5 := LinkReach.step h4 (.call _ 4 rfl)
  have h6 := LinkReach.step h5 (.receive _ 1 4 0 [] rfl rfl rfl)
  exact ⟨_, h6, rfl⟩

/-- **C95**, disagreement: that a call made before the game connects waits for it.  Nothing is sent, which
counts as success; the call times out, and the connection is over for good, so no later call reaches the game
either. -/
theorem early_call_disagrees :
    ∃ l, LinkReach auxEngine (.waiting false) l ∧ l.kinds = [0] ∧ l.toGame = [] ∧ l.results = [(0, .failed)] ∧
      l.conn = .disconnected ∧ ∀ l', LinkStep auxEngine l l' → l'.conn = .disconnected ∧ l'.toGame = [] := by
  have h0 : LinkReach auxEngine (.waiting false) (Link.start (.waiting false)) := .start
  have h1 := LinkReach.step h0 (.call _ 0 rfl)
  have h2 := LinkReach.step h1 (.accept _ rfl)
  have h3 := LinkReach.step h2 (.timeout _ 0 0 rfl rfl rfl)
  refine ⟨_, h3, rfl, rfl, rfl, rfl, fun l' hs => ?_⟩
  obtain ⟨h, served, ht⟩ := down_silent rfl hs
  refine ⟨h, ?_⟩
  have h' : ([] : List Sent) = served ++ l'.toGame := ht
  exact (List.append_eq_nil_iff.1 h'.symm).2

/-! ## The hypotheses are met -/

/-- two calls, an event and a message without an answer in between: each has its own answer -/
example : ∃ l, LinkReach auxEngine (.waiting false) l ∧ Clean l ∧
    l.results = [(0, .answer 0), (1, .answer 1)] := by
  have h0 : LinkReach auxEngine (.waiting false) (Link.start (.waiting false)) := .start
  have h1 := LinkReach.step h0 (.accept _ rfl)
  have h2 := LinkReach.step h1 (.call _ 0 rfl)
  have h3 := LinkReach.step h2 (.event _)
  have h4 := LinkReach.step h3 (.serve _ 0 [] rfl)
  have h5 := LinkReach.step h4 (.deliverEvent _ [.resp 0] rfl)
  have h6 := LinkReach.step h5 (.deliver _ 0 0 [] rfl rfl)
  have h7 := LinkReach.step h6 (.receive _ 0 0 0 [] rfl rfl rfl)
  have h8 := LinkReach.step h7 (.cast _ rfl)
  have h9 := LinkReach.step h8 (.call _ 5 rfl)
  have h10 := LinkReach.step h9 (.serveCast _ [.call 1] rfl)
  have h11 := LinkReach.step h10 (.serve _ 1 [] rfl)
  have h12 := LinkReach.step h11 (.deliver _ 1 5 [] rfl rfl)
  have h13 := LinkReach.step h12 (.receive _ 1 5 1 [] rfl rfl rfl)
  exact ⟨_, h13, by simp [Clean, Link.start, Link.send, Link.ending, push], rfl⟩

/-- a call that is on the way -/
example : ∃ l, LinkReach exEngine .connected l ∧ Clean l ∧ l.waiting = some 0 ∧ callsOf l.toGame = [0] := by
  have h0 : LinkReach exEngine .connected (Link.start .connected) := .start
  have h1 := LinkReach.step h0 (.cast _ rfl)
  have h2 := LinkReach.step h1 (.call _ 3 rfl)
  exact ⟨_, h2, by simp [Clean, Link.start, Link.send], rfl, rfl⟩

/-- three messages cut in odd places -/
example : (readLoop [] [[1, 2], [3, 0, 4], [0], [0, 9, 9]]).1 = [[1, 2, 3], [4], []] := by decide +kernel

example : readLoop [] [[1, 2], [3, 0, 4], [0], [0, 9, 9]] = ([[1, 2, 3], [4], []], [9, 9]) := by
  decide +kernel

/-- two messages after their lengths, cut in odd places, and an incomplete one -/
example : auxRun (fun _ => .response) 5 [[2, 0], [0, 0, 7], [8, 1, 0, 0, 0, 9, 5, 0], [0]] =
    [([7, 8], .response), ([9], .response)] := by
  refine auxRun_messages _ [[7, 8], [9]] [5, 0, 0] ?_ (.inl (by decide)) 5 (by decide) _ (by decide +kernel)
  intro m hm
  rcases List.mem_cons.1 hm with rfl | hm
  · decide
  · rcases List.mem_cons.1 hm with rfl | hm
    · decide
    · cases hm

end Verif.Debug
