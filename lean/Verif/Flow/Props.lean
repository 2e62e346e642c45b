import Verif.Flow.Messages

/-!
# The control-flow messages of dreamchecker

C61: code that is reported as unreachable is not reached by any run.
C62: which messages there are, and which are not missed.
-/

namespace Verif.Flow

/-- **C61.**  In a proc without `goto` whose do-while loops and ranges are ones the checker
understands, no run comes to any of the code that a message says is not reached. -/
theorem reported_code_is_not_reached (b : Block) (hg : b.noGoto = true) (hn : b.locs.Nodup)
    (hc : b.Careful) (r : Report) (hr : r ∈ check b) (x : Loc) (hx : x ∈ r.region) :
    ¬ Reaches b x := by
  have _ := hg
  rintro ⟨t, o, h, ht⟩
  exact run_sound h 0 true Ctl.allfalse hc hn rfl r hr x hx ht

/-- **C61.**  In particular, no run comes to the place of a message that says "unreachable":
a statement after one that does not let anything pass, an arm or an `else` after a condition that
is always true. -/
theorem unreachable_place_is_not_reached (b : Block) (hg : b.noGoto = true)
    (hn : b.locs.Nodup) (hc : b.Careful) (r : Report) (hr : r ∈ check b)
    (hk : r.kind = .after ∨ r.kind = .deadArm ∨ r.kind = .deadElse) : ¬ Reaches b r.loc := by
  refine reported_code_is_not_reached b hg hn hc r hr r.loc ?_
  obtain ⟨n, y, _, hy⟩ := origin_block 0 (by decide) r true b _ hr
  rcases y with ⟨l, s⟩ | b' | a | a
  · have := hy.2
    rcases hk with hk | hk | hk <;> rw [hk] at this <;> cases this
  · rcases b' with _ | ⟨_, _, _⟩
    · cases hy
    · rw [hy.2.1, hy.1]
      exact List.mem_cons_self ..
  · rcases a with _ | _ | ⟨_, _, _, _⟩
    · cases hy
    · cases hy
    · rcases hy.2 with ⟨_, h'⟩ | ⟨_, h', _⟩
      · rw [h', hy.1]
        exact List.mem_cons_self ..
      · rcases hk with hk | hk | hk <;> rw [hk] at h' <;> cases h'
  · cases hy

/-- **C61.**  A do-while loop reported as ending before its condition: no run comes to the
condition. -/
theorem reported_doWhile_condition_is_not_reached (b : Block) (hg : b.noGoto = true)
    (hn : b.locs.Nodup) (hc : b.Careful) (r : Report) (hr : r ∈ check b)
    (hk : r.kind = .doWhile) : ∃ n body cond, Sub (.block b) n (.stmt r.loc (.doWhile body cond)) ∧
      ¬ Reaches b cond := by
  have key := reported_code_is_not_reached b hg hn hc r hr
  obtain ⟨n, y, hs, hy⟩ := origin_block 0 (by decide) r true b _ hr
  rcases y with ⟨l, s⟩ | b' | a | a
  · have h2 := hy.2
    rw [hk] at h2
    obtain ⟨body, cond, rfl, hreg⟩ := h2
    refine ⟨n, body, cond, by rw [hy.1]; exact hs, key cond (by rw [hreg]; exact List.mem_singleton.2 rfl)⟩
  · rcases b' with _ | ⟨_, _, _⟩
    · cases hy
    · rcases hy.2.2 with h' | h' <;> rw [hk] at h' <;> cases h'
  · rcases a with _ | _ | ⟨_, _, _, _⟩
    · cases hy
    · cases hy
    · rcases hy.2 with ⟨h', _⟩ | ⟨_, h', _⟩ <;> rw [hk] at h' <;> cases h'
  · cases hy

/-- **C61.**  A loop over a range reported as never running: no run comes to any place in its
body. -/
theorem reported_range_body_is_not_reached (b : Block) (hg : b.noGoto = true)
    (hn : b.locs.Nodup) (hc : b.Careful) (r : Report) (hr : r ∈ check b)
    (hk : r.kind = .emptyRange) : ∃ n i o step body,
      Sub (.block b) n (.stmt r.loc (.range i o step body)) ∧
      ∀ x ∈ body.locs, ¬ Reaches b x := by
  have key := reported_code_is_not_reached b hg hn hc r hr
  obtain ⟨n, y, hs, hy⟩ := origin_block 0 (by decide) r true b _ hr
  rcases y with ⟨l, s⟩ | b' | a | a
  · have h2 := hy.2
    rw [hk] at h2
    obtain ⟨i, o, step, body, rfl, hreg, _⟩ := h2
    exact ⟨n, i, o, step, body, by rw [hy.1]; exact hs, fun x hx => key x (by rw [hreg]; exact hx)⟩
  · rcases b' with _ | ⟨_, _, _⟩
    · cases hy
    · rcases hy.2.2 with h' | h' <;> rw [hk] at h' <;> cases h'
  · rcases a with _ | _ | ⟨_, _, _, _⟩
    · cases hy
    · cases hy
    · rcases hy.2 with ⟨h', _⟩ | ⟨_, h', _⟩ <;> rw [hk] at h' <;> cases h'
  · cases hy

/-- **C62.**  A value returned from a `spawn` is reported, and nothing else is reported as
one: every report is a `return` with a value in at least one `spawn`. -/
theorem spawn_return_only (b : Block) (r : Report) (hr : r ∈ check b)
    (hk : r.kind = .spawnReturn) :
    ∃ n s, Sub (.block b) n (.stmt r.loc s) ∧ s.ReturnsValue ∧ 0 < n := by
  obtain ⟨n, y, hs, hy⟩ := origin_block 0 (by decide) r true b _ hr
  rcases y with ⟨l, s⟩ | b' | a | a
  · have h2 := hy.2
    rw [hk] at h2
    refine ⟨n, s, by rw [hy.1]; exact hs, h2.1, ?_⟩
    rcases Nat.eq_zero_or_pos n with rfl | h
    · exact absurd rfl h2.2
    · exact h
  · rcases b' with _ | ⟨_, _, _⟩
    · cases hy
    · rcases hy.2.2 with h' | h' <;> rw [hk] at h' <;> cases h'
  · rcases a with _ | _ | ⟨_, _, _, _⟩
    · cases hy
    · cases hy
    · rcases hy.2 with ⟨h', _⟩ | ⟨_, h', _⟩ <;> rw [hk] at h' <;> cases h'
  · cases hy

/-- **C62.**  And none is missed, unless some code was skipped as unreachable (which is
reported). -/
theorem spawn_return_all (b : Block) (hq : ∀ r ∈ check b, r.kind ≠ .after) (n : Nat)
    (loc : Loc) (s : Stmt) (hs : Sub (.block b) n (.stmt loc s)) (hv : s.ReturnsValue)
    (h0 : 0 < n) (hn : n < 4294967296) :
    ∃ r ∈ check b, r.loc = loc ∧ r.kind = .spawnReturn := by
  obtain ⟨rs, hvis, hsub⟩ := visit_sub (by decide)
    (show Visit 0 (check b) (.block b) from ⟨_, _, rfl⟩) hq hs
  rw [Nat.zero_add, Nat.mod_eq_of_lt hn] at hvis
  have hvis : rs = (visitStmt n loc s).2 := hvis
  refine ⟨⟨loc, .spawnReturn, []⟩, hsub ?_, rfl, rfl⟩
  have hret : (⟨loc, .spawnReturn, []⟩ : Report) ∈ returnCheck n loc true := by
    simp [returnCheck, h0]
  rw [hvis]
  cases s with
  | ret v =>
    rw [show v = true from hv, visitStmt]
    exact hret
  | forLoop init test inc body =>
    rw [visitStmt]
    simp only [List.mem_append]
    rcases hv with rfl | rfl
    · exact .inl hret
    · exact .inr (.inr (.inl hret))
  | _ => cases hv

/-- **C62.**  Every report of a misplaced `set` is one whose name begins with `SpacemanDMM_`
and that is not among the `set`s at the top of the proc. -/
theorem late_setting_only (b : Block) (hn : b.locs.Nodup) (r : Report) (hr : r ∈ check b)
    (hk : r.kind = .lateSetting) :
    (∃ n, Sub (.block b) n (.stmt r.loc (.setting true))) ∧ r.loc ∉ b.leading := by
  refine ⟨?_, late_leading 0 (by decide) r hk b _ hn hr⟩
  obtain ⟨n, y, hs, hy⟩ := origin_block 0 (by decide) r true b _ hr
  rcases y with ⟨l, s⟩ | b' | a | a
  · have h2 := hy.2
    rw [hk] at h2
    have h2 : s = .setting true := h2
    subst h2
    exact ⟨n, by rw [hy.1]; exact hs⟩
  · rcases b' with _ | ⟨_, _, _⟩
    · cases hy
    · rcases hy.2.2 with h' | h' <;> rw [hk] at h' <;> cases h'
  · rcases a with _ | _ | ⟨_, _, _, _⟩
    · cases hy
    · cases hy
    · rcases hy.2 with ⟨h', _⟩ | ⟨_, h', _⟩ <;> rw [hk] at h' <;> cases h'
  · cases hy

/-- **C62.**  And none is missed, unless some code was skipped as unreachable. -/
theorem late_setting_all (b : Block) (hq : ∀ r ∈ check b, r.kind ≠ .after) (n : Nat)
    (loc : Loc) (hs : Sub (.block b) n (.stmt loc (.setting true))) (hl : loc ∉ b.leading) :
    ∃ r ∈ check b, r.loc = loc ∧ r.kind = .lateSetting := by
  obtain ⟨rest, hs'⟩ := sub_stmt hs
  rcases visit_block_allowed hq hs' _ rfl with ⟨term, hsub⟩ | h
  · refine ⟨⟨loc, .lateSetting, []⟩, hsub ?_, rfl, rfl⟩
    have h1 := quiet_cons (Quiet.sub hq hsub)
    rw [h1.1]
    simp [checkSetting]
  · exact absurd (h (by rw [Block.leading]; exact List.mem_cons_self ..)) hl

/-- **C62.**  Every condition of an `if` whose truth is known is reported as what it is,
unless some code was skipped as unreachable; and no other. -/
theorem if_condition_all (b : Block) (hq : ∀ r ∈ check b, r.kind ≠ .after) (n : Nat)
    (c : Loc) (v : Bool) (body : Block) (rest : Arms)
    (hs : Sub (.block b) n (.arms (.cons c (some v) body rest))) :
    ∃ r ∈ check b, r.loc = c ∧ r.kind = .ifIs v := by
  obtain ⟨rs, ⟨all, always, rfl⟩, hsub⟩ := visit_sub (by decide)
    (show Visit 0 (check b) (.block b) from ⟨_, _, rfl⟩) hq hs
  refine ⟨⟨c, .ifIs v, []⟩, hsub ?_, rfl, rfl⟩
  rw [visitArms]
  simp [ifCondition]

/-- **C62.** -/
theorem if_condition_only (b : Block) (r : Report) (hr : r ∈ check b) (v : Bool)
    (hk : r.kind = .ifIs v) :
    ∃ n body rest, Sub (.block b) n (.arms (.cons r.loc (some v) body rest)) := by
  obtain ⟨n, y, hs, hy⟩ := origin_block 0 (by decide) r true b _ hr
  rcases y with ⟨l, s⟩ | b' | a | a
  · have h2 := hy.2
    rw [hk] at h2
    cases h2
  · rcases b' with _ | ⟨_, _, _⟩
    · cases hy
    · rcases hy.2.2 with h' | h' <;> rw [hk] at h' <;> cases h'
  · rcases a with _ | _ | ⟨c, truth, body, rest⟩
    · cases hy
    · cases hy
    · rcases hy.2 with ⟨h', _⟩ | ⟨v', h', ht⟩
      · rw [hk] at h'
        cases h'
      · rw [hk] at h'
        cases h'
        exact ⟨n, body, rest, by rw [hy.1, ← ht]; exact hs⟩
  · cases hy

/-- **C62.**  Every arm and every nonempty `else` after a condition that is always true is
reported, unless some code was skipped as unreachable. -/
theorem dead_arm_all (b : Block) (hq : ∀ r ∈ check b, r.kind ≠ .after) (n : Nat)
    (c : Loc) (body : Block) (rest : Arms) (loc : Loc)
    (hs : Sub (.block b) n (.arms (.cons c (some true) body rest))) (hl : rest.Has loc) :
    ∃ r ∈ check b, r.loc = loc ∧ (r.kind = .deadArm ∨ r.kind = .deadElse) := by
  obtain ⟨rs, ⟨all, always, rfl⟩, hsub⟩ := visit_sub (by decide)
    (show Visit 0 (check b) (.block b) from ⟨_, _, rfl⟩) hq hs
  rw [visitArms] at hsub
  rw [show (always || some true == some true) = true by simp] at hsub
  obtain ⟨r, hr, h⟩ := dead_arms ((0 + n) % M) hl
    (afterArm (some true) all (visitBlock ((0 + n) % M) false Ctl.allfalse body).1)
  exact ⟨r, hsub (by simp only [List.mem_append]; exact .inr (.inr (.inr hr))), h⟩

/-- **C62.**  Code directly after a `return` or a `CRASH`, or after an `if` or `switch` whose
branches all end in `return` (or `CRASH`), or all in `break`, or all in `continue`, does not pass
unnoticed if no `break` and no `continue` stands before it in the block: the proc gets a message
about unreachable code. -/
theorem code_after_return_is_noticed (b b' pre rest : Block) (l1 l2 : Loc) (s1 s2 : Stmt)
    (k : Leave)
    (hw : WholeBlock b b') (hb : b' = pre.append (.cons l1 s1 (.cons l2 s2 rest)))
    (hp : pre.jumpFree = true) (hs : s1.AlwaysLeaves k) :
    ∃ r ∈ check b, r.kind = .after := by
  by_contra hno
  have hq : Quiet (check b) := fun r hr hk => hno ⟨r, hr, hk⟩
  subst hb
  rcases hw with rfl | ⟨n, x, k, hsub, hx, hk⟩
  · exact after_return 0 hs pre true Ctl.allfalse hp rfl hq
  · obtain ⟨rs, hv, hsub⟩ := visit_sub (by decide)
      (show Visit 0 (check b) (.block b) from ⟨_, _, rfl⟩) hq hsub
    have := visit_whole (Nat.mod_lt _ (by decide)) hv hx hk
    exact after_return _ hs pre false Ctl.allfalse hp rfl (hq.sub (this.trans hsub))

/-- **C62.**  Every test of a `for(;;)` whose truth is known is reported as what it is,
unless some code was skipped as unreachable; and no other. -/
theorem loop_condition_all (b : Block) (hq : ∀ r ∈ check b, r.kind ≠ .after) (n : Nat)
    (loc : Loc) (v : Bool) (init inc : Simple) (body : Block)
    (hs : Sub (.block b) n (.stmt loc (.forLoop init (some v) inc body))) :
    ∃ r ∈ check b, r.loc = loc ∧ r.kind = .loopIs v := by
  obtain ⟨rs, hvis, hsub⟩ := visit_sub (by decide)
    (show Visit 0 (check b) (.block b) from ⟨_, _, rfl⟩) hq hs
  have hvis : rs = (visitStmt _ loc _).2 := hvis
  refine ⟨⟨loc, .loopIs v, []⟩, hsub ?_, rfl, rfl⟩
  rw [hvis, visitStmt]
  simp [loopCondition]

/-- **C62.** -/
theorem loop_condition_only (b : Block) (r : Report) (hr : r ∈ check b) (v : Bool)
    (hk : r.kind = .loopIs v) :
    ∃ n init inc body, Sub (.block b) n (.stmt r.loc (.forLoop init (some v) inc body)) := by
  obtain ⟨n, y, hs, hy⟩ := origin_block 0 (by decide) r true b _ hr
  rcases y with ⟨l, s⟩ | b' | a | a
  · have h2 := hy.2
    rw [hk] at h2
    obtain ⟨init, inc, body, rfl⟩ := h2
    exact ⟨n, init, inc, body, by rw [hy.1]; exact hs⟩
  · rcases b' with _ | ⟨_, _, _⟩
    · cases hy
    · rcases hy.2.2 with h' | h' <;> rw [hk] at h' <;> cases h'
  · rcases a with _ | _ | ⟨_, _, _, _⟩
    · cases hy
    · cases hy
    · rcases hy.2 with ⟨h', _⟩ | ⟨_, h', _⟩ <;> rw [hk] at h' <;> cases h'
  · cases hy

/-! ## Examples: the hypotheses can be met -/

/-- ```
set SpacemanDMM_x = 1              // 0
if(x)                              // 1, 2
    do                             // 3
        return                     // 4
    while(y)                       // 5
else if(1)                         // 6
    for(i in 5 to 1)               // 7
        foo()                      // 8
    spawn()                        // 9
        return 1                   // 10
    CRASH()                        // 11
else
    bar()                          // 12
baz()                              // 13
set SpacemanDMM_x = 2              // 14
``` -/
def sample : Block :=
  .cons 0 (.setting true) <|
  .cons 1 (.ifs
    (.cons 2 none (.cons 3 (.doWhile (.cons 4 (.ret false) .nil) 5) .nil)
    (.cons 6 (some true)
      (.cons 7 (.range (some 5) (some 1) .none (.cons 8 .simple .nil))
      (.cons 9 (.spawn (.cons 10 (.ret true) .nil))
      (.cons 11 .crash .nil)))
    (.els (.cons 12 .simple (.cons 15 (.ret false) .nil)))))) <|
  .cons 13 .simple <|
  .cons 14 (.setting true) .nil

example : (check sample).map (fun r => (r.loc, r.kind)) =
    [(3, .doWhile), (7, .emptyRange), (10, .spawnReturn), (6, .ifIs true), (12, .deadElse),
      (13, .after)] := by decide +kernel

theorem sample_careful : sample.Careful := by
  simp only [sample, Block.Careful, Stmt.Careful, Arms.Careful, and_true, true_and, RangeOk]
  refine ⟨.inl rfl, by decide, .inr ⟨[8], .seq (t1 := []) (t2 := []) .simple .nil⟩⟩

example : ¬ Reaches sample 13 :=
  reported_code_is_not_reached sample rfl (by decide) sample_careful
    ⟨13, .after, [13, 14]⟩ (by decide +kernel) 13 (by decide)

example : ¬ Reaches sample 14 :=
  reported_code_is_not_reached sample rfl (by decide) sample_careful
    ⟨13, .after, [13, 14]⟩ (by decide +kernel) 14 (by decide)

example : ¬ Reaches sample 12 :=
  unreachable_place_is_not_reached sample rfl (by decide) sample_careful
    ⟨12, .deadElse, [12, 15]⟩ (by decide +kernel) (.inr (.inr rfl))

/-- Something is reached, too. -/
example : Reaches sample 10 := by
  refine ⟨[0, 1, 2, 6, 7, 9, 10], .cut, ?_, by decide⟩
  refine .seq (t1 := []) (t2 := [1, 2, 6, 7, 9, 10]) .setting ?_
  refine .seqStop (.ifs (.skip (by decide) (.take (by decide) ?_))) (by decide)
  refine .seq (t1 := []) (t2 := [9, 10]) (.rangeSkip (by simp [MaySkip])) ?_
  exact .seq (t1 := [10]) (t2 := []) (.spawn (.seqStop .ret (by decide))) (.cut _)

example : ∃ r ∈ check (.cons 0 (.loop (.cons 1 .simple (.cons 2 (.ret true) (.cons 3 .simple
    .nil)))) .nil), r.kind = .after :=
  code_after_return_is_noticed _ _ (.cons 1 .simple .nil) .nil 2 3 _ _ .ret
    (.inr ⟨0, .stmt 0 _, 0, .step .self .head, by simp, .loop⟩) rfl rfl ⟨rfl, trivial⟩

example : ∃ r ∈ check (.cons 0 (.loop (.cons 1 (.ifs (.cons 2 none (.cons 3 .simple (.cons 4
    (.cont none) .nil)) (.cons 5 (some false) .nil (.els (.cons 6 (.cont none) .nil)))))
    (.cons 7 .simple .nil))) .nil), r.kind = .after :=
  code_after_return_is_noticed _ _ .nil .nil 1 7 _ _ .cont
    (.inr ⟨0, .stmt 0 _, 0, .step .self .head, by simp, .loop⟩) rfl rfl
    ⟨.inr ⟨.cons 3 .simple .nil, 4, _, rfl, rfl, trivial⟩, .inl rfl,
      ⟨.nil, 6, _, rfl, rfl, trivial⟩⟩

/-- A `set` below an `if`: the hypotheses of the theorems on `set` can be met. -/
example : ∃ r ∈ check (.cons 0 (.setting true) (.cons 1 (.ifs (.cons 2 none
    (.cons 3 (.setting true) .nil) .noElse)) .nil)), r.loc = 3 ∧ r.kind = .lateSetting :=
  late_setting_all _ (by decide +kernel) 0 3
    (.step (.step (.step (.step (.step .self .tail) .head) .ifs) .arm) .head) (by decide)

example : ∃ r ∈ check (.cons 0 (.spawn (.cons 1 (.forLoop (.ret true) none .expr .nil) .nil))
    .nil), r.loc = 1 ∧ r.kind = .spawnReturn :=
  spawn_return_all _ (by decide +kernel) 1 1 _
    (.step (.step (.step .self .head) .spawn) .head) (.inl rfl) (by decide) (by decide)

example : ∃ r ∈ check (.cons 0 (.ifs (.cons 1 (some true) .nil (.cons 2 none .nil
    (.els (.cons 3 .simple .nil))))) .nil), r.loc = 3 ∧ (r.kind = .deadArm ∨ r.kind = .deadElse) :=
  dead_arm_all _ (by decide +kernel) 0 1 _ _ 3 (.step (.step .self .head) .ifs) (.later .els)

/-! ## Where the messages are wrong, or missing

Without the hypothesis `Careful` the messages can be wrong. -/

/-- `if(x) break; else break` -/
def bothBreak (a b c d : Loc) : Block :=
  .cons a (.ifs (.cons b none (.cons c (.brk none) .nil) (.els (.cons d (.brk none) .nil)))) .nil

theorem bothBreak_run (a b c d : Loc) : Run (.block (bothBreak a b c d)) [a, b, c] (.brk none) :=
  .seqStop (.ifs (.take (by decide) (.seqStop .brk (by decide)))) (by decide)

/-- **C61, disagreement.**  `do { if(x) break; else break } while(y); foo()`: the loop is left by
`break` and `foo()` is run, but reported as unreachable. -/
theorem doWhile_break_false_alarm :
    ∃ b : Block, b.noGoto = true ∧ b.locs.Nodup ∧
      ∃ r ∈ check b, r.kind = .after ∧ Reaches b r.loc := by
  refine ⟨.cons 0 (.doWhile (bothBreak 1 2 3 4) 5) (.cons 6 .simple .nil), by decide, by decide,
    ⟨6, .after, [6]⟩, by decide +kernel, rfl, [0, 1, 2, 3, 6], .normal, ?_, by decide⟩
  exact .seq (t1 := [1, 2, 3]) (t2 := [6]) (.doBreak (bothBreak_run ..))
    (.seq (t1 := []) (t2 := []) .simple .nil)

/-- **C61, disagreement.**  `for(i in 1 to 3) { if(x) break; else break }; foo()`: the same. -/
theorem range_break_false_alarm :
    ∃ b : Block, b.noGoto = true ∧ b.locs.Nodup ∧
      ∃ r ∈ check b, r.kind = .after ∧ Reaches b r.loc := by
  refine ⟨.cons 0 (.range (some 1) (some 3) .none (bothBreak 1 2 3 4)) (.cons 6 .simple .nil),
    by decide, by decide,
    ⟨6, .after, [6]⟩, by decide +kernel, rfl, [0, 1, 2, 3, 6], .normal, ?_, by decide⟩
  exact .seq (t1 := [1, 2, 3]) (t2 := [6]) (.rangeBreak (by simp [MayRun]) (bothBreak_run ..))
    (.seq (t1 := []) (t2 := []) .simple .nil)

/-- **C61, disagreement.**  `for(i in 5 to 1 step 1) return; foo()`: the body is not run at all, but
`foo()` is reported as unreachable. -/
theorem range_step_false_alarm :
    ∃ b : Block, b.noGoto = true ∧ b.locs.Nodup ∧
      ∃ r ∈ check b, r.kind = .after ∧ Reaches b r.loc := by
  refine ⟨.cons 0 (.range (some 5) (some 1) (.int 1) (.cons 1 (.ret false) .nil))
    (.cons 6 .simple .nil), by decide, by decide,
    ⟨6, .after, [6]⟩, by decide +kernel, rfl, [0, 6], .normal, ?_, by decide⟩
  exact .seq (t1 := []) (t2 := [6]) (.rangeSkip (by simp [MaySkip]))
    (.seq (t1 := []) (t2 := []) .simple .nil)

/-- **C61, disagreement.**  `for(i in 0 to 0) foo()` runs `foo()` once, but "for range loop body is
never reached" is reported. -/
theorem zero_range_false_alarm :
    ∃ b : Block, b.noGoto = true ∧ b.locs.Nodup ∧
      ∃ r ∈ check b, r.kind = .emptyRange ∧ ∃ x ∈ r.region, Reaches b x := by
  refine ⟨.cons 0 (.range (some 0) (some 0) .none (.cons 1 .simple .nil)) .nil,
    by decide, by decide,
    ⟨0, .emptyRange, [1]⟩, by decide +kernel, rfl, 1, by decide, [0, 1], .normal, ?_, by decide⟩
  exact .seq (t1 := [1]) (t2 := []) (.rangeRun (t1 := [1]) (t2 := []) (by simp [MayRun])
    (.seq (t1 := []) (t2 := []) .simple .nil) (.inl rfl) .done) .nil

/-- **C61, disagreement.**  `do { if(x) { continue; break } else break } while(y)`: the condition is
reached by `continue`, but "do while terminates without ever reaching condition" is reported. -/
theorem doWhile_continue_false_alarm :
    ∃ b : Block, b.noGoto = true ∧ b.locs.Nodup ∧
      ∃ r ∈ check b, r.kind = .doWhile ∧ ∃ x ∈ r.region, Reaches b x := by
  refine ⟨.cons 0 (.doWhile (.cons 1 (.ifs (.cons 2 none
      (.cons 3 (.cont none) (.cons 7 (.brk none) .nil)) (.els (.cons 4 (.brk none) .nil))))
      .nil) 5) .nil, by decide, by decide,
    ⟨0, .doWhile, [5]⟩, by decide +kernel, rfl, 5, by decide, [0, 1, 2, 3, 5], .normal, ?_,
    by decide⟩
  exact .seq (t1 := [1, 2, 3, 5]) (t2 := []) (.doOnce (t := [1, 2, 3])
    (.seqStop (.ifs (.take (by decide) (.seqStop .cont (by decide)))) (by decide))
    (.inr ⟨none, rfl⟩) (.inl rfl)) .nil

/-- **C62, disagreement.**  The hypothesis on jumps in `code_after_return_is_noticed` is needed,
even where the jump stays in an inner loop:
`for(i in 1 to 3) { if(x) break }; return; foo()` gives no message, and neither does
`for() { break; foo() }`. -/
theorem code_after_return_missed :
    check (.cons 0 (.range (some 1) (some 3) .none (.cons 1 (.ifs (.cons 2 none
      (.cons 3 (.brk none) .nil) .noElse)) .nil)) (.cons 4 (.ret false) (.cons 5 .simple .nil)))
      = [] ∧
    check (.cons 0 (.loop (.cons 1 (.brk none) (.cons 2 .simple .nil))) .nil) = [] := by
  decide +kernel

end Verif.Flow
