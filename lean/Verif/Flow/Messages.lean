import Verif.Flow.Lemmas

/-! # Where the messages come from, and which ones are not missed -/

namespace Verif.Flow

/-- The modulus of `inside_newcontext`. -/
abbrev M : Nat := 4294967296

theorem Sub.trans {x n y m z} (h : Sub x n y) (h' : Sub y m z) : Sub x (n + m) z := by
  induction h' with
  | self => exact h
  | step _ hc ih => rw [← Nat.add_assoc]; exact .step ih hc

theorem Child.sub {x k y} (h : Child x k y) : Sub x k y := by
  have := Sub.step (Sub.self (x := x)) h
  rwa [Nat.zero_add] at this

theorem Child.sub_trans {x k y m z} (h : Child x k y) (h' : Sub y m z) : Sub x (k + m) z :=
  h.sub.trans h'

/-- What a part of a proc body can itself give rise to, in `c` nested `spawn`s (modulo
2³²). -/
def Source (c : Nat) (r : Report) : Site → Prop
  | .stmt loc s => r.loc = loc ∧
      match r.kind with
      | .spawnReturn => s.ReturnsValue ∧ c ≠ 0
      | .lateSetting => s = .setting true
      | .doWhile => ∃ body cond, s = .doWhile body cond ∧ r.region = [cond]
      | .emptyRange => ∃ i o step body, s = .range i o step body ∧ r.region = body.locs ∧
          validForRange i o step = some false
      | .loopIs b => ∃ init inc body, s = .forLoop init (some b) inc body
      | _ => False
  | .block (.cons loc s rest) => r.loc = loc ∧ r.region = loc :: (s.locs ++ rest.locs) ∧
      (r.kind = .after ∨ r.kind = .deadElse)
  | .arms (.cons cond truth body _) => r.loc = cond ∧
      (r.kind = .deadArm ∧ r.region = cond :: body.locs ∨ ∃ b, r.kind = .ifIs b ∧ truth = some b)
  | _ => False

/-- The message has its source in this part. -/
def Origin (c : Nat) (r : Report) (x : Site) : Prop :=
  ∃ n y, Sub x n y ∧ Source ((c + n) % M) r y

theorem Origin.here {c r x} (hc : c < M) (h : Source c r x) : Origin c r x :=
  ⟨0, x, .self, by rwa [Nat.add_zero, Nat.mod_eq_of_lt hc]⟩

theorem Origin.up {c r x y} (h : Child x 0 y) : Origin c r y → Origin c r x := by
  rintro ⟨n, z, hs, hz⟩
  have := h.sub_trans hs
  rw [Nat.zero_add] at this
  exact ⟨n, z, this, hz⟩

theorem Origin.spawn {c r x y} (h : Child x 1 y) : Origin ((c + 1) % M) r y → Origin c r x := by
  rintro ⟨n, z, hs, hz⟩
  refine ⟨1 + n, z, h.sub_trans hs, ?_⟩
  rw [show c + (1 + n) = (c + 1) + n by omega]
  rwa [Nat.mod_add_mod] at hz

theorem origin_return {c loc s v r} (hc : c < M) (hs : v = true → s.ReturnsValue)
    (h : r ∈ returnCheck c loc v) : Origin c r (.stmt loc s) := by
  unfold returnCheck at h
  split at h
  · rename_i hv
    simp only [Bool.and_eq_true, decide_eq_true_eq] at hv
    simp only [List.mem_singleton] at h
    subst h
    exact Origin.here hc ⟨rfl, hs hv.1, by omega⟩
  · simp at h

theorem origin_part {c loc s p r} (hc : c < M) (hs : p = .ret true → s.ReturnsValue)
    (h : r ∈ visitPart c loc p) : Origin c r (.stmt loc s) := by
  unfold visitPart at h
  split at h
  · exact origin_return hc (fun hv => hs (by rw [hv])) h
  all_goals simp at h

mutual
theorem origin_stmt (c : Nat) (hc : c < M) (loc : Loc) (r : Report) : ∀ (s : Stmt),
    r ∈ (visitStmt c loc s).2 → Origin c r (.stmt loc s)
  | .simple, h | .setting _, h | .crash, h | .throw, h | .cont _, h | .brk _, h
  | .goto _, h => by simp [visitStmt] at h
  | .ret v, h => by
    rw [visitStmt] at h
    exact origin_return hc id h
  | .loop body, h => by
    rw [visitStmt] at h
    exact .up .loop (origin_block c hc r _ body _ h)
  | .label _ body, h => by
    rw [visitStmt] at h
    exact .up .label (origin_block c hc r _ body _ h)
  | .spawn body, h => by
    rw [visitStmt] at h
    exact .spawn .spawn (origin_block _ (Nat.mod_lt _ (by decide)) r _ body _ h)
  | .forLoop init test inc body, h => by
    rw [visitStmt] at h
    simp only [List.mem_append] at h
    rcases h with h | h | h | h
    · exact origin_part hc .inl h
    · rcases test with _ | b
      · simp [loopCondition] at h
      · simp only [loopCondition, List.mem_singleton] at h
        subst h
        exact .here hc ⟨rfl, _, _, _, rfl⟩
    · exact origin_part hc .inr h
    · exact .up .forLoop (origin_block c hc r _ body _ h)
  | .tryCatch b h', h => by
    rw [visitStmt] at h
    simp only [List.mem_append] at h
    rcases h with h | h
    · exact .up .try (origin_block c hc r _ b _ h)
    · exact .up .catch (origin_block c hc r _ h' _ h)
  | .doWhile body cond, h => by
    rw [visitStmt] at h
    split at h
    · simp only [List.mem_append, List.mem_singleton] at h
      rcases h with h | rfl
      · exact .up .doWhile (origin_block c hc r _ body _ h)
      · exact .here hc ⟨rfl, _, _, rfl, rfl⟩
    · exact .up .doWhile (origin_block c hc r _ body _ h)
  | .range i o step body, h => by
    rw [visitStmt] at h
    split at h
    · rename_i hv
      simp only [List.mem_append, List.mem_singleton] at h
      rcases h with h | rfl
      · exact .up .range (origin_block c hc r _ body _ h)
      · exact .here hc ⟨rfl, _, _, _, _, rfl, rfl, hv⟩
    · exact .up .range (origin_block c hc r _ body _ h)
    · exact .up .range (origin_block c hc r _ body _ h)
  | .ifs a, h => by
    rw [visitStmt] at h
    exact .up .ifs (origin_arms c hc r a _ _ h)
  | .switch a, h => by
    rw [visitStmt] at h
    exact .up .switch (origin_cases c hc r a _ h)
theorem origin_block (c : Nat) (hc : c < M) (r : Report) : ∀ (allowed : Bool) (b : Block)
    (term : Ctl), r ∈ (visitBlock c allowed term b).2 → Origin c r (.block b)
  | _, .nil, _, h => by simp [visitBlock] at h
  | allowed, .cons loc s rest, term, h => by
    rw [visitBlock] at h
    split at h
    · simp only [List.mem_singleton] at h
      subst h
      exact .here hc ⟨rfl, rfl, .inl rfl⟩
    · simp only [List.mem_append] at h
      rcases h with h | h | h
      · refine .up .head ?_
        unfold checkSetting at h
        split at h
        · split at h
          · rename_i ho
            simp only [Bool.and_eq_true] at ho
            simp only [List.mem_singleton] at h
            subst h
            exact .here hc ⟨rfl, by rw [ho.2]⟩
          · simp at h
        · simp at h
      · exact .up .head (origin_stmt c hc loc r s h)
      · exact .up .tail (origin_block c hc r _ rest _ h)
theorem origin_arms (c : Nat) (hc : c < M) (r : Report) : ∀ (a : Arms) (all : Ctl)
    (always : Bool), r ∈ (visitArms c all always a).2 → Origin c r (.arms a)
  | .noElse, _, _, h => by simp [visitArms] at h
  | .els b, _, _, h => by
    rw [visitArms] at h
    simp only [List.mem_append] at h
    rcases h with h | h
    · refine .up .els ?_
      unfold deadElse at h
      split at h
      · split at h
        · simp only [List.mem_singleton] at h
          subst h
          exact .here hc ⟨rfl, rfl, .inr rfl⟩
        · simp at h
      · simp at h
    · exact .up .els (origin_block c hc r _ b _ h)
  | .cons cond truth body rest, all, always, h => by
    rw [visitArms] at h
    simp only [List.mem_append] at h
    rcases h with h | h | h | h
    · unfold deadArm at h
      split at h
      · simp only [List.mem_singleton] at h
        subst h
        exact .here hc ⟨rfl, .inl ⟨rfl, rfl⟩⟩
      · simp at h
    · exact .up .arm (origin_block c hc r _ body _ h)
    · unfold ifCondition at h
      split at h
      · simp only [List.mem_singleton] at h
        subst h
        exact .here hc ⟨rfl, .inr ⟨_, rfl, rfl⟩⟩
      · simp at h
    · exact .up .nextArm (origin_arms c hc r rest _ _ h)
theorem origin_cases (c : Nat) (hc : c < M) (r : Report) : ∀ (a : Cases) (all : Ctl),
    r ∈ (visitCases c all a).2 → Origin c r (.cases a)
  | .noDefault, _, h => by simp [visitCases] at h
  | .dflt b, _, h => by
    rw [visitCases] at h
    exact .up .dflt (origin_block c hc r _ b _ h)
  | .cons body rest, all, h => by
    rw [visitCases] at h
    simp only [List.mem_append] at h
    rcases h with h | h
    · exact .up .case (origin_block c hc r _ body _ h)
    · exact .up .nextCase (origin_cases c hc r rest _ h)
end

/-! ## Nothing but unreachable code is left out -/

/-- `rs` is what is reported on a visit of the part. -/
def Visit (c : Nat) (rs : List Report) : Site → Prop
  | .stmt loc s => rs = (visitStmt c loc s).2
  | .block b => ∃ allowed term, rs = (visitBlock c allowed term b).2
  | .arms a => ∃ all always, rs = (visitArms c all always a).2
  | .cases a => ∃ all, rs = (visitCases c all a).2

/-- No "possible unreachable code here". -/
def Quiet (rs : List Report) : Prop := ∀ r ∈ rs, r.kind ≠ .after

theorem Quiet.sub {a b : List Report} (h : Quiet b) (hs : a ⊆ b) : Quiet a :=
  fun r hr => h r (hs hr)

theorem quiet_cons {c allowed term loc s rest}
    (h : Quiet (visitBlock c allowed term (.cons loc s rest)).2) :
    (visitBlock c allowed term (.cons loc s rest)).2 = checkSetting allowed loc s ++
      ((visitStmt c loc s).2 ++
        (visitBlock c (settingAllowed allowed s) (term.merge (visitStmt c loc s).1) rest).2) ∧
      term.terminates = false := by
  rw [visitBlock] at h ⊢
  split at h
  · exact absurd rfl (h _ (List.mem_singleton.2 rfl))
  · rename_i ht
    simp [ht]

theorem doWhile_sub (c loc body cond) :
    (visitBlock c false Ctl.allfalse body).2 ⊆ (visitStmt c loc (.doWhile body cond)).2 := by
  rw [visitStmt]
  split
  · exact List.subset_append_left _ _
  · exact List.Subset.refl _

theorem range_sub (c loc i o step body) :
    (visitBlock c false Ctl.allfalse body).2 ⊆ (visitStmt c loc (.range i o step body)).2 := by
  rw [visitStmt]
  split
  · exact List.subset_append_left _ _
  · exact List.Subset.refl _
  · exact List.Subset.refl _

theorem visit_child {c rs x k y} (hc : c < M) (h : Visit c rs x) (hq : Quiet rs)
    (hk : Child x k y) : ∃ rs', Visit ((c + k) % M) rs' y ∧ rs' ⊆ rs := by
  have h0 : (c + 0) % M = c := Nat.mod_eq_of_lt hc
  cases hk with
  | head =>
    obtain ⟨allowed, term, rfl⟩ := h
    rw [h0, (quiet_cons hq).1]
    exact ⟨_, rfl, List.subset_append_of_subset_right _ (List.subset_append_left _ _)⟩
  | tail =>
    obtain ⟨allowed, term, rfl⟩ := h
    rw [h0, (quiet_cons hq).1]
    exact ⟨_, ⟨_, _, rfl⟩, List.subset_append_of_subset_right _ (List.subset_append_right _ _)⟩
  | loop => rw [h0, h, visitStmt]; exact ⟨_, ⟨_, _, rfl⟩, List.Subset.refl _⟩
  | label => rw [h0, h, visitStmt]; exact ⟨_, ⟨_, _, rfl⟩, List.Subset.refl _⟩
  | spawn => rw [h, visitStmt]; exact ⟨_, ⟨_, _, rfl⟩, List.Subset.refl _⟩
  | forLoop =>
    rw [h0, h, visitStmt]
    exact ⟨_, ⟨_, _, rfl⟩,
      List.subset_append_of_subset_right _ (List.subset_append_of_subset_right _
        (List.subset_append_right _ _))⟩
  | doWhile => rw [h0, h]; exact ⟨_, ⟨_, _, rfl⟩, doWhile_sub _ _ _ _⟩
  | range => rw [h0, h]; exact ⟨_, ⟨_, _, rfl⟩, range_sub _ _ _ _ _ _⟩
  | ifs => rw [h0, h, visitStmt]; exact ⟨_, ⟨_, _, rfl⟩, List.Subset.refl _⟩
  | switch => rw [h0, h, visitStmt]; exact ⟨_, ⟨_, rfl⟩, List.Subset.refl _⟩
  | «try» => rw [h0, h, visitStmt]; exact ⟨_, ⟨_, _, rfl⟩, List.subset_append_left _ _⟩
  | «catch» => rw [h0, h, visitStmt]; exact ⟨_, ⟨_, _, rfl⟩, List.subset_append_right _ _⟩
  | els =>
    obtain ⟨all, always, rfl⟩ := h
    rw [h0, visitArms]; exact ⟨_, ⟨_, _, rfl⟩, List.subset_append_right _ _⟩
  | arm =>
    obtain ⟨all, always, rfl⟩ := h
    rw [h0, visitArms]; exact ⟨_, ⟨_, _, rfl⟩, List.subset_append_of_subset_right _ (List.subset_append_left _ _)⟩
  | nextArm =>
    obtain ⟨all, always, rfl⟩ := h
    rw [h0, visitArms]
    exact ⟨_, ⟨_, _, rfl⟩,
      List.subset_append_of_subset_right _ (List.subset_append_of_subset_right _
        (List.subset_append_right _ _))⟩
  | dflt =>
    obtain ⟨all, rfl⟩ := h
    rw [h0, visitCases]; exact ⟨_, ⟨_, _, rfl⟩, List.Subset.refl _⟩
  | case =>
    obtain ⟨all, rfl⟩ := h
    rw [h0, visitCases]; exact ⟨_, ⟨_, _, rfl⟩, List.subset_append_left _ _⟩
  | nextCase =>
    obtain ⟨all, rfl⟩ := h
    rw [h0, visitCases]; exact ⟨_, ⟨_, rfl⟩, List.subset_append_right _ _⟩

theorem visit_sub {c rs x n y} (hc : c < M) (h : Visit c rs x) (hq : Quiet rs)
    (hs : Sub x n y) : ∃ rs', Visit ((c + n) % M) rs' y ∧ rs' ⊆ rs := by
  induction hs with
  | self => exact ⟨rs, by rwa [Nat.add_zero, Nat.mod_eq_of_lt hc], List.Subset.refl _⟩
  | @step n k y z _ hk ih =>
    obtain ⟨rs1, h1, hs1⟩ := ih
    obtain ⟨rs2, h2, hs2⟩ := visit_child (Nat.mod_lt _ (by decide)) h1 (hq.sub hs1) hk
    rw [Nat.mod_add_mod, Nat.add_assoc] at h2
    exact ⟨rs2, h2, hs2.trans hs1⟩

/-- A block that is not the rest of another one is visited from the start. -/
theorem visit_whole {c rs x k b} (hc : c < M) (h : Visit c rs x) (hx : ∀ y, x ≠ .block y)
    (hk : Child x k (.block b)) :
    (visitBlock ((c + k) % M) false Ctl.allfalse b).2 ⊆ rs := by
  have h0 : (c + 0) % M = c := Nat.mod_eq_of_lt hc
  cases hk with
  | tail => exact absurd rfl (hx _)
  | loop => rw [h0, h, visitStmt]; exact List.Subset.refl _
  | label => rw [h0, h, visitStmt]; exact List.Subset.refl _
  | spawn => rw [h, visitStmt]; exact List.Subset.refl _
  | forLoop =>
    rw [h0, h, visitStmt]
    exact
      List.subset_append_of_subset_right _ (List.subset_append_of_subset_right _
        (List.subset_append_right _ _))
  | doWhile => rw [h0, h]; exact doWhile_sub _ _ _ _
  | range => rw [h0, h]; exact range_sub _ _ _ _ _ _
  | «try» => rw [h0, h, visitStmt]; simp
  | «catch» => rw [h0, h, visitStmt]; simp
  | els =>
    obtain ⟨all, always, rfl⟩ := h
    rw [h0, visitArms]; simp
  | arm =>
    obtain ⟨all, always, rfl⟩ := h
    rw [h0, visitArms]; intro x hx; simp [hx]
  | dflt =>
    obtain ⟨all, rfl⟩ := h
    rw [h0, visitCases]; exact List.Subset.refl _
  | case =>
    obtain ⟨all, rfl⟩ := h
    rw [h0, visitCases]; simp

/-! ## Return and go on -/

theorem merge_fuzzy {f g : Ctl} (hf : f.fuzzy = false) (hg : g.fuzzy = false) :
    (f.merge g).fuzzy = false := by
  rcases f with ⟨_ | _, _ | _, _ | _, _ | _⟩ <;> rcases g with ⟨_ | _, _ | _, _ | _, _ | _⟩ <;>
    simp_all [Ctl.merge]

theorem mergeFalse_fuzzy {f g : Ctl} (hf : f.fuzzy = false) (hg : g.fuzzy = false) :
    (f.mergeFalse g).fuzzy = false := by
  rcases f with ⟨_ | _, _ | _, _ | _, _ | _⟩ <;> rcases g with ⟨_ | _, _ | _, _ | _, _ | _⟩ <;>
    simp_all [Ctl.mergeFalse]

theorem finalize_fuzzy {f : Ctl} (hf : f.fuzzy = false) : f.finalize.fuzzy = false := by
  rcases f with ⟨_ | _, _ | _, _ | _, _ | _⟩ <;> simp_all [Ctl.finalize]

theorem afterArm_fuzzy {truth} {f g : Ctl} (hf : f.fuzzy = false) (hg : g.fuzzy = false) :
    (afterArm truth f g).fuzzy = false := by
  rcases truth with _ | _ | _
  · exact mergeFalse_fuzzy hf hg
  · exact hf
  · exact mergeFalse_fuzzy hf hg

mutual
theorem fuzzy_stmt (c : Nat) (loc : Loc) : ∀ (s : Stmt), s.jumpFree = true →
    (visitStmt c loc s).1.fuzzy = false
  | .simple, _ | .setting _, _ | .ret _, _ | .crash, _ | .throw, _ | .goto _, _ => rfl
  | .loop body, _ => by rw [visitStmt]; rfl
  | .forLoop .., _ => by rw [visitStmt]; rfl
  | .spawn .., _ => by rw [visitStmt]; rfl
  | .tryCatch .., _ => by rw [visitStmt]; rfl
  | .label .., _ => by rw [visitStmt]; rfl
  | .doWhile body _, h => by
    rw [visitStmt]
    split
    · exact fuzzy_block c _ body _ h rfl
    · rfl
  | .range i o step body, h => by
    rw [visitStmt]
    split
    · rfl
    · exact fuzzy_block c _ body _ h rfl
    · rfl
  | .ifs a, h => by
    rw [visitStmt]
    exact fuzzy_arms c a _ _ h rfl
  | .switch a, h => by
    rw [visitStmt]
    exact fuzzy_cases c a _ h rfl
theorem fuzzy_block (c : Nat) : ∀ (allowed : Bool) (b : Block) (term : Ctl),
    b.jumpFree = true → term.fuzzy = false → (visitBlock c allowed term b).1.fuzzy = false
  | _, .nil, _, _, ht => by rw [visitBlock]; exact ht
  | allowed, .cons loc s rest, term, h, ht => by
    simp only [Block.jumpFree, Bool.and_eq_true] at h
    rw [visitBlock]
    split
    · exact ht
    · exact fuzzy_block c _ rest _ h.2 (merge_fuzzy ht (fuzzy_stmt c loc s h.1))
theorem fuzzy_arms (c : Nat) : ∀ (a : Arms) (all : Ctl) (always : Bool),
    a.jumpFree = true → all.fuzzy = false → (visitArms c all always a).1.fuzzy = false
  | .noElse, _, _, _, ht => by rw [visitArms]; exact ht
  | .els b, _, _, h, ht => by
    rw [visitArms]
    exact finalize_fuzzy (mergeFalse_fuzzy ht (fuzzy_block c _ b _ h rfl))
  | .cons _ truth body rest, all, always, h, ht => by
    simp only [Arms.jumpFree, Bool.and_eq_true] at h
    rw [visitArms]
    exact fuzzy_arms c rest _ _ h.2 (afterArm_fuzzy ht (fuzzy_block c _ body _ h.1 rfl))
theorem fuzzy_cases (c : Nat) : ∀ (a : Cases) (all : Ctl),
    a.jumpFree = true → all.fuzzy = false → (visitCases c all a).1.fuzzy = false
  | .noDefault, _, _, ht => by rw [visitCases]; exact ht
  | .dflt b, _, h, ht => by
    rw [visitCases]
    exact finalize_fuzzy (mergeFalse_fuzzy ht (fuzzy_block c _ b _ h rfl))
  | .cons body rest, all, h, ht => by
    simp only [Cases.jumpFree, Bool.and_eq_true] at h
    rw [visitCases]
    exact fuzzy_cases c rest _ h.2 (mergeFalse_fuzzy ht (fuzzy_block c _ body _ h.1 rfl))
end

/-- The flag for a way to leave. -/
def Ctl.flag (f : Ctl) : Leave → Bool
  | .ret => f.returns
  | .cont => f.continues
  | .brk => f.breaks

theorem merge_leaves {f g : Ctl} (h : f.fuzzy = false) (hg : g.fuzzy = false) {k}
    (hk : g.flag k = true) : (f.merge g).terminates = true := by
  rcases f with ⟨_ | _, _ | _, _ | _, _ | _⟩ <;> rcases g with ⟨_ | _, _ | _, _ | _, _ | _⟩ <;>
    cases k <;> simp_all [Ctl.merge, Ctl.terminates, Ctl.flag]

theorem flag_leaves {f : Ctl} (h : f.fuzzy = false) {c loc s k} (hs : Stmt.Leaves k s) :
    (f.merge (visitStmt c loc s).1).flag k = true := by
  rcases f with ⟨_ | _, _ | _, _ | _, _ | _⟩ <;> cases k <;> cases s <;>
    simp_all [Ctl.merge, Ctl.flag, Stmt.Leaves, visitStmt]

theorem flag_endsIn (c : Nat) {loc s k} (hs : Stmt.Leaves k s) :
    ∀ (pre : Block) (allowed : Bool) (term : Ctl), pre.jumpFree = true → term.fuzzy = false →
    Quiet (visitBlock c allowed term (pre.append (.cons loc s .nil))).2 →
    (visitBlock c allowed term (pre.append (.cons loc s .nil))).1.flag k = true
  | .nil, allowed, term, _, ht, hq => by
    rw [Block.append] at hq ⊢
    have h1 := quiet_cons hq
    rw [visitBlock, h1.2]
    simp only [Bool.false_eq_true, if_false, visitBlock]
    exact flag_leaves ht hs
  | .cons l x pre, allowed, term, hj, ht, hq => by
    rw [Block.append] at hq ⊢
    simp only [Block.jumpFree, Bool.and_eq_true] at hj
    have h1 := quiet_cons hq
    rw [h1.1] at hq
    rw [visitBlock, h1.2]
    exact flag_endsIn c hs pre _ _ hj.2 (merge_fuzzy ht (fuzzy_stmt c l x hj.1))
      (hq.sub (List.Subset.trans (List.subset_append_right _ _) (List.subset_append_right _ _)))

theorem flag_ends {c : Nat} {k} {b : Block} (h : b.EndsIn k)
    (hq : Quiet (visitBlock c false Ctl.allfalse b).2) :
    (visitBlock c false Ctl.allfalse b).1.flag k = true := by
  obtain ⟨pre, loc, s, rfl, hp, hs⟩ := h
  exact flag_endsIn c hs pre _ _ hp rfl hq

theorem mergeFalse_flag {f g : Ctl} {k} (hf : f.flag k = true) (hg : g.flag k = true) :
    (f.mergeFalse g).flag k = true := by
  rcases f with ⟨_ | _, _ | _, _ | _, _ | _⟩ <;> rcases g with ⟨_ | _, _ | _, _ | _, _ | _⟩ <;>
    cases k <;> simp_all [Ctl.mergeFalse, Ctl.flag]

theorem finalize_flag {f : Ctl} {k} (hf : f.flag k = true) :
    f.finalize.flag k = true ∧ f.finalize.fuzzy = false := by
  rcases f with ⟨_ | _, _ | _, _ | _, _ | _⟩ <;> cases k <;> simp_all [Ctl.finalize, Ctl.flag]

theorem flag_allEnd {c : Nat} {k} : ∀ (a : Arms) (all : Ctl) (always : Bool), a.AllEnd k →
    Quiet (visitArms c all always a).2 → all.flag k = true →
    (visitArms c all always a).1.flag k = true ∧ (visitArms c all always a).1.fuzzy = false
  | .noElse, _, _, h, _, _ => h.elim
  | .els b, all, always, h, hq, hf => by
    rw [visitArms] at hq ⊢
    exact finalize_flag (mergeFalse_flag hf (flag_ends h (hq.sub (List.subset_append_right _ _))))
  | .cons cond truth body rest, all, always, h, hq, hf => by
    rw [visitArms] at hq ⊢
    refine flag_allEnd rest _ _ h.2 (hq.sub ?_) ?_
    · exact List.subset_append_of_subset_right _ (List.subset_append_of_subset_right _
        (List.subset_append_right _ _))
    · rcases h.1 with rfl | h1
      · exact hf
      · have := flag_ends h1 (hq.sub (List.subset_append_of_subset_right _
          (List.subset_append_left _ _)))
        rcases truth with _ | _ | _
        · exact mergeFalse_flag hf this
        · exact hf
        · exact mergeFalse_flag hf this

theorem flag_allEnd_cases {c : Nat} {k} : ∀ (a : Cases) (all : Ctl), a.AllEnd k →
    Quiet (visitCases c all a).2 → all.flag k = true →
    (visitCases c all a).1.flag k = true ∧ (visitCases c all a).1.fuzzy = false
  | .noDefault, _, h, _, _ => h.elim
  | .dflt b, all, h, hq, hf => by
    rw [visitCases] at hq ⊢
    exact finalize_flag (mergeFalse_flag hf (flag_ends h hq))
  | .cons body rest, all, h, hq, hf => by
    rw [visitCases] at hq ⊢
    exact flag_allEnd_cases rest _ h.2 (hq.sub (List.subset_append_right _ _))
      (mergeFalse_flag hf (flag_ends h.1 (hq.sub (List.subset_append_left _ _))))

theorem flag_always {c : Nat} {k} {loc} {s : Stmt} (h : s.AlwaysLeaves k)
    (hq : Quiet (visitStmt c loc s).2) :
    (visitStmt c loc s).1.flag k = true ∧ (visitStmt c loc s).1.fuzzy = false := by
  cases s with
  | ifs a =>
    rw [visitStmt] at hq ⊢
    exact flag_allEnd a _ _ h hq (by cases k <;> rfl)
  | switch a =>
    rw [visitStmt] at hq ⊢
    exact flag_allEnd_cases a _ h hq (by cases k <;> rfl)
  | ret v =>
    obtain ⟨rfl, _⟩ := h
    rw [visitStmt]
    exact ⟨rfl, rfl⟩
  | crash =>
    obtain ⟨rfl, _⟩ := h
    rw [visitStmt]
    exact ⟨rfl, rfl⟩
  | _ => exact absurd h.2 (by simp [Stmt.Leaves])

/-- Statements after a `return`, with no jump before it, do not pass. -/
theorem after_return (c : Nat) {k l1 s1 l2 s2 rest} (hs : Stmt.AlwaysLeaves k s1) :
    ∀ (pre : Block) (allowed : Bool) (term : Ctl), pre.jumpFree = true → term.fuzzy = false →
    ¬ Quiet (visitBlock c allowed term (pre.append (.cons l1 s1 (.cons l2 s2 rest)))).2
  | .nil, allowed, term, _, ht, hq => by
    rw [Block.append] at hq
    have h1 := quiet_cons hq
    rw [h1.1] at hq
    have h2 := quiet_cons (hq.sub (List.Subset.trans (List.subset_append_right _ _)
      (List.subset_append_right _ _)))
    have h3 := flag_always (c := c) (loc := l1) hs (hq.sub
      (List.subset_append_of_subset_right _ (List.subset_append_left _ _)))
    rw [merge_leaves ht h3.2 h3.1] at h2
    cases h2.2
  | .cons loc s pre, allowed, term, hj, ht, hq => by
    rw [Block.append] at hq
    simp only [Block.jumpFree, Bool.and_eq_true] at hj
    have h1 := quiet_cons hq
    rw [h1.1] at hq
    exact after_return c hs pre _ _ hj.2 (merge_fuzzy ht (fuzzy_stmt c loc s hj.1))
      (hq.sub (List.Subset.trans (List.subset_append_right _ _) (List.subset_append_right _ _)))

/-! ## `set` statements -/

theorem sub_locs {x : Site} {n y} (h : Sub x n y) : ∀ {b loc s}, x = .block b →
    y = .stmt loc s → loc ∈ b.locs := by
  have key : ∀ {y n}, Sub x n y → ∀ {b}, x = .block b → (match y with
      | .stmt loc s => loc :: s.locs ⊆ b.locs
      | .block b' => b'.locs ⊆ b.locs
      | .arms a => a.locs ⊆ b.locs
      | .cases a => a.locs ⊆ b.locs) := by
    intro y n h
    induction h with
    | self => rintro b rfl; exact List.Subset.refl _
    | step _ hk ih =>
      intro b hb
      have ih := ih hb
      clear hb
      cases hk <;> simp_all [Block.locs, Stmt.locs, Arms.locs, Cases.locs]
  rintro b loc s rfl rfl
  exact key h rfl (List.mem_cons_self ..)

/-- A block inside a body is visited as one in which no `set` belongs, or all before it are
`set` statements at the top. -/
theorem visit_block_allowed {b : Block} (hq : Quiet (check b)) {n y} (h : Sub (.block b) n y) :
    ∀ b', y = .block b' →
      (∃ term, (visitBlock (n % M) false term b').2 ⊆ check b) ∨ b'.leading ⊆ b.leading := by
  induction h with
  | self =>
    intro b' hb
    cases hb
    exact .inr (List.Subset.refl _)
  | @step n k y z hs hk ih =>
    rintro b' rfl
    obtain ⟨rs, hv, hsub⟩ := visit_sub (by decide) (show Visit 0 (check b) (.block b) from ⟨_, _, rfl⟩) hq hs
    rw [Nat.zero_add] at hv
    by_cases hy : ∃ y', y = .block y'
    · obtain ⟨y', rfl⟩ := hy
      cases hk with
      | @tail loc s =>
        rw [Nat.add_zero]
        rcases ih _ rfl with ⟨term, hl⟩ | hr
        · left
          have h1 := quiet_cons (hq.sub hl)
          rw [h1.1] at hl
          have h2 := ((List.subset_append_right _ _).trans (List.subset_append_right _ _)).trans hl
          rw [show settingAllowed false s = false by cases s <;> rfl] at h2
          exact ⟨_, h2⟩
        · by_cases hset : ∃ own, s = .setting own
          · obtain ⟨own, rfl⟩ := hset
            right
            rw [Block.leading] at hr
            exact fun x hx => hr (List.mem_cons_of_mem _ hx)
          · left
            obtain ⟨allowed, term, rfl⟩ := hv
            have h1 := quiet_cons (hq.sub hsub)
            rw [h1.1] at hsub
            have h2 := ((List.subset_append_right _ _).trans
              (List.subset_append_right _ _)).trans hsub
            rw [show settingAllowed allowed s = false by
              cases s <;> first | rfl | exact absurd ⟨_, rfl⟩ hset] at h2
            exact ⟨_, h2⟩
    · left
      have := visit_whole (Nat.mod_lt _ (by decide)) hv (fun y' h' => hy ⟨y', h'⟩) hk
      rw [Nat.mod_add_mod] at this
      exact ⟨_, this.trans hsub⟩

theorem late_leading (c : Nat) (hc : c < M) (r : Report) (hr : r.kind = .lateSetting) :
    ∀ (b : Block) (term : Ctl), b.locs.Nodup → r ∈ (visitBlock c true term b).2 →
    r.loc ∉ b.leading
  | .nil, _, _, h => by simp [Block.leading]
  | .cons loc s rest, term, hn, h => by
    by_cases hset : ∃ own, s = .setting own
    · obtain ⟨own, rfl⟩ := hset
      rw [visitBlock] at h
      split at h
      · simp only [List.mem_singleton] at h
        rw [h] at hr
        cases hr
      · simp only [checkSetting, Bool.not_true, Bool.false_and, Bool.false_eq_true, if_false,
          visitStmt, List.nil_append, settingAllowed] at h
        simp only [Block.locs, Stmt.locs, List.nil_append, List.nodup_cons] at hn
        rw [Block.leading, List.mem_cons, not_or]
        refine ⟨?_, late_leading c hc r hr rest _ hn.2 h⟩
        obtain ⟨n, y, hs, hy⟩ := origin_block c hc r _ rest _ h
        rcases y with ⟨l, s⟩ | b' | a | a
        · have := sub_locs hs rfl rfl
          rw [← hy.1] at this
          intro he
          rw [he] at this
          exact hn.1 this
        · rcases b' with _ | ⟨_, _, _⟩
          · cases hy
          · rcases hy.2.2 with h' | h' <;> rw [hr] at h' <;> cases h'
        · rcases a with _ | _ | ⟨_, _, _, _⟩
          · cases hy
          · cases hy
          · rcases hy.2 with ⟨h', _⟩ | ⟨_, h', _⟩ <;> rw [hr] at h' <;> cases h'
        · cases hy
    · have : Block.leading (.cons loc s rest) = [] := by
        cases s <;> first | rfl | exact absurd ⟨_, rfl⟩ hset
      simp [this]

theorem sub_stmt {b n loc s} (h : Sub (.block b) n (.stmt loc s)) :
    ∃ rest, Sub (.block b) n (.block (.cons loc s rest)) := by
  generalize hy : Site.stmt loc s = y at h
  cases h with
  | self => cases hy
  | step hs hk =>
    subst hy
    cases hk
    exact ⟨_, by simpa using hs⟩

theorem dead_arms (c : Nat) {loc} {a : Arms} (h : a.Has loc) : ∀ all,
    ∃ r ∈ (visitArms c all true a).2, r.loc = loc ∧ (r.kind = .deadArm ∨ r.kind = .deadElse) := by
  induction h with
  | @here cond t body rest =>
    intro all
    rw [visitArms]
    exact ⟨⟨cond, .deadArm, cond :: body.locs⟩, by simp [deadArm], rfl, .inl rfl⟩
  | @els loc s rest =>
    intro all
    rw [visitArms]
    exact ⟨⟨loc, .deadElse, loc :: (s.locs ++ rest.locs)⟩, by simp [deadElse], rfl, .inr rfl⟩
  | later _ ih =>
    intro all
    rw [visitArms]
    obtain ⟨r, hr, h⟩ := ih _
    refine ⟨r, ?_, h⟩
    simp only [List.mem_append]
    exact .inr (.inr (.inr hr))

end Verif.Flow
