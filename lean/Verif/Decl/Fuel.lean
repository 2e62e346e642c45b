import Verif.Decl.Spec

/-!
# The parser of declarations ends
-/

namespace Verif.Decl

open Verif.Objtree (Ident)

variable {E C : Type}

theorem terminator_le {ts r : List Tok} (h : terminator ts = some r) : r.length ≤ ts.length := by
  unfold terminator at h
  split at h <;> cases h <;> simp

theorem operatorName_le {last last' : Ident} {ts r : List Tok} (h : operatorName last ts = some (last', r)) :
    r.length ≤ ts.length := by
  unfold operatorName at h
  split at h
  · split at h
    · cases h; simp; omega
    · cases h; simp; omega
    · cases h
    · cases h; simp
    · split at h
      · cases h; simp
      · split at h <;> cases h <;> simp
    · cases h; simp
  · cases h; simp

theorem suffixIf_le {X : Parsers E C} {b : Bool} {ts r : List Tok} {es : List (Option E)}
    (h : suffixIf X b ts = some (es, r)) : r.length ≤ ts.length := by
  unfold suffixIf at h
  split at h
  · exact varSuffix_le _ _ _ _ (Nat.le_refl _) h
  · cases h; exact Nat.le_refl _

theorem entryHead_lt {X : Parsers E C} {v v' : Env E C} {pos pos' : Pos} {ts r : List Tok} {last : Ident}
    {suf : List (Option E)} {ds : List Diag} (h : entryHead X v pos ts = .at v' pos' last suf r ds) :
    r.length < ts.length := by
  unfold entryHead at h
  split at h
  · cases h
  · rename_i hp
    have h1 := treePath_lt hp
    split at h
    · cases h
    · split at h
      · cases h
      · split at h
        · cases h
        · rename_i ho
          have h2 := operatorName_le ho
          split at h
          · cases h
          · rename_i hs
            have h3 := suffixIf_le hs
            cases h
            omega

theorem entryHead_empty_lt {X : Parsers E C} {v : Env E C} {pos : Pos} {ts r : List Tok} {ds : List Diag}
    (h : entryHead X v pos ts = .empty r ds) : r.length < ts.length := by
  unfold entryHead at h
  split at h
  · cases h
  · rename_i hp
    have h1 := treePath_lt hp
    split at h
    · cases h; exact h1
    · split at h
      · cases h
      · split at h
        · cases h
        · split at h
          · cases h
          · cases h

theorem assignEntry_le {X : Parsers E C} {v v' : Env E C} {pos : Pos} {last : Ident} {suf : List (Option E)}
    {ts r : List Tok} {ds ds' : List Diag} (h : assignEntry X v pos last suf ts ds = .ok v' r ds') :
    r.length ≤ ts.length := by
  unfold assignEntry at h
  split at h
  · cases h
  · cases h
  · rename_i hx
    have h1 := X.expr_takes _ _ _ hx
    split at h
    · cases h
    · rename_i hi
      have h2 := inputSpec_le hi
      split at h
      · cases h
      · rename_i ht
        have h3 := terminator_le ht
        split at h
        · split at h
          · cases h
          · cases h; omega
        · split at h
          · cases h
          · cases h; omega

theorem procParams_le {X : Parsers E C} (k : Nat) : ∀ (legal : Bool) (ts r : List Tok) (ps : List (Param E))
    (ds : List Diag), ts.length ≤ k → procParams X legal ts = some (ps, r, ds) → r.length ≤ ts.length := by
  induction k with
  | zero =>
    intro legal ts r ps ds hk h
    have : ts = [] := by cases ts <;> simp_all
    subst this
    rw [procParams] at h
    · split at h
      · cases h
      · split at h
        · cases h
        · rename_i hp
          have := procParam_lt hp
          simp at this
    · simp
    · simp
  | succ k ih =>
    intro legal ts r ps ds hk h
    rw [procParams.eq_def] at h
    split at h
    · cases h; simp
    · split at h
      · simp only [List.length_cons] at hk ⊢
        have := ih _ _ _ _ _ (by omega) h
        omega
      · cases h
    · split at h
      · cases h
      · split at h
        · cases h
        · rename_i hp
          have h1 := procParam_lt hp
          simp only at h
          split at h
          · cases h
          · rename_i hr
            have := ih _ _ _ _ _ (by omega) hr
            cases h
            omega

theorem retPath_le (k : Nat) : ∀ (ts r : List Tok) (p : List Ident), ts.length ≤ k → retPath ts = some (p, r) →
    r.length ≤ ts.length := by
  induction k with
  | zero =>
    intro ts r p hk h
    have : ts = [] := by cases ts <;> simp_all
    subst this
    simp [retPath] at h
    simp [h.2]
  | succ k ih =>
    intro ts r p hk h
    rw [retPath.eq_def] at h
    split at h
    · split at h
      · cases h
      · rename_i hr
        simp only [List.length_cons] at hk ⊢
        have := ih _ _ _ (by omega) hr
        cases h
        omega
    · cases h
    · cases h; exact Nat.le_refl _

theorem inputType_le {ts r : List Tok} {t : InTy} {ds : List Diag} (h : inputType ts = some (some (t, r, ds))) :
    r.length ≤ ts.length := by
  unfold inputType at h
  split at h
  · cases h; simp; omega
  · cases h
  · split at h
    · cases h
    · rename_i hl
      cases h
      have := inputLoop_le _ _ _ _ _ (Nat.le_refl _) hl
      simp
      omega
  · cases h

theorem returnType_le {decl : Option ProcB} {ts r : List Tok} {t : Option Ret} {ds : List Diag}
    (h : returnType decl ts = some (t, r, ds)) : r.length ≤ ts.length := by
  unfold returnType at h
  split at h
  · split at h
    · simp only at h
      split at h
      · cases h
      · rename_i hi
        have := inputType_le hi
        cases h
        simp; omega
      · split at h
        · split at h
          · cases h
          · rename_i hr
            have := retPath_le _ _ _ _ (Nat.le_refl _) hr
            cases h
            simp; omega
        · cases h
    · cases h; exact Nat.le_refl _
  · cases h; exact Nat.le_refl _

theorem lineBody_le (k : Nat) : ∀ (ts b r : List Tok), ts.length ≤ k → lineBody ts = some (b, r) →
    r.length ≤ ts.length := by
  induction k with
  | zero =>
    intro ts b r hk h
    have : ts = [] := by cases ts <;> simp_all
    subst this
    rw [lineBody] at h
    simp [terminator] at h
    split at h
    · cases h
    · rename_i hr
      simp [readTT] at hr
  | succ k ih =>
    intro ts b r hk h
    rw [lineBody] at h
    split at h
    · rename_i ht
      cases h
      exact terminator_le ht
    · split at h
      · cases h
      · rename_i hr
        have h1 := readTT_lt hr
        simp only at h
        split at h
        · cases h
        · rename_i hl
          have := ih _ _ _ (by omega) hl
          cases h
          omega

theorem procBody_le {ts b r : List Tok} (h : procBody ts = some (b, r)) : r.length ≤ ts.length := by
  unfold procBody at h
  split at h
  · rename_i ht
    cases h
    exact terminator_le ht
  · split at h
    · split at h
      · cases h
      · rename_i hg
        have := groupLoop_le _ _ _ _ hg
        cases h
        simp; omega
    · exact lineBody_le _ _ _ _ (Nat.le_refl _) h

theorem procEntry_le {X : Parsers E C} {v v' : Env E C} {pos : Pos} {last : Ident}
    {ts r : List Tok} {ds ds' : List Diag} (h : procEntry X v pos last ts ds = .ok v' r ds') :
    r.length ≤ ts.length := by
  unfold procEntry at h
  split at h
  · cases h
  · rename_i hr
    split at h
    · cases h
    · cases h
      unfold procRest at hr
      split at hr
      · cases hr
      · rename_i hp
        have h1 := procParams_le _ _ _ _ _ _ (Nat.le_refl _) hp
        split at hr
        · cases hr
        · rename_i ht
          have h2 := returnType_le ht
          split at hr
          · cases hr
          · rename_i hb
            have h3 := procBody_le hb
            cases hr
            omega

theorem bareVar_le {X : Parsers E C} {v v' : Env E C} {cur : Nat} {vt : VarTy} {last : Ident} {suf : List (Option E)}
    {ts r : List Tok} {ds ds' : List Diag} (h : bareVar X v cur vt last suf ts ds = .ok v' r ds') :
    r.length ≤ ts.length := by
  unfold bareVar at h
  split at h
  · cases h
  · rename_i hi
    have h2 := inputSpec_le hi
    split at h
    · cases h; exact h2
    · split at h
      · cases h; exact h2
      · split at h
        · cases h
        · cases h; exact h2

theorem bareEntry_le {v v' : Env E C} {pos : Pos} {last : Ident}
    {ts r : List Tok} {ds ds' : List Diag} (h : bareEntry v pos last ts ds = .ok v' r ds') :
    r.length ≤ ts.length := by
  unfold bareEntry at h
  split at h
  · cases h; exact Nat.le_refl _
  · split at h
    · cases h; exact Nat.le_refl _
    · split at h
      · cases h; exact Nat.le_refl _
      · split at h
        · cases h
        · cases h; exact Nat.le_refl _

/-- what an entry takes -/
theorem takes (X : Parsers E C) (f : Nat) :
    (∀ pos inner v ts ds v' r ds', treeEntries X f pos inner v ts ds = .ok v' r ds' → r.length ≤ ts.length) ∧
    (∀ pos v ts ds v' r ds', treeEntry X f pos v ts ds = .ok v' r ds' → r.length < ts.length) := by
  induction f with
  | zero => exact ⟨fun _ _ _ _ _ _ _ _ h => by simp [treeEntries] at h, fun _ _ _ _ _ _ _ h => by simp [treeEntry] at h⟩
  | succ f ih =>
    constructor
    · intro pos inner v ts ds v' r ds' h
      rw [treeEntries.eq_def] at h
      simp only at h
      split at h
      · split at h
        · cases h
        · cases h; simp
      · have := ih.1 _ _ _ _ _ _ _ _ h
        simp; omega
      · split at h
        · cases h; simp
        · split at h
          · rename_i he
            have h1 := ih.2 _ _ _ _ _ _ _ he
            have h2 := ih.1 _ _ _ _ _ _ _ _ h
            omega
          · cases h
          · rename_i hne _
            exact absurd h (hne _ _ _)
    · intro pos v ts ds v' r ds' h
      rw [treeEntry] at h
      split at h
      · cases h
      · cases h
      · cases h
      · rename_i he
        cases h
        exact entryHead_empty_lt he
      · rename_i he
        have h1 := entryHead_lt he
        split at h
        · split at h
          · cases h
          · have := ih.1 _ _ _ _ _ _ _ _ h
            simp at h1; omega
        · have := assignEntry_le h
          simp at h1; omega
        · have := procEntry_le h
          simp at h1; omega
        · split at h
          · have := bareVar_le h
            omega
          · have := bareEntry_le h
            omega

theorem assignEntry_fuel {X : Parsers E C} {v : Env E C} {pos : Pos} {last : Ident} {suf : List (Option E)}
    {ts : List Tok} {ds : List Diag} : assignEntry X v pos last suf ts ds ≠ .fuel := by
  unfold assignEntry
  split
  · simp
  · simp
  · split
    · simp
    · split
      · simp
      · split <;> split <;> simp

theorem procEntry_fuel {X : Parsers E C} {v : Env E C} {pos : Pos} {last : Ident}
    {ts : List Tok} {ds : List Diag} : procEntry X v pos last ts ds ≠ .fuel := by
  unfold procEntry
  split
  · simp
  · split <;> simp

theorem bareVar_fuel {X : Parsers E C} {v : Env E C} {cur : Nat} {vt : VarTy} {last : Ident} {suf : List (Option E)}
    {ts : List Tok} {ds : List Diag} : bareVar X v cur vt last suf ts ds ≠ .fuel := by
  unfold bareVar
  split
  · simp
  · split
    · simp
    · split
      · simp
      · split <;> simp

theorem bareEntry_fuel {v : Env E C} {pos : Pos} {last : Ident} {ts : List Tok} {ds : List Diag} :
    bareEntry v pos last ts ds ≠ .fuel := by
  unfold bareEntry
  split
  · simp
  · split
    · simp
    · split
      · simp
      · split <;> simp

/-- fuel for twice the tokens is enough -/
theorem enough (X : Parsers E C) (f : Nat) :
    (∀ pos inner v ts ds, 2 * ts.length + 1 ≤ f → treeEntries X f pos inner v ts ds ≠ .fuel) ∧
    (∀ pos v ts ds, 2 * ts.length ≤ f → ts ≠ [] → treeEntry X f pos v ts ds ≠ .fuel) := by
  induction f with
  | zero =>
    refine ⟨fun _ _ _ _ _ h => by omega, fun _ _ ts _ h hn => ?_⟩
    have := List.length_pos_iff.2 hn
    omega
  | succ f ih =>
    constructor
    · intro pos inner v ts ds hf h
      rw [treeEntries.eq_def] at h
      simp only at h
      split at h
      · split at h <;> cases h
      · simp only [List.length_cons] at hf
        exact ih.1 _ _ _ _ _ (by omega) h
      · rename_i t rest _
        split at h
        · cases h
        · split at h
          · rename_i he
            have h1 := (takes X f).2 _ _ _ _ _ _ _ he
            exact ih.1 _ _ _ _ _ (by simp only [List.length_cons] at *; omega) h
          · cases h
          · exact ih.2 _ _ _ _ (by simp only [List.length_cons] at *; omega) (by simp) h
    · intro pos v ts ds hf hn h
      rw [treeEntry] at h
      split at h
      · cases h
      · cases h
      · cases h
      · cases h
      · rename_i he
        have h1 := entryHead_lt he
        split at h
        · split at h
          · cases h
          · exact ih.1 _ _ _ _ _ (by simp only [List.length_cons] at *; omega) h
        · exact assignEntry_fuel h
        · exact procEntry_fuel h
        · split at h
          · exact bareVar_fuel h
          · exact bareEntry_fuel h

/-- more fuel changes nothing -/
theorem mono (X : Parsers E C) (f : Nat) :
    (∀ g pos inner v ts ds, f ≤ g → treeEntries X f pos inner v ts ds ≠ .fuel →
      treeEntries X g pos inner v ts ds = treeEntries X f pos inner v ts ds) ∧
    (∀ g pos v ts ds, f ≤ g → treeEntry X f pos v ts ds ≠ .fuel →
      treeEntry X g pos v ts ds = treeEntry X f pos v ts ds) := by
  induction f with
  | zero =>
    exact ⟨fun _ _ _ _ _ _ _ h => by simp [treeEntries] at h, fun _ _ _ _ _ _ h => by simp [treeEntry] at h⟩
  | succ f ih =>
    constructor
    · intro g pos inner v ts ds hg h
      obtain ⟨g, rfl⟩ : ∃ g', g = g' + 1 := ⟨g - 1, by omega⟩
      have hg : f ≤ g := by omega
      rcases ts with - | ⟨t, rest⟩
      · rw [treeEntries, treeEntries]
      · by_cases hs : t = .semi
        · subst hs
          rw [treeEntries] at h
          rw [treeEntries, treeEntries]
          exact ih.1 _ _ _ _ _ _ hg h
        · rw [treeEntries] at h
          swap
          · intro h'; exact hs h'
          rw [treeEntries, treeEntries]
          · split
            · rfl
            · rename_i hc
              rw [if_neg hc] at h
              have h1 : treeEntry X f pos v (t :: rest) ds ≠ .fuel := by
                intro h'
                rw [h'] at h
                exact h rfl
              rw [ih.2 _ _ _ _ _ hg h1]
              split
              · rename_i he
                rw [he] at h
                exact ih.1 _ _ _ _ _ _ hg h
              · rfl
              · rfl
          · intro h'; exact hs h'
          · intro h'; exact hs h'
    · intro g pos v ts ds hg h
      obtain ⟨g, rfl⟩ : ∃ g', g = g' + 1 := ⟨g - 1, by omega⟩
      have hg : f ≤ g := by omega
      rw [treeEntry] at h
      rw [treeEntry, treeEntry]
      cases he : entryHead X v pos ts with
      | «at» v' pos' last suf r ds' =>
        rw [he] at h
        simp only at h ⊢
        split
        · split
          · rfl
          · rename_i hs
            rw [hs] at h
            exact ih.1 _ _ _ _ _ _ hg h
        · rfl
        · rfl
        · rfl
      | _ => rfl

/-- `tree_entries` with fuel that is enough -/
def entries (X : Parsers E C) (pos : Pos) (inner : Bool) (v : Env E C) (ts : List Tok) (ds : List Diag) : Out E C :=
  treeEntries X (2 * ts.length + 1) pos inner v ts ds

/-- `tree_entry` with fuel that is enough -/
def entry (X : Parsers E C) (pos : Pos) (v : Env E C) (ts : List Tok) (ds : List Diag) : Out E C :=
  treeEntry X (2 * ts.length) pos v ts ds

theorem treeEntries_eq (X : Parsers E C) {f : Nat} {pos : Pos} {inner : Bool} {v : Env E C} {ts : List Tok}
    {ds : List Diag} (hf : 2 * ts.length + 1 ≤ f) : treeEntries X f pos inner v ts ds = entries X pos inner v ts ds :=
  (mono X _).1 _ _ _ _ _ _ hf ((enough X _).1 _ _ _ _ _ (Nat.le_refl _))

theorem treeEntry_eq (X : Parsers E C) {f : Nat} {pos : Pos} {v : Env E C} {ts : List Tok}
    {ds : List Diag} (hn : ts ≠ []) (hf : 2 * ts.length ≤ f) : treeEntry X f pos v ts ds = entry X pos v ts ds :=
  (mono X _).2 _ _ _ _ _ hf ((enough X _).2 _ _ _ _ (Nat.le_refl _) hn)

theorem entries_nil (X : Parsers E C) (pos : Pos) (inner : Bool) (v : Env E C) (ds : List Diag) :
    entries X pos inner v [] ds = if inner then .afterEof else .ok v [] ds := by
  unfold entries
  rw [treeEntries]

theorem entries_semi (X : Parsers E C) (pos : Pos) (inner : Bool) (v : Env E C) (rest : List Tok) (ds : List Diag) :
    entries X pos inner v (.semi :: rest) ds = entries X pos inner v rest ds := by
  unfold entries
  rw [treeEntries]
  exact treeEntries_eq X (by simp only [List.length_cons]; omega)

theorem entries_close (X : Parsers E C) (pos : Pos) (v : Env E C) (rest : List Tok) (ds : List Diag) :
    entries X pos true v (.rbrace :: rest) ds = .ok v rest ds := by
  unfold entries
  rw [treeEntries]
  · simp
  · simp

theorem entries_cons (X : Parsers E C) (pos : Pos) (inner : Bool) (v : Env E C) (t : Tok) (rest : List Tok)
    (ds : List Diag) (ht : t ≠ .semi) (hb : ¬ (inner = true ∧ t = .rbrace)) :
    entries X pos inner v (t :: rest) ds =
      match entry X pos v (t :: rest) ds with
      | .ok v' r ds' => entries X pos inner v' r ds'
      | .nothing => .fail v ds
      | o => o := by
  conv_lhs => unfold entries
  rw [treeEntries]
  · rw [if_neg hb, treeEntry_eq X (by simp) (by simp)]
    cases he : entry X pos v (t :: rest) ds with
    | ok v' r ds' =>
      have := (takes X _).2 _ _ _ _ _ _ _ he
      exact treeEntries_eq X (by simp only [List.length_cons] at *; omega)
    | _ => rfl
  · intro h; exact ht h

theorem entry_eq (X : Parsers E C) (pos : Pos) (v : Env E C) (ts : List Tok) (ds : List Diag) (hn : ts ≠ []) :
    entry X pos v ts ds =
      match entryHead X v pos ts with
      | .nothing => .nothing
      | .fail v' ds' => .fail v' (ds ++ ds')
      | .panic => .panic
      | .empty r ds' => .ok v r (ds ++ ds')
      | .at v' pos' last suf r ds' =>
        match r with
        | .lbrace :: r' =>
          match step v' pos' last with
          | none => .panic
          | some (v'', pos'', ds'') => entries X pos'' true v'' r' (ds ++ ds' ++ ds'')
        | .assign :: r' => assignEntry X v' pos' last suf r' (ds ++ ds')
        | .lparen :: r' => procEntry X v' pos' last r' (ds ++ ds')
        | r =>
          match pos'.vt with
          | some vt => bareVar X v' pos'.cur vt last suf r (ds ++ ds')
          | none => bareEntry v' pos' last r (ds ++ ds') := by
  have := List.length_pos_iff.2 hn
  conv_lhs => unfold entry
  obtain ⟨k, hk⟩ : ∃ k, 2 * ts.length = k + 1 := ⟨2 * ts.length - 1, by omega⟩
  rw [hk, treeEntry]
  cases he : entryHead X v pos ts with
  | «at» v' pos' last suf r ds' =>
    have h1 := entryHead_lt he
    rcases r with - | ⟨t, r'⟩
    · rfl
    · cases t with
      | lbrace =>
        simp only
        cases hs : step v' pos' last with
        | none => rfl
        | some w => exact treeEntries_eq X (by simp only [List.length_cons] at *; omega)
      | _ => rfl
  | _ => rfl

theorem run_eq (X : Parsers E C) (v : Env E C) (ts : List Tok) : run X v ts = entries X .root false v ts [] := rfl

end Verif.Decl
