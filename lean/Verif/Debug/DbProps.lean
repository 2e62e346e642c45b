import Verif.Debug.Db

/-!
# C92: from lines to procs and back
-/

namespace Verif.Debug

/-! ## What is meant -/

/-- The definition of `path`/`name` that stands at `loc` has the number `k`: definitions are numbered in
order from 0, where builtin ones in front of all others take no number, unless the proc is one of those
that `stddef.dm` writes in DM. -/
def Numbered (path name : Text) (vs : List Loc) (k : Nat) (loc : Loc) : Prop :=
  ∃ skipped rest, vs = skipped ++ rest ∧
    (∀ x ∈ skipped, x.file = fileBuiltins ∧ path ++ '/' :: name ∉ stddefProcs) ∧
    (∀ x, rest.head? = some x → x.file ≠ fileBuiltins ∨ path ++ '/' :: name ∈ stddefProcs) ∧
    rest[k]? = some loc

/-- in the tree, definition number `k` of the proc `name` of the type `path` stands at `loc` -/
def Defines (t : Tree) (path name : Text) (k : Nat) (loc : Loc) : Prop :=
  ∃ ty ∈ t.types, ty.path = path ∧ ∃ vs, (name, vs) ∈ ty.procs ∧ Numbered path name vs k loc

/-- what the parser guarantees of a tree: paths are distinct (C33, C50), so are the procs of a type; names
have no slash; paths are empty or begin with a slash and do not end in `/proc` or `/verb` -/
structure Tree.WF (t : Tree) : Prop where
  paths : t.types.Pairwise (fun a b => a.path ≠ b.path)
  names : ∀ ty ∈ t.types, ty.procs.Pairwise (fun a b => a.1 ≠ b.1)
  noSlash : ∀ ty ∈ t.types, ∀ np ∈ ty.procs, '/' ∉ np.1
  rooted : ∀ ty ∈ t.types, ty.path = [] ∨ ∃ q, ty.path = '/' :: q
  noKind : ∀ ty ∈ t.types, ∀ w ∈ kindWords, ∀ q, ty.path ≠ q ++ '/' :: w

/-! ## Numbers -/

theorem numbered_iff (path name : Text) (vs : List Loc) (k : Nat) (loc : Loc) :
    Numbered path name vs k loc ↔ (counted (path ++ '/' :: name) vs)[k]? = some loc := by
  unfold counted Numbered
  generalize path ++ '/' :: name = pr
  constructor
  · rintro ⟨skipped, rest, rfl, h1, h2, h3⟩
    have : (skipped ++ rest).dropWhile (fun pv => pv.isBuiltins && !(stddefProcs.contains pr)) = rest := by
      clear h3
      induction skipped with
      | nil =>
        cases rest with
        | nil => rfl
        | cons x xs =>
          have := h2 x rfl
          rw [List.nil_append, List.dropWhile_cons_of_neg]
          simp only [Loc.isBuiltins, Bool.and_eq_true, beq_iff_eq, Bool.not_eq_true',
            List.contains_eq_mem, decide_eq_false_iff_not]
          rintro ⟨h, h'⟩
          rcases this with h'' | h''
          · exact h'' h
          · exact h' h''
      | cons x xs ih =>
        have := h1 x List.mem_cons_self
        rw [List.cons_append, List.dropWhile_cons_of_pos]
        · exact ih fun y hy => h1 y (List.mem_cons_of_mem _ hy)
        · simp [Loc.isBuiltins, this.1, this.2]
    rw [this]; exact h3
  · intro h
    refine ⟨vs.takeWhile (fun pv => pv.isBuiltins && !(stddefProcs.contains pr)), _,
      (List.takeWhile_append_dropWhile).symm, ?_, ?_, h⟩
    · intro x hx
      have : (fun pv : Loc => pv.isBuiltins && !(stddefProcs.contains pr)) x = true := by
        clear h
        induction vs with
        | nil => cases hx
        | cons y ys ih =>
          rw [List.takeWhile_cons] at hx
          split at hx
          · next hy =>
            rcases List.mem_cons.1 hx with rfl | hx
            · exact hy
            · exact ih hx
          · cases hx
      simpa [Loc.isBuiltins] using this
    · intro x hx
      have : ¬ (fun pv : Loc => pv.isBuiltins && !(stddefProcs.contains pr)) x = true := by
        clear h
        induction vs with
        | nil => cases hx
        | cons y ys ih =>
          rw [List.dropWhile_cons] at hx
          split at hx
          · exact ih hx
          · cases hx; assumption
      simp only [Loc.isBuiltins, Bool.and_eq_true, beq_iff_eq, Bool.not_eq_true',
        List.contains_eq_mem, decide_eq_false_iff_not, not_and, Classical.not_not] at this
      by_cases hf : x.file = fileBuiltins
      · exact .inr (this hf)
      · exact .inl hf

/-! ## Proc references -/

theorem splitSlash_ne (p : Text) : splitSlash p ≠ [] := by
  induction p with
  | nil => simp [splitSlash]
  | cons c cs ih =>
    rw [splitSlash]
    split
    · simp
    · split <;> simp

theorem splitSlash_noSlash (n : Text) (h : '/' ∉ n) : splitSlash n = [n] := by
  induction n with
  | nil => rfl
  | cons c cs ih =>
    have hc : c ≠ '/' := fun he => h (by simp [he])
    rw [splitSlash, if_neg hc, ih fun hm => h (List.mem_cons_of_mem _ hm)]

theorem splitSlash_append (p n : Text) (h : '/' ∉ n) :
    splitSlash (p ++ '/' :: n) = splitSlash p ++ [n] := by
  induction p with
  | nil => simp [splitSlash, splitSlash_noSlash n h]
  | cons c cs ih =>
    rw [List.cons_append, splitSlash, splitSlash, ih]
    split
    · simp
    · cases hs : splitSlash cs with
      | nil => exact absurd hs (splitSlash_ne _)
      | cons w ws => simp

theorem joinSlash_cons (w : Text) (ws : List Text) (h : ws ≠ []) :
    joinSlash (w :: ws) = w ++ '/' :: joinSlash ws := by
  cases ws with
  | nil => exact absurd rfl h
  | cons x xs => rfl

theorem joinSlash_splitSlash (p : Text) : joinSlash (splitSlash p) = p := by
  induction p with
  | nil => rfl
  | cons c cs ih =>
    rw [splitSlash]
    split
    · next h =>
      rw [joinSlash_cons _ _ (splitSlash_ne _), ih, h]; rfl
    · cases hs : splitSlash cs with
      | nil => exact absurd hs (splitSlash_ne _)
      | cons w ws =>
        rw [hs] at ih
        cases ws with
        | nil => simpa [joinSlash] using ih
        | cons x xs => simpa [joinSlash] using ih

theorem joinSlash_concat (ws : List Text) (w : Text) (h : ws ≠ []) :
    joinSlash (ws ++ [w]) = joinSlash ws ++ '/' :: w := by
  induction ws with
  | nil => exact absurd rfl h
  | cons x xs ih =>
    cases xs with
    | nil => rfl
    | cons y ys =>
      rw [List.cons_append, joinSlash_cons _ _ (by simp), ih (by simp),
        joinSlash_cons x (y :: ys) (by simp)]
      simp

/-- the last word of a path -/
theorem splitSlash_last (p w : Text) (h : (splitSlash p).getLast? = some w) :
    p = w ∨ ∃ q, p = q ++ '/' :: w := by
  obtain ⟨ws, hw⟩ := List.getLast?_eq_some_iff.1 h
  have := joinSlash_splitSlash p
  rw [hw] at this
  by_cases hn : ws = []
  · subst hn; exact .inl this.symm
  · rw [joinSlash_concat _ _ hn] at this
    exact .inr ⟨_, this.symm⟩

theorem splitProcRef_eq {t : Tree} (wf : t.WF) {ty : Ty} (ht : ty ∈ t.types) {n : Text} (hn : '/' ∉ n) :
    splitProcRef (ty.path ++ '/' :: n) = (ty.path, n) := by
  unfold splitProcRef
  simp only [splitSlash_append _ _ hn, List.getLast?_append, List.getLast?_singleton, Option.some_or,
    Option.getD_some, List.dropLast_concat]
  have : ¬ ((splitSlash ty.path).getLast?.any fun w => kindWords.contains w) = true := by
    intro h
    obtain ⟨w, hw, hk⟩ : ∃ w, (splitSlash ty.path).getLast? = some w ∧ kindWords.contains w = true := by
      cases hl : (splitSlash ty.path).getLast? with
      | none => rw [hl] at h; simp at h
      | some w => rw [hl] at h; exact ⟨w, rfl, h⟩
    have hk : w ∈ kindWords := by simpa using hk
    rcases splitSlash_last _ _ hw with h' | ⟨q, h'⟩
    · rcases wf.rooted ty ht with h'' | ⟨q, h''⟩
      · rw [h'] at h''; subst h''; simp [kindWords] at hk
      · rw [h'] at h''; subst h''; simp [kindWords] at hk
    · exact wf.noKind ty ht w hk q h'
  rw [if_neg this, joinSlash_splitSlash]

theorem find_of_mem {α : Type} {κ : Type} [BEq κ] [LawfulBEq κ] (key : α → κ) {l : List α}
    (h : l.Pairwise fun a b => key a ≠ key b) {x : α} (hx : x ∈ l) :
    l.find? (fun y => key y == key x) = some x := by
  induction l with
  | nil => cases hx
  | cons y ys ih =>
    rw [List.pairwise_cons] at h
    rcases List.mem_cons.1 hx with rfl | hx
    · rw [List.find?_cons_of_pos (p := fun y => key y == key x) (by simp)]
    · rw [List.find?_cons_of_neg (p := fun y => key y == key x) (by simpa using h.1 x hx)]
      exact ih h.2 hx

/-- **C92**: a proc is found by its path, a slash and its name: `get_proc` gives definition number `k`. -/
theorem getProc_iff {t : Tree} (wf : t.WF) {path name : Text} (hp : ∃ ty ∈ t.types, ty.path = path)
    (hn : '/' ∉ name) (k : Nat) (loc : Loc) :
    t.getProc (path ++ '/' :: name) k = some loc ↔ Defines t path name k loc := by
  obtain ⟨ty, ht, rfl⟩ := hp
  unfold Tree.getProc Tree.find
  rw [splitProcRef_eq wf ht hn]
  simp only
  rw [find_of_mem (fun ty : Ty => ty.path) wf.paths ht]
  simp only [Option.bind_some]
  constructor
  · intro h
    obtain ⟨np, h1, h2⟩ := Option.bind_eq_some_iff.1 h
    have hname : np.1 = name := by simpa using List.find?_some h1
    refine ⟨ty, ht, rfl, np.2, ?_, (numbered_iff ..).2 h2⟩
    rw [← hname]; exact List.mem_of_find?_eq_some h1
  · rintro ⟨ty', ht', he, vs, hv, h⟩
    have : ty' = ty := by
      have h1 := find_of_mem (fun ty : Ty => ty.path) wf.paths ht
      have h2 := find_of_mem (fun ty : Ty => ty.path) wf.paths ht'
      simp only [he] at h2
      exact Option.some.inj (h2.symm.trans h1)
    subst this
    have := find_of_mem (fun np : Text × List Loc => np.1) (wf.names ty' ht) hv
    rw [this]
    exact (numbered_iff ..).1 h

/-! ## Lines -/

theorem textLe_total (a b : Text) : (textLe a b || textLe b a) = true := by
  induction a generalizing b with
  | nil => simp [textLe]
  | cons x xs ih =>
    cases b with
    | nil => simp [textLe]
    | cons y ys =>
      have := ih ys
      simp only [textLe, Bool.or_eq_true, decide_eq_true_eq, Bool.and_eq_true, beq_iff_eq] at this ⊢
      rcases Nat.lt_trichotomy x.toNat y.toNat with h | h | h
      · exact .inl (.inl h)
      · rcases this with h' | h'
        · exact .inl (.inr ⟨h, h'⟩)
        · exact .inr (.inr ⟨h.symm, h'⟩)
      · exact .inr (.inl h)

theorem insertEntry_mem (e x : Entry) (l : List Entry) : x ∈ insertEntry e l ↔ x = e ∨ x ∈ l := by
  induction l with
  | nil => simp [insertEntry]
  | cons y ys ih =>
    rw [insertEntry]
    split
    · simp
    · simp only [List.mem_cons, ih]
      constructor
      · rintro (h | h | h) <;> simp [h]
      · rintro (h | h | h) <;> simp [h]

theorem sortEntries_mem (x : Entry) (l : List Entry) : x ∈ sortEntries l ↔ x ∈ l := by
  induction l with
  | nil => simp [sortEntries]
  | cons y ys ih => rw [sortEntries, insertEntry_mem, ih, List.mem_cons]

theorem insertEntry_sorted (e : Entry) (l : List Entry) (h : l.Pairwise fun a b => a.line ≤ b.line) :
    (insertEntry e l).Pairwise fun a b => a.line ≤ b.line := by
  induction l with
  | nil => simp [insertEntry]
  | cons y ys ih =>
    rw [List.pairwise_cons] at h
    rw [insertEntry]
    split
    · next he =>
      have : e.line ≤ y.line := by
        simp only [Entry.le, Bool.or_eq_true, decide_eq_true_eq, Bool.and_eq_true, beq_iff_eq] at he
        rcases he with h | ⟨h, -⟩ <;> omega
      refine List.pairwise_cons.2 ⟨?_, List.pairwise_cons.2 h⟩
      intro x hx
      rcases List.mem_cons.1 hx with rfl | hx
      · exact this
      · exact Nat.le_trans this (h.1 x hx)
    · next he =>
      have : y.line ≤ e.line := by
        simp only [Entry.le, Bool.or_eq_true, decide_eq_true_eq, Bool.and_eq_true, beq_iff_eq,
          not_or] at he
        omega
      refine List.pairwise_cons.2 ⟨?_, ih h.2⟩
      intro x hx
      rcases (insertEntry_mem ..).1 hx with rfl | hx
      · exact this
      · exact h.1 x hx

theorem sortEntries_sorted (l : List Entry) : (sortEntries l).Pairwise fun a b => a.line ≤ b.line := by
  induction l with
  | nil => simp [sortEntries]
  | cons y ys ih => exact insertEntry_sorted _ _ ih

theorem lines_mem (t : Tree) (f : Nat) (e : Entry) :
    e ∈ t.lines f ↔ Defines t e.path e.name e.ov ⟨f, e.line⟩ := by
  unfold Tree.lines
  rw [sortEntries_mem]
  simp only [List.mem_filterMap, List.mem_flatMap, Option.ite_none_right_eq_some, beq_iff_eq,
    Option.some.injEq, Ty.entries, List.mem_map]
  constructor
  · rintro ⟨fe, ⟨ty, ht, np, hnp, pi, hpi, rfl⟩, hf, rfl⟩
    refine ⟨ty, ht, rfl, np.2, hnp, (numbered_iff ..).2 ?_⟩
    have := (List.mk_mem_zipIdx_iff_getElem? (x := pi.1) (i := pi.2)).1 hpi
    rw [this, ← hf]
  · rintro ⟨ty, ht, hp, vs, hv, h⟩
    refine ⟨(f, e), ⟨ty, ht, (e.name, vs), hv, (⟨f, e.line⟩, e.ov), ?_, ?_⟩, rfl, rfl⟩
    · rw [← hp] at h
      exact List.mk_mem_zipIdx_iff_getElem?.2 ((numbered_iff ..).1 h)
    · simp only [hp]

/-- **C92**: the proc of a line is the one whose definition begins last, at or before that line, in that
file: a definition with the reported path, name and number begins there, and none begins after it up to
the line. -/
theorem location_some {t : Tree} {f line : Nat} {path name : Text} {k : Nat}
    (h : t.locationToProcRef f line = some (path, name, k)) :
    ∃ start, start ≤ line ∧ Defines t path name k ⟨f, start⟩ ∧
      ∀ path' name' k' start', Defines t path' name' k' ⟨f, start'⟩ → start' ≤ line → start' ≤ start := by
  obtain ⟨e, he, heq⟩ := Option.map_eq_some_iff.1 h
  cases heq
  have hl : e.line ≤ line := by simpa using List.find?_some he
  refine ⟨e.line, hl, (lines_mem ..).1 (List.mem_reverse.1 (List.mem_of_find?_eq_some he)), ?_⟩
  intro path' name' k' start' hd hle
  have hm : (⟨start', path', name', k'⟩ : Entry) ∈ (t.lines f).reverse :=
    List.mem_reverse.2 ((lines_mem ..).2 hd)
  have hs : (t.lines f).reverse.Pairwise fun a b => b.line ≤ a.line :=
    List.pairwise_reverse.2 (sortEntries_sorted _)
  obtain ⟨-, as, bs, hab, has⟩ := List.find?_eq_some_iff_append.1 he
  rw [hab] at hm hs
  rcases List.mem_append.1 hm with hm | hm
  · have := has _ hm
    simp only [Bool.not_eq_true', decide_eq_false_iff_not] at this
    exact absurd hle this
  · rcases List.mem_cons.1 hm with hm | hm
    · subst hm; exact Nat.le_refl _
    · exact (List.pairwise_cons.1 (List.pairwise_append.1 hs).2.1).1 _ hm

/-- **C92**: and a line has no proc exactly when no definition of the file begins at or before it. -/
theorem location_none {t : Tree} {f line : Nat} :
    t.locationToProcRef f line = none ↔
      ∀ path name k start, Defines t path name k ⟨f, start⟩ → line < start := by
  unfold Tree.locationToProcRef
  rw [Option.map_eq_none_iff, List.find?_eq_none]
  constructor
  · intro h path name k start hd
    have := h ⟨start, path, name, k⟩ (List.mem_reverse.2 ((lines_mem ..).2 hd))
    simpa using this
  · intro h e he
    have := h _ _ _ _ ((lines_mem ..).1 (List.mem_reverse.1 he))
    simpa using this

/-- **C92**: the proc of a line is the proc the stack trace finds under the same name and number, and it
is in the file of the line. -/
theorem location_getProc {t : Tree} (wf : t.WF) {f line : Nat} {path name : Text} {k : Nat}
    (h : t.locationToProcRef f line = some (path, name, k)) :
    ∃ start, start ≤ line ∧ t.getProc (path ++ '/' :: name) k = some ⟨f, start⟩ := by
  obtain ⟨start, h1, h2, -⟩ := location_some h
  refine ⟨start, h1, (getProc_iff wf ?_ ?_ _ _).2 h2⟩
  · obtain ⟨ty, ht, hp, -⟩ := h2; exact ⟨ty, ht, hp⟩
  · obtain ⟨ty, ht, hp, vs, hv, -⟩ := h2; exact wf.noSlash ty ht _ hv

/-! ## Files -/

theorem stripPrefix_append (r p : Path) : stripPrefix r (r ++ p) = some p := by
  induction r with
  | nil => rfl
  | cons a as ih => simp [stripPrefix, ih]

/-- the files are registered once each (C07) -/
def Db.Files (db : Db) : Prop := db.files.Pairwise (· ≠ ·)

theorem getId_getPath {db : Db} (hf : db.Files) {f : Nat} {p : Path} (h : db.getPath f = some p) :
    db.getId p = some f := by
  unfold Db.getPath at h
  split at h
  · cases h
  · next h0 =>
    unfold Db.getId
    obtain ⟨hlt, hp⟩ := List.getElem?_eq_some_iff.1 h
    have : db.files.findIdx? (· == p) = some (f - 1) := by
      rw [List.findIdx?_eq_some_iff_getElem]
      refine ⟨hlt, by simp [hp], ?_⟩
      intro j hj
      have := List.pairwise_iff_getElem.1 hf j (f - 1) (by omega) hlt hj
      rw [hp] at this
      simpa using this
    rw [this]
    simp only [Option.map_some, Option.some.injEq]
    omega

/-! ## Instructions and lines -/

/-- the instruction says that line `n` begins -/
def Instr.Begins (i : Instr) (n : Int) : Prop := i.mnemonic = dbgLineno ∧ parseLineno i.comment = some n

/-- **C92**: a breakpoint on a line is put on the first instruction that begins the line. -/
theorem lineToOffset_iff (bc : List Instr) (line off : Int) :
    lineToOffset bc line = some off ↔
      ∃ before i after, bc = before ++ i :: after ∧ i.Begins line ∧ i.offset = off ∧
        ∀ j ∈ before, ¬ j.Begins line := by
  induction bc with
  | nil => simp [lineToOffset]
  | cons x xs ih =>
    rw [lineToOffset]
    split
    · next h =>
      constructor
      · intro h'; cases h'
        exact ⟨[], x, xs, rfl, h, rfl, nofun⟩
      · rintro ⟨before, i, after, he, hb, ho, hn⟩
        cases before with
        | nil => cases he; rw [ho]
        | cons y ys => cases he; exact absurd h (hn x List.mem_cons_self)
    · next h =>
      rw [ih]
      constructor
      · rintro ⟨before, i, after, rfl, hb, ho, hn⟩
        refine ⟨x :: before, i, after, rfl, hb, ho, ?_⟩
        intro j hj
        rcases List.mem_cons.1 hj with rfl | hj
        · exact h
        · exact hn j hj
      · rintro ⟨before, i, after, he, hb, ho, hn⟩
        cases before with
        | nil => cases he; exact absurd hb h
        | cons y ys =>
          cases he
          exact ⟨ys, i, after, rfl, hb, ho, fun j hj => hn j (List.mem_cons_of_mem _ hj)⟩

theorem lineToOffset_none (bc : List Instr) (line : Int) :
    lineToOffset bc line = none ↔ ∀ i ∈ bc, ¬ i.Begins line := by
  induction bc with
  | nil => simp [lineToOffset]
  | cons x xs ih =>
    rw [lineToOffset]
    split
    · next h => simp only [reduceCtorEq, false_iff]; exact fun h' => h' x List.mem_cons_self h
    · next h =>
      rw [ih]
      constructor
      · intro h' i hi
        rcases List.mem_cons.1 hi with rfl | hi
        · exact h
        · exact h' i hi
      · exact fun h' i hi => h' i (List.mem_cons_of_mem _ hi)

theorem offsetToLineGo_none {off : Int} {xs : List Instr} {c : Text} (h : ∀ j ∈ xs, j.offset < off) :
    offsetToLineGo off c xs = none := by
  induction xs generalizing c with
  | nil => rfl
  | cons x xs ih =>
    have hx := h x List.mem_cons_self
    rw [offsetToLineGo, if_neg (by omega)]
    exact ih fun j hj => h j (List.mem_cons_of_mem _ hj)

/-- the text of the last line instruction -/
def lastComment (c : Text) : List Instr → Text
  | [] => c
  | i :: is => lastComment (if i.mnemonic = dbgLineno then i.comment else c) is

theorem offsetToLineGo_eq {off : Int} {xs : List Instr} {i : Instr} {after : List Instr} {c : Text}
    (h : ∀ j ∈ xs, j.offset < off) (hi : off ≤ i.offset) :
    offsetToLineGo off c (xs ++ i :: after) = parseLineno (lastComment c (xs ++ [i])) := by
  induction xs generalizing c with
  | nil =>
    rw [List.nil_append, offsetToLineGo]
    simp only [ge_iff_le, hi, if_true]
    rfl
  | cons x xs ih =>
    have hx := h x List.mem_cons_self
    rw [List.cons_append, offsetToLineGo, if_neg (by omega), ih fun j hj => h j (List.mem_cons_of_mem _ hj)]
    rfl

/-- instructions stand in the order of their offsets -/
def Ordered (bc : List Instr) : Prop := bc.Pairwise fun a b => a.offset < b.offset

/-- **C92**: the line of an offset is the line that the last line instruction up to it begins. -/
theorem offsetToLine_of {bc before after : List Instr} {i : Instr} (ho : Ordered bc)
    (hb : bc = before ++ i :: after) :
    offsetToLine bc i.offset = parseLineno (lastComment [] (before ++ [i])) := by
  subst hb
  refine offsetToLineGo_eq ?_ (Int.le_refl _)
  intro j hj
  exact (List.pairwise_append.1 ho).2.2 j hj i List.mem_cons_self

theorem lastComment_append (c : Text) (a b : List Instr) :
    lastComment c (a ++ b) = lastComment (lastComment c a) b := by
  induction a generalizing c with
  | nil => rfl
  | cons x xs ih => rw [List.cons_append, lastComment, ih]; rfl

theorem lastComment_none (c : Text) (b : List Instr) (h : ∀ j ∈ b, j.mnemonic ≠ dbgLineno) :
    lastComment c b = c := by
  induction b generalizing c with
  | nil => rfl
  | cons x xs ih =>
    rw [lastComment, if_neg (h x List.mem_cons_self)]
    exact ih _ fun j hj => h j (List.mem_cons_of_mem _ hj)

/-- **C92**: between the instruction that begins line `n` and the next line instruction, every offset is on
line `n`. -/
theorem offsetToLine_within {bc before mid after : List Instr} {i j : Instr} {n : Int} (ho : Ordered bc)
    (hb : bc = before ++ i :: mid ++ j :: after) (hi : i.Begins n)
    (hm : ∀ x ∈ mid, x.mnemonic ≠ dbgLineno) (hj : j.mnemonic ≠ dbgLineno) :
    offsetToLine bc j.offset = some n := by
  rw [offsetToLine_of ho hb, show before ++ i :: mid ++ [j] = (before ++ [i]) ++ (mid ++ [j]) by simp,
    lastComment_append, lastComment_none _ (mid ++ [j]), lastComment_append]
  · simp only [lastComment, hi.1, if_true]; exact hi.2
  · intro x hx
    rcases List.mem_append.1 hx with hx | hx
    · exact hm x hx
    · rw [List.mem_singleton.1 hx]; exact hj

/-- **C92**: the place where a breakpoint of a line was put is shown as that line. -/
theorem lineToOffset_offsetToLine {bc : List Instr} {line off : Int} (ho : Ordered bc)
    (h : lineToOffset bc line = some off) : offsetToLine bc off = some line := by
  obtain ⟨before, i, after, hb, hi, rfl, -⟩ := (lineToOffset_iff ..).1 h
  rw [offsetToLine_of ho hb, lastComment_append]
  simp only [lastComment, hi.1, if_true]; exact hi.2

/-- **C92**: a frame stopped at a breakpoint is shown in the file and on the line on which the breakpoint
was set, and that file is accepted for further breakpoints. -/
theorem frame_at_breakpoint {db : Db} (wf : db.tree.WF) (hf : db.Files) {stddef : Option Tree}
    {bc : List Instr} (ho : Ordered bc) {f line k : Nat} {p : Path} {path name : Text} {off : Int}
    (hp : db.getPath f = some p)
    (hl : db.tree.locationToProcRef f line = some (path, name, k))
    (hoff : lineToOffset bc line = some off) :
    db.frame stddef bc ⟨path ++ '/' :: name, k, off⟩ = (Source.file (db.root ++ p), (line : Int)) ∧
      db.fileId (db.root ++ p) = some f := by
  obtain ⟨start, -, hg⟩ := location_getProc wf hl
  have h0 : f ≠ 0 := by
    intro h; subst h; simp [Db.getPath] at hp
  constructor
  · unfold Db.frame
    simp only [hg, lineToOffset_offsetToLine ho hoff, Loc.isBuiltins, fileBuiltins, beq_iff_eq, h0,
      if_false, hp, Option.getD_some]
  · unfold Db.fileId
    rw [stripPrefix_append]
    exact getId_getPath hf hp

/-- **C92**: a frame in a proc of `stddef.dm` is shown there, if its text is known, on the line that the
offset stands for or else where the proc starts; a frame in a proc that is not in the object tree, or whose
definition is builtin without a known text, has no source. -/
theorem frame_stddef {db : Db} {stddef : Option Tree} {bc : List Instr} {fr : ExFrame} :
    (∀ loc t l, db.tree.getProc fr.proc fr.ov = some loc → loc.file = 0 → stddef = some t →
      t.getProc fr.proc fr.ov = some l →
      db.frame stddef bc fr = (.stddef, (offsetToLine bc fr.offset).getD l.line)) ∧
    (∀ loc, db.tree.getProc fr.proc fr.ov = some loc → loc.file = 0 → stddef = none →
      db.frame stddef bc fr = (.none, (offsetToLine bc fr.offset).getD 0)) ∧
    (db.tree.getProc fr.proc fr.ov = none →
      db.frame stddef bc fr = (.none, (offsetToLine bc fr.offset).getD 0)) := by
  refine ⟨?_, ?_, ?_⟩
  · rintro loc t l h1 h2 rfl h3
    unfold Db.frame
    simp only [h1, Loc.isBuiltins, h2, fileBuiltins, beq_self_eq_true, if_true, Option.bind_some, h3]
    cases offsetToLine bc fr.offset <;> rfl
  · rintro loc h1 h2 rfl
    unfold Db.frame
    simp only [h1, Loc.isBuiltins, h2, fileBuiltins, beq_self_eq_true, if_true, Option.bind_none]
    cases offsetToLine bc fr.offset <;> rfl
  · intro h1
    unfold Db.frame
    simp only [h1]
    cases offsetToLine bc fr.offset <;> rfl

end Verif.Debug
