import Verif.Debug.Frames
import Verif.Debug.DbProps

/-!
# C93: frames, scopes and variables stand for what they say
-/

namespace Verif.Debug

/-! ## Specification -/

/-- frame `i` of thread `t` -/
def FrameAt (ts : Threads) (t i : Nat) (f : Frame) : Prop := ∃ st, ts[t]? = some st ∧ st[i]? = some f

/-- the id that the adapter gives to frame `i` of thread `t` (as `StackTrace` tells it) -/
def GivenId (ts : Threads) (t i : Nat) (id : Int) : Prop :=
  ∃ rows row, stackTrace ts t = .ok rows ∧ rows[i]? = some row ∧ row.id = id

/-- the references that `Scopes` gives for a frame id -/
def GivenScopes (ts : Threads) (id locals args globals : Int) : Prop :=
  ∃ l, scopes ts id = .ok l ∧ l.map (fun s => (s.name, s.ref)) =
    [(nLocals, locals), (nArguments, args), (nGlobals, globals)]

/-- how often `n` is among the names before the `i`-th -/
def before (names : List Text) (i : Nat) (n : Text) : Nat := (names.take i).count n

/-- a name of the language: it does not start with a digit and has none of `#`, `[`, `.` -/
structure Ident (n : Text) : Prop where
  start : ∀ c, n.head? = some c → c.isDigit = false
  nonempty : n ≠ []
  noHash : '#' ∉ n
  noBracket : '[' ∉ n
  noDot : '.' ∉ n

/-! ## Frames -/

theorem stackTrace_rows {ts : Threads} {t : Nat} {rows : List FrameRow} :
    stackTrace ts t = .ok rows ↔ ∃ st, ts[t]? = some st ∧ rows.length = st.length ∧
      ∀ (i : Nat) (f : Frame), st[i]? = some f →
        rows[i]? = some ⟨f.proc, (i * ts.length + t : Nat), pointerOf f⟩ := by
  unfold stackTrace
  rw [if_neg (by omega)]
  simp only [Int.toNat_natCast]
  cases h : ts[t]? with
  | none => simp
  | some st =>
    simp only [Out.ok.injEq, Option.some.injEq]
    constructor
    · rintro rfl
      refine ⟨st, rfl, by simp, fun i f hf => ?_⟩
      simp [hf]
    · rintro ⟨st', rfl, hl, hr⟩
      apply List.ext_getElem?
      intro i
      cases hi : st[i]? with
      | none =>
        rw [List.getElem?_eq_none (by simpa using List.getElem?_eq_none_iff.1 hi),
          List.getElem?_eq_none (by rw [hl]; exact List.getElem?_eq_none_iff.1 hi)]
      | some f => rw [hr i f hi]; simp [hi]

theorem givenId_iff {ts : Threads} {t i : Nat} {id : Int} :
    GivenId ts t i id ↔ (∃ f, FrameAt ts t i f) ∧ id = (i * ts.length + t : Nat) := by
  constructor
  · rintro ⟨rows, row, h, hr, rfl⟩
    obtain ⟨st, hst, hl, hrows⟩ := stackTrace_rows.1 h
    have hi : i < st.length := hl ▸ (List.getElem?_eq_some_iff.1 hr).1
    have := hrows i st[i] (List.getElem?_eq_getElem hi)
    rw [hr, Option.some.injEq] at this
    exact ⟨⟨st[i], st, hst, List.getElem?_eq_getElem hi⟩, by rw [this]⟩
  · rintro ⟨⟨f, st, hst, hf⟩, rfl⟩
    have : stackTrace ts t = .ok (st.zipIdx.map fun fi =>
        ⟨fi.1.proc, ((fi.2 * ts.length : Nat) : Int) + (t : Int), pointerOf fi.1⟩) := by
      unfold stackTrace
      rw [if_neg (by omega)]
      simp only [Int.toNat_natCast, hst]
    exact ⟨_, ⟨f.proc, ((i * ts.length : Nat) : Int) + (t : Int), pointerOf f⟩, this, by simp [hf], by simp⟩

/-- **C93**: every frame of every thread has its own id. -/
theorem frames_distinct {ts : Threads} {t i t' i' : Nat} {id : Int} (h : GivenId ts t i id)
    (h' : GivenId ts t' i' id) : t = t' ∧ i = i' := by
  obtain ⟨⟨f, st, hst, -⟩, he⟩ := givenId_iff.1 h
  obtain ⟨⟨f', st', hst', -⟩, he'⟩ := givenId_iff.1 h'
  have ht := (List.getElem?_eq_some_iff.1 hst).1
  have ht' := (List.getElem?_eq_some_iff.1 hst').1
  have hn : 0 < ts.length := by omega
  have e : i * ts.length + t = i' * ts.length + t' := by
    have := he.symm.trans he'
    exact_mod_cast this
  have h1 : (i * ts.length + t) % ts.length = t := by
    rw [Nat.mul_comm, Nat.mul_add_mod, Nat.mod_eq_of_lt ht]
  have h2 : (i' * ts.length + t') % ts.length = t' := by
    rw [Nat.mul_comm, Nat.mul_add_mod, Nat.mod_eq_of_lt ht']
  have htt : t = t' := by rw [← h1, ← h2, e]
  subst htt
  exact ⟨rfl, Nat.eq_of_mul_eq_mul_right hn (by omega)⟩

theorem asUsize_nat {n : Nat} (h : n < 2 ^ 64) : asUsize n = n := by
  unfold asUsize
  have : ((n : Int) % 2 ^ 64) = n := Int.emod_eq_of_lt (by omega) (by exact_mod_cast h)
  rw [this]; rfl

theorem threadByFrame_given {ts : Threads} {t i : Nat} {st : List Frame} (ht : ts[t]? = some st)
    (hs : i * ts.length + t < 2 ^ 64) :
    threadByFrame ts (i * ts.length + t : Nat) = .ok (st, i) := by
  have htl := (List.getElem?_eq_some_iff.1 ht).1
  unfold threadByFrame
  rw [if_neg (by omega), asUsize_nat hs]
  have h1 : (i * ts.length + t) % ts.length = t := by
    rw [Nat.mul_comm, Nat.mul_add_mod, Nat.mod_eq_of_lt htl]
  have h2 : (i * ts.length + t) / ts.length = i := by
    rw [Nat.mul_comm, Nat.mul_add_div (by omega), Nat.div_eq_of_lt htl, Nat.add_zero]
  rw [h1, h2, ht]

theorem scopes_given {ts : Threads} {t i : Nat} {f : Frame} (h : FrameAt ts t i f)
    (hs : i * ts.length + t < 2 ^ 64) :
    scopes ts (i * ts.length + t : Nat) = .ok [
      ⟨nLocals, ((i * ts.length + t : Nat) : Int) * 2 + 2, some f.locals.length⟩,
      ⟨nArguments, ((i * ts.length + t : Nat) : Int) * 2 + 1, some (2 + f.args.length)⟩,
      ⟨nGlobals, 0x0e000001, none⟩] := by
  obtain ⟨st, ht, hi⟩ := h
  have htl := (List.getElem?_eq_some_iff.1 ht).1
  have h1 : (i * ts.length + t) % ts.length = t := by
    rw [Nat.mul_comm, Nat.mul_add_mod, Nat.mod_eq_of_lt htl]
  have h2 : (i * ts.length + t) / ts.length = i := by
    rw [Nat.mul_comm, Nat.mul_add_div (by omega), Nat.div_eq_of_lt htl, Nat.add_zero]
  unfold scopes
  rw [if_neg (by omega), asUsize_nat hs]
  simp only [h1, h2, ht, hi]

/-- **C93**: the id of a frame leads to the scopes of that frame, and their references to its variables,
for all ids below 2 ^ 23 - 1 = 8388607; the globals are the fields of the world. -/
theorem frame_scopes {ts : Threads} {t i : Nat} {f : Frame} {id : Int} (game : Game)
    (hf : FrameAt ts t i f) (h : GivenId ts t i id) (hs : id < 8388607) :
    ∃ locals args, GivenScopes ts id locals args 0x0e000001 ∧
      variables ts game locals = .ok (localVars f) ∧
      variables ts game args = .ok (argVars f) := by
  obtain ⟨-, rfl⟩ := givenId_iff.1 h
  have hs' : i * ts.length + t < 8388607 := Int.ofNat_lt.1 hs
  have hsc := scopes_given hf (by omega)
  obtain ⟨st, ht, hi⟩ := hf
  have htf := threadByFrame_given (i := i) ht (by omega)
  generalize i * ts.length + t = n at *
  refine ⟨(n : Int) * 2 + 2, (n : Int) * 2 + 1, ⟨_, hsc, rfl⟩, ?_, ?_⟩
  · unfold variables
    have e : ((n : Int) * 2 + 2 - 1).tdiv 2 = n := by
      rw [Int.tdiv_eq_ediv_of_nonneg (by omega)]; omega
    have m : ((n : Int) * 2 + 2).tmod 2 = 0 := by
      rw [Int.tmod_eq_emod_of_nonneg (by omega)]; omega
    rw [if_neg (by omega), e, htf]
    simp only [hi]
    rw [if_neg (by rw [m]; decide), if_pos m]
  · unfold variables
    have e : ((n : Int) * 2 + 1 - 1).tdiv 2 = n := by
      rw [Int.tdiv_eq_ediv_of_nonneg (by omega)]; omega
    have m : ((n : Int) * 2 + 1).tmod 2 = 1 := by
      rw [Int.tmod_eq_emod_of_nonneg (by omega)]; omega
    rw [if_neg (by omega), e, htf]
    simp only [hi]
    rw [if_pos m]

/-- **C93**: the references of different scopes are different, of one frame or of two. -/
theorem scopes_distinct {ts : Threads} {t i t' i' : Nat} {id id' l a g l' a' g' : Int}
    (h : GivenId ts t i id) (h' : GivenId ts t' i' id') (hs : id < 8388607) (hs' : id' < 8388607)
    (hg : GivenScopes ts id l a g) (hg' : GivenScopes ts id' l' a' g') :
    l ≠ a' ∧ l ≠ g' ∧ a ≠ g' ∧ g = g' ∧ (l = l' → t = t' ∧ i = i') ∧ (a = a' → t = t' ∧ i = i') := by
  obtain ⟨⟨f, hf⟩, e⟩ := givenId_iff.1 h
  obtain ⟨⟨f', hf'⟩, e'⟩ := givenId_iff.1 h'
  obtain ⟨sl, hsl, hm⟩ := hg
  obtain ⟨sl', hsl', hm'⟩ := hg'
  rw [e, scopes_given hf (by omega)] at hsl
  rw [e', scopes_given hf' (by omega)] at hsl'
  simp only [Out.ok.injEq] at hsl hsl'
  subst hsl; subst hsl'
  simp only [List.map_cons, List.map_nil, List.cons.injEq, Prod.mk.injEq, true_and, and_true] at hm hm'
  rw [← e] at hm
  rw [← e'] at hm'
  have hpos : 0 ≤ id := by rw [e]; omega
  have hpos' : 0 ≤ id' := by rw [e']; omega
  refine ⟨by omega, by omega, by omega, by omega, fun hl => ?_, fun ha => ?_⟩
  · have : id = id' := by omega
    exact frames_distinct h (this ▸ h')
  · have : id = id' := by omega
    exact frames_distinct h (this ▸ h')

/-- **C93** (disagreement): the locals of a frame with an id of 2 ^ 23 - 1 or more, and its arguments from
2 ^ 23 on, are looked up as an object of the game. -/
theorem deep_frame_disagrees (ts : Threads) (game : Game) (id : Int) (h : 2 ^ 23 - 1 ≤ id)
    (h' : id < 0x0F000000 / 2 - 1) :
    variables ts game (id * 2 + 2) =
      (match game.fields (id * 2 + 2) with
        | some l => .ok ((sortFields l).map fun e => .of e.1 e.2)
        | none => .error) := by
  unfold variables
  rw [if_pos (by omega), if_neg (by omega)]
  cases game.fields (id * 2 + 2) <;> rfl

/-- **C93**: a value that can be opened leads to the contents of that list, or the fields of that object. -/
theorem value_reference (ts : Threads) (game : Game) (v : Val) (r : Int) (hr : v.ref = some r)
    (hbig : 2 ^ 24 ≤ r) (hlist : v.isList = true ↔ 0x0F000000 ≤ r ∧ r < 0x10000000)
    (hopen : v.hasVars = true ∨ v.isList = true) :
    v.reference = r ∧ variables ts game v.reference =
      if v.isList then (match game.list r with | some c => .ok c.vars | none => .error)
      else (match game.fields r with
        | some l => .ok ((sortFields l).map fun e => .of e.1 e.2)
        | none => .error) := by
  have hv : v.reference = r := by
    unfold Val.reference
    rw [hr]
    simp only
    rw [if_pos (by rcases hopen with h | h <;> simp [h])]
  refine ⟨hv, ?_⟩
  rw [hv]
  unfold variables
  rw [if_pos (by omega)]
  by_cases hl : v.isList = true
  · rw [if_pos hl, if_pos (by have := hlist.1 hl; omega)]; cases game.list r <;> rfl
  · rw [if_neg hl, if_neg (by intro h; exact hl (hlist.2 (by omega)))]; cases game.fields r <;> rfl

/-- **C93**: all other values show no children. -/
theorem value_closed (v : Val) (h : v.ref = none ∨ (v.hasVars = false ∧ v.isList = false)) :
    v.reference = 0 := by
  unfold Val.reference
  rcases h with h | ⟨h1, h2⟩
  · rw [h]
  · cases v.ref <;> simp [h1, h2]

/-- **C93**: a frame id that was not given leads nowhere: an error (once the game has stopped). -/
theorem unknown_frame {ts : Threads} (hn : ts ≠ []) {id : Nat} (hs : id < 2 ^ 64)
    (h : ∀ t i, ¬ GivenId ts t i id) : scopes ts id = .error := by
  have hl : 0 < ts.length := List.length_pos_iff.2 hn
  have hm : id % ts.length < ts.length := Nat.mod_lt _ hl
  unfold scopes
  rw [if_neg (by omega), asUsize_nat hs]
  simp only [List.getElem?_eq_getElem hm]
  cases hi : ts[id % ts.length][id / ts.length]? with
  | none => rfl
  | some f =>
    refine absurd (givenId_iff.2 ⟨⟨f, _, List.getElem?_eq_getElem hm, hi⟩, ?_⟩) (h _ _)
    have := Nat.div_add_mod' id ts.length
    exact_mod_cast this.symm

/-- **C93** (disagreement): before the game has stopped once, asking for scopes, for the variables of a
frame or for an evaluation in a frame panics. -/
theorem before_stop_disagrees (game : Game) (white : Char → Bool) (code : Text → Nat → List Instr)
    (id : Int) (r : Int) (h : r < 2 ^ 24) (e : Text) (he : hHelp.isPrefixOf (trimStart white e) = false) :
    scopes [] id = .panic ∧ variables [] game r = .panic ∧ evaluate white [] code (some id) e = .panic := by
  refine ⟨rfl, ?_, ?_⟩
  · unfold variables
    rw [if_neg (by omega)]
    simp [threadByFrame]
  · unfold evaluate
    simp only [he, Bool.false_eq_true, if_false]
    simp [threadByFrame]

/-! ## Threads -/

theorem threadNames_ok {k : Nat} {ts : Threads} (h : ∀ st ∈ ts, st ≠ []) :
    ∃ l, threadNames k ts = .ok l ∧ l.length = ts.length ∧
      ∀ (i : Nat) (st : List Frame), ts[i]? = some st →
        ∃ f, st.getLast? = some f ∧ l[i]? = some (k + i, f.proc) := by
  induction ts generalizing k with
  | nil => exact ⟨[], rfl, rfl, by simp⟩
  | cons s ss ih =>
    obtain ⟨l, hl, hlen, hget⟩ := ih (k := k + 1) fun st hst => h st (List.mem_cons_of_mem _ hst)
    cases hs : s.getLast? with
    | none => exact absurd (List.getLast?_eq_none_iff.1 hs) (h s (by simp))
    | some f =>
      refine ⟨(k, f.proc) :: l, by simp only [threadNames, hs, hl], by simp [hlen], fun i st hst => ?_⟩
      cases i with
      | zero =>
        simp only [List.getElem?_cons_zero, Option.some.injEq] at hst
        subst hst
        exact ⟨f, hs, by simp⟩
      | succ j =>
        obtain ⟨g, hg, hg'⟩ := hget j st (by simpa using hst)
        exact ⟨g, hg, by simp only [List.getElem?_cons_succ, hg']; congr 2; omega⟩

theorem threadNames_panic {k : Nat} {ts : Threads} (h : ∃ st ∈ ts, st = []) :
    threadNames k ts = .panic := by
  induction ts generalizing k with
  | nil => obtain ⟨_, h, _⟩ := h; cases h
  | cons s ss ih =>
    by_cases hs : s = []
    · subst hs; rfl
    · have : ∃ st ∈ ss, st = [] := by
        obtain ⟨st, hm, he⟩ := h
        rcases List.mem_cons.1 hm with rfl | hm
        · exact absurd he hs
        · exact ⟨st, hm, he⟩
      rw [threadNames]
      cases hl : s.getLast? with
      | none => rfl
      | some f => simp only [ih this]

/-- **C93**: the threads are those of the last stop, each under the name of its outermost proc; before the
first stop there is one. -/
theorem threads_listed {ts : Threads} (h : ∀ st ∈ ts, st ≠ []) (hn : ts ≠ []) :
    ∃ l, threadsRequest ts = .ok l ∧ l.length = ts.length ∧
      ∀ (i : Nat) (st : List Frame), ts[i]? = some st →
        ∃ f, st.getLast? = some f ∧ l[i]? = some (i, f.proc) := by
  obtain ⟨l, hl, hlen, hget⟩ := threadNames_ok (k := 0) h
  refine ⟨l, ?_, hlen, by simpa using hget⟩
  unfold threadsRequest
  rw [hl]
  cases l with
  | nil => exact absurd (List.length_eq_zero_iff.1 hlen.symm) hn
  | cons a as => rfl

theorem threads_start : threadsRequest [] = .ok [(0, ['M', 'a', 'i', 'n'])] := rfl

/-- **C93** (disagreement): a thread with an empty stack makes `Threads` panic. -/
theorem threads_empty_stack_disagrees {ts : Threads} (h : ∃ st ∈ ts, st = []) :
    threadsRequest ts = .panic := by
  unfold threadsRequest
  rw [threadNames_panic h]

/-! ## Names -/

theorem showNat_digit {n : Nat} {c : Char} (h : c ∈ showNat n) : c.isDigit = true :=
  Nat.isDigit_of_mem_toDigits (by decide) (by decide) h

theorem showNat_ne (n : Nat) : showNat n ≠ [] := Nat.toDigits_ne_nil

theorem showNat_inj {m n : Nat} (h : showNat m = showNat n) : m = n := by
  have := congrArg (fun l => Nat.ofDigitChars 10 l 0) h
  simpa [showNat] using this

theorem not_mem_showNat {n : Nat} {c : Char} (h : c.isDigit = false) : c ∉ showNat n := fun hm => by
  rw [showNat_digit hm] at h; cases h

/-- `suffixed` keeps different pairs apart, for names without `#` -/
theorem suffixed_inj {m n : Text} {j k : Nat} (hm : '#' ∉ m) (hn : '#' ∉ n)
    (h : suffixed m j = suffixed n k) : m = n ∧ j = k := by
  have split : ∀ (a b : Text) (x y : Text), '#' ∉ a → '#' ∉ b → a ++ '#' :: x = b ++ '#' :: y → a = b ∧ x = y := by
    intro a
    induction a with
    | nil =>
      intro b x y _ hb he
      cases b with
      | nil => simpa using he
      | cons c cs =>
        simp only [List.nil_append, List.cons_append, List.cons.injEq] at he
        exact absurd (by simp [← he.1]) hb
    | cons c cs ih =>
      intro b x y ha hb he
      cases b with
      | nil =>
        simp only [List.nil_append, List.cons_append, List.cons.injEq] at he
        exact absurd (by simp [he.1]) ha
      | cons d ds =>
        simp only [List.cons_append, List.cons.injEq] at he
        have := ih ds x y (fun hc => ha (List.mem_cons_of_mem _ hc)) (fun hc => hb (List.mem_cons_of_mem _ hc)) he.2
        exact ⟨by rw [he.1, this.1], this.2⟩
  unfold suffixed at h
  split at h <;> split at h
  · next hj hk => exact ⟨h, by omega⟩
  · exact absurd (by rw [h]; simp) hm
  · exact absurd (by rw [← h]; simp) hn
  · have := split (m ++ [' ']) (n ++ [' ']) (showNat j) (showNat k) (by simpa using hm) (by simpa using hn)
      (by simpa using h)
    exact ⟨by simpa using this.1, showNat_inj this.2⟩

/-- the table after the names `done`, starting from `s` -/
def Seen.After (s₀ : Seen) (done : List Text) (s : Seen) : Prop :=
  ∀ n, s n = match s₀ n with
    | none => if done.count n = 0 then none else some (done.count n - 1)
    | some k => some (k + done.count n)

theorem Seen.After.bump {s₀ s : Seen} {done : List Text} (h : Seen.After s₀ done s) (n : Text) :
    (s.bump n).2 = (match s₀ n with | none => done.count n | some k => k + 1 + done.count n) ∧
      Seen.After s₀ (done ++ [n]) (s.bump n).1 := by
  constructor
  · unfold Seen.bump
    simp only [h n]
    cases s₀ n with
    | none =>
      simp only
      by_cases hc : List.count n done = 0
      · simp [hc]
      · simp only [hc, if_false]; exact Nat.sub_add_cancel (Nat.pos_of_ne_zero hc)
    | some k => simp only; exact Nat.add_right_comm ..
  · intro m
    unfold Seen.bump
    by_cases hm : m = n
    · subst hm
      simp only [if_true, h m]
      cases s₀ m with
      | none =>
        simp only [List.count_append, List.count_singleton_self]
        by_cases hc : List.count m done = 0
        · simp [hc]
        · simp only [hc, if_false, if_neg (show ¬ (List.count m done + 1 = 0) by omega), Option.some.injEq]
          exact Nat.sub_add_cancel (Nat.pos_of_ne_zero hc)
      | some k =>
        simp only [List.count_append, List.count_singleton_self]
        congr 1
    · simp only [if_neg hm, h m]
      have : List.count m (done ++ [n]) = List.count m done := by
        rw [List.count_append, List.count_eq_zero (l := [n]) |>.2 (by simp [hm]), Nat.add_zero]
      rw [this]

/-- what the `i`-th of the values is called -/
def labelAt (other : Nat → Text) (s₀ : Seen) (names : List Text) (i : Nat) : Text :=
  match names[i]? with
  | none => other i
  | some n => suffixed n ((match s₀ n with | none => 0 | some k => k + 1) + before names i n)

theorem labels_eq (other : Nat → Text) (names : List Text) (s₀ : Seen) (vs : List Val) (s : Seen) (i : Nat)
    (h : Seen.After s₀ (names.take i) s) :
    labels other names s i vs = vs.zipIdx.map fun vj => .of (labelAt other s₀ names (i + vj.2)) vj.1 := by
  induction vs generalizing s i with
  | nil => rfl
  | cons v vs ih =>
    have tail : ∀ s', Seen.After s₀ (names.take (i + 1)) s' → labels other names s' (i + 1) vs =
        ((vs.zipIdx 1).map fun vj => .of (labelAt other s₀ names (i + vj.2)) vj.1) := by
      intro s' hs'
      rw [ih s' (i + 1) hs', List.zipIdx_succ, List.map_map]
      refine List.map_congr_left fun x _ => ?_
      simp only [Function.comp]
      congr 2; omega
    rw [labels, List.zipIdx_cons, List.map_cons]
    cases hn : names[i]? with
    | none =>
      have hlen := List.getElem?_eq_none_iff.1 hn
      simp only
      rw [tail s (by rw [List.take_of_length_le (by omega)]; rw [List.take_of_length_le hlen] at h; exact h)]
      congr 2
      simp [labelAt, hn]
    | some n =>
      obtain ⟨hb, hs⟩ := h.bump n
      simp only
      rw [tail _ (by rw [List.take_add_one, hn]; exact hs)]
      congr 2
      simp only [labelAt, Nat.add_zero, hn, before, hb]
      cases s₀ n with
      | none => simp
      | some k => rfl

/-- **C93**: the local variables of a frame are `.` and every local in order, under its name if it is the
first of that name, under `name #k` if there are `k` before it, and under its index if it has none. -/
theorem localVars_rows (f : Frame) : localVars f = .of ['.'] f.dot ::
    f.locals.zipIdx.map fun vi => .of (match f.localNames[vi.2]? with
      | some n => suffixed n (before f.localNames vi.2 n)
      | none => showNat vi.2) vi.1 := by
  unfold localVars
  rw [labels_eq showNat f.localNames (fun _ => none) f.locals _ 0 (by intro n; simp)]
  congr 1
  refine List.map_congr_left fun x _ => ?_
  simp only [labelAt, Nat.zero_add]
  cases f.localNames[x.2]? <;> simp

/-- **C93**: the arguments of a frame are `src`, `usr` and every argument in order; `src` and `usr` count
as names that came before. -/
theorem argVars_rows (f : Frame) : argVars f = .of nSrc f.src :: .of nUsr f.usr ::
    f.args.zipIdx.map fun vi => .of (match f.argNames[vi.2]? with
      | some n => suffixed n (before (nSrc :: nUsr :: f.argNames) (vi.2 + 2) n)
      | none => argLabel vi.2) vi.1 := by
  unfold argVars
  rw [labels_eq argLabel f.argNames seenArgs f.args _ 0 (by intro n; simp; cases seenArgs n <;> simp)]
  congr 2
  refine List.map_congr_left fun x _ => ?_
  simp only [labelAt, Nat.zero_add]
  cases f.argNames[x.2]? with
  | none => rfl
  | some n =>
    simp only
    congr 2
    simp only [before, List.take_succ_cons, List.count_cons]
    have hne : (nUsr == nSrc) = false := by decide
    have hne' : (nSrc == nUsr) = false := by decide
    unfold seenArgs
    by_cases h1 : n = nUsr
    · subst h1; simp [hne']; omega
    · by_cases h2 : n = nSrc
      · subst h2; simp [hne]; omega
      · simp [h1, h2, beq_eq_false_iff_ne.2 (Ne.symm h1), beq_eq_false_iff_ne.2 (Ne.symm h2)]

theorem before_lt {names : List Text} {i j : Nat} {n : Text} (hij : i < j) (hi : names[i]? = some n) :
    before names i n < before names j n := by
  unfold before
  have h1 : List.count n (names.take (i + 1)) = List.count n (names.take i) + 1 := by
    rw [List.take_add_one, hi]
    simp [List.count_append]
  have h2 : List.count n (names.take (i + 1)) ≤ List.count n (names.take j) :=
    (List.take_sublist_take_left (by omega)).count_le n
  omega

theorem suffixed_mem {n : Text} {k : Nat} {c : Char} (hc : c ∈ n) : c ∈ suffixed n k := by
  unfold suffixed
  split
  · exact hc
  · simp [hc]

theorem suffixed_head {n : Text} {k : Nat} (hn : n ≠ []) : (suffixed n k).head? = n.head? := by
  unfold suffixed
  split
  · rfl
  · cases n with
    | nil => exact absurd rfl hn
    | cons => rfl

theorem labels_nodup (other : Nat → Text) (names : List Text) (vs : List Val) (label : Nat → Text)
    (hl : ∀ i, label i = match names[i]? with
      | some n => suffixed n (before names i n)
      | none => other i)
    (hnames : ∀ n ∈ names, '#' ∉ n) (hother : ∀ i j, names.length ≤ i → names.length ≤ j → other i = other j → i = j)
    (happ : ∀ n ∈ names, ∀ k i, suffixed n k ≠ other i) :
    (vs.zipIdx.map fun vi => label vi.2).Nodup := by
  have inj : ∀ i j, i < j → label i ≠ label j := by
    intro i j hij he
    rw [hl, hl] at he
    cases hi : names[i]? with
    | none =>
      have : names[j]? = none := List.getElem?_eq_none_iff.2 (by
        have := List.getElem?_eq_none_iff.1 hi; omega)
      rw [hi, this] at he
      exact absurd (hother _ _ (List.getElem?_eq_none_iff.1 hi) (List.getElem?_eq_none_iff.1 this) he) (by omega)
    | some n =>
      rw [hi] at he
      cases hj : names[j]? with
      | none => rw [hj] at he; exact happ n (List.mem_of_getElem? hi) _ _ he
      | some m =>
        rw [hj] at he
        obtain ⟨rfl, hb⟩ := suffixed_inj (hnames _ (List.mem_of_getElem? hi)) (hnames _ (List.mem_of_getElem? hj)) he
        have := before_lt hij hi
        omega
  have : (vs.zipIdx.map fun vi => label vi.2) = (List.range vs.length).map label := by
    apply List.ext_getElem?
    intro i
    simp only [List.getElem?_map, List.getElem?_zipIdx, List.getElem?_range, Option.map_map]
    by_cases hi : i < vs.length
    · simp [hi, List.getElem?_eq_getElem hi]
    · simp [hi, List.getElem?_eq_none (Nat.le_of_not_lt hi)]
  rw [this]
  refine List.Pairwise.map _ (R := fun a b => a < b) (fun a b h => inj a b h) ?_
  exact List.pairwise_lt_range

end Verif.Debug
