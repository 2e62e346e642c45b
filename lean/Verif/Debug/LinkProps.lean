import Verif.Debug.Link

/-!
# C95: messages between the adapter and the game
-/

namespace Verif.Debug

/-! ## Streams of messages that end with a zero byte -/

/-- the messages of a stream and what is left over after the last terminator -/
def Messages (stream : List UInt8) (msgs : List (List UInt8)) (rest : List UInt8) : Prop :=
  stream = msgs.flatMap nulFrame ++ rest ∧ (∀ m ∈ msgs, (0 : UInt8) ∉ m) ∧ (0 : UInt8) ∉ rest

theorem findIdx_none {l : List UInt8} (h : l.findIdx? (· == 0) = none) : (0 : UInt8) ∉ l := by
  intro hm
  have := List.findIdx?_eq_none_iff.1 h 0 hm
  simp at this

theorem findIdx_some {l : List UInt8} {t : Nat} (h : l.findIdx? (· == 0) = some t) :
    t < l.length ∧ l = l.take t ++ 0 :: l.drop (t + 1) ∧ (0 : UInt8) ∉ l.take t := by
  obtain ⟨hl, ht, hb⟩ := List.findIdx?_eq_some_iff_getElem.1 h
  have h0 : l[t] = 0 := by simpa using ht
  refine ⟨hl, ?_, ?_⟩
  · conv => lhs; rw [← List.take_append_drop t l, List.drop_eq_getElem_cons hl, h0]
  · intro hm
    obtain ⟨j, hj, he⟩ := List.mem_iff_getElem.1 hm
    simp only [List.length_take] at hj
    have := hb j (by omega)
    simp only [List.getElem_take] at he
    simp [he] at this

theorem chop_spec (fuel : Nat) (l : List UInt8) (h : l.length < fuel) :
    Messages l (chopMessages fuel l (l.findIdx? (· == 0))).1 (chopMessages fuel l (l.findIdx? (· == 0))).2 := by
  induction fuel generalizing l with
  | zero => omega
  | succ fuel ih =>
    cases ht : l.findIdx? (· == 0) with
    | none =>
      unfold chopMessages
      exact ⟨by simp, by simp, findIdx_none ht⟩
    | some t =>
      obtain ⟨hl, he, hn⟩ := findIdx_some ht
      rw [chopMessages]
      obtain ⟨h1, h2, h3⟩ := ih (l.drop (t + 1)) (by rw [List.length_drop]; omega)
      refine ⟨?_, ?_, h3⟩
      · simp only [List.flatMap_cons, List.append_assoc]
        rw [← h1]
        simpa [nulFrame] using he
      · intro m hm
        rcases List.mem_cons.1 hm with rfl | hm
        · exact hn
        · exact h2 m hm

theorem readChunk_spec {buffer chunk : List UInt8} (h : (0 : UInt8) ∉ buffer) :
    Messages (buffer ++ chunk) (readChunk buffer chunk).1 (readChunk buffer chunk).2 := by
  have e : ((chunk.findIdx? (· == 0)).map (buffer.length + ·)) = (buffer ++ chunk).findIdx? (· == 0) := by
    rw [List.findIdx?_append]
    have : buffer.findIdx? (· == 0) = none := List.findIdx?_eq_none_iff.2 fun x hx => by
      simp; rintro rfl; exact h hx
    rw [this]
    simp [Nat.add_comm]
  unfold readChunk
  rw [e]
  exact chop_spec _ _ (by omega)

theorem Messages.append {s s' rest rest' : List UInt8} {m m' : List (List UInt8)} (h : Messages s m rest)
    (h' : Messages (rest ++ s') m' rest') : Messages (s ++ s') (m ++ m') rest' := by
  obtain ⟨h1, h2, h3⟩ := h
  obtain ⟨g1, g2, g3⟩ := h'
  refine ⟨?_, ?_, g3⟩
  · rw [h1, List.append_assoc, g1, List.flatMap_append, List.append_assoc]
  · intro x hx
    rcases List.mem_append.1 hx with hx | hx
    · exact h2 x hx
    · exact g2 x hx

theorem messages_unique {s : List UInt8} {m m' : List (List UInt8)} {r r' : List UInt8}
    (h : Messages s m r) (h' : Messages s m' r') : m = m' ∧ r = r' := by
  have cut : ∀ (a b x y : List UInt8), (0 : UInt8) ∉ a → (0 : UInt8) ∉ b → a ++ 0 :: x = b ++ 0 :: y →
      a = b ∧ x = y := by
    intro a
    induction a with
    | nil =>
      intro b x y _ hb he
      cases b with
      | nil => simpa using he
      | cons c cs =>
        simp only [List.nil_append, List.cons_append, List.cons.injEq] at he
        exact absurd (by rw [← he.1]; exact List.mem_cons_self) hb
    | cons c cs ih =>
      intro b x y ha hb he
      cases b with
      | nil =>
        simp only [List.nil_append, List.cons_append, List.cons.injEq] at he
        exact absurd (by rw [he.1]; exact List.mem_cons_self) ha
      | cons d ds =>
        simp only [List.cons_append, List.cons.injEq] at he
        have := ih ds x y (fun hc => ha (List.mem_cons_of_mem _ hc)) (fun hc => hb (List.mem_cons_of_mem _ hc)) he.2
        exact ⟨by rw [he.1, this.1], this.2⟩
  induction m generalizing s m' with
  | nil =>
    obtain ⟨h1, -, h3⟩ := h
    obtain ⟨g1, g2, g3⟩ := h'
    simp only [List.flatMap_nil, List.nil_append] at h1
    cases m' with
    | nil => simp only [List.flatMap_nil, List.nil_append] at g1; exact ⟨rfl, h1.symm.trans g1⟩
    | cons x xs =>
      rw [h1] at g1
      exact absurd (by rw [g1]; simp [nulFrame]) h3
  | cons x xs ih =>
    obtain ⟨h1, h2, h3⟩ := h
    obtain ⟨g1, g2, g3⟩ := h'
    cases m' with
    | nil =>
      simp only [List.flatMap_nil, List.nil_append] at g1
      rw [g1] at h1
      exact absurd (by rw [h1]; simp [nulFrame]) g3
    | cons y ys =>
      rw [h1] at g1
      simp only [List.flatMap_cons, nulFrame, List.append_assoc, List.cons_append, List.nil_append] at g1
      obtain ⟨rfl, he⟩ := cut x y _ _ (h2 x (by simp)) (g2 y (by simp)) g1
      obtain ⟨rfl, hr⟩ := ih (s := xs.flatMap nulFrame ++ r)
        ⟨rfl, fun m hm => h2 m (List.mem_cons_of_mem _ hm), h3⟩
        ⟨he, fun m hm => g2 m (List.mem_cons_of_mem _ hm), g3⟩
      exact ⟨rfl, hr⟩

/-- **C95** (extools): however the stream is cut into chunks, the messages handled are those between the
zero bytes, in order; what follows the last zero byte is not handled. -/
theorem readLoop_messages {chunks : List (List UInt8)} (h : ∀ c ∈ chunks, c ≠ []) :
    Messages chunks.flatten (readLoop [] chunks).1 (readLoop [] chunks).2 := by
  have gen : ∀ (chunks : List (List UInt8)) (buffer : List UInt8), (∀ c ∈ chunks, c ≠ []) →
      (0 : UInt8) ∉ buffer →
      Messages (buffer ++ chunks.flatten) (readLoop buffer chunks).1 (readLoop buffer chunks).2 := by
    intro chunks
    induction chunks with
    | nil => intro buffer _ hb; exact ⟨by simp [readLoop], by simp [readLoop], by simpa [readLoop] using hb⟩
    | cons c cs ih =>
      intro buffer hc hb
      have hr := readChunk_spec (chunk := c) hb
      rw [readLoop, if_neg (hc c (by simp))]
      rw [List.flatten_cons, ← List.append_assoc]
      exact hr.append (ih _ (fun d hd => hc d (List.mem_cons_of_mem _ hd)) hr.2.2)
  simpa using gen chunks [] h (by simp)

/-- **C95** (extools): the messages that the game sends are handled as they were sent, whatever the cut, and
whatever incomplete message follows. -/
theorem readLoop_roundtrip {chunks : List (List UInt8)} (h : ∀ c ∈ chunks, c ≠ []) {msgs : List (List UInt8)}
    {rest : List UInt8} (hm : ∀ m ∈ msgs, (0 : UInt8) ∉ m) (hr : (0 : UInt8) ∉ rest)
    (hs : chunks.flatten = msgs.flatMap nulFrame ++ rest) : (readLoop [] chunks).1 = msgs :=
  (messages_unique (readLoop_messages h) ⟨hs, hm, hr⟩).1

/-! ## Streams of messages after their length -/

theorem readExact_spec (n : Nat) (cs : List (List UInt8)) :
    (cs.flatten.length < n → readExact n cs = none) ∧
    (n ≤ cs.flatten.length → ∃ r, readExact n cs = some r ∧ r.1 = cs.flatten.take n ∧
      r.2.flatten = cs.flatten.drop n) := by
  induction cs generalizing n with
  | nil =>
    cases n with
    | zero => exact ⟨by simp, fun _ => ⟨([], []), by simp [readExact], rfl, rfl⟩⟩
    | succ n => exact ⟨fun _ => by rw [readExact], by simp⟩
  | cons c cs ih =>
    cases n with
    | zero => exact ⟨by omega, fun _ => ⟨([], c :: cs), by simp [readExact], by simp, by simp⟩⟩
    | succ n =>
      rw [readExact]
      by_cases hn : n + 1 ≤ c.length
      · rw [if_pos hn]
        refine ⟨fun h => ?_, fun _ => ⟨_, rfl, ?_, ?_⟩⟩
        · rw [List.flatten_cons, List.length_append] at h; omega
        · rw [List.flatten_cons, List.take_append_of_le_length hn]
        · show (c.drop (n + 1) :: cs).flatten = _
          simp only [List.flatten_cons]
          rw [List.drop_append_of_le_length hn]
      · rw [if_neg hn]
        obtain ⟨h1, h2⟩ := ih (n + 1 - c.length)
        rw [List.flatten_cons, List.length_append]
        refine ⟨fun h => by rw [h1 (by omega)]; rfl, fun h => ?_⟩
        obtain ⟨r, hr, ht, hd⟩ := h2 (by omega)
        refine ⟨_, by rw [hr]; rfl, ?_, ?_⟩
        · show c ++ r.1 = _
          rw [List.take_append, List.take_of_length_le (by omega), ht]
        · show r.2.flatten = _
          rw [List.drop_append, List.drop_eq_nil_of_le (by omega), List.nil_append, hd]

theorem leBytes_length (k n : Nat) : (leBytes k n).length = k := by
  induction k generalizing n with
  | zero => rfl
  | succ k ih => simp [leBytes, ih]

theorem leNat_leBytes (k n : Nat) (h : n < 256 ^ k) : leNat (leBytes k n) = n := by
  induction k generalizing n with
  | zero => simp at h; simp [leBytes, leNat, h]
  | succ k ih =>
    have hd : n / 256 < 256 ^ k := by
      rw [Nat.div_lt_iff_lt_mul (by decide)]
      rw [Nat.pow_succ] at h
      exact h
    simp only [leBytes, leNat]
    have hm : (UInt8.ofNat (n % 256)).toNat = n % 256 := by simp
    rw [ih _ hd, hm]
    omega

/-- what should happen with the messages: each is handled in order, up to the first that stops the thread -/
def handledOf (handle : List UInt8 → Handled) : List (List UInt8) → List (List UInt8 × Handled)
  | [] => []
  | m :: ms => (m, handle m) :: if handle m = .stop then [] else handledOf handle ms

/-- an incomplete message: less than a length, or a length with fewer bytes -/
def Incomplete (rest : List UInt8) : Prop := rest.length < 4 ∨ rest.length < 4 + leNat (rest.take 4)

/-- **C95** (auxtools): however the stream is cut, the thread handles the messages in order as they were
sent, up to one that ends it, and ignores an incomplete one at the end. -/
theorem auxRun_messages (handle : List UInt8 → Handled) (msgs : List (List UInt8)) (rest : List UInt8)
    (hm : ∀ m ∈ msgs, m.length < 2 ^ 32) (hr : Incomplete rest) (fuel : Nat) (hf : msgs.length < fuel)
    (chunks : List (List UInt8)) (hs : chunks.flatten = msgs.flatMap lenFrame ++ rest) :
    auxRun handle fuel chunks = handledOf handle msgs := by
  induction msgs generalizing fuel chunks with
  | nil =>
    cases fuel with
    | zero => rfl
    | succ fuel =>
      simp only [List.flatMap_nil, List.nil_append] at hs
      rw [auxRun]
      rcases Nat.lt_or_ge rest.length 4 with h4 | h4
      · rw [(readExact_spec 4 chunks).1 (by rw [hs]; exact h4)]; rfl
      · obtain ⟨r, hr1, hr2, hr3⟩ := (readExact_spec 4 chunks).2 (by rw [hs]; exact h4)
        rw [hr1]
        obtain ⟨len, cs⟩ := r
        simp only at hr2 hr3 ⊢
        have hlt : rest.length < 4 + leNat (rest.take 4) := hr.resolve_left (by omega)
        rw [(readExact_spec (leNat len) cs).1 (by rw [hr3, hr2, hs, List.length_drop]; omega)]
        rfl
  | cons m ms ih =>
    cases fuel with
    | zero => simp at hf
    | succ fuel =>
      have hml := hm m (by simp)
      have hb := leBytes_length 4 m.length
      have hs' : chunks.flatten = leBytes 4 m.length ++ (m ++ (ms.flatMap lenFrame ++ rest)) := by
        rw [hs]; simp [lenFrame]
      rw [auxRun]
      obtain ⟨r, hr1, hr2, hr3⟩ := (readExact_spec 4 chunks).2 (by
        rw [hs', List.length_append, hb]; omega)
      rw [hr1]
      obtain ⟨len, cs⟩ := r
      simp only at hr2 hr3 ⊢
      have hl : len = leBytes 4 m.length := by
        rw [hr2, hs', List.take_append_of_le_length (by omega), List.take_of_length_le (by omega)]
      have hc : cs.flatten = m ++ (ms.flatMap lenFrame ++ rest) := by
        rw [hr3, hs', List.drop_append, List.drop_eq_nil_of_le (by omega), hb]; simp
      rw [hl, leNat_leBytes 4 m.length (by simpa using hml)]
      obtain ⟨r, hr1, hr2, hr3⟩ := (readExact_spec m.length cs).2 (by
        rw [hc, List.length_append]; omega)
      rw [hr1]
      obtain ⟨m', cs'⟩ := r
      simp only at hr2 hr3 ⊢
      have hm' : m' = m := by rw [hr2, hc]; simp
      have hc' : cs'.flatten = ms.flatMap lenFrame ++ rest := by rw [hr3, hc]; simp
      subst hm'
      rw [handledOf, ih (fun x hx => hm x (List.mem_cons_of_mem _ hx)) fuel (by simp at hf; omega) cs' hc']

/-! ## Calls -/

/-- the calls among the messages to the game -/
def callsOf (l : List Sent) : List Nat := l.filterMap fun | .call n => some n | .cast => none

/-- the answers among the messages from the game -/
def respsOf (l : List Item) : List Nat := l.filterMap fun | .resp n => some n | .event => none

/-- nothing about calls is on the way -/
def Quiet (l : Link) : Prop := callsOf l.toGame = [] ∧ respsOf l.fromGame = [] ∧ ∀ c, l.queue c = []

/-- only call `n` is on the way, in one place -/
def Flight (e : Engine) (l : Link) (n : Nat) : Prop :=
  Quiet l ∨
  (callsOf l.toGame = [n] ∧ respsOf l.fromGame = [] ∧ ∀ c, l.queue c = []) ∨
  (callsOf l.toGame = [] ∧ respsOf l.fromGame = [n] ∧ ∀ c, l.queue c = []) ∨
  (callsOf l.toGame = [] ∧ respsOf l.fromGame = [] ∧ ∃ k, l.kinds[n]? = some k ∧
    ∀ c, l.queue c = if c = e.chan k then [n] else [])

/-- no call has failed -/
def Clean (l : Link) : Prop := ∀ r ∈ l.results, r.2 ≠ .failed

structure LinkInv (e : Engine) (l : Link) : Prop where
  order : l.results.map (·.1) = List.range l.results.length
  count : l.kinds.length = l.results.length + (if l.waiting.isSome then 1 else 0)
  turn : ∀ n, l.waiting = some n → n = l.results.length
  own : ∀ pre post n r, l.results = pre ++ (n, r) :: post → (∀ x ∈ pre, x.2 ≠ .failed) →
    r = .answer n ∨ r = .failed
  quiet : Clean l → l.waiting = none → Quiet l
  flight : Clean l → ∀ n, l.waiting = some n → Flight e l n

theorem linkInv_start (e : Engine) (c : Conn) : LinkInv e (Link.start c) where
  order := rfl
  count := rfl
  turn := by simp [Link.start]
  own := by simp [Link.start]
  quiet := fun _ _ => ⟨rfl, rfl, fun _ => rfl⟩
  flight := by simp [Link.start]

theorem send_eq (l : Link) (s : Sent) : (l.send s).kinds = l.kinds ∧ (l.send s).fromGame = l.fromGame ∧
    (l.send s).queue = l.queue ∧ (l.send s).waiting = l.waiting ∧ (l.send s).results = l.results ∧
    ((l.send s).toGame = l.toGame ∨ (l.send s).toGame = l.toGame ++ [s]) := by
  unfold Link.send
  split <;> simp

theorem callsOf_append (a b : List Sent) : callsOf (a ++ b) = callsOf a ++ callsOf b := by
  simp [callsOf]

theorem respsOf_append (a b : List Item) : respsOf (a ++ b) = respsOf a ++ respsOf b := by
  simp [respsOf]

/-- adding a result -/
theorem own_append {results : List (Nat × Ending)} {n : Nat} {r : Ending}
    (h : ∀ pre post n r, results = pre ++ (n, r) :: post → (∀ x ∈ pre, x.2 ≠ .failed) →
      r = .answer n ∨ r = .failed)
    (hr : (∀ x ∈ results, x.2 ≠ .failed) → r = .answer n ∨ r = .failed) :
    ∀ pre post m s, results ++ [(n, r)] = pre ++ (m, s) :: post → (∀ x ∈ pre, x.2 ≠ .failed) →
      s = .answer m ∨ s = .failed := by
  intro pre post m s he hp
  rcases List.append_eq_append_iff.1 he with ⟨a, h1, h2⟩ | ⟨a, h1, h2⟩
  · cases a with
    | nil =>
      simp only [List.nil_append, List.cons.injEq, Prod.mk.injEq] at h2
      obtain ⟨⟨rfl, rfl⟩, -⟩ := h2
      rw [List.append_nil] at h1
      exact hr (h1 ▸ hp)
    | cons x xs =>
      simp at h2
  · cases a with
    | nil =>
      simp only [List.nil_append, List.cons.injEq, Prod.mk.injEq] at h2
      obtain ⟨⟨rfl, rfl⟩, -⟩ := h2
      rw [List.append_nil] at h1
      exact hr (h1 ▸ hp)
    | cons x xs =>
      simp only [List.cons_append, List.cons.injEq] at h2
      obtain ⟨rfl, -⟩ := h2
      exact h pre xs m s h1 hp

theorem linkInv_step {e : Engine} {l l' : Link} (h : LinkInv e l) (hs : LinkStep e l l') : LinkInv e l' := by
  cases hs with
  | call k hw =>
    obtain ⟨hk, hf, hq, -, hr, ht⟩ := send_eq l (.call l.kinds.length)
    have hc := h.count
    rw [hw] at hc
    simp only [Option.isSome_none, Bool.false_eq_true, if_false, Nat.add_zero] at hc
    refine ⟨?_, ?_, ?_, ?_, ?_, ?_⟩
    · simp only [hr]; exact h.order
    · simp only [hr, List.length_append, List.length_singleton, Option.isSome_some, if_true]
      omega
    · intro n hn
      simp only [Option.some.injEq] at hn
      simp only [hr]
      omega
    · simp only [hr]; exact h.own
    · intro _ hn; cases hn
    · intro hcl n hn
      simp only [Option.some.injEq] at hn
      subst hn
      have hcl' : Clean l := by intro r hm; exact hcl r (by simp only [hr]; exact hm)
      obtain ⟨q1, q2, q3⟩ := h.quiet hcl' hw
      rcases ht with ht | ht
      · exact .inl ⟨by simp only [ht, q1], by simp only [hf, q2], by simp only [hq]; exact q3⟩
      · refine .inr (.inl ⟨?_, by simp only [hf, q2], by simp only [hq]; exact q3⟩)
        simp only [ht, callsOf_append, q1, List.nil_append]; rfl
  | callFails k hw hd hcn =>
    have hc := h.count
    rw [hw] at hc
    simp only [Option.isSome_none, Bool.false_eq_true, if_false, Nat.add_zero] at hc
    refine ⟨?_, ?_, ?_, ?_, ?_, ?_⟩
    · simp only [List.map_append, h.order, List.length_append, List.length_singleton, List.range_succ, hc]
      rfl
    · simp [hw, hc]
    · intro n hn; simp only [hw] at hn; cases hn
    · exact own_append h.own fun _ => .inr rfl
    · intro hcl _
      exact absurd rfl (hcl (l.kinds.length, .failed) (by simp))
    · intro _ n hn; simp only [hw] at hn; cases hn
  | cast hw =>
    obtain ⟨hk, hf, hq, hw', hr, ht⟩ := send_eq l .cast
    refine ⟨by rw [hr]; exact h.order, by rw [hk, hr, hw']; exact h.count, by rw [hw', hr]; exact h.turn,
      by rw [hr]; exact h.own, ?_, by rw [hw', hw]; nofun⟩
    intro hcl _
    obtain ⟨q1, q2, q3⟩ := h.quiet (by intro r hm; exact hcl r (by rw [hr]; exact hm)) hw
    refine ⟨?_, by rw [hf]; exact q2, by rw [hq]; exact q3⟩
    rcases ht with ht | ht
    · rw [ht]; exact q1
    · rw [ht, callsOf_append, q1]; rfl
  | receive n k m q hw hk hq =>
    have hc := h.count
    rw [hw] at hc
    have hn := h.turn n hw
    have key : Clean l → m = n ∧ q = [] ∧ callsOf l.toGame = [] ∧ respsOf l.fromGame = [] ∧
        ∀ c, c ≠ e.chan k → l.queue c = [] := by
      intro hcl
      rcases h.flight hcl n hw with ⟨-, -, q3⟩ | ⟨-, -, q3⟩ | ⟨-, -, q3⟩ | ⟨q1, q2, k', hk', q3⟩
      · rw [q3] at hq; cases hq
      · rw [q3] at hq; cases hq
      · rw [q3] at hq; cases hq
      · rw [hk, Option.some.injEq] at hk'
        subst hk'
        have := q3 (e.chan k)
        rw [if_pos rfl, hq] at this
        cases this
        exact ⟨rfl, rfl, q1, q2, fun c hcc => by rw [q3, if_neg hcc]⟩
    refine ⟨?_, ?_, ?_, ?_, ?_, ?_⟩
    · simp only [List.map_append, h.order, List.length_append, List.length_singleton, List.range_succ, ← hn]
      rfl
    · simpa using hc
    · intro n hn; cases hn
    · refine own_append h.own fun hcl => .inl ?_
      obtain ⟨rfl, -⟩ := key hcl
      unfold Link.ending
      rw [if_pos hk]
    · intro hcl _
      obtain ⟨-, rfl, q1, q2, q3⟩ := key fun r hm => hcl r (by simp [hm])
      refine ⟨q1, q2, fun c => ?_⟩
      simp only
      split
      · rfl
      · next hcc => exact q3 c hcc
    · intro _ n hn; cases hn
  | timeout n k hw hk hq =>
    have hc := h.count
    rw [hw] at hc
    have hn := h.turn n hw
    refine ⟨?_, ?_, ?_, ?_, ?_, ?_⟩
    · simp only [List.map_append, h.order, List.length_append, List.length_singleton, List.range_succ, ← hn]
      rfl
    · simpa using hc
    · intro n hn; cases hn
    · exact own_append h.own fun _ => .inr rfl
    · intro hcl _
      exact absurd rfl (hcl (n, .failed) (by simp))
    · intro _ n hn; cases hn
  | accept hcn => exact ⟨h.order, h.count, h.turn, h.own, h.quiet, h.flight⟩
  | serve n rest ht =>
    have hcalls : callsOf l.toGame = n :: callsOf rest := by rw [ht]; rfl
    refine ⟨h.order, h.count, h.turn, h.own, ?_, ?_⟩
    · intro hcl hw
      have := (h.quiet hcl hw).1
      rw [hcalls] at this; cases this
    · intro hcl m hw
      rcases h.flight hcl m hw with ⟨q1, -⟩ | ⟨q1, q2, q3⟩ | ⟨q1, -⟩ | ⟨q1, -⟩
      · rw [hcalls] at q1; cases q1
      · rw [hcalls, List.cons.injEq] at q1
        obtain ⟨rfl, q1⟩ := q1
        refine .inr (.inr (.inl ⟨q1, ?_, q3⟩))
        simp only [respsOf_append, q2]; rfl
      · rw [hcalls] at q1; cases q1
      · rw [hcalls] at q1; cases q1
  | serveCast rest ht =>
    have hcalls : callsOf l.toGame = callsOf rest := by rw [ht]; rfl
    refine ⟨h.order, h.count, h.turn, h.own, ?_, ?_⟩
    · intro hcl hw
      have := h.quiet hcl hw
      unfold Quiet at this ⊢
      rw [hcalls] at this; exact this
    · intro hcl m hw
      have := h.flight hcl m hw
      unfold Flight Quiet at this ⊢
      rw [hcalls] at this; exact this
  | event =>
    have hresps : respsOf (l.fromGame ++ [.event]) = respsOf l.fromGame := by simp [respsOf]
    refine ⟨h.order, h.count, h.turn, h.own, ?_, ?_⟩
    · intro hcl hw
      have := h.quiet hcl hw
      unfold Quiet at this ⊢
      simp only [hresps]; exact this
    · intro hcl m hw
      have := h.flight hcl m hw
      unfold Flight Quiet at this ⊢
      simp only [hresps]; exact this
  | deliver n k rest hf hk =>
    have hresps : respsOf l.fromGame = n :: respsOf rest := by rw [hf]; rfl
    refine ⟨h.order, h.count, h.turn, h.own, ?_, ?_⟩
    · intro hcl hw
      have := (h.quiet hcl hw).2.1
      rw [hresps] at this; cases this
    · intro hcl m hw
      rcases h.flight hcl m hw with ⟨-, q2, -⟩ | ⟨-, q2, -⟩ | ⟨q1, q2, q3⟩ | ⟨-, q2, -⟩
      · rw [hresps] at q2; cases q2
      · rw [hresps] at q2; cases q2
      · rw [hresps, List.cons.injEq] at q2
        obtain ⟨rfl, q2⟩ := q2
        refine .inr (.inr (.inr ⟨q1, q2, k, hk, fun c => ?_⟩))
        simp only [push, q3, List.nil_append]
      · rw [hresps] at q2; cases q2
  | deliverEvent rest hf =>
    have hresps : respsOf l.fromGame = respsOf rest := by rw [hf]; rfl
    refine ⟨h.order, h.count, h.turn, h.own, ?_, ?_⟩
    · intro hcl hw
      have := h.quiet hcl hw
      unfold Quiet at this ⊢
      rw [hresps] at this; exact this
    · intro hcl m hw
      have := h.flight hcl m hw
      unfold Flight Quiet at this ⊢
      rw [hresps] at this; exact this

theorem linkInv_reach {e : Engine} {c : Conn} {l : Link} (h : LinkReach e c l) : LinkInv e l := by
  induction h with
  | start => exact linkInv_start e c
  | step _ hs ih => exact linkInv_step ih hs

/-- **C95**: calls end in the order in which they were made, each once; only the last can be waiting. -/
theorem calls_in_order {e : Engine} {c : Conn} {l : Link} (h : LinkReach e c l) :
    l.results.map (·.1) = List.range l.results.length ∧
    l.kinds.length = l.results.length + (if l.waiting.isSome then 1 else 0) :=
  ⟨(linkInv_reach h).order, (linkInv_reach h).count⟩

/-- **C95**: with every interleaving of events and answers of the game, up to the first call without an
answer every call ends with its own answer, never with another or an unexpected one. -/
theorem own_answer {e : Engine} {c : Conn} {l : Link} (h : LinkReach e c l) {pre post : List (Nat × Ending)}
    {n : Nat} {r : Ending} (hr : l.results = pre ++ (n, r) :: post) (hp : ∀ x ∈ pre, x.2 ≠ .failed) :
    r = .answer n ∨ r = .failed :=
  (linkInv_reach h).own pre post n r hr hp

/-- **C95**: on a connection, if no call has failed, a call that waits is on the way: as long as game and
reader go on, its answer comes. -/
theorem answer_comes {e : Engine} {l : Link} (h : LinkReach e .connected l) (hcl : Clean l) {n : Nat}
    (hw : l.waiting = some n) (hq : ∀ k, l.kinds[n]? = some k → l.queue (e.chan k) = []) :
    callsOf l.toGame = [n] ∨ respsOf l.fromGame = [n] := by
  have conn : ∀ {l}, LinkReach e .connected l → Clean l → l.conn = .connected ∧
      (∀ n, l.waiting = some n → ¬ Quiet l) := by
    intro l h
    induction h with
    | start => intro _; exact ⟨rfl, by simp [Link.start]⟩
    | @step l l' hr hs ih =>
      intro hcl'
      have hcl : Clean l := by
        cases hs with
        | call k hw => intro r hm; exact hcl' r (by simpa [(send_eq l _).2.2.2.2.1] using hm)
        | cast hw => intro r hm; exact hcl' r (by simpa [(send_eq l _).2.2.2.2.1] using hm)
        | callFails k hw hd hc => intro r hm; exact hcl' r (by simp [hm])
        | receive n k m q hw hk hq => intro r hm; exact hcl' r (by simp [hm])
        | timeout n k hw hk hq => intro r hm; exact hcl' r (by simp [hm])
        | _ => exact hcl'
      obtain ⟨h1, h2⟩ := ih hcl
      cases hs with
      | call k hw =>
        have : l.send (.call l.kinds.length) = { l with toGame := l.toGame ++ [.call l.kinds.length] } := by
          unfold Link.send; rw [h1]
        rw [this]
        refine ⟨h1, fun n hn hq => ?_⟩
        have := hq.1
        simp only [callsOf_append] at this
        simp [callsOf] at this
      | cast hw =>
        have : l.send .cast = { l with toGame := l.toGame ++ [.cast] } := by
          unfold Link.send; rw [h1]
        rw [this]
        refine ⟨h1, fun n hn hq => ?_⟩
        simp only [hw] at hn; cases hn
      | callFails k hw hd hc => exact absurd rfl (hcl' (l.kinds.length, .failed) (by simp))
      | receive n k m q hw hk hq => exact ⟨h1, by simp⟩
      | timeout n k hw hk hq => exact absurd rfl (hcl' (n, .failed) (by simp))
      | accept hcn => rw [h1] at hcn; cases hcn
      | serve n rest ht =>
        refine ⟨h1, fun m hm hq => ?_⟩
        have := hq.2.1
        simp only [respsOf_append] at this
        simp [respsOf] at this
      | serveCast rest ht =>
        refine ⟨h1, fun m hm hq => h2 m hm ?_⟩
        have hcalls : callsOf l.toGame = callsOf rest := by rw [ht]; rfl
        unfold Quiet at hq ⊢
        rw [hcalls]; exact hq
      | event =>
        refine ⟨h1, fun m hm hq => h2 m hm ?_⟩
        unfold Quiet at hq ⊢
        simpa [respsOf] using hq
      | deliver n k rest hf hk =>
        refine ⟨h1, fun m hm hq => ?_⟩
        have := hq.2.2 (e.chan k)
        simp [push] at this
      | deliverEvent rest hf =>
        refine ⟨h1, fun m hm hq => h2 m hm ?_⟩
        have hresps : respsOf l.fromGame = respsOf rest := by rw [hf]; rfl
        unfold Quiet at hq ⊢
        rw [hresps]; exact hq
  rcases (linkInv_reach h).flight hcl n hw with hqt | ⟨q1, -⟩ | ⟨-, q2, -⟩ | ⟨-, -, k, hk, q3⟩
  · exact absurd hqt ((conn h hcl).2 n hw)
  · exact .inl q1
  · exact .inr q2
  · have h0 := hq k hk
    rw [q3, if_pos rfl] at h0
    cases h0

/-- **C95** (auxtools): after a call without an answer the connection is over for good. -/
theorem aux_failed_down {c : Conn} {l : Link} (h : LinkReach auxEngine c l)
    (hf : ∃ r ∈ l.results, r.2 = .failed) : l.conn = .disconnected := by
  have gen : l.conn = .disconnected ∨ Clean l := by
    clear hf
    induction h with
    | start => right; simp [Clean, Link.start]
    | @step l l' hr hs ih =>
      cases hs with
      | call k hw =>
        rcases ih with ih | ih
        · left; simp only [Link.send, ih]
        · right; intro r hm; exact ih r (by simpa [(send_eq l _).2.2.2.2.1] using hm)
      | cast hw =>
        rcases ih with ih | ih
        · left; simp only [Link.send, ih]
        · right; intro r hm; exact ih r (by simpa [(send_eq l _).2.2.2.2.1] using hm)
      | callFails k hw hd hc => left; rfl
      | receive n k m q hw hk hq =>
        rcases ih with ih | ih
        · exact .inl ih
        · right
          intro r hm
          rcases List.mem_append.1 hm with hm | hm
          · exact ih r hm
          · simp only [List.mem_singleton] at hm
            subst hm
            unfold Link.ending
            simp only
            split <;> simp
      | timeout n k hw hk hq => left; rfl
      | accept hcn =>
        rcases ih with ih | ih
        · rw [ih] at hcn; cases hcn
        · exact .inr ih
      | _ => exact ih
  rcases gen with h1 | h1
  · exact h1
  · obtain ⟨r, hm, he⟩ := hf
    exact absurd he (h1 r hm)

/-- **C95**: without a connection nothing is sent, and none comes back. -/
theorem down_silent {e : Engine} {l l' : Link} (h : l.conn = .disconnected) (hs : LinkStep e l l') :
    l'.conn = .disconnected ∧ ∃ served, l.toGame = served ++ l'.toGame := by
  cases hs with
  | call k hw => exact ⟨by simp only [Link.send, h], [], by simp only [Link.send, h]; rfl⟩
  | cast hw => exact ⟨by simp only [Link.send, h], [], by simp only [Link.send, h]; rfl⟩
  | callFails k hw hd hc => rw [h] at hc; cases hc
  | timeout n k hw hk hq => exact ⟨by simp [h], [], rfl⟩
  | accept hcn => rw [h] at hcn; cases hcn
  | serve n rest ht => exact ⟨h, [.call n], ht⟩
  | serveCast rest ht => exact ⟨h, [.cast], ht⟩
  | _ => exact ⟨h, [], rfl⟩

end Verif.Debug
