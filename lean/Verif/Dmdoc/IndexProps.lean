import Verif.Dmdoc.IndexPaths

/-!
# C99: the index of dmdoc
-/

namespace Verif.Dmdoc

/-! ## Shown -/

theorem shownAll_append (a b : List ITree) : shownAll (a ++ b) = shownAll a ++ shownAll b := by
  induction a with
  | nil => simp [shownAll]
  | cons t ts ih => simp [shownAll, ih]

/-- What the elements on the stack will show. -/
def stackShown (s : List Frame) : List Entry := s.reverse.flatMap fun f => f.e :: shownAll f.children

def names (s : List Frame) : List Str := s.reverse.tail.map fun f => f.e.full

theorem combine_shown (k : Nat) (s : List Frame) : stackShown (combine k s) = stackShown s := by
  fun_induction combine k s with
  | case1 p l rest h ih =>
    rw [ih]
    simp [stackShown, Frame.adopt, shownAll_append, shownAll, Frame.tree, ITree.shown]
  | case2 => rfl
  | case3 => rfl

theorem combine_entries (k : Nat) (s : List Frame) (hk : 1 ≤ k) :
    (combine k s).reverse.map Frame.e = (s.reverse.map Frame.e).take k := by
  fun_induction combine k s with
  | case1 p l rest h ih =>
    rw [ih]
    have e : ((p :: l :: rest).reverse.map Frame.e) = ((l.adopt p :: rest).reverse.map Frame.e) ++ [p.e] := by
      simp [Frame.adopt]
    rw [e, List.take_append_of_le_length]
    simp
    omega
  | case2 p l rest h =>
    rw [List.take_of_length_le]
    simp
    omega
  | case3 s hs =>
    rw [List.take_of_length_le]
    match s, hs with
    | [], _ => simp
    | [a], _ => simpa using hk
    | a :: b :: t, hs => exact absurd rfl (hs a b t)

theorem combine_names (k : Nat) (s : List Frame) : names (combine (1 + k) s) = (names s).take k := by
  have h := congrArg (fun l => l.tail.map Entry.full) (combine_entries (1 + k) s (by omega))
  simp only [← List.map_tail, List.map_map] at h
  unfold names
  have e : (Entry.full ∘ Frame.e) = fun f : Frame => f.e.full := rfl
  rw [e] at h
  rw [h, Nat.add_comm]
  generalize s.reverse = r
  cases r with
  | nil => simp
  | cons a r =>
    simp only [List.map_cons, List.take_succ_cons, List.tail_cons, List.map_take, List.map_map]
    rfl

/-! ## The common position -/

structure CommonIs (full : Str) (ns bs : List Str) (i len : Nat) (r : Nat × List Str × Nat) (m : Nat) : Prop where
  pos : r.1 = i + m
  same : ns.take m = (scan full bs len).take m
  leLeft : m ≤ ns.length
  leRight : m ≤ (scan full bs len).length
  rest : scan full r.2.1 r.2.2 = (scan full bs len).drop m
  stop : ∀ a b, ns[m]? = some a → (scan full bs len)[m]? = some b → a ≠ b
  at_ : Pos full bs len → Pos full r.2.1 r.2.2

theorem common_is (full : Str) (ns bs : List Str) (i len : Nat) :
    ∃ m, CommonIs full ns bs i len (common full ns bs i len) m := by
  induction ns generalizing bs i len with
  | nil => exact ⟨0, by simp [common], rfl, by simp, by simp, by simp [common], by simp, by simp [common]⟩
  | cons s ss ih =>
    cases bs with
    | nil => exact ⟨0, by simp [common], rfl, by simp, by simp, by simp [common], by simp [scan], by simp [common]⟩
    | cons b bs =>
      by_cases h : s = full.take (len + b.length)
      · obtain ⟨m, hm⟩ := ih bs (i + 1) (len + (1 + b.length))
        have e : common full (s :: ss) (b :: bs) i len = common full ss bs (i + 1) (len + (1 + b.length)) := by
          rw [common, if_neg (by simpa using h)]
        refine ⟨m + 1, ?_, ?_, ?_, ?_, ?_, ?_, ?_⟩
        · rw [e, hm.pos]; omega
        · simp only [scan, List.take_succ_cons, hm.same, ← h]
        · simpa using hm.leLeft
        · simpa [scan] using hm.leRight
        · rw [e, hm.rest]; simp [scan]
        · intro a b' ha hb
          exact hm.stop a b' (by simpa using ha) (by simpa [scan] using hb)
        · intro hp
          rw [e]
          exact hm.at_ (pos_next hp)
      · have e : common full (s :: ss) (b :: bs) i len = (i, b :: bs, len) := by
          rw [common, if_pos h]
        refine ⟨0, by rw [e]; rfl, rfl, by simp, by simp, by rw [e]; simp, ?_, by rw [e]; exact id⟩
        intro a b' ha hb
        simp only [List.getElem?_cons_zero, Option.some.injEq, scan] at ha hb
        subst ha hb
        exact h

theorem between_full (full : Str) (bs : List Str) (len : Nat) :
    (between full bs len).map Entry.full = (scan full bs len).dropLast := by
  induction bs generalizing len with
  | nil => simp [between, scan]
  | cons b bs ih =>
    cases bs with
    | nil => simp [between, scan]
    | cons c bs =>
      have := ih (len + (1 + b.length))
      simp only [between, scan, List.map_cons, List.dropLast_cons_cons] at this ⊢
      rw [this]

theorem between_placeholder {full : Str} {bs : List Str} {len : Nat} (h : Pos full bs len) :
    ∀ a ∈ between full bs len, Placeholder a := by
  induction bs generalizing len with
  | nil => simp [between]
  | cons b bs ih =>
    cases bs with
    | nil => simp [between]
    | cons c bs =>
      intro a ha
      simp only [between, List.mem_cons] at ha
      rcases ha with rfl | ha
      · obtain ⟨pre, _, h2, h3, h4, _⟩ := pos_take h
        refine ⟨rfl, rfl, rfl, h3, ?_⟩
        rcases h4 with rfl | ⟨q, rfl⟩
        · exact .inl (by simpa using h2)
        · exact .inr ⟨q, by simpa using h2⟩
      · exact ih (pos_next h) a ha

/-! ## One step -/

theorem cuts_last (s : Str) : ∃ l, cuts s = l ++ [s] := by
  induction s with
  | nil => exact ⟨[], rfl⟩
  | cons c s ih =>
    obtain ⟨l, hl⟩ := ih
    unfold cuts
    split
    · exact ⟨[] :: l.map (c :: ·), by simp [hl]⟩
    · exact ⟨l.map (c :: ·), by simp [hl]⟩

theorem paths_last {s : Str} (h : s ≠ []) : ∃ l, paths s = l ++ [s] := by
  obtain ⟨l, hl⟩ := cuts_last s
  refine ⟨l.filter fun p => !p.isEmpty, ?_⟩
  unfold paths
  rw [hl, List.filter_append]
  cases s with
  | nil => exact absurd rfl h
  | cons c s => simp

/-- The names on the stack when the name was the last to be pushed. -/
def trail (full : Str) : List Str := if full = [] then [[]] else paths full

theorem mem_trail (full q : Str) : q ∈ trail full ↔ (full = [] ∧ q = []) ∨ OnWay q full := by
  unfold trail
  split
  · rename_i h
    subst h
    simp only [List.mem_singleton, true_and]
    constructor
    · exact .inl
    · rintro (h | ⟨h1, h2 | ⟨t, h2⟩⟩)
      · exact h
      · exact h2
      · simp at h2
  · rename_i h
    rw [mem_paths]
    simp [h]

/-- What one turn of the loop does. -/
structure StepIs (s : List Frame) (e : Entry) (m : Nat) (l : List Entry) : Prop where
  shown : stackShown (step s e) = stackShown s ++ (l ++ [e])
  stack : step s e = ((l ++ [e]).map Entry.frame).reverse ++ combine (1 + m) s
  full : l.map Entry.full = ((paths e.full).drop m).dropLast
  placeholder : ∀ a ∈ l, Placeholder a
  same : (names s).take m = (paths e.full).take m
  leLeft : m ≤ (names s).length
  leRight : m ≤ (paths e.full).length
  stop : ∀ a b, (names s)[m]? = some a → (paths e.full)[m]? = some b → a ≠ b

theorem step_is (s : List Frame) (e : Entry) : ∃ m l, StepIs s e m l := by
  obtain ⟨m, hm⟩ := common_is e.full (names s) (firstBits e.full).1 1 (firstBits e.full).2
  have hs := scan_first e.full
  generalize hr : common e.full (names s) (firstBits e.full).1 1 (firstBits e.full).2 = r at hm
  refine ⟨m, between e.full r.2.1 r.2.2, ?_⟩
  have hst : step s e = ((between e.full r.2.1 r.2.2 ++ [e]).map Entry.frame).reverse ++ combine (1 + m) s := by
    unfold step
    simp only
    have : (List.map (fun f => f.e.full) s.reverse.tail) = names s := rfl
    rw [this, hr, hm.pos]
    simp
  constructor
  · rw [hst]
    unfold stackShown
    rw [List.reverse_append, List.flatMap_append, List.reverse_reverse]
    have h1 : (combine (1 + m) s).reverse.flatMap (fun f => f.e :: shownAll f.children) = stackShown s := combine_shown _ _
    rw [h1]
    unfold stackShown
    congr 1
    generalize between e.full r.2.1 r.2.2 ++ [e] = l
    induction l with
    | nil => rfl
    | cons a l ih => simp only [List.map_cons, List.flatMap_cons, ih]; simp [Entry.frame, shownAll]
  · exact hst
  · rw [between_full, hm.rest, hs]
  · exact between_placeholder (hm.at_ (pos_first _))
  · rw [hm.same, hs]
  · exact hm.leLeft
  · simpa [hs] using hm.leRight
  · simpa [hs] using hm.stop

theorem step_lists {s : List Frame} {e : Entry} {m : Nat} {l : List Entry} (h : StepIs s e m l) {es t : List Entry}
    (ht : Lists es t) : Lists (e :: es) (l ++ e :: t) := by
  have hp := h.placeholder
  have hw : ∀ a ∈ l, OnWay a.full e.full ∧ a.full ≠ e.full := by
    intro a ha
    have h1 : a.full ∈ ((paths e.full).drop m).dropLast := h.full ▸ List.mem_map.2 ⟨a, ha, rfl⟩
    have h2 : a.full ∈ paths e.full := List.mem_of_mem_drop (List.dropLast_subset _ h1)
    refine ⟨(mem_paths _ _).1 h2, ?_⟩
    intro he
    have hne : e.full ≠ [] := by
      intro h0; rw [h0] at h2; exact absurd h2 (by simp [paths, cuts])
    obtain ⟨w, hw⟩ := paths_last hne
    have hnd := paths_nodup e.full
    rw [hw] at hnd
    rw [hw] at h1
    have h3 : a.full ∈ w := by
      by_cases hm : m ≤ w.length
      · rw [List.drop_append_of_le_length hm, List.dropLast_concat] at h1
        exact List.mem_of_mem_drop h1
      · rw [List.drop_eq_nil_of_le (by simp; omega)] at h1
        simp at h1
    rw [he] at h3
    exact (List.nodup_append.1 hnd).2.2 _ h3 _ (by simp) rfl
  clear h
  induction l with
  | nil => exact .entry ht
  | cons a l ih =>
    exact .between (hp a (by simp)) (hw a (by simp)).1 (hw a (by simp)).2
      (ih (fun b hb => hp b (by simp [hb])) (fun b hb => hw b (by simp [hb])))

theorem foldl_lists (es : List Entry) (s : List Frame) :
    ∃ t, Lists es t ∧ stackShown (es.foldl step s) = stackShown s ++ t := by
  induction es generalizing s with
  | nil => exact ⟨[], .nil, by simp⟩
  | cons e es ih =>
    obtain ⟨m, l, h⟩ := step_is s e
    obtain ⟨t, ht, hs⟩ := ih (step s e)
    refine ⟨l ++ e :: t, step_lists h ht, ?_⟩
    rw [List.foldl_cons, hs, h.shown]
    simp

/-- The stack has the element it started with. -/
def Rooted (s : List Frame) : Prop := (s.reverse.map Frame.e).head? = some rootFrame.e

theorem rooted_combine {k : Nat} {s : List Frame} (hk : 1 ≤ k) (h : Rooted s) : Rooted (combine k s) := by
  unfold Rooted at *
  rw [combine_entries k s hk]
  generalize s.reverse.map Frame.e = l at h
  cases l with
  | nil => simp at h
  | cons a l =>
    obtain ⟨k, rfl⟩ := Nat.exists_eq_add_of_le hk
    rw [Nat.add_comm, List.take_succ_cons]
    simpa using h

theorem rooted_append {s t : List Frame} (h : Rooted s) : Rooted (t ++ s) := by
  unfold Rooted at *
  rw [List.reverse_append, List.map_append, List.head?_append, h]
  rfl

theorem rooted_foldl (es : List Entry) {s : List Frame} (h : Rooted s) : Rooted (es.foldl step s) := by
  induction es generalizing s with
  | nil => exact h
  | cons e es ih =>
    obtain ⟨m, l, hs⟩ := step_is s e
    rw [List.foldl_cons]
    apply ih
    rw [hs.stack]
    exact rooted_append (rooted_combine (by omega) h)

theorem final_stack (es : List Entry) :
    ∃ b, combine 1 (es.foldl step [rootFrame]) = [⟨rootFrame.e, b, buildIndexTree es⟩] := by
  have h1 := combine_entries 1 (es.foldl step [rootFrame]) (by omega)
  have h2 : Rooted (es.foldl step [rootFrame]) := rooted_foldl es rfl
  unfold Rooted at h2
  unfold buildIndexTree
  generalize es.foldl step [rootFrame] = s at h1 h2
  generalize combine 1 s = c at h1
  generalize s.reverse.map Frame.e = l at h1 h2
  cases l with
  | nil => simp at h2
  | cons a l =>
    simp only [List.take_succ_cons, List.take_zero, List.head?_cons, Option.some.injEq] at h1 h2
    match c, h1 with
    | [], h1 => simp at h1
    | [f], h1 =>
      simp only [List.reverse_singleton, List.map_cons, List.map_nil, List.cons.injEq, and_true] at h1
      exact ⟨f.noSub, by rw [← h2, ← h1]⟩
    | f :: g :: c, h1 =>
      have := congrArg List.length h1
      simp at this

theorem build_shown (es : List Entry) :
    stackShown (es.foldl step [rootFrame]) = rootFrame.e :: shownAll (buildIndexTree es) := by
  obtain ⟨b, h⟩ := final_stack es
  rw [← combine_shown 1, h]
  simp [stackShown]

/-- **C99** Every entry is shown once, as it was given and in the order given; all else that is shown are placeholders for
paths on the way to the entry that follows. -/
theorem index_order (es : List Entry) : Lists es (shownAll (buildIndexTree es)) := by
  obtain ⟨t, ht, hs⟩ := foldl_lists es [rootFrame]
  rw [build_shown] at hs
  have : stackShown [rootFrame] = [rootFrame.e] := by simp [stackShown, rootFrame, shownAll]
  rw [this] at hs
  simp only [List.singleton_append, List.cons.injEq, true_and] at hs
  rwa [hs]

/-! ## The paths shown -/

theorem step_names {s : List Frame} {e : Entry} {m : Nat} {l : List Entry} (h : StepIs s e m l) (hr : Rooted s) :
    names (step s e) = (names s).take m ++ (l.map Entry.full ++ [e.full]) := by
  have hc := combine_names m s
  have hr' := rooted_combine (k := 1 + m) (by omega) hr
  rw [h.stack]
  unfold names at *
  unfold Rooted at hr'
  rw [List.reverse_append, List.reverse_reverse]
  generalize (combine (1 + m) s).reverse = c at hc hr'
  cases c with
  | nil => simp at hr'
  | cons a c =>
    simp only [List.cons_append, List.tail_cons, List.map_append] at hc ⊢
    rw [hc]
    simp [Entry.frame, Function.comp_def]

theorem paths_nil : paths [] = [] := rfl

/-- After a step all the paths on the way to the entry are on the stack. -/
theorem step_trail_sub {s : List Frame} {e : Entry} {m : Nat} {l : List Entry} (h : StepIs s e m l) (hr : Rooted s) :
    ∀ q ∈ trail e.full, q ∈ names (step s e) := by
  intro q hq
  rw [step_names h hr, h.full, h.same]
  unfold trail at hq
  split at hq
  · rename_i h0
    simp only [List.mem_singleton] at hq
    simp [hq, h0]
  · rename_i h0
    obtain ⟨w, hw⟩ := paths_last h0
    rw [← List.take_append_drop m (paths e.full), List.mem_append] at hq
    rw [List.mem_append, List.mem_append]
    rcases hq with hq | hq
    · exact .inl hq
    · right
      rw [hw] at hq ⊢
      by_cases hm : m ≤ w.length
      · rw [List.drop_append_of_le_length hm] at hq ⊢
        rw [List.dropLast_concat]
        simpa using hq
      · rw [List.drop_eq_nil_of_le (by simp; omega)] at hq
        simp at hq

/-- Between placeholders and the entry itself: what a step adds. -/
theorem step_added {s : List Frame} {e : Entry} {m : Nat} {l : List Entry} (h : StepIs s e m l) :
    ∀ a ∈ l ++ [e], a.full ∈ trail e.full := by
  intro a ha
  rw [mem_trail]
  simp only [List.mem_append, List.mem_singleton] at ha
  rcases ha with ha | rfl
  · have h1 : a.full ∈ ((paths e.full).drop m).dropLast := h.full ▸ List.mem_map.2 ⟨a, ha, rfl⟩
    exact .inr ((mem_paths _ _).1 (List.mem_of_mem_drop (List.dropLast_subset _ h1)))
  · by_cases h0 : a.full = []
    · exact .inl ⟨h0, h0⟩
    · exact .inr ⟨h0, .inl rfl⟩

theorem names_shown {s : List Frame} {q : Str} (h : q ∈ names s) : q ∈ (stackShown s).tail.map Entry.full := by
  unfold names stackShown at *
  generalize s.reverse = r at h
  cases r with
  | nil => simp at h
  | cons a r =>
    simp only [List.tail_cons, List.mem_map] at h
    obtain ⟨f, hf, rfl⟩ := h
    rw [List.flatMap_cons, List.cons_append, List.tail_cons, List.mem_map]
    exact ⟨f.e, by simp only [List.mem_append, List.mem_flatMap]; exact .inr ⟨f, hf, by simp⟩, rfl⟩

theorem stackShown_ne {s : List Frame} (h : Rooted s) : ∃ t, stackShown s = rootFrame.e :: t := by
  unfold Rooted stackShown at *
  generalize s.reverse = r at h
  cases r with
  | nil => simp at h
  | cons a r =>
    simp only [List.map_cons, List.head?_cons, Option.some.injEq] at h
    exact ⟨_, by rw [List.flatMap_cons, h]; rfl⟩

theorem foldl_paths (es : List Entry) (s : List Frame) (hr : Rooted s) (q : Str) :
    q ∈ (stackShown (es.foldl step s)).tail.map Entry.full ↔
      q ∈ (stackShown s).tail.map Entry.full ∨ ∃ e ∈ es, q ∈ trail e.full := by
  induction es generalizing s with
  | nil => simp
  | cons e es ih =>
    obtain ⟨m, l, h⟩ := step_is s e
    have hr' : Rooted (step s e) := by
      rw [h.stack]; exact rooted_append (rooted_combine (by omega) hr)
    rw [List.foldl_cons, ih _ hr']
    obtain ⟨t, ht⟩ := stackShown_ne hr
    have key : q ∈ (stackShown (step s e)).tail.map Entry.full ↔
        q ∈ (stackShown s).tail.map Entry.full ∨ q ∈ trail e.full := by
      constructor
      · intro hq
        rw [h.shown, ht] at hq
        rw [ht]
        simp only [List.cons_append, List.tail_cons, List.map_append, List.mem_append] at hq ⊢
        rcases hq with hq | hq
        · exact .inl hq
        · right
          have : q ∈ (l ++ [e]).map Entry.full := by rw [List.map_append, List.mem_append]; exact hq
          obtain ⟨a, ha, rfl⟩ := List.mem_map.1 this
          exact step_added h a ha
      · rintro (hq | hq)
        · rw [h.shown, ht]
          rw [ht] at hq
          simp only [List.cons_append, List.tail_cons, List.map_append, List.mem_append] at hq ⊢
          exact .inl hq
        · exact names_shown (step_trail_sub h hr q hq)
    rw [key]
    simp only [List.mem_cons, exists_eq_or_imp]
    tauto

/-- **C99** The paths shown are the paths of the entries and those on the way to them, and no others. -/
theorem index_paths (es : List Entry) (q : Str) :
    (∃ a ∈ shownAll (buildIndexTree es), a.full = q) ↔ ∃ e ∈ es, q = e.full ∨ OnWay q e.full := by
  have h := foldl_paths es [rootFrame] rfl q
  rw [build_shown] at h
  simp only [List.tail_cons, List.mem_map] at h
  rw [h]
  simp only [stackShown, List.reverse_singleton, List.flatMap_cons, List.flatMap_nil, List.append_nil, List.tail_cons]
  have : shownAll rootFrame.children = [] := rfl
  rw [this]
  simp only [List.not_mem_nil, false_and, exists_false, false_or]
  constructor
  · rintro ⟨e, he, hq⟩
    refine ⟨e, he, ?_⟩
    rcases (mem_trail _ _).1 hq with ⟨h1, h2⟩ | h
    · exact .inl (by rw [h1, h2])
    · exact .inr h
  · rintro ⟨e, he, hq⟩
    refine ⟨e, he, (mem_trail _ _).2 ?_⟩
    rcases hq with rfl | h
    · by_cases h0 : e.full = []
      · exact .inl ⟨h0, h0⟩
      · exact .inr ⟨h0, .inl rfl⟩
    · exact .inr h


/-! ## Nesting -/

/-- `p` belongs directly under `q`, or at the top. -/
def Link : Option Str → Str → Prop
  | none, p => TopPath p
  | some q, p => ParentPath q p

def Chain : Option Str → List Str → Prop
  | _, [] => True
  | q, a :: l => Link q a ∧ Chain (some a) l

theorem chain_right {q : Option Str} {a b : List Str} (h : Chain q (a ++ b)) : Chain (a.getLast?.or q) b := by
  induction a generalizing q with
  | nil => simpa using h
  | cons x a ih =>
    have := ih h.2
    cases a with
    | nil => simpa using this
    | cons y a =>
      rw [List.getLast?_cons_cons]
      rw [List.getLast?_eq_some_getLast (by simp)] at this ⊢
      exact this

theorem cuts_chain (s : Str) (pre : Str) (q : Option Str)
    (h : ∀ b t, s = b ++ t → '/' ∉ b → Link q (pre ++ b)) : Chain q ((cuts s).map fun p => pre ++ p) := by
  induction s generalizing pre q with
  | nil => exact ⟨h [] [] rfl (by simp), trivial⟩
  | cons c s ih =>
    unfold cuts
    split
    · rename_i hc
      subst hc
      simp only [List.map_cons, List.append_nil, List.map_map]
      refine ⟨by simpa using h [] _ rfl (by simp), ?_⟩
      have := ih (pre ++ ['/']) (some pre) fun b t _ hb => ⟨b, by simp, hb⟩
      simpa [Function.comp_def] using this
    · rename_i hc
      simp only [List.map_map]
      have := ih (pre ++ [c]) q fun b t e hb => by
        have := h (c :: b) t (by rw [e]; rfl) (by
          rw [List.mem_cons]; rintro (h | h)
          · exact hc h.symm
          · exact hb h)
        simpa using this
      simpa [Function.comp_def] using this

theorem trail_chain (full : Str) : Chain none (trail full) := by
  unfold trail
  split
  · exact ⟨by simp [Link, TopPath], trivial⟩
  · rename_i h0
    cases full with
    | nil => exact absurd rfl h0
    | cons c s =>
      have e : paths (c :: s) = (cuts s).map (c :: ·) := by
        unfold paths
        have hne : ∀ l : List Str, (l.map (c :: ·)).filter (fun p => !p.isEmpty) = l.map (c :: ·) := by
          intro l
          rw [List.filter_eq_self]
          simp
        rw [cuts]
        split
        · rw [List.filter_cons, if_neg (by simp)]
          exact hne (cuts s)
        · exact hne (cuts s)
      rw [e]
      exact cuts_chain s [c] none fun b t _ hb => by simpa [Link, TopPath] using hb

/-- The children are where they belong. -/
inductive Kids : Option Str → List ITree → Prop
  | nil {q : Option Str} : Kids q []
  | cons {q : Option Str} {e : Entry} {b : Bool} {cs ts : List ITree} :
      Link q e.full → Kids (some e.full) cs → Kids q ts → Kids q (.node e b cs :: ts)

theorem kids_append {q : Option Str} {a b : List ITree} (ha : Kids q a) (hb : Kids q b) : Kids q (a ++ b) := by
  induction ha with
  | nil => exact hb
  | cons h1 h2 _ _ ih => exact .cons h1 h2 (ih hb)

theorem kids_mem {q : Option Str} {ts : List ITree} (h : Kids q ts) :
    ∀ e b cs, ITree.node e b cs ∈ ts → Link q e.full ∧ Kids (some e.full) cs := by
  induction ts with
  | nil => simp
  | cons t ts ih =>
    cases h with
    | cons h1 h2 h3 =>
      intro e b cs hm
      rcases List.mem_cons.1 hm with hm | hm
      · cases hm; exact ⟨h1, h2⟩
      · exact ih h3 e b cs hm

theorem kids_inside {ts : List ITree} {n : ITree} (h : Inside n ts) {q : Option Str} (hk : Kids q ts) :
    ∀ e b cs, n = .node e b cs → Kids (some e.full) cs := by
  induction h generalizing q with
  | here hm => rintro e b cs rfl; exact (kids_mem hk e b cs hm).2
  | deeper hm _ ih => exact ih (kids_mem hk _ _ _ hm).2

def label (s : List Frame) : Option Str := (names s).getLast?

theorem label_one (f : Frame) : label [f] = none := by simp [label, names]

theorem label_cons (f g : Frame) (s : List Frame) : label (f :: g :: s) = some f.e.full := by
  unfold label names
  rw [List.reverse_cons]
  have : (g :: s).reverse ≠ [] := by simp
  rw [List.tail_append_of_ne_nil this]
  simp

/-- The elements on the stack are where they belong, and their children. -/
def Placed : List Frame → Prop
  | [] => True
  | [f] => Kids (label [f]) f.children
  | f :: g :: s => Kids (label (f :: g :: s)) f.children ∧ Link (label (g :: s)) f.e.full ∧ Placed (g :: s)

theorem placed_kids {f : Frame} {s : List Frame} (h : Placed (f :: s)) : Kids (label (f :: s)) f.children := by
  cases s with
  | nil => exact h
  | cons g s => exact h.1

theorem label_adopt (l p : Frame) (s : List Frame) : label (l.adopt p :: s) = label (l :: s) := by
  cases s with
  | nil => rw [label_one, label_one]
  | cons g s => rw [label_cons, label_cons]; rfl

theorem placed_combine (k : Nat) (s : List Frame) (h : Placed s) : Placed (combine k s) := by
  fun_induction combine k s with
  | case1 p l rest hk ih =>
    apply ih
    obtain ⟨h1, h2, h3⟩ := h
    have hkids : Kids (label (l.adopt p :: rest)) (l.adopt p).children := by
      rw [label_adopt]
      refine kids_append (placed_kids h3) ?_
      rw [label_cons] at h1
      exact .cons h2 h1 .nil
    cases rest with
    | nil => exact hkids
    | cons g s => exact ⟨hkids, h3.2.1, h3.2.2⟩
  | case2 => exact h
  | case3 => exact h

theorem placed_push {s : List Frame} (hs : s ≠ []) {l : List Entry} (h : Placed s)
    (hc : Chain (label s) (l.map Entry.full)) : Placed ((l.map Entry.frame).reverse ++ s) := by
  induction l generalizing s with
  | nil => exact h
  | cons a l ih =>
    rw [List.map_cons, List.reverse_cons, List.append_assoc]
    cases s with
    | nil => exact absurd rfl hs
    | cons g s =>
      refine ih (s := a.frame :: g :: s) (by simp) ⟨.nil, hc.1, h⟩ ?_
      rw [label_cons]
      exact hc.2

theorem rooted_ne {s : List Frame} (h : Rooted s) : s ≠ [] := by
  rintro rfl
  simp [Rooted] at h

/-- The names on the stack after a step, if the path is not on it already. -/
theorem step_trail {s : List Frame} {e : Entry} {m : Nat} {l : List Entry} (h : StepIs s e m l) (hr : Rooted s)
    (hn : e.full ∉ names s) : names (step s e) = trail e.full ∧ (trail e.full).take m = (names s).take m ∧
      (trail e.full).drop m = (l ++ [e]).map Entry.full := by
  have key : (trail e.full).take m = (names s).take m ∧ (trail e.full).drop m = (l ++ [e]).map Entry.full := by
    unfold trail
    have hle := h.leRight
    split
    · rename_i h0
      rw [h0, paths_nil] at hle
      have hm : m = 0 := by simpa using hle
      have hf := h.full
      subst hm
      rw [h0, paths_nil] at hf
      have hl : l = [] := by simpa using hf
      simp [hl, h0]
    · rename_i h0
      obtain ⟨w, hw⟩ := paths_last h0
      refine ⟨h.same.symm, ?_⟩
      rw [List.map_append, h.full]
      have hm : m ≤ w.length := by
        apply Classical.byContradiction
        intro hgt
        apply hn
        have h1 : (paths e.full).take m = paths e.full := List.take_of_length_le (by rw [hw]; simp; omega)
        have h2 := h.same
        rw [h1] at h2
        exact List.mem_of_mem_take (h2 ▸ self_mem_paths h0)
      rw [hw, List.drop_append_of_le_length hm, List.dropLast_concat]
      rfl
  refine ⟨?_, key.1, key.2⟩
  have h1 := step_names h hr
  rw [h1, ← key.1]
  have : l.map Entry.full ++ [e.full] = (l ++ [e]).map Entry.full := by simp
  rw [this, ← key.2, List.take_append_drop]

theorem step_placed {s : List Frame} {e : Entry} {m : Nat} {l : List Entry} (h : StepIs s e m l) (hr : Rooted s)
    (hn : e.full ∉ names s) (hp : Placed s) : Placed (step s e) := by
  obtain ⟨_, h1, h2⟩ := step_trail h hr hn
  rw [h.stack]
  refine placed_push (rooted_ne (rooted_combine (by omega) hr)) (placed_combine _ _ hp) ?_
  unfold label
  rw [combine_names, ← h2, ← h1]
  have := trail_chain e.full
  rw [← List.take_append_drop m (trail e.full)] at this
  have := chain_right this
  simpa using this

theorem before_nil (a : Str) : ¬ Before a [] := by intro h; cases h

theorem before_self (a : Str) : ¬ Before a a := by
  induction a with
  | nil => exact before_nil _
  | cons c a ih =>
    intro h
    cases h with
    | rel h => exact absurd h (by simp)
    | cons h => exact ih h

theorem not_before_longer (a t : Str) : ¬ Before (a ++ t) a := by
  induction a with
  | nil => exact before_nil _
  | cons c a ih =>
    intro h
    cases h with
    | rel h => exact absurd h (by simp)
    | cons h => exact ih h

theorem not_trail_of_before {a b : Str} (h : Before a b) : b ∉ trail a := by
  rw [mem_trail]
  rintro (⟨_, rfl⟩ | ⟨_, rfl | ⟨t, rfl⟩⟩)
  · exact before_nil _ h
  · exact before_self _ h
  · exact not_before_longer _ _ h

/-- The name of the entry pushed last. -/
theorem foldl_placed (es : List Entry) (s : List Frame) (hr : Rooted s) (hp : Placed s) (o : InOrder es)
    (hs : ∀ e ∈ es, e.full ∉ names s) : Placed (es.foldl step s) := by
  induction es generalizing s with
  | nil => exact hp
  | cons e es ih =>
    obtain ⟨m, l, h⟩ := step_is s e
    have ho := List.pairwise_cons.1 o
    have hn := hs e (by simp)
    rw [List.foldl_cons]
    refine ih _ ?_ (step_placed h hr hn hp) ho.2 fun x hx => ?_
    · rw [h.stack]; exact rooted_append (rooted_combine (by omega) hr)
    · rw [(step_trail h hr hn).1]
      exact not_trail_of_before (ho.1 x hx)

theorem index_kids {es : List Entry} (o : InOrder es) : Kids none (buildIndexTree es) := by
  have h := foldl_placed es [rootFrame] rfl (by exact Kids.nil) o (by simp [names])
  have h2 := placed_combine 1 _ h
  obtain ⟨b, hb⟩ := final_stack es
  rw [hb] at h2
  simpa [Placed, label_one] using h2

/-- **C99** When the names are in order, as the maps they come from have them, an element at the top is a path of one part, and
an element under another has the path of that other and one more part. -/
theorem index_nested {es : List Entry} (o : InOrder es) :
    (∀ e b cs, ITree.node e b cs ∈ buildIndexTree es → TopPath e.full) ∧
      ∀ e b cs, Inside (.node e b cs) (buildIndexTree es) → ∀ e' b' cs', ITree.node e' b' cs' ∈ cs → ParentPath e.full e'.full := by
  have hk := index_kids o
  refine ⟨fun e b cs h => (kids_mem hk e b cs h).1, fun e b cs h e' b' cs' h' => ?_⟩
  exact (kids_mem (kids_inside h hk e b cs rfl) e' b' cs' h').1

/-! ## Once -/

theorem convex {q x y l : Str} (h1 : Before (q ++ x) l) (h2 : Before l (q ++ y)) : ∃ t, l = q ++ t ∧ Before t y := by
  induction q generalizing l with
  | nil => exact ⟨l, rfl, h2⟩
  | cons c q ih =>
    cases l with
    | nil => exact absurd h1 (before_nil _)
    | cons d l =>
      simp only [List.cons_append] at h1 h2
      cases h1 with
      | rel h =>
        cases h2 with
        | rel h' => exact absurd (UInt32.lt_trans h h') (by simp)
        | cons h' => exact absurd h (by simp)
      | cons h =>
        cases h2 with
        | rel h' => exact absurd h' (by simp)
        | cons h' =>
          obtain ⟨t, rfl, ht⟩ := ih h h'
          exact ⟨t, rfl, ht⟩

theorem contiguous {q x l e : Str} (h1 : Before x l) (h2 : Before l e) (hx : OnWay q x) (he : OnWay q e)
    (hc : ∀ (c : Char) (t : Str), l = q ++ c :: t → '/'.val ≤ c.val) : OnWay q l := by
  obtain ⟨x', rfl⟩ : ∃ x', x = q ++ x' := by
    rcases hx.2 with rfl | ⟨t, rfl⟩
    · exact ⟨[], by simp⟩
    · exact ⟨_, rfl⟩
  obtain ⟨y, rfl, hy⟩ : ∃ y, e = q ++ y ∧ (y = [] ∨ ∃ z, y = '/' :: z) := by
    rcases he.2 with rfl | ⟨t, rfl⟩
    · exact ⟨[], by simp, .inl rfl⟩
    · exact ⟨_, rfl, .inr ⟨_, rfl⟩⟩
  obtain ⟨t, rfl, ht⟩ := convex h1 h2
  refine ⟨hx.1, ?_⟩
  rcases hy with rfl | ⟨z, rfl⟩
  · exact absurd ht (before_nil _)
  · cases t with
    | nil => exact .inl (by simp)
    | cons c t =>
      have hc' := hc c t rfl
      cases ht with
      | rel h => exact absurd h (by simpa using hc')
      | cons h => exact .inr ⟨t, rfl⟩

/-- A path on the way to both is in the part the two have in common. -/
theorem in_common {a b q : Str} {m : Nat} (ha : OnWay q a) (hb : OnWay q b)
    (stop : ∀ x y, (paths a)[m]? = some x → (paths b)[m]? = some y → x ≠ y) : q ∈ (paths b).take m := by
  have h1 := paths_prefix ha
  have h2 := paths_prefix hb
  have hq := self_mem_paths ha.1
  obtain ⟨u, hu⟩ := h1
  obtain ⟨v, hv⟩ := h2
  have hm : (paths q).length ≤ m := by
    apply Classical.byContradiction
    intro hlt
    have hlt : m < (paths q).length := by omega
    have e1 : (paths a)[m]? = some (paths q)[m] := by
      rw [← hu, List.getElem?_append_left hlt, List.getElem?_eq_getElem hlt]
    have e2 : (paths b)[m]? = some (paths q)[m] := by
      rw [← hv, List.getElem?_append_left hlt, List.getElem?_eq_getElem hlt]
    exact stop _ _ e1 e2 rfl
  rw [← hv, List.take_append, List.mem_append]
  left
  rw [List.take_of_length_le hm]
  exact hq

theorem trail_nodup (s : Str) : (trail s).Nodup := by
  unfold trail
  split
  · simp
  · exact paths_nodup s

/-- What has been shown so far, and that the last name is on the stack. -/
structure Sofar (done : List Entry) (s : List Frame) : Prop where
  rooted : Rooted s
  once : ((stackShown s).tail.map Entry.full).Nodup
  mem : ∀ q ∈ (stackShown s).tail.map Entry.full, ∃ e ∈ done, q ∈ trail e.full
  last : (done = [] ∧ names s = []) ∨ ∃ d e, done = d ++ [e] ∧ names s = trail e.full

theorem sofar_step {done : List Entry} {s : List Frame} {e : Entry} (h : Sofar done s) (o : InOrder (done ++ [e]))
    (hc : Clear (done ++ [e])) : Sofar (done ++ [e]) (step s e) := by
  obtain ⟨m, l, hs⟩ := step_is s e
  have hbefore : ∀ x ∈ done, Before x.full e.full := by
    intro x hx
    exact (List.pairwise_append.1 o).2.2 x hx e (by simp)
  have hn : e.full ∉ names s := by
    rcases h.last with ⟨_, hn⟩ | ⟨d, x, hd, hn⟩
    · rw [hn]; simp
    · rw [hn]; exact not_trail_of_before (hbefore x (by rw [hd]; simp))
  obtain ⟨t1, t2, t3⟩ := step_trail hs h.rooted hn
  obtain ⟨t, ht⟩ := stackShown_ne h.rooted
  have hsh : (stackShown (step s e)).tail.map Entry.full = (stackShown s).tail.map Entry.full ++ (trail e.full).drop m := by
    rw [hs.shown, ht, t3]; simp
  refine ⟨?_, ?_, ?_, .inr ⟨done, e, rfl, t1⟩⟩
  · rw [hs.stack]; exact rooted_append (rooted_combine (by omega) h.rooted)
  · rw [hsh, List.nodup_append]
    refine ⟨h.once, (trail_nodup _).sublist (List.drop_sublist _ _), ?_⟩
    rintro q hq q' hq' rfl
    obtain ⟨x, hx, hqx⟩ := h.mem q hq
    have hqe := List.mem_of_mem_drop hq'
    have hwe : OnWay q e.full := by
      rcases (mem_trail _ _).1 hqe with ⟨h0, _⟩ | hw
      · exact absurd (h0 ▸ hbefore x hx) (before_nil _)
      · exact hw
    have hwx : OnWay q x.full := by
      rcases (mem_trail _ _).1 hqx with ⟨h0, h1⟩ | hw
      · exact absurd h1 hwe.1
      · exact hw
    rcases h.last with ⟨hd, _⟩ | ⟨d, y, hd, hny⟩
    · rw [hd] at hx; simp at hx
    · have hwy : OnWay q y.full := by
        rw [hd, List.mem_append] at hx
        rcases hx with hx | hx
        · refine contiguous ?_ (hbefore y (by rw [hd]; simp)) hwx hwe ?_
          · rw [hd, List.append_assoc] at o
            exact (List.pairwise_append.1 o).2.2 x hx y (by simp)
          · exact hc y (by rw [hd]; simp) e (by simp) q hwe
        · simp only [List.mem_singleton] at hx
          rw [← hx]; exact hwx
      have hy0 : y.full ≠ [] := by
        intro h0
        rcases hwy with ⟨hq0, h2 | ⟨t, h2⟩⟩
        · exact hq0 (by rw [h2, h0])
        · rw [h0] at h2; simp at h2
      have he0 : e.full ≠ [] := by
        intro h0
        exact absurd (h0 ▸ hbefore x hx) (before_nil _)
      have hstop := hs.stop
      rw [hny] at hstop
      unfold trail at hstop
      rw [if_neg hy0] at hstop
      have hin := in_common hwy hwe hstop
      have hnd := paths_nodup e.full
      unfold trail at hq'
      rw [if_neg he0] at hq'
      rw [← List.take_append_drop m (paths e.full)] at hnd
      exact (List.nodup_append.1 hnd).2.2 q hin q hq' rfl
  · intro q hq
    rw [hsh, List.mem_append] at hq
    rcases hq with hq | hq
    · obtain ⟨x, hx, hqx⟩ := h.mem q hq
      exact ⟨x, by simp [hx], hqx⟩
    · exact ⟨e, by simp, List.mem_of_mem_drop hq⟩

theorem sofar_foldl (es done : List Entry) (s : List Frame) (h : Sofar done s) (o : InOrder (done ++ es))
    (hc : Clear (done ++ es)) : Sofar (done ++ es) (es.foldl step s) := by
  induction es generalizing done s with
  | nil => simpa using h
  | cons e es ih =>
    have e1 : done ++ e :: es = (done ++ [e]) ++ es := by simp
    rw [e1] at o hc ⊢
    refine ih _ _ (sofar_step h ?_ ?_) o hc
    · exact (List.pairwise_append.1 o).1
    · intro a ha b hb
      exact hc a (List.mem_append_left _ ha) b (List.mem_append_left _ hb)

/-- **C99** When moreover no name goes on from a path with a character that comes before the slash, no path is shown twice. -/
theorem index_once {es : List Entry} (o : InOrder es) (hc : Clear es) :
    ((shownAll (buildIndexTree es)).map Entry.full).Nodup := by
  have h := (sofar_foldl es [] [rootFrame] ⟨rfl, by simp [stackShown, rootFrame, shownAll],
    by simp [stackShown, rootFrame, shownAll], .inl ⟨rfl, rfl⟩⟩ (by simpa using o) (by simpa using hc)).once
  rw [build_shown] at h
  simpa using h

/-! ## Substance -/

def ITree.noSub : ITree → Bool
  | .node _ b _ => b

inductive Dull : List ITree → Prop
  | nil : Dull []
  | cons {e : Entry} {b : Bool} {cs ts : List ITree} :
      b = (e.noSub && cs.all ITree.noSub) → Dull cs → Dull ts → Dull (.node e b cs :: ts)

theorem dull_append {a b : List ITree} (ha : Dull a) (hb : Dull b) : Dull (a ++ b) := by
  induction ha with
  | nil => exact hb
  | cons h1 h2 _ _ ih => exact .cons h1 h2 ih

def FrameDull (f : Frame) : Prop := f.noSub = (f.e.noSub && f.children.all ITree.noSub) ∧ Dull f.children

theorem combine_dull (k : Nat) (s : List Frame) (h : ∀ f ∈ s, FrameDull f) : ∀ f ∈ combine k s, FrameDull f := by
  fun_induction combine k s with
  | case1 p l rest hk ih =>
    apply ih
    intro f hf
    rcases List.mem_cons.1 hf with rfl | hf
    · obtain ⟨h1, h2⟩ := h l (by simp)
      obtain ⟨h3, h4⟩ := h p (by simp)
      refine ⟨?_, dull_append h2 (.cons h3 h4 .nil)⟩
      simp only [Frame.adopt, h1, List.all_append, List.all_cons, List.all_nil, Bool.and_true]
      simp [Frame.tree, ITree.noSub, Bool.and_assoc]
    · exact h f (by simp [hf])
  | case2 => exact h
  | case3 => exact h

theorem foldl_dull (es : List Entry) (s : List Frame) (h : ∀ f ∈ s, FrameDull f) : ∀ f ∈ es.foldl step s, FrameDull f := by
  induction es generalizing s with
  | nil => exact h
  | cons e es ih =>
    rw [List.foldl_cons]
    apply ih
    obtain ⟨m, l, hs⟩ := step_is s e
    rw [hs.stack]
    intro f hf
    rcases List.mem_append.1 hf with hf | hf
    · rw [List.mem_reverse, List.mem_map] at hf
      obtain ⟨a, _, rfl⟩ := hf
      exact ⟨by simp [Entry.frame], .nil⟩
    · exact combine_dull _ _ h f hf

theorem dull_all {ts : List ITree} (h : Dull ts) :
    ts.all ITree.noSub = true ↔ ∀ x ∈ shownAll ts, x.noSub = true := by
  induction h with
  | nil => simp [shownAll]
  | cons h1 _ _ ih1 ih2 =>
    rw [List.all_cons, Bool.and_eq_true, ih2]
    simp only [ITree.noSub, h1, Bool.and_eq_true, ih1, shownAll, ITree.shown]
    simp only [List.cons_append, List.mem_cons, List.mem_append]
    constructor
    · rintro ⟨⟨h1, h2⟩, h3⟩ x (rfl | hx | hx)
      · exact h1
      · exact h2 x hx
      · exact h3 x hx
    · intro h
      exact ⟨⟨h _ (.inl rfl), fun x hx => h x (.inr (.inl hx))⟩, fun x hx => h x (.inr (.inr hx))⟩

theorem dull_inside {ts : List ITree} {n : ITree} (h : Inside n ts) (hd : Dull ts) :
    ∀ e b cs, n = .node e b cs → b = (e.noSub && cs.all ITree.noSub) ∧ Dull cs := by
  have mem : ∀ ts : List ITree, Dull ts → ∀ e b cs, ITree.node e b cs ∈ ts →
      b = (e.noSub && cs.all ITree.noSub) ∧ Dull cs := by
    intro ts h
    induction h with
    | nil => simp
    | cons h1 h2 _ _ ih =>
      intro e b cs hm
      rcases List.mem_cons.1 hm with hm | hm
      · cases hm; exact ⟨h1, h2⟩
      · exact ih e b cs hm
  induction h with
  | here hm => rintro e b cs rfl; exact mem _ hd e b cs hm
  | deeper hm _ ih => exact ih (mem _ hd _ _ _ hm).2

/-- **C99** An element is marked as having nothing behind it exactly when it and all elements under it have nothing. -/
theorem index_substance (es : List Entry) (e : Entry) (b : Bool) (cs : List ITree)
    (h : Inside (.node e b cs) (buildIndexTree es)) :
    b = true ↔ ∀ x ∈ (ITree.node e b cs).shown, x.noSub = true := by
  have h1 := foldl_dull es [rootFrame] (by
    intro f hf; simp only [List.mem_singleton] at hf; subst hf; exact ⟨rfl, .nil⟩)
  have h2 := combine_dull 1 _ h1
  obtain ⟨b', hb⟩ := final_stack es
  rw [hb] at h2
  have h3 : Dull (buildIndexTree es) := (h2 _ (List.mem_singleton.2 rfl)).2
  obtain ⟨h4, h5⟩ := dull_inside h h3 e b cs rfl
  rw [h4, Bool.and_eq_true, dull_all h5]
  simp [ITree.shown]

/-! ## The lines -/

mutual
theorem rows_kept (t : ITree) (lead : Str) (p : Entry → Bool) (hp : ∀ e : Entry, e.html = [] → e.teaser = [] → p e = false) :
    ((t.rows lead).map Row.e).filter p = t.shown.filter p := by
  match t with
  | .node e b [] => simp [ITree.rows, rowsAll, ITree.shown, shownAll]
  | .node e b [c] =>
    have ih := fun l => rows_kept c l p hp
    unfold ITree.rows
    simp only [ITree.shown, shownAll, List.append_nil]
    split
    · rename_i h
      simp only [Bool.and_eq_true, List.isEmpty_iff] at h
      rw [ih, List.filter_cons, hp e h.1 h.2]
      rfl
    · simp only [List.map_cons, List.filter_cons, ih]
  | .node e b (c :: d :: cs) =>
    have ih := rowsAll_kept (c :: d :: cs) p hp
    simp only [ITree.rows, ITree.shown, List.map_cons, List.filter_cons, ih]
theorem rowsAll_kept (ts : List ITree) (p : Entry → Bool) (hp : ∀ e : Entry, e.html = [] → e.teaser = [] → p e = false) :
    ((rowsAll ts).map Row.e).filter p = (shownAll ts).filter p := by
  match ts with
  | [] => simp [rowsAll, shownAll]
  | t :: ts => simp [rowsAll, shownAll, rows_kept t [] p hp, rowsAll_kept ts p hp]
end

theorem lists_filter {es l : List Entry} (h : Lists es l) (p : Entry → Bool)
    (hp : ∀ e : Entry, e.html = [] → e.teaser = [] → p e = false) : l.filter p = es.filter p := by
  induction h with
  | nil => rfl
  | entry _ ih => simp only [List.filter_cons, ih]
  | between h1 _ _ _ ih => rw [List.filter_cons, hp _ h1.1 h1.2.1]; simpa using ih

/-- **C99** Of the lines of the index those with a link or a teaser are the entries with a page or a teaser, in order. -/
theorem index_rows (es : List Entry) :
    ((rowsAll (buildIndexTree es)).map Row.e).filter (fun e => !e.html.isEmpty || !e.teaser.isEmpty) =
      es.filter fun e => !e.html.isEmpty || !e.teaser.isEmpty := by
  have hp : ∀ e : Entry, e.html = [] → e.teaser = [] → (!e.html.isEmpty || !e.teaser.isEmpty) = false := by
    intro e h1 h2; simp [h1, h2]
  rw [rowsAll_kept _ _ hp, lists_filter (index_order es) _ hp]

theorem rows_lead (t : ITree) (lead : Str) : ∃ r ∈ t.rows lead, ∃ b, r.lead = lead ++ b := by
  match t with
  | .node e b [] => exact ⟨⟨lead, e, e.html.isEmpty && b⟩, by simp [ITree.rows], [], by simp⟩
  | .node e b [c] =>
    rw [ITree.rows]
    split
    · obtain ⟨r, hr, x, hx⟩ := rows_lead c (lead ++ e.self ++ ['/'])
      exact ⟨r, hr, e.self ++ ['/'] ++ x, by rw [hx]; simp⟩
    · exact ⟨_, List.mem_cons_self, [], by simp⟩
  | .node e b (c :: d :: cs) => exact ⟨⟨lead, e, e.html.isEmpty && b⟩, by simp [ITree.rows], [], by simp⟩

def OnRow (x : Entry) (rs : List Row) : Prop :=
  (∃ r ∈ rs, r.e = x) ∨ (x.html = [] ∧ x.teaser = [] ∧ ∃ r ∈ rs, ∃ a b, r.lead = a ++ x.self ++ '/' :: b)

theorem onRow_mono {x : Entry} {a b : List Row} (h : ∀ r ∈ a, r ∈ b) : OnRow x a → OnRow x b := by
  rintro (⟨r, hr, e⟩ | ⟨h1, h2, r, hr, e⟩)
  · exact .inl ⟨r, h r hr, e⟩
  · exact .inr ⟨h1, h2, r, h r hr, e⟩

mutual
theorem rows_all (t : ITree) (lead : Str) (x : Entry) (hx : x ∈ t.shown) : OnRow x (t.rows lead) := by
  match t with
  | .node e b [] =>
    simp only [ITree.shown, shownAll, List.mem_singleton] at hx
    exact .inl ⟨⟨lead, e, e.html.isEmpty && b⟩, by simp [ITree.rows], hx.symm⟩
  | .node e b [c] =>
    simp only [ITree.shown, shownAll, List.append_nil, List.mem_cons] at hx
    rw [ITree.rows]
    split
    · rename_i h
      simp only [Bool.and_eq_true, List.isEmpty_iff] at h
      rcases hx with rfl | hx
      · obtain ⟨r, hr, y, hy⟩ := rows_lead c (lead ++ x.self ++ ['/'])
        exact .inr ⟨h.1, h.2, r, hr, lead, y, by rw [hy]; simp⟩
      · exact rows_all c _ x hx
    · rcases hx with rfl | hx
      · exact .inl ⟨_, List.mem_cons_self, rfl⟩
      · exact onRow_mono (fun r hr => List.mem_cons_of_mem _ hr) (rows_all c [] x hx)
  | .node e b (c :: d :: cs) =>
    rw [ITree.shown, List.mem_cons] at hx
    rw [ITree.rows]
    · rcases hx with rfl | hx
      · exact .inl ⟨_, List.mem_cons_self, rfl⟩
      · exact onRow_mono (fun r hr => List.mem_cons_of_mem _ hr) (rowsAll_all (c :: d :: cs) x hx)
    · simp
theorem rowsAll_all (ts : List ITree) (x : Entry) (hx : x ∈ shownAll ts) : OnRow x (rowsAll ts) := by
  match ts with
  | [] => simp [shownAll] at hx
  | t :: ts =>
    rw [shownAll, List.mem_append] at hx
    rw [rowsAll]
    rcases hx with hx | hx
    · exact onRow_mono (fun r hr => List.mem_append_left _ hr) (rows_all t [] x hx)
    · exact onRow_mono (fun r hr => List.mem_append_right _ hr) (rowsAll_all ts x hx)
end

/-- **C99** Every element is on a line: its own, or, having neither page nor teaser, as part of the grey prefix of another. -/
theorem index_rows_all (es : List Entry) (x : Entry) (hx : x ∈ shownAll (buildIndexTree es)) :
    (∃ r ∈ rowsAll (buildIndexTree es), r.e = x) ∨
      (x.html = [] ∧ x.teaser = [] ∧ ∃ r ∈ rowsAll (buildIndexTree es), ∃ a b, r.lead = a ++ x.self ++ '/' :: b) :=
  rowsAll_all _ x hx

end Verif.Dmdoc
