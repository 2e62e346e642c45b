import Verif.CallTree.Model

namespace Verif.CallTree

variable {P T N L : Type} [DecidableEq P] [DecidableEq T]

/-- The frame an entry of the queue stands for. -/
def Task.frame (t : Task P T L) : Frame P T := ⟨t.proc, t.receiver, t.exact⟩

theorem mem_pushCalls {g : Program P T N L} {p : P} {r : T} {st : List (P × L)} {t : Task P T L} :
    t ∈ pushCalls g p r st ↔ ∃ e ∈ g.calls p, t =
      { proc := e.proc
        stack := st ++ [(e.proc, e.loc)]
        newContext := e.newContext
        parent := e.proc
        receiver := e.on r
        exact := e.exact } := by
  simp only [pushCalls, List.mem_map, Edge.on]
  constructor
  · rintro ⟨e, he, rfl⟩; exact ⟨e, he, rfl⟩
  · rintro ⟨e, he, rfl⟩; exact ⟨e, he, rfl⟩

theorem mem_pushOverrides {g : Program P T N L} {t u : Task P T L} :
    u ∈ pushOverrides g t ↔ ∃ q, (t.exact = false ∧ g.ty t.proc ≠ g.rootTy ∧
      ∃ ty ∈ g.below t.receiver, g.own ty (g.name t.proc) = some q) ∧ u =
      { proc := q
        stack := t.stack
        newContext := false
        parent := t.proc
        receiver := g.ty q
        exact := true } := by
  unfold pushOverrides
  split
  · rename_i h
    simp only [Bool.and_eq_true, Bool.not_eq_true', decide_eq_true_eq] at h
    simp only [List.mem_filterMap, Option.map_eq_some_iff]
    constructor
    · rintro ⟨ty, hty, q, hq, rfl⟩
      exact ⟨q, ⟨h.1, h.2, ty, hty, hq⟩, rfl⟩
    · rintro ⟨q, ⟨-, -, ty, hty, hq⟩, rfl⟩
      exact ⟨ty, hty, q, hq, rfl⟩
  · rename_i h
    simp only [Bool.and_eq_true, Bool.not_eq_true', decide_eq_true_eq] at h
    simp only [List.not_mem_nil, false_iff]
    rintro ⟨q, ⟨h1, h2, -⟩, -⟩
    exact h ⟨h1, h2⟩

/-- The stack ends with the parent; a task that is not exact is its own parent. -/
def Task.WellStacked (t : Task P T L) : Prop :=
  (∃ l, t.stack.getLast? = some (t.parent, l)) ∧ (t.exact = false → t.parent = t.proc)

/-- Every entry that is not in a new context is visited or something the root waits
for. -/
def QueueOk (g : Program P T N L) (root : P) (V : Finset P) (q : List (Task P T L)) : Prop :=
  ∀ t ∈ q, t.WellStacked ∧ (t.newContext = false → t.proc ∈ V ∨ Waits g root t.frame t.stack)

theorem QueueOk.start {g : Program P T N L} {root : P} {V : Finset P} :
    QueueOk g root V (pushCalls g root (g.ty root) []) := by
  intro t ht
  obtain ⟨e, he, rfl⟩ := mem_pushCalls.1 ht
  exact ⟨⟨⟨e.loc, rfl⟩, fun _ => rfl⟩, fun hn => .inr (Waits.start he hn)⟩

theorem QueueOk.tail {g : Program P T N L} {root : P} {V : Finset P} {t : Task P T L}
    {q : List (Task P T L)} (h : QueueOk g root V (t :: q)) : QueueOk g root V q :=
  fun u hu => h u (List.mem_cons_of_mem _ hu)

theorem QueueOk.more {g : Program P T N L} {root : P} {V : Finset P} {p : P}
    {q : List (Task P T L)} (h : QueueOk g root V q) : QueueOk g root (insert p V) q := by
  intro u hu
  refine ⟨(h u hu).1, fun hn => ?_⟩
  rcases (h u hu).2 hn with h | h
  · exact .inl (Finset.mem_insert_of_mem h)
  · exact .inr h

theorem QueueOk.head {g : Program P T N L} {root : P} {V : Finset P} {t : Task P T L}
    {q : List (Task P T L)} (h : QueueOk g root V (t :: q)) (hn : t.newContext = false)
    (hv : t.proc ∉ V) : Waits g root t.frame t.stack :=
  ((h t List.mem_cons_self).2 hn).resolve_left hv

theorem QueueOk.push {g : Program P T N L} {root : P} {V : Finset P} {t : Task P T L}
    {q : List (Task P T L)} (h : QueueOk g root V (t :: q)) (hn : t.newContext = false)
    (hv : t.proc ∉ V) (hs : ¬ g.Stops t.proc) (hl : g.sleeps t.proc = false) :
    QueueOk g root (insert t.proc V)
      (q ++ pushOverrides g t ++ pushCalls g t.proc t.receiver t.stack) := by
  have ht := h t List.mem_cons_self
  intro u hu
  rcases List.mem_append.1 hu with hu | hu
  · rcases List.mem_append.1 hu with hu | hu
    · exact h.tail.more u hu
    · obtain ⟨x, hx, rfl⟩ := mem_pushOverrides.1 hu
      refine ⟨⟨?_, fun h => by cases h⟩, fun _ => ?_⟩
      · obtain ⟨l, hl⟩ := ht.1.1
        exact ⟨l, by rw [← ht.1.2 hx.1]; exact hl⟩
      · by_cases hxp : x = t.proc
        · exact .inl (by simp [hxp])
        · exact .inr (Waits.dispatch (h.head hn hv) hs hl ⟨hxp, hx⟩)
  · obtain ⟨e, he, rfl⟩ := mem_pushCalls.1 hu
    refine ⟨⟨⟨e.loc, ?_⟩, fun _ => rfl⟩, fun hne => .inr (Waits.call (h.head hn hv) hs hl he hne)⟩
    simp

/-- What a call-stack report says is true. -/
def Report.Ok (g : Program P T N L) (root : P) : Report P L → Prop
  | .builtin _ => False
  | .via r p st k => r = root ∧ (∃ f : Frame P T, f.proc = p ∧ Waits g root f st) ∧
      ¬ g.Stops p ∧ g.sleeps p = true ∧
      ∃ last l, st.getLast? = some (last, l) ∧ k = kindOf g root last p

/-- The closure property of one visited proc. -/
def Explored (g : Program P T N L) (root : P) (W : Finset P) (reps : List (Report P L)) (p : P) :
    Prop :=
  ∃ (f : Frame P T) (path : List (P × L)), f.proc = p ∧ Waits g root f path ∧
    (¬ g.Stops p → g.sleeps p = false →
      (∀ e ∈ g.calls p, e.newContext = false → e.proc ∈ W) ∧ ∀ q, g.Dispatches f q → q ∈ W) ∧
    (¬ g.Stops p → g.sleeps p = true → ∃ st k, Report.via root p st k ∈ reps)

theorem Explored.mono {g : Program P T N L} {root : P} {W W' : Finset P}
    {reps reps' : List (Report P L)} {p : P} (h : Explored g root W reps p)
    (hw : W ⊆ W') (hr : ∀ r ∈ reps, r ∈ reps') : Explored g root W' reps' p := by
  obtain ⟨f, path, h1, h2, h3, h4⟩ := h
  refine ⟨f, path, h1, h2, fun a b => ⟨fun e he hn => hw ((h3 a b).1 e he hn),
    fun q hq => hw ((h3 a b).2 q hq)⟩, fun a b => ?_⟩
  obtain ⟨st, k, h⟩ := h4 a b
  exact ⟨st, k, hr _ h⟩

theorem not_stops {g : Program P T N L} {p : P} (h1 : ¬ g.waitfor p = true)
    (h2 : ¬ g.exempt p = true) (h3 : ¬ g.mustNot p = true) : ¬ g.Stops p := by
  rintro (h | h | h)
  · exact h1 h
  · exact h2 h
  · exact h3 h

/-- Everything about one walk. -/
structure WalkOk (g : Program P T N L) (root : P) (V : Finset P) (q : List (Task P T L))
    (out : Finset P × List (Report P L)) : Prop where
  grow : V ⊆ out.1
  done : ∀ t ∈ q, t.newContext = false → t.proc ∈ out.1
  sound : ∀ r ∈ out.2, r.Ok g root
  fresh : ∀ r ∈ out.2, r.proc ∉ V ∧ r.proc ∈ out.1
  once : (out.2.map Report.proc).Nodup
  explored : ∀ p ∈ out.1, p ∉ V → Explored g root out.1 out.2 p

/-- One proc that is only marked. -/
theorem WalkOk.mark {g : Program P T N L} {root : P} {V : Finset P} {t : Task P T L}
    {q : List (Task P T L)} {out : Finset P × List (Report P L)}
    (hq : QueueOk g root V (t :: q)) (hn : ¬ t.newContext = true) (hv : t.proc ∉ V)
    (hs : g.Stops t.proc)
    (h : WalkOk g root (insert t.proc V) q out) : WalkOk g root V (t :: q) out := by
  have hn' : t.newContext = false := by simpa using hn
  refine ⟨fun x hx => h.grow (Finset.mem_insert_of_mem hx), ?_, h.sound, ?_, h.once, ?_⟩
  · intro u hu hun
    rcases List.mem_cons.1 hu with rfl | hu
    · exact h.grow (Finset.mem_insert_self _ _)
    · exact h.done u hu hun
  · intro r hr
    exact ⟨fun hv => (h.fresh r hr).1 (Finset.mem_insert_of_mem hv), (h.fresh r hr).2⟩
  · intro p hp hpv
    by_cases hpt : p = t.proc
    · subst hpt
      exact ⟨t.frame, t.stack, rfl, hq.head hn' hv, fun a => absurd hs a,
        fun a => absurd hs a⟩
    · exact h.explored p hp (by simp [hpt, hpv])

theorem walk_ok [Fintype P] (g : Program P T N L) (root : P) (V : Finset P)
    (q : List (Task P T L)) (hq : QueueOk g root V q) : WalkOk g root V q (walk g root V q) := by
  induction V, q using walk.induct (g := g) (root := root) with
  | case1 V =>
    rw [walk]
    exact ⟨fun _ h => h, by simp, by simp, by simp, by simp, fun p hp hv => absurd hp hv⟩
  | case2 V t rest hn ih =>
    rw [walk, if_pos hn]
    have h := ih hq.tail
    refine ⟨h.grow, ?_, h.sound, h.fresh, h.once, h.explored⟩
    intro u hu hun
    rcases List.mem_cons.1 hu with rfl | hu
    · rw [hn] at hun; cases hun
    · exact h.done u hu hun
  | case3 V t rest hn hv ih =>
    rw [walk, if_neg hn, if_pos hv]
    have h := ih hq.tail
    refine ⟨h.grow, ?_, h.sound, h.fresh, h.once, h.explored⟩
    intro u hu hun
    rcases List.mem_cons.1 hu with rfl | hu
    · exact h.grow hv
    · exact h.done u hu hun
  | case4 V t rest hn hv hw ih =>
    rw [walk, if_neg hn, if_neg hv, if_pos hw]
    exact (ih hq.tail.more).mark hq hn hv (Or.inl hw)
  | case5 V t rest hn hv hw he ih =>
    rw [walk, if_neg hn, if_neg hv, if_neg hw, if_pos he]
    exact (ih hq.tail.more).mark hq hn hv (Or.inr (Or.inl he))
  | case6 V t rest hn hv hw he hm ih =>
    rw [walk, if_neg hn, if_neg hv, if_neg hw, if_neg he, if_pos hm]
    exact (ih hq.tail.more).mark hq hn hv (Or.inr (Or.inr hm))
  | case7 V t rest hn hv hw he hm hs ih =>
    rw [walk, if_neg hn, if_neg hv, if_neg hw, if_neg he, if_neg hm, if_pos hs]
    have h := ih hq.tail.more
    have hn' : t.newContext = false := by simpa using hn
    have ht := hq t List.mem_cons_self
    have hst := not_stops hw he hm
    refine ⟨fun x hx => h.grow (Finset.mem_insert_of_mem hx), ?_, ?_, ?_, ?_, ?_⟩
    · intro u hu hun
      rcases List.mem_cons.1 hu with rfl | hu
      · exact h.grow (Finset.mem_insert_self _ _)
      · exact h.done u hu hun
    · intro r hr
      rcases List.mem_cons.1 hr with rfl | hr
      · obtain ⟨l, hl⟩ := ht.1.1
        exact ⟨rfl, ⟨t.frame, rfl, hq.head hn' hv⟩, hst, hs, t.parent, l, hl, rfl⟩
      · exact h.sound r hr
    · intro r hr
      rcases List.mem_cons.1 hr with rfl | hr
      · exact ⟨hv, h.grow (Finset.mem_insert_self _ _)⟩
      · exact ⟨fun hv => (h.fresh r hr).1 (Finset.mem_insert_of_mem hv), (h.fresh r hr).2⟩
    · rw [List.map_cons, List.nodup_cons]
      refine ⟨fun hm => ?_, h.once⟩
      obtain ⟨r, hr, hrp⟩ := List.mem_map.1 hm
      apply (h.fresh r hr).1
      rw [hrp]
      exact Finset.mem_insert_self _ _
    · intro p hp hpv
      by_cases hpt : p = t.proc
      · subst hpt
        refine ⟨t.frame, t.stack, rfl, hq.head hn' hv, fun _ b => ?_, fun _ _ => ⟨_, _, List.mem_cons_self⟩⟩
        rw [hs] at b; cases b
      · exact (h.explored p hp (by simp [hpt, hpv])).mono (fun _ h => h)
          (fun _ => List.mem_cons_of_mem _)
  | case8 V t rest hn hv hw he hm hs ih =>
    rw [walk, if_neg hn, if_neg hv, if_neg hw, if_neg he, if_neg hm, if_neg hs]
    have hn' : t.newContext = false := by simpa using hn
    have hs' : g.sleeps t.proc = false := by simpa using hs
    have ht := hq t List.mem_cons_self
    have hst := not_stops hw he hm
    have h := ih (hq.push hn' hv hst hs')
    refine ⟨fun x hx => h.grow (Finset.mem_insert_of_mem hx), ?_, h.sound, ?_, h.once, ?_⟩
    · intro u hu hun
      rcases List.mem_cons.1 hu with rfl | hu
      · exact h.grow (Finset.mem_insert_self _ _)
      · exact h.done u (by simp [hu]) hun
    · intro r hr
      exact ⟨fun hv => (h.fresh r hr).1 (Finset.mem_insert_of_mem hv), (h.fresh r hr).2⟩
    · intro p hp hpv
      by_cases hpt : p = t.proc
      · subst hpt
        refine ⟨t.frame, t.stack, rfl, hq.head hn' hv, fun _ _ => ⟨?_, ?_⟩, fun _ b => ?_⟩
        · intro e hec hen
          exact h.done _ (List.mem_append_right _ (mem_pushCalls.2 ⟨e, hec, rfl⟩)) hen
        · intro x hx
          exact h.done _ (List.mem_append_left _ (List.mem_append_right _
            (mem_pushOverrides.2 ⟨x, hx.2, rfl⟩))) rfl
        · rw [hs'] at b; cases b
      · exact h.explored p hp (by simp [hpt, hpv])

/-- A root that was looked at as such. -/
def Entered (g : Program P T N L) (W : Finset P) (reps : List (Report P L)) (r : P) : Prop :=
  (g.sleeps r = true → Report.builtin r ∈ reps) ∧
    ∀ e ∈ g.calls r, e.newContext = false → e.proc ∈ W

/-- A whole run. -/
structure RunOk (g : Program P T N L) (V : Finset P) (roots : List P) (W : Finset P)
    (reps : List (Report P L)) : Prop where
  grow : V ⊆ W
  done : ∀ r ∈ roots, r ∈ W
  sound : ∀ x ∈ reps, (∃ r ∈ roots, x = .builtin r ∧ g.sleeps r = true ∧ r ∉ V) ∨
    ∃ r ∈ roots, r ∉ V ∧ x.Ok g r
  fresh : ∀ x ∈ reps, x.proc ∉ V ∧ x.proc ∈ W
  once : (reps.map Report.proc).Nodup
  explored : ∀ p ∈ W, p ∉ V → (p ∈ roots ∧ Entered g W reps p) ∨
    ∃ r ∈ roots, r ≠ p ∧ Explored g r W reps p

theorem checkSleep_ok [Fintype P] (g : Program P T N L) (roots : List P) (V : Finset P) :
    ∃ W, RunOk g V roots W (checkSleep g V roots) := by
  induction roots generalizing V with
  | nil =>
    exact ⟨V, fun _ h => h, by simp, by simp [checkSleep], by simp [checkSleep], by simp [checkSleep],
      fun p hp hv => absurd hp hv⟩
  | cons r rest ih =>
    by_cases hv : r ∈ V
    · obtain ⟨W, h⟩ := ih V
      rw [checkSleep, if_pos hv]
      refine ⟨W, h.grow, ?_, ?_, h.fresh, h.once, ?_⟩
      · intro x hx
        rcases List.mem_cons.1 hx with rfl | hx
        · exact h.grow hv
        · exact h.done x hx
      · intro x hx
        rcases h.sound x hx with ⟨a, ha, h⟩ | ⟨a, ha, h⟩
        · exact .inl ⟨a, List.mem_cons_of_mem _ ha, h⟩
        · exact .inr ⟨a, List.mem_cons_of_mem _ ha, h⟩
      · intro p hp hpv
        rcases h.explored p hp hpv with ⟨a, h⟩ | ⟨a, ha, h⟩
        · exact .inl ⟨List.mem_cons_of_mem _ a, h⟩
        · exact .inr ⟨a, List.mem_cons_of_mem _ ha, h⟩
    · have hw := walk_ok g r (insert r V) (pushCalls g r (g.ty r) []) QueueOk.start
      rw [checkSleep, if_neg hv]
      generalize walk g r (insert r V) (pushCalls g r (g.ty r) []) = w at hw ⊢
      obtain ⟨W, h⟩ := ih w.1
      have hmem : ∀ x, x ∈ (if g.sleeps r = true then [Report.builtin r] else [] : List (Report P L)) ↔
          x = .builtin r ∧ g.sleeps r = true := by
        intro x; split <;> rename_i hs <;> simp [hs]
      have hrw : r ∈ w.1 := hw.grow (Finset.mem_insert_self _ _)
      refine ⟨W, fun x hx => h.grow (hw.grow (Finset.mem_insert_of_mem hx)), ?_, ?_, ?_, ?_, ?_⟩
      · intro x hx
        rcases List.mem_cons.1 hx with rfl | hx
        · exact h.grow hrw
        · exact h.done x hx
      · intro x hx
        simp only [List.append_assoc, List.mem_append, hmem] at hx
        rcases hx with ⟨rfl, hs⟩ | hx | hx
        · exact .inl ⟨r, List.mem_cons_self, rfl, hs, hv⟩
        · exact .inr ⟨r, List.mem_cons_self, hv, hw.sound x hx⟩
        · rcases h.sound x hx with ⟨a, ha, h1, h2, h3⟩ | ⟨a, ha, hav, h⟩
          · exact .inl ⟨a, List.mem_cons_of_mem _ ha, h1, h2,
              fun hav => h3 (hw.grow (Finset.mem_insert_of_mem hav))⟩
          · exact .inr ⟨a, List.mem_cons_of_mem _ ha,
              fun hm => hav (hw.grow (Finset.mem_insert_of_mem hm)), h⟩
      · intro x hx
        simp only [List.append_assoc, List.mem_append, hmem] at hx
        rcases hx with ⟨rfl, hs⟩ | hx | hx
        · exact ⟨hv, h.grow hrw⟩
        · exact ⟨fun hm => (hw.fresh x hx).1 (Finset.mem_insert_of_mem hm), h.grow (hw.fresh x hx).2⟩
        · exact ⟨fun hm => (h.fresh x hx).1 (hw.grow (Finset.mem_insert_of_mem hm)), (h.fresh x hx).2⟩
      · rw [List.append_assoc, List.map_append, List.map_append]
        rw [List.nodup_append, List.nodup_append]
        refine ⟨?_, ⟨hw.once, h.once, ?_⟩, ?_⟩
        · split <;> simp
        · rintro a ha b hb rfl
          obtain ⟨x, hx, rfl⟩ := List.mem_map.1 ha
          obtain ⟨y, hy, hxy⟩ := List.mem_map.1 hb
          exact (h.fresh y hy).1 (hxy ▸ (hw.fresh x hx).2)
        · rintro a ha b hb rfl
          obtain ⟨x, hx, rfl⟩ := List.mem_map.1 ha
          obtain ⟨rfl, -⟩ := (hmem x).1 hx
          rcases List.mem_append.1 hb with hb | hb
          · obtain ⟨y, hy, hxy⟩ := List.mem_map.1 hb
            apply (hw.fresh y hy).1
            rw [hxy]; exact Finset.mem_insert_self _ _
          · obtain ⟨y, hy, hxy⟩ := List.mem_map.1 hb
            exact (h.fresh y hy).1 (hxy ▸ hrw)
      · intro p hp hpv
        by_cases hpw : p ∈ w.1
        · by_cases hpr : p = r
          · subst hpr
            refine .inl ⟨List.mem_cons_self, fun hs => ?_, fun e he hn => ?_⟩
            · exact List.mem_append_left _ (List.mem_append_left _ ((hmem _).2 ⟨rfl, hs⟩))
            · exact h.grow (hw.done _ (mem_pushCalls.2 ⟨e, he, rfl⟩) hn)
          · refine .inr ⟨r, List.mem_cons_self, fun h => hpr h.symm, ?_⟩
            exact (hw.explored p hpw (by simp [hpr, hpv])).mono h.grow
              (fun x hx => List.mem_append_left _ (List.mem_append_right _ hx))
        · rcases h.explored p hp hpw with ⟨a, h1, h2⟩ | ⟨a, ha, hne, h⟩
          · exact .inl ⟨List.mem_cons_of_mem _ a, fun hs => List.mem_append_right _ (h1 hs), h2⟩
          · exact .inr ⟨a, List.mem_cons_of_mem _ ha, hne,
              h.mono (fun _ h => h) (fun x hx => List.mem_append_right _ hx)⟩

end Verif.CallTree
