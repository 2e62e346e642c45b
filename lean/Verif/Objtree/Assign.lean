import Verif.Objtree.Paths

/-!
# C35: the parent type of each type
-/

namespace Verif.Objtree

variable {V P : Type}

/-! ## Before parents are assigned -/

/-- no parents yet, and every proc has a value -/
structure Fresh (t : Tree V P) : Prop where
  noParent : ∀ (i : Nat) n, t.graph[i]? = some n → n.parentType = none
  noRedirect : t.redirected = []
  procs : ∀ (i : Nat) n, t.graph[i]? = some n → ∀ name tp, mget name n.procs = some tp → tp.value ≠ []

theorem fresh_modify {t : Tree V P} (h : Fresh t) (k : Nat) (f : Node V P → Node V P)
    (h1 : ∀ n, (f n).parentType = n.parentType)
    (h2 : ∀ n, t.graph[k]? = some n → ∀ name tp, mget name (f n).procs = some tp → tp.value ≠ []) :
    Fresh (t.modify k f) := by
  have hget : ∀ (i : Nat) n, (t.modify k f).graph[i]? = some n →
      (i = k ∧ ∃ m, t.graph[k]? = some m ∧ n = f m) ∨ t.graph[i]? = some n := by
    intro i n hn
    unfold Tree.modify at hn
    simp only [List.getElem?_modify] at hn
    by_cases hk : k = i
    · subst hk
      cases hg : t.graph[k]? with
      | none => rw [hg] at hn; cases hn
      | some m => rw [hg] at hn; simp at hn; exact .inl ⟨rfl, m, rfl, hn.symm⟩
    · right
      simp only [hk, if_false] at hn
      simpa using hn
  constructor
  · intro i n hn
    rcases hget i n hn with ⟨_, m, hm, rfl⟩ | hn
    · rw [h1]; exact h.noParent _ _ hm
    · exact h.noParent _ _ hn
  · exact h.noRedirect
  · intro i n hn
    rcases hget i n hn with ⟨_, m, hm, rfl⟩ | hn
    · exact h2 m hm
    · exact h.procs _ _ hn

theorem insertVar_other (name : Ident) (v : V) (d : Option Nat) (n : Node V P) :
    (insertVar name v d n).parentType = n.parentType ∧ (insertVar name v d n).procs = n.procs := by
  unfold insertVar
  split <;> exact ⟨rfl, rfl⟩

theorem addProcValue_ne (tp : TypeProc P) (d : Bool) (id : Nat) (v : P) : (addProcValue tp d id v).value ≠ [] := by
  unfold addProcValue
  simp only
  split <;> simp

theorem step_fresh {b b' : Builder V P} {o : Op V P} (hb : Fresh b.inner) (h : b.step o = some b') : Fresh b'.inner := by
  cases o with
  | subtype p c =>
    unfold Builder.step at h
    obtain ⟨⟨b2, i⟩, h1, rfl⟩ := Option.map_eq_some_iff.1 h
    obtain ⟨q, hq, ⟨_, rfl⟩ | ⟨_, hi, _, hr, hg, _⟩⟩ := subtype_cases h1
    · exact hb
    · have hget : ∀ (j : Nat) n, b2.inner.graph[j]? = some n →
          (∃ m, b.inner.graph[j]? = some m ∧ n.parentType = m.parentType ∧ n.procs = m.procs)
            ∨ (n.parentType = none ∧ n.procs = []) := by
        intro j n hn
        rw [hg, List.getElem?_modify] at hn
        obtain ⟨m, hm, he⟩ := Option.map_eq_some_iff.1 hn
        have hsame : n.parentType = m.parentType ∧ n.procs = m.procs := by
          rw [← he]
          split <;> exact ⟨rfl, rfl⟩
        rcases List.getElem?_eq_some_iff.1 hm with ⟨hlt, hm'⟩
        by_cases hj : j < b.inner.graph.length
        · rw [List.getElem?_append_left hj] at hm
          exact .inl ⟨m, hm, hsame⟩
        · simp at hlt
          have : j = b.inner.graph.length := by omega
          subst this
          rw [List.getElem?_append_right (Nat.le_refl _)] at hm
          simp at hm
          right
          rw [hsame.1, hsame.2, ← hm]
          exact ⟨rfl, rfl⟩
      constructor
      · intro j n hn
        rcases hget j n hn with ⟨m, hm, h1, _⟩ | ⟨h1, _⟩
        · rw [h1]; exact hb.noParent _ _ hm
        · exact h1
      · exact hr.trans hb.noRedirect
      · intro j n hn name tp ht
        rcases hget j n hn with ⟨m, hm, _, h2⟩ | ⟨_, h2⟩
        · exact hb.procs _ _ hm name tp (h2 ▸ ht)
        · rw [h2] at ht; cases ht
  | declareVar t nm v =>
    simp only [Builder.step, Builder.declareVar] at h
    split at h
    · cases h
      refine fresh_modify hb _ _ (fun n => (insertVar_other _ _ _ _).1) ?_
      intro n hn name tp ht
      rw [(insertVar_other _ _ _ _).2] at ht
      exact hb.procs _ _ hn name tp ht
    · cases h
  | overrideVar t nm v =>
    simp only [Builder.step, Builder.overrideVar] at h
    split at h
    · cases h
      refine fresh_modify hb _ _ (fun n => (insertVar_other _ _ _ _).1) ?_
      intro n hn name tp ht
      rw [(insertVar_other _ _ _ _).2] at ht
      exact hb.procs _ _ hn name tp ht
    · cases h
  | registerVar t nm v d =>
    simp only [Builder.step, Builder.registerVar] at h
    split at h
    · cases h
    · split at h
      · cases h; exact hb
      · split at h
        · cases h
          exact fresh_modify hb _ _ (fun n => rfl) (fun n hn name tp ht => hb.procs _ _ hn name tp ht)
        · cases h
          exact fresh_modify hb _ _ (fun n => rfl) (fun n hn name tp ht => hb.procs _ _ hn name tp ht)
  | registerProc t nm d v =>
    simp only [Builder.step, Builder.registerProc] at h
    split at h
    · cases h
    · cases h
      refine fresh_modify hb _ _ (fun n => rfl) ?_
      intro n hn name tp ht
      simp only [mget_iset] at ht
      split at ht
      · cases ht; exact addProcValue_ne _ _ _ _
      · exact hb.procs _ _ hn name tp ht

theorem Built.fresh {b : Builder V P} (h : Built b) : Fresh b.inner := by
  obtain ⟨ops, _, hr⟩ := h
  have hinit : Fresh (Builder.init : Builder V P).inner := by
    have hg : ∀ (i : Nat) n, (Builder.init : Builder V P).inner.graph[i]? = some n →
        n = ⟨[], 0, [], [], none, none, 0, []⟩ := by
      intro i n hn
      cases i with
      | zero => simpa [Builder.init] using hn.symm
      | succ i => simp [Builder.init] at hn
    refine ⟨?_, rfl, ?_⟩
    · intro i n hn; rw [hg i n hn]
    · intro i n hn name tp ht; rw [hg i n hn] at ht; cases ht
  have key : ∀ (ops : List (Op V P)) (b b' : Builder V P), Fresh b.inner → b.run ops = some b' → Fresh b'.inner := by
    intro ops
    induction ops with
    | nil => intro b b' hb h; cases h; exact hb
    | cons o os ih =>
      intro b b' hb h
      unfold Builder.run at h
      obtain ⟨b1, h1, h2⟩ := Option.bind_eq_some_iff.1 h
      exact ih b1 b' (step_fresh hb h1) h2
  exact key ops _ _ hinit hr

/-! ## The loop -/

/-- a node with its parent type set -/
def Node.withParent (n : Node V P) (p : Nat) : Node V P := { n with parentType := some p }

theorem withParent_skel (n : Node V P) (p : Nat) : (n.withParent p).skel = n.skel := rfl

theorem assign_fold (orig : Tree V P) (eval : List Char → TypeVar V → ParentVal) (es : List (List Char × Nat))
    (hn : (es.map Prod.snd).Nodup) (t : Tree V P) :
    (∀ (i : Nat), i ∉ es.map Prod.snd → (es.foldl (orig.assignOne eval) t).graph[i]? = t.graph[i]?)
    ∧ (∀ (i : Nat) path, (path, i) ∈ es → (es.foldl (orig.assignOne eval) t).graph[i]?
        = (t.graph[i]?).map fun n => n.withParent (orig.parentIndex eval path n))
    ∧ (es.foldl (orig.assignOne eval) t).graph.length = t.graph.length
    ∧ (es.foldl (orig.assignOne eval) t).types = t.types
    ∧ ∃ rs, (es.foldl (orig.assignOne eval) t).redirected = t.redirected ++ rs ∧ rs.Nodup
      ∧ ∀ i, i ∈ rs ↔ ∃ path n, (path, i) ∈ es ∧ t.graph[i]? = some n ∧ n.parentPath ≠ some (orig.parentIndex eval path n) := by
  induction es generalizing t with
  | nil => exact ⟨fun _ _ => rfl, by simp, rfl, rfl, [], by simp⟩
  | cons e es ih =>
    obtain ⟨path, k⟩ := e
    simp only [List.map_cons, List.nodup_cons] at hn
    rw [List.foldl_cons]
    have ih := ih hn.2 (orig.assignOne eval t (path, k))
    obtain ⟨a1, a2, a3, a4, rs, a5, a6, a7⟩ := ih
    cases hk : t.graph[k]? with
    | none =>
      have hone : orig.assignOne eval t (path, k) = t := by unfold Tree.assignOne; simp only [hk]
      rw [hone] at a1 a2 a3 a4 a5 a7 ⊢
      refine ⟨?_, ?_, a3, a4, rs, a5, a6, ?_⟩
      · intro i hi
        exact a1 i fun h => hi (List.mem_cons_of_mem _ h)
      · intro i p hp
        rcases List.mem_cons.1 hp with h | h
        · cases h
          rw [a1 _ hn.1, hk]
          rfl
        · exact a2 i p h
      · intro i
        rw [a7]
        constructor
        · rintro ⟨p, n, h1, h2⟩
          exact ⟨p, n, List.mem_cons_of_mem _ h1, h2⟩
        · rintro ⟨p, n, h1, h2, h3⟩
          rcases List.mem_cons.1 h1 with h | h
          · cases h; rw [hk] at h2; cases h2
          · exact ⟨p, n, h, h2, h3⟩
    | some m =>
      have hone : orig.assignOne eval t (path, k) =
          { t with
            graph := t.graph.modify k fun n => { n with parentType := some (orig.parentIndex eval path m) }
            redirected := (if m.parentPath ≠ some (orig.parentIndex eval path m) then t.redirected ++ [k] else t.redirected) } := by
        unfold Tree.assignOne; simp only [hk]
      have hgraph : ∀ (i : Nat), (orig.assignOne eval t (path, k)).graph[i]?
          = if i = k then some (m.withParent (orig.parentIndex eval path m)) else t.graph[i]? := by
        intro i
        rw [hone]
        simp only [List.getElem?_modify]
        by_cases h : i = k
        · subst h; rw [hk]; simp [Node.withParent]
        · simp [h, show ¬ k = i from fun e => h e.symm]
      have hlen : (orig.assignOne eval t (path, k)).graph.length = t.graph.length := by rw [hone]; simp
      have htypes : (orig.assignOne eval t (path, k)).types = t.types := by rw [hone]
      have hne : ∀ p i, (p, i) ∈ es → i ≠ k := fun p i h e =>
        hn.1 (List.mem_map.2 ⟨(p, i), h, e⟩)
      refine ⟨?_, ?_, a3.trans hlen, a4.trans htypes, ?_⟩
      · intro i hi
        rw [List.map_cons, List.mem_cons, not_or] at hi
        rw [a1 i hi.2, hgraph, if_neg hi.1]
      · intro i p hp
        rcases List.mem_cons.1 hp with h | h
        · cases h
          rw [a1 _ hn.1, hgraph, if_pos rfl, hk]
          rfl
        · rw [a2 i p h, hgraph, if_neg (hne p i h)]
      · have hred : (orig.assignOne eval t (path, k)).redirected
            = (if m.parentPath ≠ some (orig.parentIndex eval path m) then t.redirected ++ [k] else t.redirected) := by rw [hone]
        have hmem : ∀ i, i ∈ rs ↔ ∃ path n, (path, i) ∈ es ∧ t.graph[i]? = some n
            ∧ n.parentPath ≠ some (orig.parentIndex eval path n) := by
          intro i
          rw [a7]
          constructor
          · rintro ⟨p, n, h1, h2, h3⟩
            rw [hgraph, if_neg (hne p i h1)] at h2
            exact ⟨p, n, h1, h2, h3⟩
          · rintro ⟨p, n, h1, h2, h3⟩
            exact ⟨p, n, h1, by rw [hgraph, if_neg (hne p i h1)]; exact h2, h3⟩
        by_cases hd : m.parentPath ≠ some (orig.parentIndex eval path m)
        · refine ⟨k :: rs, by rw [a5, hred, if_pos hd]; simp, ?_, ?_⟩
          · rw [List.nodup_cons]
            refine ⟨?_, a6⟩
            intro h
            obtain ⟨p, n, h1, _⟩ := (hmem k).1 h
            exact hne p k h1 rfl
          · intro i
            rw [List.mem_cons, hmem]
            constructor
            · rintro (rfl | ⟨p, n, h1, h2⟩)
              · exact ⟨path, m, by simp, hk, hd⟩
              · exact ⟨p, n, List.mem_cons_of_mem _ h1, h2⟩
            · rintro ⟨p, n, h1, h2, h3⟩
              rcases List.mem_cons.1 h1 with h | h
              · cases h; exact .inl rfl
              · exact .inr ⟨p, n, h, h2, h3⟩
        · refine ⟨rs, by rw [a5, hred, if_neg hd], a6, ?_⟩
          intro i
          rw [hmem]
          constructor
          · rintro ⟨p, n, h1, h2⟩
            exact ⟨p, n, List.mem_cons_of_mem _ h1, h2⟩
          · rintro ⟨p, n, h1, h2, h3⟩
            rcases List.mem_cons.1 h1 with h | h
            · cases h; rw [hk] at h2; cases h2; exact absurd h3 hd
            · exact ⟨p, n, h, h2, h3⟩

/-- a finished tree: built by any registrations, then given parents -/
def Finished (b : Builder V P) (eval : List Char → TypeVar V → ParentVal) (t : Tree V P) : Prop :=
  Built b ∧ t = b.inner.assignParents eval

section
variable {b : Builder V P} {eval : List Char → TypeVar V → ParentVal} {t : Tree V P}

theorem types_snd_nodup {t : Tree V P} (h : t.shape) : (t.types.map Prod.snd).Nodup := by
  have hinj : ∀ x ∈ t.types, ∀ y ∈ t.types, x.2 = y.2 → x = y := by
    rintro ⟨a, i1⟩ hx ⟨c, i2⟩ hy e
    simp only at e
    subst e
    obtain ⟨_, n, h1, h2⟩ := (h.types a i1).1 (mget_of_mem h.tnodup hx)
    obtain ⟨_, n', h1', h2'⟩ := (h.types c i1).1 (mget_of_mem h.tnodup hy)
    rw [h1] at h1'
    cases h1'
    rw [← h2, h2']
  exact (List.Nodup.of_map _ h.tnodup).map_on hinj

theorem mem_types {t : Tree V P} (h : t.shape) {i : Nat} {n : Node V P} (hi : t.graph[i]? = some n) (h0 : i ≠ 0) :
    (n.path, i) ∈ t.types :=
  mget_mem ((h.types n.path i).2 ⟨h0, n.skel, skel_get hi, rfl⟩)

theorem types_mem {t : Tree V P} (h : t.shape) {path : List Char} {i : Nat} (hm : (path, i) ∈ t.types) :
    i ≠ 0 ∧ ∃ n, t.graph[i]? = some n ∧ n.path = path := by
  obtain ⟨h0, s, h1, h2⟩ := (h.types path i).1 (mget_of_mem h.tnodup hm)
  obtain ⟨n, hn, rfl⟩ := get_skel h1
  exact ⟨h0, n, hn, h2⟩

/-- the nodes of the finished tree -/
theorem Finished.node (h : Finished b eval t) {i : Nat} {n : Node V P} (hi : b.inner.graph[i]? = some n) :
    t.graph[i]? = some (if i = 0 then n else n.withParent (b.inner.parentIndex eval n.path n)) := by
  obtain ⟨hb, rfl⟩ := h
  have hs : b.inner.shape := hb.shape
  obtain ⟨a1, a2, _⟩ := assign_fold b.inner eval b.inner.types (types_snd_nodup hs) b.inner
  unfold Tree.assignParents
  by_cases h0 : i = 0
  · rw [if_pos h0, a1, hi]
    intro hm
    obtain ⟨⟨p, j⟩, h1, rfl⟩ := List.mem_map.1 hm
    exact (types_mem hs h1).1 h0
  · rw [if_neg h0, a2 i n.path (mem_types hs hi h0), hi]
    rfl

theorem Finished.len (h : Finished b eval t) : t.graph.length = b.inner.graph.length := by
  obtain ⟨hb, rfl⟩ := h
  exact (assign_fold b.inner eval b.inner.types (types_snd_nodup hb.shape) b.inner).2.2.1

theorem Finished.node_inv (h : Finished b eval t) {i : Nat} {n : Node V P} (hi : t.graph[i]? = some n) :
    ∃ m, b.inner.graph[i]? = some m ∧ n = (if i = 0 then m else m.withParent (b.inner.parentIndex eval m.path m)) := by
  have hlt : i < b.inner.graph.length := by
    rw [← h.len]; exact (List.getElem?_eq_some_iff.1 hi).1
  have hm := List.getElem?_eq_getElem hlt
  refine ⟨_, hm, ?_⟩
  have := h.node hm
  rw [hi] at this
  exact Option.some.inj this

theorem Finished.shape (h : Finished b eval t) : t.shape := by
  have hs : b.inner.shape := h.1.shape
  have ht : t.types = b.inner.types := by
    obtain ⟨hb, rfl⟩ := h
    exact (assign_fold b.inner eval b.inner.types (types_snd_nodup hb.shape) b.inner).2.2.2.1
  have hg : t.graph.map Node.skel = b.inner.graph.map Node.skel := by
    apply List.ext_getElem?
    intro i
    rw [List.getElem?_map, List.getElem?_map]
    cases hi : b.inner.graph[i]? with
    | none => rw [List.getElem?_eq_none (by rw [h.len]; exact List.getElem?_eq_none_iff.1 hi)]
    | some n =>
      rw [h.node hi]
      simp only [Option.map_some, Option.some.injEq]
      split <;> rfl
  unfold Tree.shape
  rw [hg, ht]
  exact hs

theorem parentIndex_lt {t : Tree V P} (h : t.shape) (eval : List Char → TypeVar V → ParentVal) (path : List Char)
    (n : Node V P) : t.parentIndex eval path n < t.graph.length := by
  obtain ⟨r, hr, _⟩ := h.top
  have h0 : 0 < t.graph.length := (List.getElem?_eq_some_iff.1 hr).1
  unfold Tree.parentIndex
  split
  · exact h0
  · simp only
    split
    · exact h0
    · cases hm : mget (parentName path ((mget "parent_type".toList n.vars).map (eval path))) t.types with
      | none => exact h0
      | some j =>
        obtain ⟨_, n, h1, _⟩ := (h.types _ j).1 hm
        have := (List.getElem?_eq_some_iff.1 h1).1
        simpa using this

/-- the parent of every type but the root -/
theorem Finished.parent (h : Finished b eval t) {i : Nat} {n : Node V P} (hi : b.inner.graph[i]? = some n) (h0 : i ≠ 0) :
    t.parentOf i = some (b.inner.parentIndex eval n.path n) := by
  unfold Tree.parentOf
  rw [h.node hi, if_neg h0]
  simp only [Node.withParent]
  rw [if_pos]
  rw [h.len]
  exact parentIndex_lt h.1.shape eval _ _

theorem Finished.root (h : Finished b eval t) : t.parentOf 0 = none := by
  obtain ⟨r, hr, _⟩ := (show b.inner.shape from h.1.shape).top
  unfold Tree.parentOf
  rw [h.node hr, if_pos rfl]
  simp only
  rw [h.1.fresh.noParent 0 r hr]

theorem Finished.redirected (h : Finished b eval t) : t.redirected.Nodup ∧
    ∀ i, i ∈ t.redirected ↔ ∃ n, i ≠ 0 ∧ b.inner.graph[i]? = some n ∧ n.parentPath ≠ t.parentOf i := by
  have h' := h
  obtain ⟨hb, ht⟩ := h
  have hs : b.inner.shape := hb.shape
  obtain ⟨_, _, _, _, rs, a5, a6, a7⟩ := assign_fold b.inner eval b.inner.types (types_snd_nodup hs) b.inner
  have hr : t.redirected = rs := by
    rw [ht]
    unfold Tree.assignParents
    rw [a5, hb.fresh.noRedirect]
    simp
  rw [hr]
  refine ⟨a6, fun i => ?_⟩
  rw [a7]
  constructor
  · rintro ⟨p, n, h1, h2, h3⟩
    obtain ⟨h0, m, h4, rfl⟩ := types_mem hs h1
    rw [h2] at h4
    cases h4
    exact ⟨n, h0, h2, by rw [h'.parent h2 h0]; exact h3⟩
  · rintro ⟨n, h0, h2, h3⟩
    exact ⟨n.path, n, mem_types hs h2 h0, h2, by rw [h'.parent h2 h0] at h3; exact h3⟩

end

end Verif.Objtree
