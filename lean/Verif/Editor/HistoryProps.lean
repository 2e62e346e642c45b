import Verif.Editor.History

/-!
# Specification and theorems for the undo history (C27, C28)

The specification is a tree of snapshots addressed by paths: `value p` is what the document was at the
place reached by `p`, `[]` is the document as loaded, and the `k`-th edit made at `p` leads to
`p ++ [k]`.  Snapshots never change.

`R t a` says that the concrete document `t` stands for the abstract value `a`.
-/

namespace Verif.Editor

variable {T E A : Type}

structure Snapshots (A : Type) where
  value : List Nat → A
  /-- number of edits made at a path -/
  kids : List Nat → Nat
  cur : List Nat
  clean : List Nat

/-- just loaded -/
def Snapshots.new (a : A) : Snapshots A :=
  { value := fun _ => a
    kids := fun _ => 0
    cur := []
    clean := [] }

/-- The closure `f` takes (documents standing for) `a` to (ones standing for) `b`, and the closure it
returns takes (any document standing for) `b` back to `a` -/
def Reversible (R : T → A → Prop) (f : EditFn T E) (a b : A) : Prop :=
  ∀ env t, R t a → R (f env t).1 b ∧ ∀ env' t', R t' b → R ((f env t).2 env' t') a

/-- what each action means -/
inductive Snapshots.Step (R : T → A → Prop) : Snapshots A → Action T E → Snapshots A → Prop
  /-- a new child of the current place, and move there -/
  | edit (s : Snapshots A) (env f b) : Reversible R f (s.value s.cur) b →
      Step R s (.edit env f)
        { s with
          value := fun p => if p = s.cur ++ [s.kids s.cur] then b else s.value p
          kids := fun p => if p = s.cur then s.kids p + 1
            else if p = s.cur ++ [s.kids s.cur] then 0 else s.kids p
          cur := s.cur ++ [s.kids s.cur] }
  /-- back to the parent; nothing at the root -/
  | undo (s : Snapshots A) (env) : Step R s (.undo env) { s with cur := s.cur.dropLast }
  /-- on to the *first* child; nothing at a leaf -/
  | redo (s : Snapshots A) (env) : Step R s (.redo env)
      { s with cur := if s.kids s.cur = 0 then s.cur else s.cur ++ [0] }
  | markClean (s : Snapshots A) : Step R s .markClean { s with clean := s.cur }
  /-- nothing, if the new document stands for the same value -/
  | replace (s : Snapshots A) (f) : (∀ t, R t (s.value s.cur) → R (f t) (s.value s.cur)) →
      Step R s (.replace f) s

inductive Snapshots.Run (R : T → A → Prop) : Snapshots A → List (Action T E) → Snapshots A → Prop
  | nil (s) : Run R s [] s
  | cons {s s' s'' a as} : Step R s a s' → Run R s' as s'' → Run R s (a :: as) s''

/-! ## The invariant -/

/-- how the arena represents the snapshot tree: `pth i` is the path of node `i` -/
structure Rep (R : T → A → Prop) (h : History T E) (s : Snapshots A) (pth : Nat → List Nat) : Prop where
  nodes : h.nodes = h.edges.length + 1
  root : pth 0 = []
  inj : ∀ i j, i < h.nodes → j < h.nodes → pth i = pth j → i = j
  target : ∀ (j : Nat) (e : Edge T E), h.edges[j]? = some e → e.target = j + 1 ∧ e.source < j + 1
  path : ∀ (j : Nat) (e : Edge T E), h.edges[j]? = some e →
    pth (j + 1) = pth e.source ++ [((h.edges.take j).filter fun e' => e'.source == e.source).length]
  kids : ∀ i < h.nodes, s.kids (pth i) = (h.edges.filter fun e => e.source == i).length
  revr : ∀ e ∈ h.edges, Reversible R e.redo (s.value (pth e.source)) (s.value (pth e.target)) ∧
    ∀ env t, R t (s.value (pth e.target)) → R (e.undo env t) (s.value (pth e.source))
  idx : h.idx < h.nodes
  cur : s.cur = pth h.idx
  val : R h.current (s.value s.cur)
  clean : h.cleanIdx < h.nodes ∧ s.clean = pth h.cleanIdx

theorem rep_new {R : T → A → Prop} {t : T} {a : A} (h : R t a) :
    Rep R (History.new (E := E) t) (Snapshots.new a) (fun _ => []) where
  nodes := rfl
  root := rfl
  inj := by intro i j hi hj _; simp [History.new] at hi hj; omega
  target := by intro j e he; simp [History.new] at he
  path := by intro j e he; simp [History.new] at he
  kids := by intro i _; simp [History.new, Snapshots.new]
  revr := by intro e he; simp [History.new] at he
  idx := by simp [History.new]
  cur := rfl
  val := h
  clean := by simp [History.new, Snapshots.new]

section
variable {R : T → A → Prop} {h : History T E} {s : Snapshots A} {pth : Nat → List Nat}

/-- the edges into a node: exactly one, except at the root -/
theorem Rep.incoming (r : Rep R h s pth) {i : Nat} (hi : i < h.nodes) :
    (i = 0 ∧ h.incoming i = []) ∨
    ∃ j e, i = j + 1 ∧ h.edges[j]? = some e ∧ h.incoming i = [e] := by
  have key : ∀ (es : List (Edge T E)) (n : Nat),
      (∀ (j : Nat) (e : Edge T E), es[j]? = some e → e.target = n + j + 1) →
      es.filter (fun e => e.target == i) =
        (if i ≤ n then [] else (es[i - n - 1]?).toList) := by
    intro es
    induction es with
    | nil => intro n _; simp
    | cons e es ih =>
      intro n hn
      have h0 := hn 0 e rfl
      have := ih (n + 1) (fun j e' he => by have := hn (j + 1) e' (by simpa using he); omega)
      rw [List.filter_cons, this]
      by_cases hin : i ≤ n
      · rw [if_neg (by simp; omega), if_pos (by omega), if_pos hin]
      · rw [if_neg hin]
        by_cases hi1 : i = n + 1
        · rw [if_pos (by simp; omega), if_pos (by omega)]
          subst hi1
          simp
        · rw [if_neg (by simp; omega), if_neg (by omega)]
          obtain ⟨k, rfl⟩ : ∃ k, i = n + 1 + (k + 1) := ⟨i - n - 2, by omega⟩
          have e1 : n + 1 + (k + 1) - (n + 1) - 1 = k := by omega
          have e2 : n + 1 + (k + 1) - n - 1 = k + 1 := by omega
          rw [e1, e2]; rfl
  have := key h.edges 0 (fun j e he => by have := r.target j e he; omega)
  unfold History.incoming
  rw [this]
  cases i with
  | zero => left; simp
  | succ j =>
    right
    rw [if_neg (by omega)]
    have hj : j < h.edges.length := by have := r.nodes; omega
    refine ⟨j, h.edges[j], rfl, by simp [hj], ?_⟩
    simp [hj]

/-- the first-made edge out of a node leads to its child 0 -/
theorem Rep.outgoing_last (r : Rep R h s pth) {i : Nat} {e : Edge T E}
    (he : (h.outgoing i).getLast? = some e) :
    e ∈ h.edges ∧ e.source = i ∧ e.target < h.nodes ∧ pth e.target = pth i ++ [0] := by
  unfold History.outgoing at he
  rw [List.getLast?_reverse, List.head?_filter, List.find?_eq_some_iff_append] at he
  obtain ⟨hs, as, bs, e1, e2⟩ := he
  have hs : e.source = i := by simpa using hs
  have hget : h.edges[as.length]? = some e := by rw [e1]; simp
  have ht := r.target _ _ hget
  have hp := r.path _ _ hget
  refine ⟨by rw [e1]; simp, hs, ?_, ?_⟩
  · have := r.nodes
    rw [e1] at this
    simp at this
    omega
  · rw [ht.1, hp, hs]
    have : ((h.edges.take as.length).filter fun e' => e'.source == i) = [] := by
      rw [e1, List.take_left]
      rw [List.filter_eq_nil_iff]
      intro x hx
      have := e2 x hx
      simpa using this
    rw [this]; rfl

theorem Rep.outgoing_none (r : Rep R h s pth) {i : Nat} (hi : i < h.nodes) :
    h.outgoing i = [] ↔ s.kids (pth i) = 0 := by
  rw [r.kids i hi]
  unfold History.outgoing
  rw [List.reverse_eq_nil_iff, List.length_eq_zero_iff]

theorem rep_edit (r : Rep R h s pth) (env : E) (f : EditFn T E) (b : A)
    (hf : Reversible R f (s.value s.cur) b) :
    Rep R (h.edit env f)
      { s with
        value := fun p => if p = s.cur ++ [s.kids s.cur] then b else s.value p
        kids := fun p => if p = s.cur then s.kids p + 1
          else if p = s.cur ++ [s.kids s.cur] then 0 else s.kids p
        cur := s.cur ++ [s.kids s.cur] }
      (fun i => if i = h.nodes then s.cur ++ [s.kids s.cur] else pth i) := by
  have hcur := r.cur
  have hkid := r.kids h.idx r.idx
  -- the new path is fresh
  have fresh : ∀ i < h.nodes, pth i ≠ s.cur ++ [s.kids s.cur] := by
    intro i hi hp
    cases i with
    | zero => rw [r.root] at hp; simp at hp
    | succ j =>
      have hj : j < h.edges.length := by have := r.nodes; omega
      have hget : h.edges[j]? = some h.edges[j] := by simp [hj]
      have hp' := r.path j _ hget
      have ht := r.target j _ hget
      rw [hp'] at hp
      obtain ⟨ha, hb⟩ := List.append_inj' hp rfl
      have hsrc : (h.edges[j]).source = h.idx :=
        r.inj _ _ (by have := r.nodes; omega) r.idx (by rw [ha, hcur])
      rw [hcur, hkid, ← hsrc] at hb
      simp only [List.cons.injEq, and_true] at hb
      have hsplit : h.edges = h.edges.take j ++ h.edges[j] :: h.edges.drop (j + 1) := by
        rw [List.getElem_cons_drop, List.take_append_drop]
      generalize hsx : (h.edges[j]).source = sx at hb
      have : (h.edges.filter fun e => e.source == sx).length
          = ((h.edges.take j).filter fun e => e.source == sx).length +
            (((h.edges.drop (j + 1)).filter fun e => e.source == sx).length + 1) := by
        conv_lhs => rw [hsplit]
        rw [List.filter_append, List.length_append, List.filter_cons, hsx]
        simp
      omega
  have ne : ∀ i, i < h.nodes → i ≠ h.nodes := fun i hi => by omega
  have hn := r.nodes
  constructor
  · simp only [History.edit, List.length_append, List.length_singleton]; omega
  · rw [if_neg (by omega)]; exact r.root
  · intro i j hi hj hp
    simp only [History.edit] at hi hj
    split at hp
    · split at hp
      · omega
      · exact absurd hp.symm (fresh j (by omega))
    · split at hp
      · exact absurd hp (fresh i (by omega))
      · exact r.inj i j (by omega) (by omega) hp
  · intro j e he
    simp only [History.edit, List.getElem?_append] at he
    split at he
    · exact r.target j e he
    · rw [List.getElem?_singleton] at he
      split at he
      · injection he with he
        subst he
        have := r.idx
        simp only
        omega
      · cases he
  · intro j e he
    simp only [History.edit, List.getElem?_append] at he
    split at he
    · next hj =>
      have := r.target j e he
      rw [if_neg (by omega), if_neg (by omega), r.path j e he]
      simp only [History.edit]
      rw [List.take_append_of_le_length (by omega)]
    · next hj =>
      rw [List.getElem?_singleton] at he
      split at he
      · injection he with he
        subst he
        have hj' : j = h.edges.length := by omega
        subst hj'
        have := r.idx
        simp only [History.edit]
        rw [if_pos (by omega), if_neg (by omega), List.take_left, hcur, hkid]
      · cases he
  · intro i hi
    simp only [History.edit] at hi ⊢
    rw [List.filter_append, List.length_append]
    by_cases hin : i = h.nodes
    · subst hin
      rw [if_pos rfl, if_neg (by simp), if_pos rfl]
      have h1 : h.edges.filter (fun e => e.source == h.nodes) = [] := by
        rw [List.filter_eq_nil_iff]
        intro e he
        obtain ⟨j, hj⟩ := List.getElem?_of_mem he
        have := r.target j e hj
        have : j < h.edges.length := by
          rw [List.getElem?_eq_some_iff] at hj
          exact hj.1
        simp; omega
      rw [h1]
      have : h.idx ≠ h.nodes := ne _ r.idx
      simp [this]
    · rw [if_neg hin]
      have hil : i < h.nodes := by omega
      rw [if_neg (fresh i hil)]
      by_cases hii : i = h.idx
      · subst hii
        rw [if_pos hcur.symm, hkid]; simp
      · rw [if_neg, r.kids i hil]
        · have : ¬ h.idx = i := fun e => hii e.symm
          simp [this]
        · rw [hcur]; exact fun e => hii (r.inj _ _ hil r.idx e)
  · intro e he
    simp only [History.edit, List.mem_append, List.mem_singleton] at he
    rcases he with he | he
    · obtain ⟨j, hj⟩ := List.getElem?_of_mem he
      have ht := r.target j e hj
      have hjl : j < h.edges.length := by
        rw [List.getElem?_eq_some_iff] at hj
        exact hj.1
      simp only
      rw [if_neg (show e.source ≠ h.nodes by omega), if_neg (show e.target ≠ h.nodes by omega)]
      rw [if_neg (fresh _ (by omega)), if_neg (fresh _ (by omega))]
      exact r.revr e he
    · subst he
      simp only
      have := r.idx
      rw [if_neg (show h.idx ≠ h.nodes by omega), if_neg (fresh _ this), ← hcur]
      simp only [if_true]
      exact ⟨hf, fun env' t ht => (hf env h.current r.val).2 env' t ht⟩
  · simp [History.edit]
  · simp [History.edit]
  · simp only [History.edit, if_true]
    exact (hf env h.current r.val).1
  · have := r.clean
    refine ⟨by simp only [History.edit]; omega, ?_⟩
    rw [if_neg (show (h.edit env f).cleanIdx ≠ h.nodes by simp only [History.edit]; omega)]
    exact this.2

theorem rep_undo (r : Rep R h s pth) (env : E) :
    Rep R (h.undo env) { s with cur := s.cur.dropLast } pth := by
  rcases r.incoming r.idx with ⟨h0, hin⟩ | ⟨j, e, hj, hget, hin⟩
  · have : s.cur = [] := by rw [r.cur, h0, r.root]
    simp only [History.undo, hin, this, List.getLast?_nil, List.dropLast_nil]
    have : { s with cur := [] } = s := by cases s; simp_all
    rw [this]; exact r
  · have ht := r.target j e hget
    have hp := r.path j e hget
    have hmem : e ∈ h.edges := List.mem_of_getElem? hget
    have hcur : s.cur.dropLast = pth e.source := by rw [r.cur, hj, hp]; simp
    simp only [History.undo, hin, List.getLast?_singleton]
    have hb := r.idx
    exact
      { nodes := r.nodes
        root := r.root
        inj := r.inj
        target := r.target
        path := r.path
        kids := r.kids
        revr := r.revr
        idx := by simp only; omega
        cur := hcur
        val := by
          simp only
          rw [hcur]
          refine (r.revr e hmem).2 env _ ?_
          rw [ht.1, ← hj, ← r.cur]
          exact r.val
        clean := r.clean }

theorem setUndo_getElem? (es : List (Edge T E)) (a b : Nat) (u : UndoFn T E) (j : Nat) (e' : Edge T E)
    (he : (History.setUndo es a b u)[j]? = some e') :
    ∃ e, es[j]? = some e ∧ e'.source = e.source ∧ e'.target = e.target ∧ e'.redo = e.redo ∧
      (e'.undo = e.undo ∨ (e.source = a ∧ e.target = b ∧ e'.undo = u)) := by
  unfold History.setUndo at he
  rw [List.getElem?_map, Option.map_eq_some_iff] at he
  obtain ⟨e, he, hd⟩ := he
  refine ⟨e, he, ?_⟩
  split at hd
  · next hc => subst hd; exact ⟨rfl, rfl, rfl, Or.inr ⟨hc.1, hc.2, rfl⟩⟩
  · subst hd; exact ⟨rfl, rfl, rfl, Or.inl rfl⟩

theorem setUndo_filter_length (es : List (Edge T E)) (a b : Nat) (u : UndoFn T E) (i : Nat) :
    ((History.setUndo es a b u).filter fun e => e.source == i).length
      = (es.filter fun e => e.source == i).length := by
  unfold History.setUndo
  rw [List.filter_map, List.length_map]
  congr 1
  apply List.filter_congr
  intro e _
  simp only [Function.comp_apply]
  split <;> rfl

theorem rep_redo (r : Rep R h s pth) (env : E) :
    Rep R (h.redo env) { s with cur := if s.kids s.cur = 0 then s.cur else s.cur ++ [0] } pth := by
  unfold History.redo
  cases he : (h.outgoing h.idx).getLast? with
  | none =>
    have h0 : h.outgoing h.idx = [] := List.getLast?_eq_none_iff.1 he
    have := (r.outgoing_none r.idx).1 h0
    rw [← r.cur] at this
    simp only
    rw [if_pos this]
    exact r
  | some e =>
    obtain ⟨hmem, hsrc, htgt, hp⟩ := r.outgoing_last he
    have hne : s.kids s.cur ≠ 0 := by
      intro h0
      rw [r.cur] at h0
      rw [(r.outgoing_none r.idx).2 h0] at he
      cases he
    have hcur : s.cur ++ [0] = pth e.target := by rw [r.cur, hp]
    obtain ⟨hrev, _⟩ := r.revr e hmem
    have hv : R h.current (s.value (pth e.source)) := by rw [hsrc, ← r.cur]; exact r.val
    have hboth := hrev env h.current hv
    have hlen : (History.setUndo h.edges e.source e.target (e.redo env h.current).2).length = h.edges.length := by
      simp [History.setUndo]
    simp only
    rw [if_neg hne, hcur]
    constructor
    · simp only [hlen]; exact r.nodes
    · exact r.root
    · exact r.inj
    · intro j e' he'
      obtain ⟨e0, h0, hs, ht, _⟩ := setUndo_getElem? _ _ _ _ _ _ he'
      have := r.target j e0 h0
      simp only [hs, ht]; exact this
    · intro j e' he'
      obtain ⟨e0, h0, hs, ht, _⟩ := setUndo_getElem? _ _ _ _ _ _ he'
      rw [r.path j e0 h0, hs]
      congr 2
      simp only [History.setUndo, ← List.map_take]
      exact (setUndo_filter_length (h.edges.take j) e.source e.target (e.redo env h.current).2 e0.source).symm
    · intro i hi
      rw [setUndo_filter_length]
      exact r.kids i hi
    · intro e' he'
      obtain ⟨j, hj⟩ := List.getElem?_of_mem he'
      obtain ⟨e0, h0, hs, ht, hr, hu⟩ := setUndo_getElem? _ _ _ _ _ _ hj
      have h1 := r.revr e0 (List.mem_of_getElem? h0)
      rw [hs, ht, hr]
      refine ⟨h1.1, ?_⟩
      rcases hu with hu | ⟨ha, hb, hu⟩
      · rw [hu]; exact h1.2
      · rw [hu, ha, hb]; exact hboth.2
    · exact htgt
    · rfl
    · exact hboth.1
    · exact r.clean

theorem rep_clean (r : Rep R h s pth) :
    Rep R h.markClean { s with clean := s.cur } pth :=
  { nodes := r.nodes
    root := r.root
    inj := r.inj
    target := r.target
    path := r.path
    kids := r.kids
    revr := r.revr
    idx := r.idx
    cur := r.cur
    val := r.val
    clean := ⟨r.idx, r.cur⟩ }

theorem rep_step (r : Rep R h s pth) {a : Action T E} {s' : Snapshots A} (hs : Snapshots.Step R s a s') :
    ∃ pth', Rep R (h.act a) s' pth' := by
  cases hs with
  | edit env f b hf => exact ⟨_, rep_edit r env f b hf⟩
  | undo env => exact ⟨_, rep_undo r env⟩
  | redo env => exact ⟨_, rep_redo r env⟩
  | markClean => exact ⟨_, rep_clean r⟩
  | replace f hf => exact ⟨pth, { r with val := hf _ r.val }⟩

theorem rep_run (r : Rep R h s pth) {as : List (Action T E)} {s' : Snapshots A}
    (hs : Snapshots.Run R s as s') : ∃ pth', Rep R (as.foldl History.act h) s' pth' := by
  induction hs generalizing h pth with
  | nil => exact ⟨_, r⟩
  | cons h1 _ ih =>
    obtain ⟨pth', r'⟩ := rep_step r h1
    exact ih r'

end

/-! ## Theorems -/

/-- **C27, C28.** After any sequence of edits, undos, redos and saves, in whatever environments: the
document is the snapshot of the current place in the tree; `can_undo` is false only at the root,
`can_redo` only at a leaf; and the document is dirty exactly when the current place is not the one
last marked clean. -/
theorem history_correct (R : T → A → Prop) {t : T} {a : A} (h0 : R t a)
    {as : List (Action T E)} {s : Snapshots A} (hs : Snapshots.Run R (Snapshots.new a) as s) :
    let h := as.foldl History.act (History.new t)
    R h.current (s.value s.cur) ∧
    (h.canUndo = true ↔ s.cur ≠ []) ∧
    (h.canRedo = true ↔ s.kids s.cur ≠ 0) ∧
    (h.isDirty = true ↔ s.cur ≠ s.clean) := by
  obtain ⟨pth, r⟩ := rep_run (rep_new h0) hs
  refine ⟨r.val, ?_, ?_, ?_⟩
  · unfold History.canUndo
    rcases r.incoming r.idx with ⟨hz, hin⟩ | ⟨j, e, hj, hget, hin⟩
    · rw [hin, r.cur, hz, r.root]; simp
    · rw [hin, r.cur, hj, r.path j e hget]; simp
  · unfold History.canRedo
    have := r.outgoing_none r.idx
    rw [← r.cur] at this
    rw [← not_iff_not]
    simp only [Bool.not_eq_true, Option.isSome_eq_false_iff, Option.isNone_iff_eq_none,
      List.head?_eq_none_iff, ne_eq, not_not]
    exact this
  · unfold History.isDirty
    rw [bne_iff_ne, r.cur, r.clean.2]
    constructor
    · intro hn hp
      exact hn (r.inj _ _ r.clean.1 r.idx hp.symm)
    · intro hn hp
      exact hn (by rw [hp])

theorem run_append {R : T → A → Prop} {s s' s'' : Snapshots A} {as bs : List (Action T E)}
    (h1 : Snapshots.Run R s as s') (h2 : Snapshots.Run R s' bs s'') :
    Snapshots.Run R s (as ++ bs) s'' := by
  induction h1 with
  | nil => exact h2
  | cons hs _ ih => exact .cons hs (ih h2)

/-- **C27.** Undo right after an edit: from any reachable state, the document is what it was before
the edit, and it is clean exactly if it was clean before. -/
theorem undo_reverts_edit (R : T → A → Prop) {t : T} {a : A} (h0 : R t a)
    {as : List (Action T E)} {s : Snapshots A} (hs : Snapshots.Run R (Snapshots.new a) as s)
    (env env' : E) (f : EditFn T E) (b : A) (hf : Reversible R f (s.value s.cur) b) :
    let h := as.foldl History.act (History.new t)
    R ((h.edit env f).current) b ∧
    R (((h.edit env f).undo env').current) (s.value s.cur) ∧
    ((h.edit env f).undo env').isDirty = h.isDirty := by
  intro h
  have e1 := Snapshots.Step.edit s env f b hf
  have e2 := Snapshots.Step.undo (R := R) _ env' |> fun x => run_append hs (.cons e1 (.cons x (.nil _)))
  have c0 := history_correct R h0 hs
  have c1 := history_correct R h0 (run_append hs (.cons e1 (.nil _)))
  have c2 := history_correct R h0 e2
  simp only [List.foldl_append, List.foldl_cons, List.foldl_nil, History.act, List.dropLast_concat] at c1 c2
  refine ⟨?_, ?_, ?_⟩
  · have := c1.1
    rw [if_pos trivial] at this
    exact this
  · have := c2.1
    rw [if_neg (by simp)] at this
    exact this
  · have h1 := c2.2.2.2
    have h2 := c0.2.2.2
    rw [Bool.eq_iff_iff]
    exact h1.trans h2.symm

/-- **C27.** Redo right after undoing the *first* edit made at a place restores the document to what
it was after that edit.  (`redo_takes_oldest` below shows that "first" is needed.) -/
theorem redo_reverts_undo (R : T → A → Prop) {t : T} {a : A} (h0 : R t a)
    {as : List (Action T E)} {s : Snapshots A} (hs : Snapshots.Run R (Snapshots.new a) as s)
    (env env' : E) (p : List Nat) (hp : s.cur = p ++ [0]) :
    let h := as.foldl History.act (History.new t)
    R (((h.undo env).redo env').current) (s.value s.cur) ∧
    ((h.undo env).redo env').isDirty = h.isDirty := by
  intro h
  obtain ⟨pth, r⟩ := rep_run (rep_new h0) hs
  have hk : s.kids p ≠ 0 := by
    rcases r.incoming r.idx with ⟨hz, hin⟩ | ⟨j, e, hj, hget, hin⟩
    · have := r.cur
      rw [hz, r.root, hp] at this
      simp at this
    · have h1 := r.path j e hget
      rw [← hj, ← r.cur, hp] at h1
      obtain ⟨ha, _⟩ := List.append_inj' h1 rfl
      have ht := r.target j e hget
      have := r.idx
      rw [ha, r.kids _ (by omega)]
      have hmem : e ∈ (h.edges.filter fun e' => e'.source == e.source) := by
        rw [List.mem_filter]
        exact ⟨List.mem_of_getElem? hget, by simp⟩
      exact fun hz => absurd (List.length_pos_iff.2 (List.ne_nil_of_mem hmem)) (by rw [hz]; omega)
  have run2 := run_append hs (.cons (.undo s env) (.cons (.redo _ env') (.nil _)))
  have c0 := history_correct R h0 hs
  have c2 := history_correct R h0 run2
  have hc : ({ s with cur := s.cur.dropLast } : Snapshots A).cur = p := by simp [hp]
  simp only [List.foldl_append, List.foldl_cons, List.foldl_nil, History.act] at c2
  have hcur : (if s.kids s.cur.dropLast = 0 then s.cur.dropLast else s.cur.dropLast ++ [0]) = s.cur := by
    rw [hp, List.dropLast_concat, if_neg hk]
  rw [hcur] at c2
  refine ⟨c2.1, ?_⟩
  rw [Bool.eq_iff_iff]
  exact c2.2.2.2.trans c0.2.2.2.symm

/-- a document that is a number, edited by adding: the hypotheses hold with `R` equality -/
def addN (n : Int) : EditFn Int Unit := fun _ t => (t + n, fun _ t' => t' - n)

theorem addN_reversible (n a : Int) : Reversible (· = ·) (addN n) a (a + n) := by
  intro env t ht
  subst ht
  exact ⟨rfl, fun _ t' h => by simp [addN, h]⟩

example : Snapshots.Run (· = ·) (Snapshots.new (0 : Int))
    [.edit () (addN 5), .markClean, .edit () (addN 3), .undo ()]
    { value := fun p => if p = [0, 0] then 8 else if p = [0] then 5 else 0
      kids := fun p => if p = [0] then (if p = [] then 1 else if p = [0] then 0 else 0) + 1
        else if p = [0, 0] then 0 else if p = [] then 1 else if p = [0] then 0 else 0
      cur := [0]
      clean := [0] } :=
  .cons (.edit _ _ _ _ (addN_reversible 5 0)) (.cons (.markClean _)
    (.cons (.edit _ _ _ _ (addN_reversible 3 5)) (.cons (.undo _ _) (.nil _))))

/-- **Disagreement.** After undoing an edit, making another one and undoing that, redo does not bring
back the edit just undone but the older one. -/
theorem redo_takes_oldest :
    let h := (History.new (T := Int) (E := Unit) 0).edit () (addN 1) |>.undo () |>.edit () (addN 2)
    h.current = 2 ∧ (h.undo ()).current = 0 ∧ ((h.undo ()).redo ()).current = 1 := by
  decide +kernel

end Verif.Editor
