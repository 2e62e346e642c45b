import Verif.Objtree.Model

/-!
# C33: the shape of the object tree
-/

namespace Verif.Objtree

set_option linter.unusedSectionVars false

/-! ## Maps -/

section
variable {K W : Type} [DecidableEq K]

theorem mget_iset (k k' : K) (w : W) (l : List (K × W)) :
    mget k' (iset k w l) = if k' = k then some w else mget k' l := by
  induction l with
  | nil => simp [iset, mget]
  | cons e t ih =>
    obtain ⟨k2, w2⟩ := e
    unfold iset
    by_cases h : k = k2
    · subst h
      simp only [if_true, mget]
      split <;> rfl
    · rw [if_neg h]
      simp only [mget, ih]
      by_cases h1 : k' = k2
      · subst h1; rw [if_pos rfl, if_neg (fun e => h e.symm)]; simp
      · rw [if_neg h1, if_neg h1]

theorem mget_bset (k k' : List Char) (w : W) (l : List (List Char × W)) :
    mget k' (bset k w l) = if k' = k then some w else mget k' l := by
  induction l with
  | nil => simp [bset, mget]
  | cons e t ih =>
    obtain ⟨k2, w2⟩ := e
    unfold bset
    by_cases h : k = k2
    · subst h
      simp only [if_true, mget]
      split <;> rfl
    · rw [if_neg h]
      split
      · simp only [mget]
      · simp only [mget, ih]
        by_cases h1 : k' = k2
        · subst h1; rw [if_pos rfl, if_neg (fun e => h e.symm)]; simp
        · rw [if_neg h1, if_neg h1]

theorem mget_mem {k : K} {w : W} {l : List (K × W)} (h : mget k l = some w) : (k, w) ∈ l := by
  induction l with
  | nil => cases h
  | cons e t ih =>
    obtain ⟨k2, w2⟩ := e
    simp only [mget] at h
    split at h
    · rename_i e; cases h; rw [e]; simp
    · exact List.mem_cons_of_mem _ (ih h)

theorem mget_of_mem {k : K} {w : W} {l : List (K × W)} (hn : (l.map Prod.fst).Nodup) (h : (k, w) ∈ l) :
    mget k l = some w := by
  induction l with
  | nil => cases h
  | cons e t ih =>
    obtain ⟨k2, w2⟩ := e
    simp only [List.map_cons, List.nodup_cons] at hn
    simp only [mget]
    rcases List.mem_cons.1 h with h | h
    · cases h; rw [if_pos rfl]
    · rw [if_neg, ih hn.2 h]
      intro e
      exact hn.1 (List.mem_map.2 ⟨(k, w), h, e⟩)

theorem mem_bset {k : List Char} {w : W} {l : List (List Char × W)} {x : List Char × W} (h : x ∈ bset k w l) :
    x = (k, w) ∨ x ∈ l := by
  induction l with
  | nil => simp [bset] at h; exact .inl h
  | cons e t ih =>
    obtain ⟨k2, w2⟩ := e
    unfold bset at h
    split at h
    · rcases List.mem_cons.1 h with h | h
      · exact .inl h
      · exact .inr (List.mem_cons_of_mem _ h)
    · split at h
      · rcases List.mem_cons.1 h with h | h
        · exact .inl h
        · exact .inr h
      · rcases List.mem_cons.1 h with h | h
        · exact .inr (by rw [h]; simp)
        · rcases ih h with h | h
          · exact .inl h
          · exact .inr (List.mem_cons_of_mem _ h)

theorem bset_nodup {k : List Char} {w : W} {l : List (List Char × W)} (hn : (l.map Prod.fst).Nodup)
    (hk : mget k l = none) : ((bset k w l).map Prod.fst).Nodup := by
  induction l with
  | nil => simp [bset]
  | cons e t ih =>
    obtain ⟨k2, w2⟩ := e
    simp only [mget] at hk
    split at hk
    · cases hk
    · rename_i hne
      have hn0 := hn
      simp only [List.map_cons, List.nodup_cons] at hn
      unfold bset
      rw [if_neg hne]
      split
      · rw [List.map_cons, List.nodup_cons]
        refine ⟨?_, hn0⟩
        intro hm
        obtain ⟨⟨a, b⟩, hab, rfl⟩ := List.mem_map.1 hm
        rcases List.mem_cons.1 hab with h | h
        · cases h; exact hne rfl
        · rw [mget_of_mem hn.2 h] at hk; cases hk
      · rw [List.map_cons, List.nodup_cons]
        refine ⟨?_, ih hn.2 hk⟩
        intro hm
        obtain ⟨⟨a, b⟩, hab, ha⟩ := List.mem_map.1 hm
        rcases mem_bset hab with h | h
        · cases h; exact hne ha
        · exact hn.1 (List.mem_map.2 ⟨_, h, ha⟩)

end

/-! ## Operations -/

variable {V P : Type}

/-- what a parser does to the tree -/
inductive Op (V P : Type) where
  | subtype (parent : Nat) (child : Ident)
  | declareVar (ty : Nat) (name : Ident) (value : V)
  | overrideVar (ty : Nat) (name : Ident) (value : V)
  | registerVar (ty : Nat) (name : Ident) (value : V) (isDecl : Bool)
  | registerProc (ty : Nat) (name : Ident) (isDecl : Bool) (value : P)

/-- names of types contain no slash -/
def Op.OK : Op V P → Prop
  | .subtype _ child => '/' ∉ child
  | _ => True

def Builder.step (b : Builder V P) : Op V P → Option (Builder V P)
  | .subtype p c => (b.subtypeOrAdd p c).map Prod.fst
  | .declareVar t n v => b.declareVar t n v
  | .overrideVar t n v => b.overrideVar t n v
  | .registerVar t n v d => b.registerVar t n v d
  | .registerProc t n d v => b.registerProc t n d v

def Builder.run (b : Builder V P) : List (Op V P) → Option (Builder V P)
  | [] => some b
  | o :: os => (b.step o).bind fun b' => Builder.run b' os

/-- the part of a node that gives the tree its shape -/
structure Skel where
  path : List Char
  lastSlash : Nat
  parentPath : Option Nat
  id : Nat
  children : List (Ident × Nat)

def Node.skel (n : Node V P) : Skel := ⟨n.path, n.lastSlash, n.parentPath, n.id, n.children⟩

/-- the shape invariant -/
structure Shape (g : List Skel) (tys : List (List Char × Nat)) : Prop where
  root : ∃ n, g[0]? = some n ∧ n.path = []
  node : ∀ (i : Nat) n, g[i]? = some n → i ≠ 0 → ∃ p m c, n.parentPath = some p ∧ p < i ∧ g[p]? = some m
    ∧ '/' ∉ c ∧ n.path = m.path ++ '/' :: c ∧ n.lastSlash = m.path.length ∧ mget c m.children = some i
  child : ∀ (p : Nat) m c i, g[p]? = some m → mget c m.children = some i →
    ∃ n, g[i]? = some n ∧ i ≠ 0 ∧ n.parentPath = some p ∧ n.path = m.path ++ '/' :: c ∧ '/' ∉ c
  nodup : ∀ (p : Nat) m, g[p]? = some m → (m.children.map Prod.fst).Nodup
  types : ∀ path i, mget path tys = some i ↔ i ≠ 0 ∧ ∃ n, g[i]? = some n ∧ n.path = path
  tnodup : (tys.map Prod.fst).Nodup

def Builder.shape (b : Builder V P) : Prop := Shape (b.inner.graph.map Node.skel) b.inner.types

theorem split_last {a b c d : List Char} (hb : '/' ∉ b) (hd : '/' ∉ d) (h : a ++ '/' :: b = c ++ '/' :: d) :
    a = c ∧ b = d := by
  have hr := congrArg List.reverse h
  simp only [List.reverse_append, List.reverse_cons, List.append_assoc, List.singleton_append] at hr
  have key : ∀ (u v x y : List Char), '/' ∉ u → '/' ∉ v → u ++ '/' :: x = v ++ '/' :: y → u = v ∧ x = y := by
    intro u
    induction u with
    | nil =>
      intro v x y _ hv e
      cases v with
      | nil => simpa using e
      | cons z v => simp only [List.nil_append, List.cons_append, List.cons.injEq] at e; simp [← e.1] at hv
    | cons w u ih =>
      intro v x y hu hv e
      cases v with
      | nil => simp only [List.nil_append, List.cons_append, List.cons.injEq] at e; simp [e.1] at hu
      | cons z v =>
        simp only [List.cons_append, List.cons.injEq] at e
        simp only [List.mem_cons, not_or] at hu hv
        obtain ⟨h1, h2⟩ := ih v x y hu.2 hv.2 e.2
        exact ⟨by rw [e.1, h1], h2⟩
  obtain ⟨h1, h2⟩ := key _ _ _ _ (by simpa using hb) (by simpa using hd) hr
  exact ⟨List.reverse_injective h2, List.reverse_injective h1⟩

theorem Shape.path_ne {g : List Skel} {types : List (List Char × Nat)} (h : Shape g types) {i : Nat} {n : Skel} (hi : g[i]? = some n)
    (h0 : i ≠ 0) : n.path ≠ [] := by
  obtain ⟨p, m, c, _, _, _, _, hp, _⟩ := h.node i n hi h0
  rw [hp]; simp

/-- paths are unique -/
theorem Shape.unique {g : List Skel} {types : List (List Char × Nat)} (h : Shape g types) {i j : Nat} {n m : Skel} (hi : g[i]? = some n)
    (hj : g[j]? = some m) (hp : n.path = m.path) : i = j := by
  obtain ⟨r, hr, hr0⟩ := h.root
  by_cases hi0 : i = 0
  · by_cases hj0 : j = 0
    · omega
    · subst hi0
      rw [hr] at hi
      cases hi
      exact absurd (hp ▸ hr0) (h.path_ne hj hj0)
  · by_cases hj0 : j = 0
    · subst hj0
      rw [hr] at hj
      cases hj
      exact absurd (hp.trans hr0) (h.path_ne hi hi0)
    · have h1 := (h.types n.path i).2 ⟨hi0, n, hi, rfl⟩
      have h2 := (h.types n.path j).2 ⟨hj0, m, hj, hp.symm⟩
      rw [h1] at h2
      cases h2
      rfl

/-- adding a child -/
theorem Shape.add {g : List Skel} {types : List (List Char × Nat)} (h : Shape g types) {parent : Nat} {p : Skel}
    (hp : g[parent]? = some p) {child : Ident} (hc : '/' ∉ child) (hnew : mget child p.children = none)
    (id : Nat) :
    Shape ((g ++ [Skel.mk (p.path ++ '/' :: child) p.path.length (some parent) id []]).modify parent
        fun q => { q with children := bset child g.length q.children })
      (bset (p.path ++ '/' :: child) g.length types) := by
  have hpl : parent < g.length := (List.getElem?_eq_some_iff.1 hp).1
  -- reading the new list
  have hget : ∀ (i : Nat), ((g ++ [Skel.mk (p.path ++ '/' :: child) p.path.length (some parent) id []]).modify parent
        fun q => { q with children := bset child g.length q.children })[i]?
      = if i = parent then some { p with children := bset child g.length p.children }
        else if i = g.length then some ⟨p.path ++ '/' :: child, p.path.length, some parent, id, []⟩
        else g[i]? := by
    intro i
    rw [List.getElem?_modify]
    by_cases h1 : i = parent
    · subst h1
      rw [if_pos rfl, List.getElem?_append_left hpl, hp]
      simp
    · rw [if_neg h1]
      by_cases h2 : i = g.length
      · subst h2
        rw [if_pos rfl, List.getElem?_append_right (Nat.le_refl _)]
        simp [show ¬ parent = _ from fun e => h1 e.symm]
      · rw [if_neg h2]
        by_cases h3 : i < g.length
        · rw [List.getElem?_append_left h3]
          simp [show ¬ parent = _ from fun e => h1 e.symm]
        · rw [List.getElem?_eq_none (by simp; omega), List.getElem?_eq_none (by omega)]
          rfl
  -- old nodes keep everything but the children
  have hold : ∀ (i : Nat) n, g[i]? = some n → ∃ n', ((g ++ [Skel.mk (p.path ++ '/' :: child) p.path.length (some parent) id []]).modify parent
        fun q => { q with children := bset child g.length q.children })[i]? = some n' ∧ n'.path = n.path
        ∧ n'.lastSlash = n.lastSlash ∧ n'.parentPath = n.parentPath
        ∧ ∀ c, mget c n'.children = if i = parent ∧ c = child then some g.length else mget c n.children := by
    intro i n hi
    have hil : i < g.length := (List.getElem?_eq_some_iff.1 hi).1
    rw [hget]
    by_cases h1 : i = parent
    · subst h1
      rw [hp] at hi
      cases hi
      rw [if_pos rfl]
      refine ⟨_, rfl, rfl, rfl, rfl, fun c => ?_⟩
      simp only [true_and]
      exact mget_bset _ _ _ _
    · rw [if_neg h1, if_neg (by omega), hi]
      exact ⟨n, rfl, rfl, rfl, rfl, fun c => by rw [if_neg (fun e => h1 e.1)]⟩
  have hnewget : ((g ++ [Skel.mk (p.path ++ '/' :: child) p.path.length (some parent) id []]).modify parent
        fun q => { q with children := bset child g.length q.children })[g.length]?
      = some ⟨p.path ++ '/' :: child, p.path.length, some parent, id, []⟩ := by
    rw [hget, if_neg (by omega), if_pos rfl]
  have hfresh : mget (p.path ++ '/' :: child) types = none := by
    cases ht : mget (p.path ++ '/' :: child) types with
    | none => rfl
    | some j =>
      obtain ⟨hj0, n, hn, hpath⟩ := (h.types _ _).1 ht
      obtain ⟨q, m, c, h1, h2, h3, h4, h5, _, h7⟩ := h.node j n hn hj0
      rw [hpath] at h5
      obtain ⟨e1, e2⟩ := split_last hc h4 h5
      have := h.unique hp h3 e1
      subst this
      rw [hp] at h3
      cases h3
      rw [e2, h7] at hnew
      cases hnew
  refine ⟨?_, ?_, ?_, ?_, ?_, ?_⟩
  · obtain ⟨r, hr, hr0⟩ := h.root
    obtain ⟨n', h1, h2, _⟩ := hold 0 r hr
    exact ⟨n', h1, h2.trans hr0⟩
  · intro i n hi h0
    by_cases hig : i = g.length
    · subst hig
      rw [hnewget] at hi
      cases hi
      obtain ⟨p', h1, h2, _, _, h5⟩ := hold parent p hp
      exact ⟨parent, p', child, rfl, hpl, h1, hc, by rw [h2], by rw [h2], by rw [h5, if_pos ⟨rfl, rfl⟩]⟩
    · have hil : i < g.length := by
        have := (List.getElem?_eq_some_iff.1 hi).1
        simp at this
        omega
      have hi' : g[i]? = some g[i] := List.getElem?_eq_getElem hil
      obtain ⟨n', h1, h2, h3, h4, _⟩ := hold i _ hi'
      rw [h1] at hi
      cases hi
      obtain ⟨q, m, c, a1, a2, a3, a4, a5, a6, a7⟩ := h.node i _ hi' h0
      obtain ⟨m', b1, b2, b3, b4, b5⟩ := hold q m a3
      refine ⟨q, m', c, by rw [h4, a1], a2, b1, a4, by rw [h2, b2, a5], by rw [h3, b2, a6], ?_⟩
      rw [b5]
      split
      · rename_i hh
        obtain ⟨rfl, rfl⟩ := hh
        rw [hp] at a3
        cases a3
        rw [hnew] at a7
        cases a7
      · exact a7
  · intro q m c i hq hci
    by_cases hqg : q = g.length
    · subst hqg
      rw [hnewget] at hq
      cases hq
      simp [mget] at hci
    · have hql : q < g.length := by
        have := (List.getElem?_eq_some_iff.1 hq).1
        simp at this
        omega
      have hq' : g[q]? = some g[q] := List.getElem?_eq_getElem hql
      obtain ⟨m', b1, b2, b3, b4, b5⟩ := hold q _ hq'
      rw [b1] at hq
      cases hq
      rw [b5] at hci
      split at hci
      · rename_i hh
        obtain ⟨rfl, rfl⟩ := hh
        cases hci
        rw [hp] at hq'
        cases hq'
        exact ⟨_, hnewget, by omega, rfl, by rw [b2], hc⟩
      · obtain ⟨n, c1, c2, c3, c4, c5⟩ := h.child q _ c i hq' hci
        obtain ⟨n', d1, d2, _, d4, _⟩ := hold i n c1
        exact ⟨n', d1, c2, by rw [d4, c3], by rw [d2, b2, c4], c5⟩
  · intro q m hq
    rw [hget] at hq
    split at hq
    · cases hq
      exact bset_nodup (h.nodup _ _ hp) hnew
    · split at hq
      · cases hq; simp
      · exact h.nodup q m hq
  · intro path i
    rw [mget_bset]
    by_cases hpath : path = p.path ++ '/' :: child
    · rw [if_pos hpath]
      constructor
      · intro e
        cases e
        exact ⟨by omega, _, hnewget, hpath.symm⟩
      · rintro ⟨h0, n, hn, hnp⟩
        by_cases hig : i = g.length
        · rw [hig]
        · have hil : i < g.length := by
            have := (List.getElem?_eq_some_iff.1 hn).1
            simp at this
            omega
          have hi' : g[i]? = some g[i] := List.getElem?_eq_getElem hil
          obtain ⟨n', h1, h2, _⟩ := hold i _ hi'
          rw [h1] at hn
          cases hn
          have := (h.types path i).2 ⟨h0, _, hi', by rw [← h2, hnp]⟩
          rw [hpath, hfresh] at this
          cases this
    · rw [if_neg hpath, h.types]
      constructor
      · rintro ⟨h0, n, hn, hnp⟩
        obtain ⟨n', h1, h2, _⟩ := hold i n hn
        exact ⟨h0, n', h1, h2.trans hnp⟩
      · rintro ⟨h0, n, hn, hnp⟩
        by_cases hig : i = g.length
        · subst hig
          rw [hnewget] at hn
          cases hn
          exact absurd hnp.symm hpath
        · have hil : i < g.length := by
            have := (List.getElem?_eq_some_iff.1 hn).1
            simp at this
            omega
          have hi' : g[i]? = some g[i] := List.getElem?_eq_getElem hil
          obtain ⟨n', h1, h2, _⟩ := hold i _ hi'
          rw [h1] at hn
          cases hn
          exact ⟨h0, _, hi', by rw [← h2, hnp]⟩
  · exact bset_nodup h.tnodup hfresh

/-! ## All operations keep the shape -/

/-- changing a node without touching its skeleton -/
theorem skel_modify (l : List (Node V P)) (i : Nat) (f : Node V P → Node V P)
    (hf : ∀ n, (f n).skel = n.skel) : (l.modify i f).map Node.skel = l.map Node.skel := by
  apply List.ext_getElem?
  intro j
  rw [List.getElem?_map, List.getElem?_map, List.getElem?_modify]
  cases l[j]? with
  | none => rfl
  | some n =>
    by_cases h : i = j
    · simp [h, hf]
    · simp [h]

theorem insertVar_skel (name : Ident) (v : V) (d : Option Nat) (n : Node V P) :
    (insertVar name v d n).skel = n.skel := by
  unfold insertVar
  split <;> rfl

theorem map_modify_skel (l : List (Node V P)) (i : Nat) (f : Node V P → Node V P) (g : Skel → Skel)
    (h : ∀ n, (f n).skel = g n.skel) : (l.modify i f).map Node.skel = (l.map Node.skel).modify i g := by
  apply List.ext_getElem?
  intro j
  rw [List.getElem?_map, List.getElem?_modify, List.getElem?_modify, List.getElem?_map]
  cases l[j]? with
  | none => rfl
  | some n =>
    by_cases hij : i = j
    · simp [hij, h]
    · simp [hij]

/-- `subtype_or_add` finds or adds exactly the named child of the parent -/
theorem subtype_cases {b b' : Builder V P} {parent i : Nat} {child : Ident}
    (h : b.subtypeOrAdd parent child = some (b', i)) :
    ∃ p, b.inner.graph[parent]? = some p ∧
      ((mget child p.children = some i ∧ b' = b) ∨
       (mget child p.children = none ∧ i = b.inner.graph.length ∧ b'.next = b.next + 1
        ∧ b'.inner.redirected = b.inner.redirected
        ∧ b'.inner.graph = (b.inner.graph ++ [Node.mk (p.path ++ '/' :: child) p.path.length [] [] (some parent) none
            b.next []]).modify parent (fun q => { q with children := bset child i q.children })
        ∧ b'.inner.types = bset (p.path ++ '/' :: child) i b.inner.types)) := by
  unfold Builder.subtypeOrAdd at h
  cases hp : b.inner.graph[parent]? with
  | none => rw [hp] at h; cases h
  | some p =>
    rw [hp] at h
    simp only at h
    refine ⟨p, rfl, ?_⟩
    cases hm : mget child p.children with
    | some t =>
      rw [hm] at h
      cases h
      exact .inl ⟨rfl, rfl⟩
    | none =>
      rw [hm] at h
      cases h
      exact .inr ⟨rfl, rfl, rfl, rfl, rfl, rfl⟩

theorem subtype_shape {b b' : Builder V P} {parent i : Nat} {child : Ident} (hb : b.shape) (hc : '/' ∉ child)
    (h : b.subtypeOrAdd parent child = some (b', i)) : b'.shape := by
  obtain ⟨p, hp, ⟨_, rfl⟩ | ⟨hm, hi, _, _, hg, ht⟩⟩ := subtype_cases h
  · exact hb
  · unfold Builder.shape
    rw [hg, ht, map_modify_skel _ _ _ (fun q => { q with children := bset child i q.children }) (fun _ => rfl),
      List.map_append, hi]
    have hp' : (b.inner.graph.map Node.skel)[parent]? = some p.skel := by rw [List.getElem?_map, hp]; rfl
    have := Shape.add hb hp' hc hm b.next
    rw [List.length_map] at this
    exact this

theorem step_shape {b b' : Builder V P} {o : Op V P} (hb : b.shape) (ho : o.OK) (h : b.step o = some b') :
    b'.shape := by
  cases o with
  | subtype p c =>
    unfold Builder.step at h
    obtain ⟨⟨b2, i⟩, h1, rfl⟩ := Option.map_eq_some_iff.1 h
    exact subtype_shape hb ho h1
  | declareVar t n v =>
    simp only [Builder.step, Builder.declareVar] at h
    split at h
    · cases h
      unfold Builder.shape Tree.modify
      simp only
      rw [skel_modify _ _ _ (insertVar_skel _ _ _)]
      exact hb
    · cases h
  | overrideVar t n v =>
    simp only [Builder.step, Builder.overrideVar] at h
    split at h
    · cases h
      unfold Builder.shape Tree.modify
      simp only
      rw [skel_modify _ _ _ (insertVar_skel _ _ _)]
      exact hb
    · cases h
  | registerVar t n v d =>
    simp only [Builder.step, Builder.registerVar] at h
    split at h
    · cases h
    · split at h
      · cases h; exact hb
      · split at h
        · cases h
          unfold Builder.shape Tree.modify
          simp only
          rw [skel_modify]
          · exact hb
          · exact fun _ => rfl
        · cases h
          unfold Builder.shape Tree.modify
          simp only
          rw [skel_modify]
          · exact hb
          · exact fun _ => rfl
  | registerProc t n d v =>
    simp only [Builder.step, Builder.registerProc] at h
    split at h
    · cases h
    · cases h
      unfold Builder.shape Tree.modify
      simp only
      rw [skel_modify]
      · exact hb
      · exact fun _ => rfl

theorem init_shape : (Builder.init : Builder V P).shape := by
  unfold Builder.shape Builder.init
  simp only [List.map_cons, List.map_nil]
  have hnil : ∀ (i : Nat) (n : Skel), ([Node.skel (⟨[], 0, [], [], none, none, 0, []⟩ : Node V P)] : List Skel)[i]? = some n →
      i = 0 ∧ n.children = [] := by
    intro i n h
    cases i with
    | zero => simp only [List.getElem?_cons_zero, Option.some.injEq] at h; rw [← h]; exact ⟨rfl, rfl⟩
    | succ i => simp at h
  refine ⟨⟨_, rfl, rfl⟩, ?_, ?_, ?_, ?_, by simp⟩
  · intro i n h h0
    exact absurd (hnil i n h).1 h0
  · intro p m c i h hc
    rw [(hnil p m h).2] at hc
    cases hc
  · intro p m h
    rw [(hnil p m h).2]
    simp
  · intro path i
    simp only [mget, reduceCtorEq, false_iff, not_and, not_exists]
    intro h0 n hn
    exact absurd (hnil i n hn).1 h0

theorem run_shape {ops : List (Op V P)} {b b' : Builder V P} (hb : b.shape) (ho : ∀ o ∈ ops, o.OK)
    (h : b.run ops = some b') : b'.shape := by
  induction ops generalizing b with
  | nil => cases h; exact hb
  | cons o os ih =>
    unfold Builder.run at h
    obtain ⟨b1, h1, h2⟩ := Option.bind_eq_some_iff.1 h
    exact ih (step_shape hb (ho o (by simp)) h1) (fun o h => ho o (by simp [h])) h2

/-! ## C33 -/

/-- reachable object trees under construction -/
def Built (b : Builder V P) : Prop := ∃ ops : List (Op V P), (∀ o ∈ ops, o.OK) ∧ Builder.init.run ops = some b

theorem Built.shape {b : Builder V P} (h : Built b) : b.shape := by
  obtain ⟨ops, ho, hr⟩ := h
  exact run_shape init_shape ho hr

theorem skel_get {t : Tree V P} {i : Nat} {n : Node V P} (h : t.graph[i]? = some n) :
    (t.graph.map Node.skel)[i]? = some n.skel := by rw [List.getElem?_map, h]; rfl

theorem get_skel {t : Tree V P} {i : Nat} {s : Skel} (h : (t.graph.map Node.skel)[i]? = some s) :
    ∃ n, t.graph[i]? = some n ∧ n.skel = s := by
  rw [List.getElem?_map] at h
  exact Option.map_eq_some_iff.1 h

/-- lookups in any tree of the right shape -/
theorem find_shape {t : Tree V P} (h : Shape (t.graph.map Node.skel) t.types) (path : List Char) (i : Nat) :
    t.find path = some i ↔ ∃ n, t.graph[i]? = some n ∧ n.path = path := by
  obtain ⟨r, hr, hr0⟩ := h.root
  obtain ⟨rn, hrn, rfl⟩ := get_skel hr
  unfold Tree.find
  by_cases hp : path = []
  · subst hp
    rw [if_pos rfl]
    constructor
    · intro e; cases e; exact ⟨rn, hrn, hr0⟩
    · rintro ⟨n, hn, hn0⟩
      rw [h.unique hr (skel_get hn) (by rw [hr0]; exact hn0.symm)]
  · rw [if_neg hp, h.types]
    constructor
    · rintro ⟨_, s, hs, hsp⟩
      obtain ⟨n, hn, rfl⟩ := get_skel hs
      exact ⟨n, hn, hsp⟩
    · rintro ⟨n, hn, hnp⟩
      refine ⟨?_, n.skel, skel_get hn, hnp⟩
      rintro rfl
      rw [hrn] at hn
      cases hn
      exact hp (hnp.symm.trans hr0)

/-- **C33**: after any sequence of registrations, looking up a path finds the type with exactly that path, if
there is one. -/
theorem find_exact {b : Builder V P} (h : Built b) (path : List Char) (i : Nat) :
    b.inner.find path = some i ↔ ∃ n, b.inner.graph[i]? = some n ∧ n.path = path :=
  find_shape h.shape path i

/-- **C33**: two types never have the same path. -/
theorem paths_unique {b : Builder V P} (h : Built b) {i j : Nat} {n m : Node V P}
    (hi : b.inner.graph[i]? = some n) (hj : b.inner.graph[j]? = some m) (hp : n.path = m.path) : i = j :=
  h.shape.unique (skel_get hi) (skel_get hj) hp

/-- **C33**: every type but the root has a parent path, registered before it, whose path followed by a slash
and the type's name is the type's path; the name has no slash. -/
theorem parent_path_exact {b : Builder V P} (h : Built b) {i : Nat} {n : Node V P}
    (hi : b.inner.graph[i]? = some n) (h0 : i ≠ 0) :
    ∃ p m, b.inner.parentPath i = some p ∧ p < i ∧ b.inner.graph[p]? = some m ∧ n.parentPathStr = m.path
      ∧ n.path = m.path ++ '/' :: n.name ∧ '/' ∉ n.name ∧ b.inner.child p n.name = some i := by
  have hs := h.shape
  obtain ⟨p, s, c, h1, h2, h3, h4, h5, h6, h7⟩ := hs.node i _ (skel_get hi) h0
  obtain ⟨m, hm, rfl⟩ := get_skel h3
  have hne : n.path ≠ [] := hs.path_ne (skel_get hi) h0
  have h5' : n.path = m.path ++ '/' :: c := h5
  have h6' : n.lastSlash = m.path.length := h6
  have hname : n.name = c := by
    unfold Node.name
    rw [if_neg hne, h6', h5']
    simp
  refine ⟨p, m, ?_, h2, hm, ?_, by rw [hname]; exact h5', by rw [hname]; exact h4, ?_⟩
  · unfold Tree.parentPath
    rw [hi]
    simp only [if_neg hne]
    exact h1
  · unfold Node.parentPathStr
    rw [h6', h5']
    simp
  · unfold Tree.child
    rw [hm, hname]
    exact h7

/-- the root is the type with the empty path, its name is empty and it has no parent path -/
theorem root_exact {b : Builder V P} (h : Built b) :
    ∃ n, b.inner.graph[0]? = some n ∧ n.path = [] ∧ n.name = [] ∧ b.inner.parentPath 0 = none := by
  obtain ⟨r, hr, hr0⟩ := h.shape.root
  obtain ⟨n, hn, rfl⟩ := get_skel hr
  have hr0' : n.path = [] := hr0
  exact ⟨n, hn, hr0', by unfold Node.name; rw [if_pos hr0'], by unfold Tree.parentPath; rw [hn]; simp [hr0']⟩

/-- **C33**: the child of a type under a name is the type whose path is the type's path, a slash and the
name. -/
theorem child_exact {b : Builder V P} (h : Built b) {p : Nat} {m : Node V P} (hp : b.inner.graph[p]? = some m)
    (name : Ident) (hn : '/' ∉ name) (i : Nat) :
    b.inner.child p name = some i ↔ ∃ n, b.inner.graph[i]? = some n ∧ n.path = m.path ++ '/' :: name := by
  have hs := h.shape
  unfold Tree.child
  rw [hp]
  simp only
  constructor
  · intro hc
    obtain ⟨s, h1, _, _, h4, _⟩ := hs.child p _ name i (skel_get hp) hc
    obtain ⟨n, hn, rfl⟩ := get_skel h1
    exact ⟨n, hn, h4⟩
  · rintro ⟨n, hi, hpath⟩
    have hi0 : i ≠ 0 := by
      rintro rfl
      obtain ⟨r, hr, hr0⟩ := hs.root
      rw [skel_get hi] at hr
      cases hr
      have : n.path = [] := hr0
      rw [hpath] at this
      simp at this
    obtain ⟨q, s, c, _, _, h3, h4, h5, _, h7⟩ := hs.node i _ (skel_get hi) hi0
    have h5' : n.path = s.path ++ '/' :: c := h5
    rw [hpath] at h5'
    obtain ⟨e1, rfl⟩ := split_last hn h4 h5'
    have := hs.unique (skel_get hp) h3 e1
    subst this
    rw [skel_get hp] at h3
    cases h3
    exact h7

/-- **C33**: `subtype_or_add` returns the type named: path of the parent, slash, name. -/
theorem subtype_path {b b' : Builder V P} (h : Built b) {parent i : Nat} {child : Ident} (hc : '/' ∉ child)
    {m : Node V P} (hp : b.inner.graph[parent]? = some m) (hr : b.subtypeOrAdd parent child = some (b', i)) :
    ∃ n, b'.inner.graph[i]? = some n ∧ n.path = m.path ++ '/' :: child := by
  obtain ⟨p, hp', ⟨hm, rfl⟩ | ⟨hm, hi, _, _, hg, _⟩⟩ := subtype_cases hr
  · rw [hp] at hp'
    cases hp'
    exact (child_exact h hp child hc i).1 (by unfold Tree.child; rw [hp]; exact hm)
  · rw [hp] at hp'
    cases hp'
    have hlt := (List.getElem?_eq_some_iff.1 hp).1
    rw [hg, List.getElem?_modify, hi]
    refine ⟨⟨m.path ++ '/' :: child, m.path.length, [], [], some parent, none, b.next, []⟩, ?_, rfl⟩
    rw [List.getElem?_append_right (Nat.le_refl _)]
    simp [show ¬ parent = b.inner.graph.length by omega]

/-- later operations keep the path, parent path and symbol id of every type -/
theorem step_stable {b b' : Builder V P} {o : Op V P} (h : b.step o = some b') (i : Nat) (n : Node V P)
    (hi : b.inner.graph[i]? = some n) :
    ∃ n', b'.inner.graph[i]? = some n' ∧ n'.path = n.path ∧ n'.parentPath = n.parentPath ∧ n'.id = n.id := by
  have hmod : ∀ (k : Nat) (f : Node V P → Node V P), (∀ n, (f n).skel = n.skel) →
      ∃ n', (b.inner.graph.modify k f)[i]? = some n' ∧ n'.path = n.path ∧ n'.parentPath = n.parentPath
        ∧ n'.id = n.id := by
    intro k f hf
    rw [List.getElem?_modify, hi]
    by_cases hk : k = i
    · refine ⟨f n, by simp [hk], ?_⟩
      have := hf n
      simp only [Node.skel, Skel.mk.injEq] at this
      exact ⟨this.1, this.2.2.1, this.2.2.2.1⟩
    · exact ⟨n, by simp [hk], rfl, rfl, rfl⟩
  cases o with
  | subtype p c =>
    unfold Builder.step at h
    obtain ⟨⟨b2, j⟩, h1, rfl⟩ := Option.map_eq_some_iff.1 h
    obtain ⟨q, hq, ⟨_, rfl⟩ | ⟨_, _, _, _, hg, _⟩⟩ := subtype_cases h1
    · exact ⟨n, hi, rfl, rfl, rfl⟩
    · rw [hg, List.getElem?_modify, List.getElem?_append_left (List.getElem?_eq_some_iff.1 hi).1, hi]
      by_cases hk : p = i
      · refine ⟨{ n with children := bset c j n.children }, by simp [hk], rfl, rfl, rfl⟩
      · exact ⟨n, by simp [hk], rfl, rfl, rfl⟩
  | declareVar t nm v =>
    simp only [Builder.step, Builder.declareVar] at h
    split at h
    · cases h; exact hmod _ _ (insertVar_skel _ _ _)
    · cases h
  | overrideVar t nm v =>
    simp only [Builder.step, Builder.overrideVar] at h
    split at h
    · cases h; exact hmod _ _ (insertVar_skel _ _ _)
    · cases h
  | registerVar t nm v d =>
    simp only [Builder.step, Builder.registerVar] at h
    split at h
    · cases h
    · split at h
      · cases h; exact ⟨n, hi, rfl, rfl, rfl⟩
      · split at h
        · cases h; exact hmod _ _ (fun _ => rfl)
        · cases h; exact hmod _ _ (fun _ => rfl)
  | registerProc t nm d v =>
    simp only [Builder.step, Builder.registerProc] at h
    split at h
    · cases h
    · cases h; exact hmod _ _ (fun _ => rfl)

/-- **C33**: registering more never changes the path, parent path or symbol id of a type. -/
theorem run_stable {ops : List (Op V P)} {b b' : Builder V P} (h : b.run ops = some b') (i : Nat) (n : Node V P)
    (hi : b.inner.graph[i]? = some n) :
    ∃ n', b'.inner.graph[i]? = some n' ∧ n'.path = n.path ∧ n'.parentPath = n.parentPath ∧ n'.id = n.id := by
  induction ops generalizing b n with
  | nil => cases h; exact ⟨n, hi, rfl, rfl, rfl⟩
  | cons o os ih =>
    unfold Builder.run at h
    obtain ⟨b1, h1, h2⟩ := Option.bind_eq_some_iff.1 h
    obtain ⟨n1, a1, a2, a3, a4⟩ := step_stable h1 i n hi
    obtain ⟨n2, c1, c2, c3, c4⟩ := ih h2 n1 a1
    exact ⟨n2, c1, c2.trans a2, c3.trans a3, c4.trans a4⟩

end Verif.Objtree
