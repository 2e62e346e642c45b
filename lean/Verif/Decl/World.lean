import Verif.Decl.Place
import Mathlib.Data.List.Induction

/-!
# What facts do to what is seen of a tree
-/

namespace Verif.Decl

open Verif.Objtree (Ident Builder mget mget_iset mget_bset)

variable {E C : Type}

/-- the type in a type with a name -/
def child (v : Env E C) (i : Nat) (c : Ident) : Option Nat :=
  (v.tree.inner.graph[i]?).bind fun n => mget c n.children

/-- a tree as the parser builds it: no type is in two places, the declarations that are recorded are older than the
next one, and the declarations of procs are recorded -/
structure Env.Wf (v : Env E C) : Prop where
  sound : v.Sound
  inj : ∀ i i' c c' j, child v i c = some j → child v i' c' = some j → i = i' ∧ c = c'
  varIds : ∀ x ∈ v.varDecls, x.1 < v.tree.next
  procIds : ∀ x ∈ v.procDecls, x.1 < v.tree.next
  varDecl : ∀ (i : Nat) (n : Nd E C), v.tree.inner.graph[i]? = some n → ∀ name x id, mget name n.vars = some x →
    x.decl = some id → id < v.tree.next
  procDecl : ∀ (i : Nat) (n : Nd E C), v.tree.inner.graph[i]? = some n → ∀ name x id, mget name n.procs = some x →
    x.decl = some id → (mget id v.procDecls).isSome

theorem lookup_one (v : Env E C) (i : Nat) (c : Ident) : lookup v i [c] = child v i c := by
  unfold lookup child
  cases v.tree.inner.graph[i]? with
  | none => rfl
  | some n =>
    simp only [Option.bind_some]
    cases mget c n.children <;> rfl

theorem lookup_snoc (v : Env E C) (i : Nat) (p : List Ident) (c : Ident) :
    lookup v i (p ++ [c]) = (lookup v i p).bind fun j => child v j c := by
  rw [lookup_append]
  congr 1
  funext j
  exact lookup_one v j c

theorem Env.Wf.child_pos {v : Env E C} (h : v.Wf) {i j : Nat} {c : Ident} (hc : child v i c = some j) :
    0 < j ∧ j < v.tree.inner.graph.length := by
  unfold child at hc
  rw [Option.bind_eq_some_iff] at hc
  obtain ⟨n, hn, hc⟩ := hc
  exact h.sound.2 i n hn c j hc

theorem lookup_inj {v : Env E C} (h : v.Wf) (p : List Ident) : ∀ (q : List Ident) (i : Nat), lookup v 0 p = some i →
    lookup v 0 q = some i → p = q := by
  induction p using List.reverseRecOn with
  | nil =>
    intro q i h1 h2
    cases h1
    rcases List.eq_nil_or_concat q with rfl | ⟨q', d, rfl⟩
    · rfl
    · rw [List.concat_eq_append, lookup_snoc, Option.bind_eq_some_iff] at h2
      obtain ⟨j, _, h2⟩ := h2
      have := (h.child_pos h2).1
      omega
  | append_singleton p c ih =>
    intro q i h1 h2
    rw [lookup_snoc, Option.bind_eq_some_iff] at h1
    obtain ⟨j, h1, h1'⟩ := h1
    rcases List.eq_nil_or_concat q with rfl | ⟨q', d, rfl⟩
    · cases h2
      have := (h.child_pos h1').1
      omega
    · rw [List.concat_eq_append, lookup_snoc, Option.bind_eq_some_iff] at h2
      obtain ⟨j', h2, h2'⟩ := h2
      obtain ⟨rfl, rfl⟩ := h.inj _ _ _ _ _ h1' h2'
      rw [ih q' _ h1 h2, List.concat_eq_append]

theorem mget_append {W : Type} (k : Nat) (l l' : List (Nat × W)) :
    mget k (l ++ l') = (mget k l).or (mget k l') := by
  induction l with
  | nil => rfl
  | cons x l ih =>
    obtain ⟨k', w⟩ := x
    simp only [List.cons_append, mget]
    split
    · rfl
    · exact ih

theorem mget_lt {W : Type} {l : List (Nat × W)} {n : Nat} (h : ∀ x ∈ l, x.1 < n) : mget n l = none := by
  cases hm : mget n l with
  | none => rfl
  | some w =>
    have := h _ (Objtree.mget_mem hm)
    simp at this

/-! ## Types -/

/-- what a new type does to a tree -/
theorem subtype_see {v v' : Env E C} (h : v.Wf) {q : List Ident} {i j : Nat} {c : Ident} (hq : lookup v 0 q = some i)
    (hs : v.subtype i c = some (v', j)) :
    v'.Wf ∧ lookup v' 0 (q ++ [c]) = some j ∧
      v'.see = { v.see with isType := fun r => v.see.isType r || decide (r = q ++ [c]) } := by
  have hi := (lookup_valid h.sound _ _ _ h.sound.1 hq).1
  unfold Env.subtype at hs
  cases hb : v.tree.subtypeOrAdd i c with
  | none => rw [hb] at hs; cases hs
  | some r =>
    obtain ⟨b, j'⟩ := r
    rw [hb] at hs
    simp only [Option.some.injEq, Prod.mk.injEq] at hs
    obtain ⟨rfl, rfl⟩ := hs
    unfold Builder.subtypeOrAdd at hb
    rw [List.getElem?_eq_getElem hi] at hb
    simp only at hb
    cases hm : mget c v.tree.inner.graph[i].children with
    | some t =>
      rw [hm] at hb
      simp only [Option.some.injEq, Prod.mk.injEq] at hb
      obtain ⟨rfl, rfl⟩ := hb
      have hlook : lookup v 0 (q ++ [c]) = some t := by
        rw [lookup_snoc, hq]
        simp only [Option.bind_some, child, List.getElem?_eq_getElem hi, hm]
      refine ⟨h, hlook, ?_⟩
      have : (fun r => v.see.isType r || decide (r = q ++ [c])) = v.see.isType := by
        funext r
        by_cases hr : r = q ++ [c]
        · subst hr
          simp only [decide_true, Bool.or_true]
          simp only [Env.see, hlook, Option.isSome_some]
        · simp [hr]
      rw [this]
    | none =>
      rw [hm] at hb
      simp only [Option.some.injEq, Prod.mk.injEq] at hb
      obtain ⟨rfl, rfl⟩ := hb
      generalize hnew : ({ path := v.tree.inner.graph[i].path ++ '/' :: c
                           lastSlash := v.tree.inner.graph[i].path.length
                           vars := []
                           procs := []
                           parentPath := some i
                           parentType := none
                           id := v.tree.next
                           children := [] } : Nd E C) = new
      have hnv : new.vars = [] := by rw [← hnew]
      have hnp : new.procs = [] := by rw [← hnew]
      have hnc : new.children = [] := by rw [← hnew]
      generalize hv' : ({ v with tree := _ } : Env E C) = v'
      have hgraph : v'.tree.inner.graph = (v.tree.inner.graph ++ [new]).modify i
          (fun q => { q with children := Objtree.bset c v.tree.inner.graph.length q.children }) := by
        rw [← hv', ← hnew]
      have hvd : v'.varDecls = v.varDecls := by rw [← hv']
      have hpd : v'.procDecls = v.procDecls := by rw [← hv']
      have hnext : v'.tree.next = v.tree.next + 1 := by rw [← hv']
      clear hv'
      -- the nodes
      have hnode : ∀ k n', v'.tree.inner.graph[k]? = some n' →
          (k = v.tree.inner.graph.length ∧ n' = new) ∨
          (∃ n, v.tree.inner.graph[k]? = some n ∧ n'.vars = n.vars ∧ n'.procs = n.procs ∧
            n'.children = if k = i then Objtree.bset c v.tree.inner.graph.length n.children else n.children) := by
        intro k n' hk
        rw [hgraph, List.getElem?_modify, List.getElem?_append] at hk
        by_cases hlt : k < v.tree.inner.graph.length
        · rw [if_pos hlt, List.getElem?_eq_getElem hlt] at hk
          right
          refine ⟨v.tree.inner.graph[k], List.getElem?_eq_getElem hlt, ?_⟩
          by_cases hki : k = i
          · subst hki
            simp at hk
            subst hk
            simp
          · have : ¬ i = k := fun hx => hki hx.symm
            simp [this] at hk
            subst hk
            simp [hki]
        · rw [if_neg hlt] at hk
          left
          have hne : ¬ i = k := by omega
          by_cases hk0 : k - v.tree.inner.graph.length = 0
          · rw [hk0] at hk
            simp [hne] at hk
            exact ⟨by omega, hk.symm⟩
          · rw [List.getElem?_eq_none (by simp; omega)] at hk
            simp at hk
      have hnode' : ∀ k n, v.tree.inner.graph[k]? = some n → ∃ n', v'.tree.inner.graph[k]? = some n' ∧
          n'.vars = n.vars ∧ n'.procs = n.procs ∧
            n'.children = if k = i then Objtree.bset c v.tree.inner.graph.length n.children else n.children := by
        intro k n hk
        have hlt : k < v.tree.inner.graph.length := (List.getElem?_eq_some_iff.1 hk).1
        have hlt' : k < v'.tree.inner.graph.length := by rw [hgraph]; simp; omega
        refine ⟨v'.tree.inner.graph[k], List.getElem?_eq_getElem hlt', ?_⟩
        rcases hnode k _ (List.getElem?_eq_getElem hlt') with ⟨hk', _⟩ | ⟨n1, h1, h2⟩
        · omega
        · rw [hk] at h1
          cases h1
          exact h2
      have hnewAt : v'.tree.inner.graph[v.tree.inner.graph.length]? = some new := by
        rw [hgraph, List.getElem?_modify, List.getElem?_append]
        have : ¬ i = v.tree.inner.graph.length := by omega
        simp [this]
      have hchild : ∀ k d, child v' k d = if k = i ∧ d = c then some v.tree.inner.graph.length
          else child v k d := by
        intro k d
        by_cases hlt : k < v.tree.inner.graph.length
        · obtain ⟨n', h1, _, _, h2⟩ := hnode' k _ (List.getElem?_eq_getElem hlt)
          unfold child
          rw [h1, List.getElem?_eq_getElem hlt]
          simp only [Option.bind_some, h2]
          by_cases hki : k = i
          · subst hki
            rw [if_pos rfl, mget_bset]
            simp
          · simp [hki]
        · have hki : ¬ (k = i ∧ d = c) := by omega
          rw [if_neg hki]
          have h2 : child v k d = none := by
            unfold child
            rw [List.getElem?_eq_none (by omega)]
            rfl
          rw [h2]
          unfold child
          cases hk : v'.tree.inner.graph[k]? with
          | none => rfl
          | some n' =>
            rcases hnode k n' hk with ⟨_, rfl⟩ | ⟨n, h1, _⟩
            · simp [hnc, mget]
            · rw [List.getElem?_eq_none (by omega)] at h1
              cases h1
      have hci : child v i c = none := by
        simp [child, List.getElem?_eq_getElem hi, hm]
      have hlook : ∀ r, lookup v' 0 r = if r = q ++ [c] then some v.tree.inner.graph.length else lookup v 0 r := by
        intro r
        induction r using List.reverseRecOn with
        | nil => simp [lookup]
        | append_singleton r d ih =>
          rw [lookup_snoc, lookup_snoc, ih]
          by_cases hr : r = q ++ [c]
          · rw [if_pos hr, if_neg (by intro hx; rw [hr] at hx; simp at hx)]
            simp only [Option.bind_some, hchild]
            rw [if_neg (by omega), hr, lookup_snoc, hq]
            simp only [Option.bind_some, hci, Option.bind_none]
            unfold child
            rw [List.getElem?_eq_none (Nat.le_refl _)]
            rfl
          · rw [if_neg hr]
            cases hl : lookup v 0 r with
            | none =>
              simp only [Option.bind_none]
              rw [if_neg]
              intro hx
              have := List.append_inj hx
              have h1 : r = q := (List.append_inj' hx (by simp)).1
              rw [h1, hq] at hl
              cases hl
            | some k =>
              simp only [Option.bind_some, hchild]
              by_cases hkd : k = i ∧ d = c
              · obtain ⟨rfl, rfl⟩ := hkd
                have := lookup_inj h _ _ _ hl hq
                simp [this]
              · rw [if_neg hkd, if_neg]
                intro hx
                have h1 := List.append_inj' hx (by simp)
                rw [h1.1, hq] at hl
                cases hl
                simp at h1
                exact hkd ⟨rfl, h1.2⟩
      refine ⟨?_, by rw [hlook, if_pos rfl], ?_⟩
      · refine ⟨⟨by rw [hgraph]; simp, ?_⟩, ?_, ?_, ?_, ?_, ?_⟩
        · intro k n' hk d j hj
          have : child v' k d = some j := by simp [child, hk, hj]
          rw [hchild] at this
          have hlen : v'.tree.inner.graph.length = v.tree.inner.graph.length + 1 := by rw [hgraph]; simp
          split at this
          · cases this
            have := h.sound.1
            omega
          · have := h.child_pos this
            omega
        · intro k k' d d' j h1 h2
          rw [hchild] at h1 h2
          split at h1
          · rename_i e1
            cases h1
            split at h2
            · rename_i e2
              exact ⟨e1.1.trans e2.1.symm, e1.2.trans e2.2.symm⟩
            · have := (h.child_pos h2).2
              omega
          · split at h2
            · cases h2
              have := (h.child_pos h1).2
              omega
            · exact h.inj _ _ _ _ _ h1 h2
        · intro x hx
          rw [hvd] at hx
          have := h.varIds x hx
          omega
        · intro x hx
          rw [hpd] at hx
          have := h.procIds x hx
          omega
        · intro k n' hk name x id hx hid
          rcases hnode k n' hk with ⟨_, rfl⟩ | ⟨n, h1, h2, _⟩
          · rw [hnv] at hx
            cases hx
          · rw [h2] at hx
            have := h.varDecl k n h1 name x id hx hid
            omega
        · intro k n' hk name x id hx hid
          rcases hnode k n' hk with ⟨_, rfl⟩ | ⟨n, h1, _, h2, _⟩
          · rw [hnp] at hx
            cases hx
          · rw [h2] at hx
            rw [hpd]
            exact h.procDecl k n h1 name x id hx hid
      · have hn : lookup v 0 (q ++ [c]) = none := by
          rw [lookup_snoc, hq]
          exact hci
        simp only [Env.see, World.mk.injEq]
        refine ⟨?_, ?_, ?_⟩
        · funext r
          rw [hlook]
          by_cases hr : r = q ++ [c]
          · simp [hr]
          · simp [hr]
        · funext r m
          rw [hlook]
          by_cases hr : r = q ++ [c]
          · rw [if_pos hr, hr, hn]
            simp [hnewAt, hnv, mget]
          · rw [if_neg hr, hvd]
            cases hl : lookup v 0 r with
            | none => rfl
            | some k =>
              obtain ⟨n', h1, h2, _⟩ := hnode' k _
                (List.getElem?_eq_getElem (lookup_valid h.sound _ _ _ h.sound.1 hl).1)
              simp only [Option.bind_some, h1, h2,
                List.getElem?_eq_getElem (lookup_valid h.sound _ _ _ h.sound.1 hl).1]
        · funext r m
          rw [hlook]
          by_cases hr : r = q ++ [c]
          · rw [if_pos hr, hr, hn]
            simp [hnewAt, hnp, mget]
          · rw [if_neg hr, hpd]
            cases hl : lookup v 0 r with
            | none => rfl
            | some k =>
              obtain ⟨n', h1, _, h2, _⟩ := hnode' k _
                (List.getElem?_eq_getElem (lookup_valid h.sound _ _ _ h.sound.1 hl).1)
              simp only [Option.bind_some, h1, h2,
                List.getElem?_eq_getElem (lookup_valid h.sound _ _ _ h.sound.1 hl).1]

theorem isType_prefix {v : Env E C} {p q : List Ident} (hq : (lookup v 0 q).isSome) (h : p <+: q) :
    (lookup v 0 p).isSome := by
  obtain ⟨r, rfl⟩ := h
  rw [lookup_append] at hq
  cases hp : lookup v 0 p with
  | none => rw [hp] at hq; cases hq
  | some i => rfl

/-- what naming a type does to a tree -/
theorem place_see (p : List Ident) : ∀ {v v' : Env E C} (_ : v.Wf) {q : List Ident} {i j : Nat},
    lookup v 0 q = some i → place v i p = some (v', j) →
    v'.Wf ∧ lookup v' 0 (q ++ p) = some j ∧
      v'.see = { v.see with isType := fun r => v.see.isType r || r.isPrefixOf (q ++ p) } := by
  induction p with
  | nil =>
    intro v v' h q i j hq hp
    simp only [place, Option.some.injEq, Prod.mk.injEq] at hp
    obtain ⟨rfl, rfl⟩ := hp
    rw [List.append_nil]
    refine ⟨h, hq, ?_⟩
    have : (fun r => v.see.isType r || r.isPrefixOf q) = v.see.isType := by
      funext r
      by_cases hr : r.isPrefixOf q
      · have h1 : v.see.isType r = true := isType_prefix (q := q) (by rw [hq]; rfl) (List.isPrefixOf_iff_prefix.1 hr)
        rw [h1]
        rfl
      · simp [hr]
    rw [this]
  | cons c p ih =>
    intro v v' h q i j hq hp
    rw [place] at hp
    cases hs : v.subtype i c with
    | none => rw [hs] at hp; cases hp
    | some r =>
      obtain ⟨v1, k⟩ := r
      rw [hs] at hp
      obtain ⟨w1, l1, s1⟩ := subtype_see h hq hs
      obtain ⟨w2, l2, s2⟩ := ih w1 l1 hp
      rw [List.append_assoc, List.singleton_append] at l2 s2
      refine ⟨w2, l2, ?_⟩
      rw [s2, s1]
      simp only [World.mk.injEq, and_true]
      funext r
      by_cases hr : r = q ++ [c]
      · have : r.isPrefixOf (q ++ c :: p) = true := by
          rw [List.isPrefixOf_iff_prefix, hr]
          exact ⟨p, by simp⟩
        simp [this]
      · simp [hr]

/-! ## Variables and procs -/

/-- a change in a type that keeps the types in it -/
theorem modify_lookup {v v' : Env E C} {i : Nat} {f : Nd E C → Nd E C} (hf : ∀ n, (f n).children = n.children)
    (h : v'.tree.inner.graph = v.tree.inner.graph.modify i f) :
    (∀ k d, child v' k d = child v k d) ∧ ∀ r, lookup v' 0 r = lookup v 0 r := by
  have h1 : ∀ k d, child v' k d = child v k d := by
    intro k d
    unfold child
    rw [h, List.getElem?_modify]
    cases v.tree.inner.graph[k]? with
    | none => simp
    | some n =>
      simp only [Option.bind_some]
      split
      · exact congrArg (mget d) (hf n)
      · rfl
  refine ⟨h1, fun r => ?_⟩
  induction r using List.reverseRecOn with
  | nil => rfl
  | append_singleton r d ih =>
    rw [lookup_snoc, lookup_snoc, ih]
    congr 1
    funext k
    exact h1 k d

theorem modify_get {v v' : Env E C} {i : Nat} {f : Nd E C → Nd E C}
    (h : v'.tree.inner.graph = v.tree.inner.graph.modify i f) (k : Nat) :
    v'.tree.inner.graph[k]? = if k = i then (v.tree.inner.graph[k]?).map f else v.tree.inner.graph[k]? := by
  rw [h, List.getElem?_modify]
  by_cases hk : k = i
  · subst hk
    simp
  · have : ¬ i = k := fun hx => hk hx.symm
    simp [this, hk]

theorem modify_sound {v v' : Env E C} (hv : v.Wf) {i : Nat} {f : Nd E C → Nd E C}
    (hf : ∀ n, (f n).children = n.children) (h : v'.tree.inner.graph = v.tree.inner.graph.modify i f) :
    v'.Sound ∧ ∀ i i' c c' j, child v' i c = some j → child v' i' c' = some j → i = i' ∧ c = c' := by
  refine ⟨(modify_ok hv.sound hf h).1, fun a a' c c' j h1 h2 => ?_⟩
  have hc := (modify_lookup hf h).1
  rw [hc] at h1 h2
  exact hv.inj _ _ _ _ _ h1 h2

theorem insertVar_get (n : Ident) (x : VarVal E) (d : Option Nat) (t : Nd E C) (m : Ident) :
    mget m (Objtree.insertVar n x d t).vars =
      if m = n then some ⟨x, d.or ((mget n t.vars).bind fun tv => tv.decl)⟩ else mget m t.vars := by
  unfold Objtree.insertVar
  cases hm : mget n t.vars with
  | none =>
    simp only [mget_iset, Option.bind_none, Option.or_none]
  | some tv =>
    simp only [mget_iset, Option.bind_some]

theorem insertVar_procs (n : Ident) (x : VarVal E) (d : Option Nat) (t : Nd E C) :
    (Objtree.insertVar n x d t).procs = t.procs := by
  unfold Objtree.insertVar
  split <;> rfl

theorem override_see {v v' : Env E C} (h : v.Wf) {p : List Ident} {i : Nat} {n : Ident} {e : E}
    (hp : lookup v 0 p = some i) (hs : v.override i n e = some v') :
    v'.Wf ∧ v'.see = v.see.tell (.override p n e) := by
  have hi := (lookup_valid h.sound _ _ _ h.sound.1 hp).1
  unfold Env.override Builder.overrideVar at hs
  rw [if_pos hi] at hs
  simp only [Option.some.injEq] at hs
  generalize hv' : ({ v with tree := _ } : Env E C) = w at hs
  subst hs
  have hgraph : w.tree.inner.graph = v.tree.inner.graph.modify i (Objtree.insertVar n ⟨some (.expr e)⟩ none) := by
    rw [← hv']; rfl
  have hvd : w.varDecls = v.varDecls := by rw [← hv']
  have hpd : w.procDecls = v.procDecls := by rw [← hv']
  have hnext : w.tree.next = v.tree.next := by rw [← hv']
  clear hv'
  have hget := modify_get hgraph
  obtain ⟨hc, hl⟩ := modify_lookup (insertVar_children n _ none) hgraph
  obtain ⟨so, inj⟩ := modify_sound h (insertVar_children n _ none) hgraph
  have hvi := List.getElem?_eq_getElem hi
  refine ⟨⟨so, inj, by rw [hvd, hnext]; exact h.varIds, by rw [hpd, hnext]; exact h.procIds, ?_, ?_⟩, ?_⟩
  · intro k t hk name x id hx hid
    rw [hget] at hk
    rw [hnext]
    split at hk
    · rw [Option.map_eq_some_iff] at hk
      obtain ⟨t0, ht0, rfl⟩ := hk
      rw [insertVar_get] at hx
      split at hx
      · cases hx
        simp only [Option.none_or, Option.bind_eq_some_iff] at hid
        obtain ⟨tv, htv, hid⟩ := hid
        exact h.varDecl k t0 ht0 _ tv id htv hid
      · exact h.varDecl k t0 ht0 name x id hx hid
    · exact h.varDecl k t hk name x id hx hid
  · intro k t hk name x id hx hid
    rw [hget] at hk
    rw [hpd]
    split at hk
    · rw [Option.map_eq_some_iff] at hk
      obtain ⟨t0, ht0, rfl⟩ := hk
      rw [insertVar_procs] at hx
      exact h.procDecl k t0 ht0 name x id hx hid
    · exact h.procDecl k t hk name x id hx hid
  · simp only [Env.see, World.tell, World.mk.injEq]
    refine ⟨?_, ?_, ?_⟩
    · funext r
      rw [hl]
      by_cases hr : r.isPrefixOf p
      · rw [isType_prefix (q := p) (by rw [hp]; rfl) (List.isPrefixOf_iff_prefix.1 hr)]
        rfl
      · simp [hr]
    · funext r m
      rw [hl, hvd]
      by_cases hr : r = p
      · subst hr
        simp only [hp, Option.bind_some, hget, if_true, hvi, Option.map_some, insertVar_get, true_and]
        by_cases hm : m = n
        · subst hm
          simp only [if_true, Option.map_some, Option.none_or]
          cases mget m v.tree.inner.graph[i].vars <;> rfl
        · simp only [hm, if_false]
      · simp only [hr, false_and, if_false]
        cases hlr : lookup v 0 r with
        | none => rfl
        | some k =>
          have : k ≠ i := fun hx => hr (lookup_inj h _ _ _ (hx ▸ hlr) hp)
          simp only [Option.bind_some, hget, this, if_false]
    · funext r m
      rw [hl, hpd]
      cases hlr : lookup v 0 r with
      | none => rfl
      | some k =>
        simp only [Option.bind_some, hget]
        split
        · cases v.tree.inner.graph[k]? with
          | none => rfl
          | some t => simp only [Option.map_some, Option.bind_some, insertVar_procs]
        · rfl

theorem declare_see {v v' : Env E C} (h : v.Wf) {p : List Ident} {i : Nat} {n : Ident} {ty : VarTy}
    {init : Option (Init E)} (hp : lookup v 0 p = some i) (hs : v.declare i n ty init = some v') :
    v'.Wf ∧ v'.see = v.see.tell (.var p n ty init) := by
  have hi := (lookup_valid h.sound _ _ _ h.sound.1 hp).1
  unfold Env.declare Builder.declareVar at hs
  rw [if_pos hi] at hs
  simp only [Option.some.injEq] at hs
  generalize hv' : ({ v with tree := _, varDecls := _ } : Env E C) = w at hs
  subst hs
  have hgraph : w.tree.inner.graph = v.tree.inner.graph.modify i (Objtree.insertVar n ⟨init⟩ (some v.tree.next)) := by
    rw [← hv']; rfl
  have hvd : w.varDecls = v.varDecls ++ [(v.tree.next, ty)] := by rw [← hv']
  have hpd : w.procDecls = v.procDecls := by rw [← hv']
  have hnext : w.tree.next = v.tree.next + 1 := by rw [← hv']
  clear hv'
  have hget := modify_get hgraph
  obtain ⟨hc, hl⟩ := modify_lookup (insertVar_children n _ _) hgraph
  obtain ⟨so, inj⟩ := modify_sound h (insertVar_children n _ _) hgraph
  have hvi := List.getElem?_eq_getElem hi
  refine ⟨⟨so, inj, ?_, ?_, ?_, ?_⟩, ?_⟩
  · intro x hx
    rw [hvd, List.mem_append, List.mem_singleton] at hx
    rcases hx with hx | rfl
    · have := h.varIds x hx
      omega
    · simp only; omega
  · intro x hx
    rw [hpd] at hx
    have := h.procIds x hx
    omega
  · intro k t hk name x id hx hid
    rw [hget] at hk
    rw [hnext]
    split at hk
    · rw [Option.map_eq_some_iff] at hk
      obtain ⟨t0, ht0, rfl⟩ := hk
      rw [insertVar_get] at hx
      split at hx
      · cases hx
        simp only [Option.some_or, Option.some.injEq] at hid
        omega
      · have := h.varDecl k t0 ht0 name x id hx hid
        omega
    · have := h.varDecl k t hk name x id hx hid
      omega
  · intro k t hk name x id hx hid
    rw [hget] at hk
    rw [hpd]
    split at hk
    · rw [Option.map_eq_some_iff] at hk
      obtain ⟨t0, ht0, rfl⟩ := hk
      rw [insertVar_procs] at hx
      exact h.procDecl k t0 ht0 name x id hx hid
    · exact h.procDecl k t hk name x id hx hid
  · -- older declarations stay
    have hold : ∀ (k : Nat) (t : Nd E C), v.tree.inner.graph[k]? = some t → ∀ m,
        (mget m t.vars).map (fun x => (x.value, x.decl.bind fun id => mget id (v.varDecls ++ [(v.tree.next, ty)]))) =
          (mget m t.vars).map (fun x => (x.value, x.decl.bind fun id => mget id v.varDecls)) := by
      intro k t hk m
      cases hm : mget m t.vars with
      | none => rfl
      | some x =>
        simp only [Option.map_some, Option.some.injEq, Prod.mk.injEq, true_and]
        cases hid : x.decl with
        | none => rfl
        | some id =>
          have := h.varDecl k t hk m x id hm hid
          simp only [Option.bind_some, mget_append, mget]
          rw [if_neg (by omega), Option.or_none]
    simp only [Env.see, World.tell, World.mk.injEq]
    refine ⟨?_, ?_, ?_⟩
    · funext r
      rw [hl]
      by_cases hr : r.isPrefixOf p
      · rw [isType_prefix (q := p) (by rw [hp]; rfl) (List.isPrefixOf_iff_prefix.1 hr)]
        rfl
      · simp [hr]
    · funext r m
      rw [hl, hvd]
      by_cases hr : r = p
      · subst hr
        simp only [hp, Option.bind_some, hget, if_true, hvi, Option.map_some, insertVar_get, true_and]
        by_cases hm : m = n
        · subst hm
          simp only [if_true, Option.map_some, Option.some_or, Option.bind_some, mget_append, mget_lt h.varIds, mget,
            Option.none_or]
        · simp only [hm, if_false]
          exact hold i _ hvi m
      · simp only [hr, false_and, if_false]
        cases hlr : lookup v 0 r with
        | none => rfl
        | some k =>
          have : k ≠ i := fun hx => hr (lookup_inj h _ _ _ (hx ▸ hlr) hp)
          simp only [Option.bind_some, hget, this, if_false]
          cases hk : v.tree.inner.graph[k]? with
          | none => rfl
          | some t => exact hold k t hk m
    · funext r m
      rw [hl, hpd]
      cases hlr : lookup v 0 r with
      | none => rfl
      | some k =>
        simp only [Option.bind_some, hget]
        split
        · cases v.tree.inner.graph[k]? with
          | none => rfl
          | some t => simp only [Option.map_some, Option.bind_some, insertVar_procs]
        · rfl

/-- the declaration that is recorded -/
def newDecl (decl : Option ProcB) (ret : Option Ret) (old : Option Nat) (next : Nat) : List (Nat × ProcDecl) :=
  match decl with
  | none => []
  | some b => if old = none then [(next, ⟨b, ret⟩)] else []

theorem proc_see {v v' : Env E C} (h : v.Wf) {p : List Ident} {i : Nat} {n : Ident} {decl : Option ProcB}
    {ret : Option Ret} {value : ProcVal E C} (hp : lookup v 0 p = some i)
    (hs : v.proc i n decl ret value = some v') :
    v'.Wf ∧ v'.see = v.see.tell (.proc p n decl ret value) := by
  have hi := (lookup_valid h.sound _ _ _ h.sound.1 hp).1
  have hvi := List.getElem?_eq_getElem hi
  unfold Env.proc Builder.registerProc at hs
  rw [hvi] at hs
  simp only [Option.some.injEq] at hs
  generalize htp : (mget n v.tree.inner.graph[i].procs).getD ⟨[], none⟩ = tp at hs
  have hnx : ∀ (b : ProcB), ((if decl.isSome = true ∧ tp.decl = none then v.tree.next + 1 else v.tree.next) = v.tree.next)
      ↔ ¬ (decl.isSome = true ∧ tp.decl = none) := by
    intro b
    split <;> simp_all
  have hw : v' =
      { tree :=
          { inner := v.tree.inner.modify i fun t => { t with
              procs := Objtree.iset n (Objtree.addProcValue tp decl.isSome v.tree.next value) t.procs }
            next := if decl.isSome = true ∧ tp.decl = none then v.tree.next + 1 else v.tree.next }
        varDecls := v.varDecls
        procDecls := v.procDecls ++ newDecl decl ret tp.decl v.tree.next } := by
    rw [← hs]
    congr 1
    cases decl with
    | none => simp [newDecl]
    | some b =>
      simp only [newDecl, hnx b, Option.isSome_some, true_and]
      by_cases hd : tp.decl = none <;> simp [hd]
  clear hs hnx
  have hgraph : v'.tree.inner.graph = v.tree.inner.graph.modify i fun t => { t with
      procs := Objtree.iset n (Objtree.addProcValue tp decl.isSome v.tree.next value) t.procs } := by
    rw [hw]; rfl
  have hvd : v'.varDecls = v.varDecls := by rw [hw]
  have hpd : v'.procDecls = v.procDecls ++ newDecl decl ret tp.decl v.tree.next := by rw [hw]
  have hnext : v'.tree.next = if decl.isSome = true ∧ tp.decl = none then v.tree.next + 1 else v.tree.next := by rw [hw]
  have hle : v.tree.next ≤ v'.tree.next := by rw [hnext]; split <;> omega
  clear hw
  have hget := modify_get hgraph
  obtain ⟨hc, hl⟩ := modify_lookup (f := fun t => { t with
    procs := Objtree.iset n (Objtree.addProcValue tp decl.isSome v.tree.next value) t.procs }) (fun _ => rfl) hgraph
  obtain ⟨so, inj⟩ := modify_sound h (f := fun t => { t with
    procs := Objtree.iset n (Objtree.addProcValue tp decl.isSome v.tree.next value) t.procs }) (fun _ => rfl) hgraph
  have htps : ∀ id, tp.decl = some id → (mget id v.procDecls).isSome := by
    intro id hid
    cases hm : mget n v.tree.inner.graph[i].procs with
    | none => rw [hm] at htp; subst htp; cases hid
    | some x =>
      rw [hm] at htp
      subst htp
      exact h.procDecl i _ hvi n x id hm hid
  have hlt : ∀ id, (mget id v.procDecls).isSome → id < v.tree.next := by
    intro id hid
    obtain ⟨d, hd⟩ := Option.isSome_iff_exists.1 hid
    exact h.procIds _ (Objtree.mget_mem hd)
  have hold : ∀ id, id < v.tree.next → mget id v'.procDecls = mget id v.procDecls := by
    intro id hid
    rw [hpd, mget_append]
    unfold newDecl
    cases decl with
    | none => simp [mget]
    | some b =>
      by_cases hd : tp.decl = none
      · simp only [hd, if_true, mget]
        rw [if_neg (by omega), Option.or_none]
      · simp [hd, mget]
  have hkeep : ∀ id, (mget id v.procDecls).isSome → (mget id v'.procDecls).isSome := by
    intro id hid
    rw [hold id (hlt id hid)]
    exact hid
  refine ⟨⟨so, inj, ?_, ?_, ?_, ?_⟩, ?_⟩
  · intro x hx
    rw [hvd] at hx
    exact Nat.lt_of_lt_of_le (h.varIds x hx) hle
  · intro x hx
    rw [hpd, List.mem_append] at hx
    rcases hx with hx | hx
    · exact Nat.lt_of_lt_of_le (h.procIds x hx) hle
    · unfold newDecl at hx
      cases decl with
      | none => cases hx
      | some b =>
        by_cases hd : tp.decl = none
        · simp only [hd, if_true, List.mem_singleton] at hx
          subst hx
          rw [hnext]
          simp [hd]
        · simp [hd] at hx
  · intro k t hk name x id hx hid
    rw [hget] at hk
    refine Nat.lt_of_lt_of_le ?_ hle
    split at hk
    · rw [Option.map_eq_some_iff] at hk
      obtain ⟨t0, ht0, rfl⟩ := hk
      exact h.varDecl k t0 ht0 name x id hx hid
    · exact h.varDecl k t hk name x id hx hid
  · intro k t hk name x id hx hid
    rw [hget] at hk
    split at hk
    · rw [Option.map_eq_some_iff] at hk
      obtain ⟨t0, ht0, rfl⟩ := hk
      simp only [mget_iset] at hx
      split at hx
      · cases hx
        unfold Objtree.addProcValue at hid
        simp only at hid
        split at hid
        · rename_i h1 h2
          cases hid
          obtain ⟨b, rfl⟩ := Option.isSome_iff_exists.1 h1
          rw [hpd, mget_append, mget_lt h.procIds]
          simp [newDecl, h2, mget]
        · exact hkeep _ (htps id hid)
      · exact hkeep _ (h.procDecl k t0 ht0 name x id hx hid)
    · exact hkeep _ (h.procDecl k t hk name x id hx hid)
  · have hold' : ∀ (k : Nat) (t : Nd E C), v.tree.inner.graph[k]? = some t → ∀ m,
        (mget m t.procs).map (fun x => (x.value, x.decl.bind fun id => mget id v'.procDecls)) =
          (mget m t.procs).map (fun x => (x.value, x.decl.bind fun id => mget id v.procDecls)) := by
      intro k t hk m
      cases hm : mget m t.procs with
      | none => rfl
      | some x =>
        simp only [Option.map_some, Option.some.injEq, Prod.mk.injEq, true_and]
        cases hid : x.decl with
        | none => rfl
        | some id => exact hold id (hlt id (h.procDecl k t hk m x id hm hid))
    simp only [Env.see, World.tell, World.mk.injEq]
    refine ⟨?_, ?_, ?_⟩
    · funext r
      rw [hl]
      by_cases hr : r.isPrefixOf p
      · rw [isType_prefix (q := p) (by rw [hp]; rfl) (List.isPrefixOf_iff_prefix.1 hr)]
        rfl
      · simp [hr]
    · funext r m
      rw [hl, hvd]
      cases hlr : lookup v 0 r with
      | none => rfl
      | some k =>
        simp only [Option.bind_some, hget]
        split
        · cases v.tree.inner.graph[k]? with
          | none => rfl
          | some t => rfl
        · rfl
    · funext r m
      rw [hl]
      by_cases hr : r = p
      · subst hr
        simp only [hp, Option.bind_some, hget, if_true, hvi, Option.map_some, mget_iset, true_and]
        by_cases hm : m = n
        · subst hm
          simp only [if_true, Option.map_some]
          have hOld : (Option.map (fun (x : Objtree.TypeProc (ProcVal E C)) =>
              (x.value, x.decl.bind fun id => mget id v.procDecls))
              (mget m v.tree.inner.graph[i].procs)).getD ([], none)
              = (tp.value, tp.decl.bind fun id => mget id v.procDecls) := by
            rw [← htp]
            cases mget m v.tree.inner.graph[i].procs <;> rfl
          rw [hOld]
          cases decl with
          | none =>
            simp only [Objtree.addProcValue, Option.isSome_none, Bool.false_eq_true, false_and, if_false]
            cases hd : tp.decl with
            | none => rfl
            | some id =>
              simp only [Option.bind_some, hold id (hlt id (htps id hd))]
          | some b =>
            simp only [Objtree.addProcValue, Option.isSome_some, true_and]
            have hval : (if tp.value ≠ [] then value :: tp.value else tp.value ++ [value]) = value :: tp.value := by
              split
              · rfl
              · rename_i hx
                simp only [ne_eq, not_not] at hx
                rw [hx]
                rfl
            rw [hval]
            cases hd : tp.decl with
            | none =>
              simp only [Option.bind_some, Option.bind_none, Option.none_or, hpd, newDecl, hd, if_true, mget_append,
                mget_lt h.procIds, mget]
            | some id =>
              have hx := hold id (hlt id (htps id hd))
              obtain ⟨d, hd'⟩ := Option.isSome_iff_exists.1 (htps id hd)
              simp only [Option.bind_some, hx, hd', Option.some_or]
        · simp only [hm, if_false]
          exact hold' i _ hvi m
      · simp only [hr, false_and, if_false]
        cases hlr : lookup v 0 r with
        | none => rfl
        | some k =>
          have : k ≠ i := fun hx => hr (lookup_inj h _ _ _ (hx ▸ hlr) hp)
          simp only [Option.bind_some, hget, this, if_false]
          cases hk : v.tree.inner.graph[k]? with
          | none => rfl
          | some t => exact hold' k t hk m

end Verif.Decl
