import Verif.Objtree.Assign
import Mathlib.Data.List.Perm.Subperm

/-!
# C34, C35: inheritance
-/

namespace Verif.Objtree

variable {V P : Type} {b : Builder V P} {eval : List Char → TypeVar V → ParentVal} {t : Tree V P}

/-! ## Parent types -/

theorem Finished.typesEq (h : Finished b eval t) : t.types = b.inner.types := by
  obtain ⟨hb, rfl⟩ := h
  exact (assign_fold b.inner eval b.inner.types (types_snd_nodup hb.shape) b.inner).2.2.2.1

theorem Finished.parent' (h : Finished b eval t) {i : Nat} {n : Node V P} (hi : t.graph[i]? = some n) (h0 : i ≠ 0) :
    t.parentOf i = some (t.parentIndex eval n.path n) := by
  obtain ⟨m, hm, rfl⟩ := h.node_inv hi
  rw [if_neg h0, h.parent hm h0]
  unfold Tree.parentIndex
  rw [h.typesEq]
  rfl

theorem Finished.procs (h : Finished b eval t) {i : Nat} {n : Node V P} (hi : t.graph[i]? = some n) {name : Ident}
    {tp : TypeProc P} (ht : mget name n.procs = some tp) : tp.value ≠ [] := by
  obtain ⟨m, hm, rfl⟩ := h.node_inv hi
  refine h.1.fresh.procs i m hm name tp ?_
  split at ht <;> exact ht

theorem find_getD (s : List Char) : (mget s t.types).getD 0 = (t.find s).getD 0 ∨ s = [] := by
  unfold Tree.find
  by_cases hs : s = []
  · exact .inr hs
  · left; rw [if_neg hs]

theorem mget_nil {t : Tree V P} (h : t.shape) : mget [] t.types = none := by
  cases hm : mget [] t.types with
  | none => rfl
  | some j =>
    obtain ⟨h0, n, h1, h2⟩ := (h.types [] j).1 hm
    exact absurd h2 (h.path_ne h1 h0)

theorem find_getD' {t : Tree V P} (h : t.shape) (s : List Char) : (mget s t.types).getD 0 = (t.find s).getD 0 := by
  rcases find_getD (t := t) s with e | e
  · exact e
  · subst e
    rw [mget_nil h]
    rfl

/-- types whose parent is fixed -/
def fixedParent : List (List Char) :=
  ["/atom".toList, "/turf".toList, "/area".toList, "/obj".toList, "/mob".toList]

theorem parentDir_eq {m c : List Char} (hc : '/' ∉ c) : parentDir (m ++ '/' :: c) = m := by
  unfold parentDir
  have : (m ++ '/' :: c).reverse = c.reverse ++ '/' :: m.reverse := by simp
  rw [this, List.dropWhile_append_of_pos (by intro x hx; simp; rintro rfl; exact hc (by simpa using hx))]
  simp

theorem special_count : ∀ s ∈ rootless ++ fixedParent ++ ["/client".toList], s.count '/' = 1 := by decide +kernel

theorem nested_not_special {m c : List Char} (hm : '/' ∈ m) :
    (m ++ '/' :: c) ∉ rootless ++ fixedParent ++ ["/client".toList] := by
  intro h
  have := special_count _ h
  rw [List.count_append, List.count_cons_self] at this
  have := List.count_pos_iff.2 hm
  omega

/-- a type's own statement of its parent, if it has a usable one -/
def Tree.override (eval : List Char → TypeVar V → ParentVal) (n : Node V P) : Option (List Char) :=
  match (mget "parent_type".toList n.vars).map (eval n.path) with
  | some (.path s) => some s
  | _ => none

theorem parentName_some {path : List Char} (h : path ∉ fixedParent) (s : List Char) :
    parentName path (some (.path s)) = s := by
  simp only [fixedParent, List.mem_cons, List.not_mem_nil, or_false, not_or] at h
  unfold parentName
  rw [if_neg h.1, if_neg (by rintro (e | e); exacts [h.2.1 e, h.2.2.1 e]),
    if_neg (by rintro (e | e); exacts [h.2.2.2.1 e, h.2.2.2.2 e])]

theorem parentName_none {n : Node V P} (h : n.path ∉ fixedParent) (ho : Tree.override eval n = none) :
    parentName n.path ((mget "parent_type".toList n.vars).map (eval n.path))
      = if parentDir n.path = [] then (if n.path = "/client".toList then [] else "/datum".toList) else parentDir n.path := by
  simp only [fixedParent, List.mem_cons, List.not_mem_nil, or_false, not_or] at h
  unfold parentName
  rw [if_neg h.1, if_neg (by rintro (e | e); exacts [h.2.1 e, h.2.2.1 e]),
    if_neg (by rintro (e | e); exacts [h.2.2.2.1 e, h.2.2.2.2 e])]
  unfold Tree.override at ho
  cases hm : (mget "parent_type".toList n.vars).map (eval n.path) with
  | none => rfl
  | some v =>
    cases v with
    | path s => rw [hm] at ho; cases ho
    | bad => rfl

theorem Finished.slash (h : t.shape) {i : Nat} {n : Node V P} (hi : t.graph[i]? = some n) (h0 : i ≠ 0) : '/' ∈ n.path := by
  obtain ⟨_, m, _, _, _, h4, _⟩ := h.up hi h0
  rw [h4]
  simp

/-- **C35**: a type inside another that does not set `parent_type` inherits from the type it is inside. -/
theorem parent_nested (h : Finished b eval t) {i p : Nat} {n : Node V P} (hi : t.graph[i]? = some n)
    (hp : t.parentPath i = some p) (hp0 : p ≠ 0) (ho : Tree.override eval n = none) : t.parentOf i = some p := by
  have hs := h.shape
  have h0 : i ≠ 0 := by
    rintro rfl
    obtain ⟨_, _, _, h1⟩ := hs.top
    rw [h1] at hp; cases hp
  obtain ⟨p', m, h1, _, h3, h4, h5, _⟩ := hs.up hi h0
  rw [h1] at hp
  cases hp
  have hsl := Finished.slash hs h3 hp0
  have hns := nested_not_special (c := n.name) hsl
  rw [← h4] at hns
  simp only [List.mem_append, not_or, List.mem_singleton] at hns
  rw [h.parent' hi h0]
  unfold Tree.parentIndex
  have hdir : parentDir n.path = m.path := by rw [h4]; exact parentDir_eq h5
  have hmne : m.path ≠ [] := fun e => by rw [e] at hsl; cases hsl
  have hget : mget m.path t.types = some p := (hs.types m.path p).2 ⟨hp0, m.skel, skel_get h3, rfl⟩
  simp only [if_neg hns.1.1, parentName_none hns.1.2 ho, hdir, if_neg hmne, if_neg (fun e : n.path = "/client".toList ∧ m.path = [] => hmne e.2), hget]
  rfl

/-- **C35**: a type at the top that does not set `parent_type` and is not special inherits from `/datum` (from
the root if there is none). -/
theorem parent_top (h : Finished b eval t) {i : Nat} {n : Node V P} (hi : t.graph[i]? = some n)
    (hp : t.parentPath i = some 0) (hsp : n.path ∉ rootless ++ fixedParent ++ ["/client".toList])
    (ho : Tree.override eval n = none) : t.parentOf i = some ((t.find "/datum".toList).getD 0) := by
  have hs := h.shape
  have h0 : i ≠ 0 := by
    rintro rfl
    obtain ⟨_, _, _, h1⟩ := hs.top
    rw [h1] at hp; cases hp
  obtain ⟨p', m, h1, _, h3, h4, h5, _⟩ := hs.up hi h0
  rw [h1] at hp
  cases hp
  obtain ⟨r, hr, hr0, _⟩ := hs.top
  rw [hr] at h3
  cases h3
  simp only [List.mem_append, not_or, List.mem_singleton] at hsp
  rw [h.parent' hi h0]
  unfold Tree.parentIndex
  have hdir : parentDir n.path = [] := by rw [h4, hr0]; exact parentDir_eq h5
  simp only [if_neg hsp.1.1, parentName_none hsp.1.2 ho]
  rw [if_neg (fun e => hsp.2 e.1), if_pos hdir, if_neg hsp.2, find_getD' hs]

/-- **C35**: a type that may set `parent_type` and does inherits from the type of that path (from the root if
there is none). -/
theorem parent_override (h : Finished b eval t) {i : Nat} {n : Node V P} (hi : t.graph[i]? = some n) (h0 : i ≠ 0)
    (hsp : n.path ∉ rootless ++ fixedParent) {s : List Char} (ho : Tree.override eval n = some s) :
    t.parentOf i = some ((t.find s).getD 0) := by
  have hs := h.shape
  simp only [List.mem_append, not_or] at hsp
  rw [h.parent' hi h0]
  unfold Tree.override at ho
  split at ho
  · rename_i s' e
    cases ho
    unfold Tree.parentIndex
    rw [if_neg hsp.1]
    simp only [e, parentName_some hsp.2]
    split
    · rename_i hc
      rw [hc.2]
      rfl
    · rw [find_getD' hs]
  · cases ho

/-- **C35**: `/datum`, `/list` and the other types without parent inherit from the root only, whatever they
set. -/
theorem parent_rootless (h : Finished b eval t) {i : Nat} {n : Node V P} (hi : t.graph[i]? = some n)
    (hsp : n.path ∈ rootless) : t.parentOf i = some 0 := by
  have h0 : i ≠ 0 := by
    rintro rfl
    obtain ⟨r, hr, hr0, _⟩ := h.shape.top
    rw [hi] at hr
    cases hr
    rw [hr0] at hsp
    revert hsp
    decide +kernel
  rw [h.parent' hi h0]
  unfold Tree.parentIndex
  rw [if_pos hsp]

/-- **C35**: the built-in types: `/atom` inherits from `/datum`, `/turf` and `/area` from `/atom`, `/obj` and
`/mob` from `/atom/movable`, and `/client`, if it does not say otherwise, from the root. -/
theorem parent_builtin (h : Finished b eval t) {i : Nat} {n : Node V P} (hi : t.graph[i]? = some n) :
    (n.path = "/atom".toList → t.parentOf i = some ((t.find "/datum".toList).getD 0))
    ∧ (n.path = "/turf".toList ∨ n.path = "/area".toList → t.parentOf i = some ((t.find "/atom".toList).getD 0))
    ∧ (n.path = "/obj".toList ∨ n.path = "/mob".toList → t.parentOf i = some ((t.find "/atom/movable".toList).getD 0))
    ∧ (n.path = "/client".toList → Tree.override eval n = none → t.parentOf i = some 0) := by
  have hs := h.shape
  have hne : n.path ≠ [] → i ≠ 0 := by
    rintro hp rfl
    obtain ⟨r, hr, hr0, _⟩ := hs.top
    rw [hi] at hr
    cases hr
    exact hp hr0
  have key : ∀ s : List Char, s ∉ rootless → s ≠ "/client".toList → s ≠ [] → n.path = s → ∀ d,
      (∀ pv, parentName s pv = d) → t.parentOf i = some ((t.find d).getD 0) := by
    intro s h1 h2 h3 hp d hd
    rw [h.parent' hi (hne (by rw [hp]; exact h3))]
    unfold Tree.parentIndex
    rw [hp, if_neg h1, if_neg (fun e => h2 e.1), hd, find_getD' hs]
  refine ⟨?_, ?_, ?_, ?_⟩
  · intro hp
    refine key _ (by decide +kernel) (by decide +kernel) (by decide +kernel) hp _ ?_
    intro pv; unfold parentName; rw [if_pos rfl]
  · rintro (hp | hp)
    · refine key _ (by decide +kernel) (by decide +kernel) (by decide +kernel) hp _ ?_
      intro pv; unfold parentName; rw [if_neg (by decide +kernel), if_pos (.inl rfl)]
    · refine key _ (by decide +kernel) (by decide +kernel) (by decide +kernel) hp _ ?_
      intro pv; unfold parentName; rw [if_neg (by decide +kernel), if_pos (.inr rfl)]
  · rintro (hp | hp)
    · refine key _ (by decide +kernel) (by decide +kernel) (by decide +kernel) hp _ ?_
      intro pv; unfold parentName; rw [if_neg (by decide +kernel), if_neg (by decide +kernel), if_pos (.inl rfl)]
    · refine key _ (by decide +kernel) (by decide +kernel) (by decide +kernel) hp _ ?_
      intro pv; unfold parentName; rw [if_neg (by decide +kernel), if_neg (by decide +kernel), if_pos (.inr rfl)]
  · intro hp ho
    have h0 := hne (by rw [hp]; decide +kernel)
    rw [h.parent' hi h0]
    unfold Tree.parentIndex
    rw [if_neg (by rw [hp]; decide +kernel)]
    simp only [parentName_none (by rw [hp]; decide +kernel) ho]
    rw [if_pos ⟨hp, by rw [if_pos (by rw [hp]; decide +kernel), if_pos hp]⟩]

/-! ## Chains of ancestors -/

/-- the depth of a path in the tree of types when no type sets `parent_type` -/
def topRank (s : List Char) : Nat :=
  if ('/' :: s) ∈ rootless then 1
  else if s = "turf".toList ∨ s = "area".toList then 3
  else if s = "obj".toList ∨ s = "mob".toList then 4
  else 2

def pathRank (path : List Char) : Nat :=
  match path with
  | [] => 0
  | _ :: s => topRank (s.takeWhile (· ≠ '/')) + s.count '/'

theorem topRank_pos (s : List Char) : 1 ≤ topRank s := by
  unfold topRank
  split
  · omega
  · split
    · omega
    · split <;> omega

theorem pathRank_nested {m c : List Char} {x : Char} (hc : '/' ∉ c) : pathRank (x :: m ++ '/' :: c) = pathRank (x :: m) + 1 := by
  simp only [pathRank, List.cons_append]
  rw [List.count_append, List.count_cons_self, List.count_eq_zero_of_not_mem hc]
  have : (m ++ '/' :: c).takeWhile (· ≠ '/') = m.takeWhile (· ≠ '/') := by
    rw [List.takeWhile_append]
    split
    · rename_i he
      have := (List.takeWhile_prefix (fun x => decide (x ≠ '/')) (l := m)).eq_of_length he
      rw [this]
      simp
    · rfl
  rw [this]
  omega

theorem pathRank_top {c : List Char} (hc : '/' ∉ c) : pathRank ('/' :: c) = topRank c := by
  simp only [pathRank]
  have : c.takeWhile (· ≠ '/') = c := by
    have := List.takeWhile_append_of_pos (p := fun x => decide (x ≠ '/')) (l₁ := c) (l₂ := []) (by
      intro x hx
      simp
      rintro rfl
      exact hc hx)
    simpa using this
  rw [List.count_eq_zero_of_not_mem hc, this]
  omega

theorem rank_find (h : t.shape) {d : List Char} {j : Nat} {m : Node V P}
    (hj : t.graph[(t.find d).getD 0]? = some m) (he : j = (t.find d).getD 0) : m.path = d ∨ m.path = [] := by
  cases hf : t.find d with
  | none =>
    rw [hf] at hj
    obtain ⟨r, hr, hr0, _⟩ := h.top
    simp only [Option.getD_none] at hj
    rw [hr] at hj
    cases hj
    exact .inr hr0
  | some k =>
    rw [hf] at hj
    simp only [Option.getD_some] at hj
    obtain ⟨n, hn, hp⟩ := (find_shape h d k).1 hf
    rw [hn] at hj
    cases hj
    exact .inl hp

/-- **C35**: when no type sets `parent_type` except to `/datum`, there are no cycles: every type has a finite
chain of ancestors ending at the root. -/
theorem acyclic (h : Finished b eval t)
    (ho : ∀ (i : Nat) n s, t.graph[i]? = some n → Tree.override eval n = some s → s = "/datum".toList) (i : Nat) :
    ∃ l, Chain t.parentOf i l := by
  have hs := h.shape
  apply chain_of_rank (fun i => match t.graph[i]? with | none => 0 | some n => pathRank n.path)
  intro c p hcp
  cases hc : t.graph[c]? with
  | none => unfold Tree.parentOf at hcp; rw [hc] at hcp; cases hcp
  | some n =>
    have h0 : c ≠ 0 := by
      rintro rfl
      rw [h.root] at hcp; cases hcp
    have hplt : p < t.graph.length := by
      unfold Tree.parentOf at hcp
      rw [hc] at hcp
      simp only at hcp
      split at hcp
      · cases hcp
      · split at hcp
        · cases hcp; assumption
        · cases hcp
    have hp := List.getElem?_eq_getElem hplt
    obtain ⟨m, hm⟩ : ∃ m, t.graph[p]? = some m := ⟨_, hp⟩
    rw [hm]
    simp only
    obtain ⟨q, mq, q1, _, q3, q4, q5, _⟩ := hs.up hc h0
    have hne : n.path ≠ [] := hs.path_ne (skel_get hc) h0
    have hpos : 1 ≤ pathRank n.path := by
      cases hn : n.path with
      | nil => exact absurd hn hne
      | cons x s =>
        simp only [pathRank]
        have := topRank_pos (s.takeWhile (· ≠ '/'))
        omega
    have hroot : m.path = [] → pathRank m.path < pathRank n.path := by
      intro e
      rw [e]
      show 0 < pathRank n.path
      omega
    -- a parent found by path
    have hfind : ∀ d, t.parentOf c = some ((t.find d).getD 0) → pathRank d < pathRank n.path →
        pathRank m.path < pathRank n.path := by
      intro d hd hlt
      rw [hcp] at hd
      cases hd
      rcases rank_find hs hm rfl with e | e
      · rw [e]; exact hlt
      · exact hroot e
    by_cases hroots : n.path ∈ rootless
    · rw [parent_rootless h hc hroots] at hcp
      cases hcp
      obtain ⟨r, hr, hr0, _⟩ := hs.top
      rw [hm] at hr
      cases hr
      exact hroot hr0
    · by_cases hfix : n.path ∈ fixedParent
      · obtain ⟨b1, b2, b3, _⟩ := parent_builtin h hc
        simp only [fixedParent, List.mem_cons, List.not_mem_nil, or_false] at hfix
        rcases hfix with e | e | e | e | e
        · exact hfind _ (b1 e) (by rw [e]; decide +kernel)
        · exact hfind _ (b2 (.inl e)) (by rw [e]; decide +kernel)
        · exact hfind _ (b2 (.inr e)) (by rw [e]; decide +kernel)
        · exact hfind _ (b3 (.inl e)) (by rw [e]; decide +kernel)
        · exact hfind _ (b3 (.inr e)) (by rw [e]; decide +kernel)
      · -- ranks of other types are at least two
        have h2 : 2 ≤ pathRank n.path := by
          by_cases hq0 : q = 0
          · subst hq0
            obtain ⟨r, hr, hr0, _⟩ := hs.top
            rw [q3] at hr
            cases hr
            rw [hr0] at q4
            simp only [List.nil_append] at q4
            rw [q4, pathRank_top q5]
            unfold topRank
            rw [← q4, if_neg hroots]
            split
            · omega
            · split <;> omega
          · have hmne : mq.path ≠ [] := hs.path_ne (skel_get q3) hq0
            cases hmq : mq.path with
            | nil => exact absurd hmq hmne
            | cons x s =>
              rw [q4, hmq, pathRank_nested q5]
              simp only [pathRank]
              have := topRank_pos (s.takeWhile (· ≠ '/'))
              omega
        have hdatum : pathRank "/datum".toList < pathRank n.path := by
          have : pathRank "/datum".toList = 1 := by decide +kernel
          omega
        cases hov : Tree.override eval n with
        | some s =>
          have := ho c n s hc hov
          subst this
          exact hfind _ (parent_override h hc h0 (by simp [hroots, hfix]) hov) hdatum
        | none =>
          by_cases hq0 : q = 0
          · subst hq0
            by_cases hcl : n.path = "/client".toList
            · rw [(parent_builtin h hc).2.2.2 hcl hov] at hcp
              cases hcp
              obtain ⟨r, hr, hr0, _⟩ := hs.top
              rw [hm] at hr
              cases hr
              exact hroot hr0
            · refine hfind _ (parent_top h hc q1 ?_ hov) hdatum
              simp only [List.mem_append, not_or, List.mem_singleton]
              exact ⟨⟨hroots, hfix⟩, hcl⟩
          · rw [parent_nested h hc q1 hq0 hov] at hcp
            cases hcp
            rw [hm] at q3
            cases q3
            have hmne : m.path ≠ [] := hs.path_ne (skel_get hm) hq0
            cases hmq : m.path with
            | nil => exact absurd hmq hmne
            | cons x s =>
              rw [q4, hmq, pathRank_nested q5]
              omega

/-! ## Walking up -/

theorem climb_chain {R : Type} {t : Tree V P} (f : Nat → Node V P → Option R) {i : Nat} {l : List Nat}
    (hl : Chain t.parentOf i l) (fuel : Nat) (hf : l.length ≤ fuel) :
    t.climb f fuel i = some (l.findSome? fun j => (t.graph[j]?).bind (f j)) := by
  induction hl generalizing fuel with
  | @last i h0 =>
    obtain ⟨k, rfl⟩ : ∃ k, fuel = k + 1 := ⟨fuel - 1, by simp at hf; omega⟩
    unfold Tree.climb
    cases hi : t.graph[i]? with
    | none => simp [hi]
    | some n =>
      simp only
      cases hr : f i n with
      | some r => simp [hi, hr]
      | none => simp [h0, hi, hr]
  | @step i p l h0 hc ih =>
    obtain ⟨k, rfl⟩ : ∃ k, fuel = k + 1 := ⟨fuel - 1, by simp at hf; omega⟩
    unfold Tree.climb
    cases hi : t.graph[i]? with
    | none => unfold Tree.parentOf at h0; rw [hi] at h0; cases h0
    | some n =>
      simp only
      cases hr : f i n with
      | some r => simp [hi, hr]
      | none =>
        simp only [h0]
        rw [ih k (by simp at hf; omega)]
        simp [hi, hr]

/-- the nearest type on the chain `l` for which `f` gives a result, and that result -/
def Nearest {R : Type} (l : List Nat) (f : Nat → Option R) (r : Option R) : Prop :=
  (∀ v, r = some v ↔ ∃ pre j post, l = pre ++ j :: post ∧ f j = some v ∧ ∀ k ∈ pre, f k = none)
  ∧ (r = none ↔ ∀ k ∈ l, f k = none)

theorem nearest_findSome {R : Type} (l : List Nat) (f : Nat → Option R) : Nearest l f (l.findSome? f) := by
  constructor
  · intro v
    rw [List.findSome?_eq_some_iff]
  · rw [List.findSome?_eq_none_iff]

/-- the value of a variable set on the type itself -/
def Tree.ownValue (t : Tree V P) (name : Ident) (j : Nat) : Option V :=
  (t.graph[j]?).bind fun n => (mget name n.vars).map TypeVar.value

/-- the declaration of a variable on the type itself -/
def Tree.ownVarDecl (t : Tree V P) (name : Ident) (j : Nat) : Option Nat :=
  (t.graph[j]?).bind fun n => (mget name n.vars).bind TypeVar.decl

/-- the declaration of a proc on the type itself -/
def Tree.ownProcDecl (t : Tree V P) (name : Ident) (j : Nat) : Option Nat :=
  (t.graph[j]?).bind fun n => (mget name n.procs).bind TypeProc.decl

/-- the values of a proc on the type itself, first to last -/
def Tree.ownProc (t : Tree V P) (name : Ident) (j : Nat) : Option (List P) :=
  (t.graph[j]?).bind fun n => (mget name n.procs).map TypeProc.value

/-- **C34**: the value of a variable is that of the nearest ancestor that sets it. -/
theorem getValue_nearest {t : Tree V P} {i : Nat} {l : List Nat} (hl : Chain t.parentOf i l) (name : Ident) :
    ∃ r, (∀ fuel, l.length ≤ fuel → t.getValue name fuel i = some r) ∧ Nearest l (t.ownValue name) r :=
  ⟨_, fun fuel hf => climb_chain _ hl fuel hf, nearest_findSome _ _⟩

/-- **C34**: the declaration of a variable is the one on the nearest ancestor that declares it. -/
theorem getVarDeclaration_nearest {t : Tree V P} {i : Nat} {l : List Nat} (hl : Chain t.parentOf i l) (name : Ident) :
    ∃ r, (∀ fuel, l.length ≤ fuel → t.getVarDeclaration name fuel i = some r) ∧ Nearest l (t.ownVarDecl name) r :=
  ⟨_, fun fuel hf => climb_chain _ hl fuel hf, nearest_findSome _ _⟩

/-- **C34**: the same for procs. -/
theorem getProcDeclaration_nearest {t : Tree V P} {i : Nat} {l : List Nat} (hl : Chain t.parentOf i l) (name : Ident) :
    ∃ r, (∀ fuel, l.length ≤ fuel → t.getProcDeclaration name fuel i = some r) ∧ Nearest l (t.ownProcDecl name) r :=
  ⟨_, fun fuel hf => climb_chain _ hl fuel hf, nearest_findSome _ _⟩

/-- **C34**: the proc found is the last value on the nearest ancestor that has the proc. -/
theorem getProc_nearest {t : Tree V P} {i : Nat} {l : List Nat} (hl : Chain t.parentOf i l) (name : Ident) :
    ∃ r, (∀ fuel, l.length ≤ fuel → t.getProc name fuel i = some r)
      ∧ Nearest l (fun j => (t.ownProc name j).map fun vs => (⟨j, vs, vs.length - 1⟩ : ProcRef P)) r := by
  refine ⟨_, fun fuel hf => climb_chain _ hl fuel hf, ?_⟩
  have : (fun j => (t.graph[j]?).bind (fun n => (mget name n.procs).map fun tp => (⟨j, tp.value, tp.value.length - 1⟩ : ProcRef P)))
      = (fun j => (t.ownProc name j).map fun vs => (⟨j, vs, vs.length - 1⟩ : ProcRef P)) := by
    funext j
    unfold Tree.ownProc
    cases t.graph[j]? with
    | none => rfl
    | some n =>
      cases hm : mget name n.procs with
      | none => simp [hm]
      | some tp => simp [hm]
  rw [this]
  exact nearest_findSome _ _

/-- **C35**: a type is a subtype of the types on its chain of ancestors and of no others. -/
theorem isSubtypeOf_exact {t : Tree V P} {i j : Nat} {l : List Nat} (hl : Chain t.parentOf i l)
    {m : Node V P} (hj : t.graph[j]? = some m) (fuel : Nat) (hf : l.length ≤ fuel) :
    t.isSubtypeOf fuel i j = some (decide (j ∈ l)) := by
  unfold Tree.isSubtypeOf
  rw [climb_chain _ hl fuel hf, Option.map_some]
  congr 1
  rw [Bool.eq_iff_iff, decide_eq_true_eq, List.findSome?_isSome_iff]
  constructor
  · rintro ⟨x, hx, h⟩
    cases hg : t.graph[x]? with
    | none => rw [hg] at h; cases h
    | some n =>
      rw [hg] at h
      simp only [Option.bind_some] at h
      split at h
      · rename_i e; rw [← e]; exact hx
      · cases h
  · intro h
    refine ⟨j, h, ?_⟩
    rw [hj]
    simp

/-- **C35**: iterating over the parent types lists the chain of ancestors, nearest first. -/
theorem iterParents_exact {t : Tree V P} {i : Nat} {l : List Nat} (hl : Chain t.parentOf i l) (fuel : Nat)
    (hf : l.length ≤ fuel) : t.iterParents fuel i = some l := by
  induction hl generalizing fuel with
  | last h0 =>
    obtain ⟨k, rfl⟩ : ∃ k, fuel = k + 1 := ⟨fuel - 1, by simp at hf; omega⟩
    unfold Tree.iterParents
    rw [h0]
  | step h0 _ ih =>
    obtain ⟨k, rfl⟩ : ∃ k, fuel = k + 1 := ⟨fuel - 1, by simp at hf; omega⟩
    unfold Tree.iterParents
    rw [h0]
    simp only
    rw [ih k (by simp at hf; omega)]
    rfl

/-- the members of a chain are types -/
theorem chain_valid {t : Tree V P} {i : Nat} {n : Node V P} (hi : t.graph[i]? = some n) {l : List Nat}
    (hl : Chain t.parentOf i l) : ∀ j ∈ l, j < t.graph.length := by
  induction hl generalizing n with
  | last _ =>
    intro j hj
    rw [List.mem_singleton] at hj
    subst hj
    exact (List.getElem?_eq_some_iff.1 hi).1
  | @step i p l h0 _ ih =>
    intro j hj
    rcases List.mem_cons.1 hj with rfl | hj
    · exact (List.getElem?_eq_some_iff.1 hi).1
    · have : ∃ m, t.graph[p]? = some m := by
        unfold Tree.parentOf at h0
        rw [hi] at h0
        simp only at h0
        split at h0
        · cases h0
        · split at h0
          · rename_i hlt
            cases h0
            exact ⟨_, List.getElem?_eq_getElem hlt⟩
          · cases h0
      obtain ⟨m, hm⟩ := this
      exact ih hm j hj

theorem chain_len {t : Tree V P} {i : Nat} {l : List Nat} (hl : Chain t.parentOf i l) : l.length ≤ t.graph.length + 1 := by
  cases hi : t.graph[i]? with
  | none =>
    cases hl with
    | last _ => simp
    | step h0 _ => unfold Tree.parentOf at h0; rw [hi] at h0; cases h0
  | some n =>
    have hv := chain_valid hi hl
    have hsub : l ⊆ List.range t.graph.length := fun j hj => List.mem_range.2 (hv j hj)
    have := (hl.nodup.subperm hsub).length_le
    simp at this
    omega

/-! ## Cycles -/

/-- **C35** (disagreement): on a cycle of parent types nothing that is not found on the way ever comes back. -/
theorem climb_cycle {R : Type} {t : Tree V P} (f : Nat → Node V P → Option R) {S : Nat → Prop}
    (hS : ∀ i, S i → ∃ n p, t.graph[i]? = some n ∧ f i n = none ∧ t.parentOf i = some p ∧ S p) {i : Nat} (hi : S i)
    (fuel : Nat) : t.climb f fuel i = none := by
  induction fuel generalizing i with
  | zero => rfl
  | succ k ih =>
    obtain ⟨n, p, h1, h2, h3, h4⟩ := hS i hi
    unfold Tree.climb
    rw [h1]
    simp only [h2, h3]
    exact ih h4

/-! ## Visiting subtypes -/

theorem recurseTypes_eq (t : Tree V P) (fuel i : Nat) : t.recurseTypes fuel i = visit t.subtypes fuel i := by
  induction fuel generalizing i with
  | zero => rfl
  | succ k ih =>
    unfold Tree.recurseTypes visit
    congr 2
    funext c
    exact ih c

theorem Finished.parentType (h : Finished b eval t) {i : Nat} {n : Node V P} (hi : t.graph[i]? = some n) :
    n.parentType = t.parentOf i := by
  by_cases h0 : i = 0
  · subst h0
    obtain ⟨m, hm, rfl⟩ := h.node_inv hi
    rw [h.root]
    exact h.1.fresh.noParent 0 _ hm
  · obtain ⟨m, hm, rfl⟩ := h.node_inv hi
    rw [h.parent hm h0, if_neg h0]
    rfl

theorem mem_subtypes (h : Finished b eval t) (i c : Nat) : c ∈ t.subtypes i ↔ t.parentOf c = some i := by
  have hs := h.shape
  have hany : ∀ c, ((t.graph[c]?).any fun m => m.parentType = some i) = true ↔ t.parentOf c = some i := by
    intro c
    cases hc : t.graph[c]? with
    | none => simp only [Option.any_none, Bool.false_eq_true, false_iff]; unfold Tree.parentOf; rw [hc]; simp
    | some m => simp only [Option.any_some, decide_eq_true_eq]; rw [h.parentType hc]
  have hival : t.parentOf c = some i → ∃ n, t.graph[i]? = some n := by
    intro hp
    unfold Tree.parentOf at hp
    split at hp
    · cases hp
    · split at hp
      · cases hp
      · split at hp
        · rename_i hlt
          cases hp
          exact ⟨_, List.getElem?_eq_getElem hlt⟩
        · cases hp
  unfold Tree.subtypes
  cases hi : t.graph[i]? with
  | none =>
    simp only [List.not_mem_nil, false_iff]
    intro hp
    obtain ⟨n, hn⟩ := hival hp
    rw [hi] at hn
    cases hn
  | some n =>
    have hk : n.children.map Prod.snd = t.kids i := by unfold Tree.kids; rw [hi]
    simp only [List.mem_append, List.mem_filter, hany, hk]
    constructor
    · rintro (⟨_, h2⟩ | ⟨_, h2⟩) <;> exact h2
    · intro hp
      by_cases hpp : t.parentPath c = some i
      · exact .inl ⟨(mem_kids hs i c).2 hpp, hp⟩
      · right
        refine ⟨(h.redirected.2 c).2 ?_, hp⟩
        have hc0 : c ≠ 0 := by
          rintro rfl
          rw [h.root] at hp; cases hp
        cases hc : t.graph[c]? with
        | none => unfold Tree.parentOf at hp; rw [hc] at hp; cases hp
        | some m =>
          obtain ⟨m', hm', he⟩ := h.node_inv hc
          refine ⟨m', hc0, hm', ?_⟩
          intro e
          apply hpp
          unfold Tree.parentPath
          rw [hc]
          simp only
          rw [if_neg (show m.path ≠ [] from hs.path_ne (skel_get hc) hc0)]
          rw [he, if_neg hc0]
          exact e.trans hp

theorem subtypes_nodup (h : Finished b eval t) (i : Nat) : (t.subtypes i).Nodup := by
  have hs := h.shape
  unfold Tree.subtypes
  cases hi : t.graph[i]? with
  | none => simp
  | some n =>
    have hk : n.children.map Prod.snd = t.kids i := by unfold Tree.kids; rw [hi]
    simp only [hk]
    rw [List.nodup_append]
    refine ⟨(kids_nodup hs i).filter _, h.redirected.1.filter _, ?_⟩
    intro x hx y hy e
    subst e
    obtain ⟨hx1, hx2⟩ := List.mem_filter.1 hx
    obtain ⟨hy1, _⟩ := List.mem_filter.1 hy
    have hpp := (mem_kids hs i x).1 hx1
    obtain ⟨m, h0, hm, hne⟩ := (h.redirected.2 x).1 hy1
    have ht := h.node hm
    rw [if_neg h0] at ht
    apply hne
    unfold Tree.parentPath at hpp
    rw [ht] at hpp hx2
    simp only [Option.any_some, decide_eq_true_eq] at hx2
    simp only at hpp
    split at hpp
    · cases hpp
    · rw [← h.parentType ht, hx2]
      exact hpp

/-- **C35**: visiting a type and all its subtypes visits exactly the types that have it on their chain of
ancestors, each once. -/
theorem recurseTypes_exact (h : Finished b eval t) {i : Nat} {l : List Nat} (hl : Chain t.parentOf i l) :
    ∃ vs, (∀ fuel, t.graph.length + 1 ≤ fuel → t.recurseTypes fuel i = some vs) ∧ vs.Nodup ∧ vs.head? = some i
      ∧ ∀ j, j ∈ vs ↔ ∃ l', Chain t.parentOf j l' ∧ i ∈ l' := by
  have hne := List.length_pos_iff.2 hl.ne_nil
  obtain ⟨vs, h1, h2, h3, h4⟩ := visit_exact t.subtypes (mem_subtypes h) (subtypes_nodup h) (t.graph.length + 1)
    (fun i l hl => chain_len hl) i l hl (t.graph.length + 1) (by omega)
  refine ⟨vs, ?_, h2, h3, h4⟩
  intro fuel hf
  rw [recurseTypes_eq]
  exact visit_mono _ _ _ _ _ h1 hf

/-! ## Calls to the parent proc -/

/-- the procs reached from one by repeated `..()` -/
inductive Supers (t : Tree V P) (name : Ident) : Option (ProcRef P) → List (ProcRef P) → Prop
  | done : Supers t name none []
  | next {r : ProcRef P} {o : Option (ProcRef P)} {rs : List (ProcRef P)} {k : Nat} :
      (∀ fuel, k ≤ fuel → t.parentProc name fuel r = some o) → Supers t name o rs → Supers t name (some r) (r :: rs)

/-- the values of a proc on a type, last first -/
def Tree.callOrder (t : Tree V P) (name : Ident) (j : Nat) : List (ProcRef P) :=
  match t.ownProc name j with
  | none => []
  | some vs => (List.range vs.length).reverse.map fun k => ⟨j, vs, k⟩

/-- **C34**: starting from the proc of a type and following `..()` calls every value of that proc on the chain
of ancestors exactly once: on each type the last one first, then on to the next ancestor. -/
theorem supers_exact {t : Tree V P} (hne : ∀ (i : Nat) n name tp, t.graph[i]? = some n → mget name n.procs = some tp →
      tp.value ≠ []) {i : Nat} {l : List Nat} (hl : Chain t.parentOf i l) (name : Ident) :
    ∃ r, (∀ fuel, l.length ≤ fuel → t.getProc name fuel i = some r) ∧ Supers t name r (l.flatMap (t.callOrder name)) := by
  -- all values of one type, then what follows
  have hone : ∀ (j : Nat) (vs : List P) (o : Option (ProcRef P)) (rs : List (ProcRef P)) (k0 : Nat),
      (∀ fuel, k0 ≤ fuel → (match t.parentOf j with | none => some none | some p => t.getProc name fuel p) = some o) →
      Supers t name o rs → ∀ k, Supers t name (some ⟨j, vs, k⟩)
        (((List.range (k + 1)).reverse.map fun k => (⟨j, vs, k⟩ : ProcRef P)) ++ rs) := by
    intro j vs o rs k0 ho hrs k
    induction k with
    | zero =>
      refine .next (k := k0) (o := o) ?_ hrs
      intro fuel hf
      unfold Tree.parentProc
      simp only [ne_eq, not_true_eq_false, if_false]
      exact ho fuel hf
    | succ k ih =>
      rw [List.range_succ, List.reverse_append]
      refine .next (k := 0) ?_ ih
      intro fuel _
      unfold Tree.parentProc
      simp
  have hfun : ∀ j, (t.graph[j]?).bind (fun n => (mget name n.procs).map fun tp => (⟨j, tp.value, tp.value.length - 1⟩ : ProcRef P))
      = (t.ownProc name j).map fun vs => (⟨j, vs, vs.length - 1⟩ : ProcRef P) := by
    intro j
    unfold Tree.ownProc
    cases t.graph[j]? with
    | none => rfl
    | some n => cases hm : mget name n.procs <;> simp [hm]
  have hpos : ∀ j vs, t.ownProc name j = some vs → vs.length = vs.length - 1 + 1 := by
    intro j vs hv
    unfold Tree.ownProc at hv
    cases hg : t.graph[j]? with
    | none => rw [hg] at hv; cases hv
    | some n =>
      rw [hg] at hv
      obtain ⟨tp, h1, rfl⟩ := Option.map_eq_some_iff.1 hv
      have := List.length_pos_iff.2 (hne j n name tp hg h1)
      omega
  induction hl with
  | @last i h0 =>
    refine ⟨_, fun fuel hf => climb_chain _ (.last h0) fuel hf, ?_⟩
    simp only [List.findSome?_cons, List.findSome?_nil, List.flatMap_cons, List.flatMap_nil, hfun]
    unfold Tree.callOrder
    cases hv : t.ownProc name i with
    | none => exact .done
    | some vs =>
      simp only [Option.map_some]
      have := hone i vs none [] 0 (by intro fuel _; rw [h0]) .done (vs.length - 1)
      rw [← hpos i vs hv] at this
      exact this
  | @step i p l h0 hc ih =>
    obtain ⟨r, h1, h2⟩ := ih
    refine ⟨_, fun fuel hf => climb_chain _ (.step h0 hc) fuel hf, ?_⟩
    simp only [List.findSome?_cons, List.flatMap_cons, hfun]
    unfold Tree.callOrder
    cases hv : t.ownProc name i with
    | none =>
      have : some r = some _ := (h1 l.length (Nat.le_refl _)).symm.trans (climb_chain _ hc l.length (Nat.le_refl _))
      rw [Option.some.inj this] at h2
      simp only [hfun] at h2
      exact h2
    | some vs =>
      simp only [Option.map_some]
      have := hone i vs r _ l.length (by intro fuel hf; rw [h0]; exact h1 fuel hf) h2 (vs.length - 1)
      rw [← hpos i vs hv] at this
      exact this

end Verif.Objtree
