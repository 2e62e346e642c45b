import Verif.Objtree.Shape
import Verif.Objtree.Forest

/-!
# C33: navigating the tree by paths
-/

namespace Verif.Objtree

variable {V P : Type}

/-- the path `a` is the path `b` or lies below it -/
def Under (a b : List Char) : Prop := ∃ rest, a = b ++ rest ∧ (rest = [] ∨ rest.head? = some '/')

/-- the path with the given components -/
def join (pieces : List Ident) : List Char := pieces.flatMap ('/' :: ·)

theorem join_append (a b : List Ident) : join (a ++ b) = join a ++ join b := by simp [join]

theorem join_cons (x : Ident) (b : List Ident) : join (x :: b) = '/' :: x ++ join b := by simp [join]

theorem Under.refl (a : List Char) : Under a a := ⟨[], by simp, .inl rfl⟩

theorem Under.trans {a b c : List Char} (h : Under a b) (h' : Under b c) : Under a c := by
  obtain ⟨r, rfl, hr⟩ := h
  obtain ⟨s, rfl, hs⟩ := h'
  refine ⟨s ++ r, by simp, ?_⟩
  rcases hs with rfl | hs
  · simpa using hr
  · right
    cases s with
    | nil => cases hs
    | cons x s => simpa using hs

/-- a path below `a` is `a` or has its parent directory below `a` -/
theorem Under.dir {a m : List Char} {c : List Char} (hc : '/' ∉ c) (h : Under (m ++ '/' :: c) a) :
    m ++ '/' :: c = a ∨ Under m a := by
  obtain ⟨r, he, hr⟩ := h
  rcases hr with rfl | hr
  · exact .inl (by simpa using he)
  · right
    cases r with
    | nil => cases hr
    | cons x r =>
      simp only [List.head?_cons, Option.some.injEq] at hr
      subst hr
      rcases List.append_eq_append_iff.1 he with ⟨a', h1, h2⟩ | ⟨c', h1, h2⟩
      · cases a' with
        | nil => exact ⟨[], by simp at h1; simp [h1], .inl rfl⟩
        | cons y a' =>
          simp only [List.cons_append, List.cons.injEq] at h2
          rw [h2.2] at hc
          simp at hc
      · cases c' with
        | nil => exact ⟨[], by simp at h1; simp [h1], .inl rfl⟩
        | cons y c' =>
          simp only [List.cons_append, List.cons.injEq] at h2
          exact ⟨y :: c', h1, .inr (by simp [← h2.1])⟩

/-! ## Trees -/

/-- a tree of the right shape -/
def Tree.shape (t : Tree V P) : Prop := Shape (t.graph.map Node.skel) t.types

theorem Tree.shape.up {t : Tree V P} (h : t.shape) {i : Nat} {n : Node V P} (hi : t.graph[i]? = some n) (h0 : i ≠ 0) :
    ∃ p m, t.parentPath i = some p ∧ p < i ∧ t.graph[p]? = some m ∧ n.path = m.path ++ '/' :: n.name ∧ '/' ∉ n.name
      ∧ t.child p n.name = some i ∧ i ∈ (m.children.map Prod.snd) := by
  obtain ⟨p, s, c, h1, h2, h3, h4, h5, h6, h7⟩ := h.node i _ (skel_get hi) h0
  obtain ⟨m, hm, rfl⟩ := get_skel h3
  have hne : n.path ≠ [] := h.path_ne (skel_get hi) h0
  have h5' : n.path = m.path ++ '/' :: c := h5
  have h6' : n.lastSlash = m.path.length := h6
  have hname : n.name = c := by
    unfold Node.name
    rw [if_neg hne, h6', h5']
    simp
  refine ⟨p, m, ?_, h2, hm, by rw [hname]; exact h5', by rw [hname]; exact h4, ?_, ?_⟩
  · unfold Tree.parentPath
    rw [hi]
    simp only [if_neg hne]
    exact h1
  · unfold Tree.child
    rw [hm, hname]
    exact h7
  · exact List.mem_map.2 ⟨_, mget_mem h7, rfl⟩

theorem Tree.shape.top {t : Tree V P} (h : t.shape) : ∃ n, t.graph[0]? = some n ∧ n.path = [] ∧ t.parentPath 0 = none := by
  obtain ⟨r, hr, hr0⟩ := h.root
  obtain ⟨n, hn, rfl⟩ := get_skel hr
  have hr0' : n.path = [] := hr0
  exact ⟨n, hn, hr0', by unfold Tree.parentPath; rw [hn]; simp [hr0']⟩

theorem Tree.shape.uniq {t : Tree V P} (h : t.shape) {i j : Nat} {n m : Node V P} (hi : t.graph[i]? = some n)
    (hj : t.graph[j]? = some m) (hp : n.path = m.path) : i = j := h.unique (skel_get hi) (skel_get hj) hp

theorem parentPath_lt {t : Tree V P} (h : t.shape) {i p : Nat} (hp : t.parentPath i = some p) : p < i := by
  cases hi : t.graph[i]? with
  | none => unfold Tree.parentPath at hp; rw [hi] at hp; cases hp
  | some n =>
    by_cases h0 : i = 0
    · subst h0
      obtain ⟨_, _, _, h1⟩ := h.top
      rw [h1] at hp
      cases hp
    · obtain ⟨p', _, h1, h2, _⟩ := h.up hi h0
      rw [h1] at hp
      cases hp
      exact h2

theorem Tree.shape.chain {t : Tree V P} (h : t.shape) (i : Nat) : ∃ l, Chain t.parentPath i l :=
  chain_of_rank (fun i => i) (fun _ _ hc => parentPath_lt h hc) i

/-- the types on the chain of parent paths are those whose path the type lies below -/
theorem chain_under {t : Tree V P} (h : t.shape) {i : Nat} {n : Node V P} (hi : t.graph[i]? = some n) {l : List Nat}
    (hl : Chain t.parentPath i l) {j : Nat} {m : Node V P} (hj : t.graph[j]? = some m) :
    j ∈ l ↔ Under n.path m.path := by
  induction hl generalizing n with
  | @last i h0 =>
    rw [List.mem_singleton]
    have hi0 : i = 0 := by
      by_contra hne
      obtain ⟨p, _, h1, _⟩ := h.up hi hne
      rw [h0] at h1
      cases h1
    subst hi0
    obtain ⟨r, hr, hr0, _⟩ := h.top
    rw [hi] at hr
    cases hr
    constructor
    · rintro rfl
      rw [hi] at hj
      cases hj
      exact Under.refl _
    · rintro ⟨rest, he, _⟩
      rw [hr0] at he
      have := List.append_eq_nil_iff.1 he.symm
      exact (h.uniq hj hi (by rw [this.1, hr0]))
  | @step i p l h0 hc ih =>
    have hi0 : i ≠ 0 := by
      rintro rfl
      obtain ⟨_, _, _, h1⟩ := h.top
      rw [h0] at h1
      cases h1
    obtain ⟨p', mp, h1, _, h3, h4, h5, _⟩ := h.up hi hi0
    rw [h0] at h1
    cases h1
    rw [List.mem_cons, ih h3]
    constructor
    · rintro (rfl | hu)
      · rw [hi] at hj
        cases hj
        exact Under.refl _
      · exact Under.trans ⟨'/' :: n.name, h4, .inr rfl⟩ hu
    · intro hu
      rw [h4] at hu
      rcases hu.dir h5 with e | e
      · exact .inl (h.uniq hj hi (by rw [← e, h4]))
      · exact .inr e

/-- the path of a type is made of slash-free components -/
theorem Tree.shape.pieces {t : Tree V P} (h : t.shape) {i : Nat} {n : Node V P} (hi : t.graph[i]? = some n) :
    ∃ ps : List Ident, n.path = join ps ∧ ∀ x ∈ ps, '/' ∉ x := by
  induction i using Nat.strongRecOn generalizing n with
  | _ i ih =>
    by_cases h0 : i = 0
    · subst h0
      obtain ⟨r, hr, hr0, _⟩ := h.top
      rw [hi] at hr
      cases hr
      exact ⟨[], hr0, by simp⟩
    · obtain ⟨p, m, _, h2, h3, h4, h5, _⟩ := h.up hi h0
      obtain ⟨ps, e1, e2⟩ := ih p h2 h3
      refine ⟨ps ++ [n.name], ?_, ?_⟩
      · rw [join_append, ← e1, h4]
        simp [join]
      · intro x hx
        rcases List.mem_append.1 hx with hx | hx
        · exact e2 x hx
        · rw [List.mem_singleton] at hx
          rw [hx]
          exact h5

/-- above every type are types for the shorter paths -/
theorem Tree.shape.closed {t : Tree V P} (h : t.shape) {i : Nat} {n : Node V P} (hi : t.graph[i]? = some n)
    {a : List Char} (ha : Under n.path a) : ∃ (j : Nat) (m : Node V P), t.graph[j]? = some m ∧ m.path = a := by
  induction i using Nat.strongRecOn generalizing n with
  | _ i ih =>
    by_cases h0 : i = 0
    · subst h0
      obtain ⟨r, hr, hr0, _⟩ := h.top
      rw [hi] at hr
      cases hr
      obtain ⟨rest, he, _⟩ := ha
      rw [hr0] at he
      exact ⟨0, n, hi, by rw [(List.append_eq_nil_iff.1 he.symm).1, hr0]⟩
    · obtain ⟨p, m, _, h2, h3, h4, h5, _⟩ := h.up hi h0
      rw [h4] at ha
      rcases ha.dir h5 with e | e
      · exact ⟨i, n, hi, by rw [h4, e]⟩
      · exact ih p h2 h3 e

theorem child_shape {t : Tree V P} (h : t.shape) {p : Nat} {m : Node V P} (hp : t.graph[p]? = some m)
    (name : Ident) (hn : '/' ∉ name) (i : Nat) :
    t.child p name = some i ↔ ∃ n, t.graph[i]? = some n ∧ n.path = m.path ++ '/' :: name := by
  unfold Tree.child
  rw [hp]
  simp only
  constructor
  · intro hc
    obtain ⟨s, h1, _, _, h4, _⟩ := h.child p _ name i (skel_get hp) hc
    obtain ⟨n, hn, rfl⟩ := get_skel h1
    exact ⟨n, hn, h4⟩
  · rintro ⟨n, hi, hpath⟩
    have hi0 : i ≠ 0 := by
      rintro rfl
      obtain ⟨r, hr, hr0, _⟩ := h.top
      rw [hi] at hr
      cases hr
      rw [hpath] at hr0
      simp at hr0
    obtain ⟨q, mq, _, _, h3, h4, h5, h6, _⟩ := h.up hi hi0
    rw [hpath] at h4
    obtain ⟨e1, e2⟩ := split_last hn h5 h4
    have := h.uniq hp h3 e1
    subst this
    unfold Tree.child at h6
    rw [hp] at h6
    rw [e2]
    exact h6

/-! ## Lookup by components -/

theorem walk_false {t : Tree V P} (h : t.shape) (pieces : List Ident) (hs : ∀ x ∈ pieces, '/' ∉ x) (cur : Nat)
    (m : Node V P) (hc : t.graph[cur]? = some m) :
    ∃ pre suf k n, pieces = pre ++ suf ∧ t.walkPath false cur pieces = (decide (suf = []), k) ∧ t.graph[k]? = some n
      ∧ n.path = m.path ++ join pre
      ∧ ∀ x rest, suf = x :: rest → ∀ (j : Nat) nj, t.graph[j]? = some nj → nj.path ≠ n.path ++ join [x] := by
  induction pieces generalizing cur m with
  | nil => exact ⟨[], [], cur, m, rfl, rfl, hc, by simp [join], by simp⟩
  | cons x rest ih =>
    unfold Tree.walkPath
    cases hx : t.child cur x with
    | none =>
      refine ⟨[], x :: rest, cur, m, rfl, by simp, hc, by simp [join], ?_⟩
      intro x' rest' he j nj hj hp
      cases he
      have := (child_shape h hc x (hs x (by simp)) j).2 ⟨nj, hj, by rw [hp]; simp [join]⟩
      rw [hx] at this
      cases this
    | some c =>
      obtain ⟨nc, hnc, hpc⟩ := (child_shape h hc x (hs x (by simp)) c).1 hx
      obtain ⟨pre, suf, k, n, e1, e2, e3, e4, e5⟩ := ih (fun y hy => hs y (by simp [hy])) c nc hnc
      refine ⟨x :: pre, suf, k, n, by rw [e1]; rfl, ?_, e3, ?_, e5⟩
      · simpa using e2
      · rw [e4, hpc, join_cons]
        simp

theorem walk_true {t : Tree V P} (x : Ident) (rest : List Ident) (hx : x ≠ "list".toList) (cur : Nat) :
    t.walkPath true cur (x :: rest) = t.walkPath false cur (x :: rest) := by
  unfold Tree.walkPath
  cases t.child cur x with
  | none => rfl
  | some c => simp only [Bool.false_eq_true, and_false, if_false]; rw [if_neg (fun h => hx h.1)]

theorem join_under (a b : List Ident) : Under (join (a ++ b)) (join a) := by
  refine ⟨join b, join_append a b, ?_⟩
  cases b with
  | nil => exact .inl rfl
  | cons x b => exact .inr (by rw [join_cons]; rfl)

/-- **C33**: `type_by_path_approx` finds the type of the longest prefix of the path that is a type, and says
whether that is the whole path. (Paths starting with `list` are special, see `typeByPath_list`.) -/
theorem typeByPathApprox_shape {t : Tree V P} (h : t.shape) (pieces : List Ident) (hs : ∀ x ∈ pieces, '/' ∉ x)
    (hl : pieces.head? ≠ some "list".toList) :
    ∃ pre suf k n, pieces = pre ++ suf ∧ t.typeByPathApprox pieces = (decide (suf = []), k) ∧ t.graph[k]? = some n
      ∧ n.path = join pre
      ∧ ∀ pre', pre' <+: pieces → pre.length < pre'.length →
          ¬ ∃ (j : Nat) (nj : Node V P), t.graph[j]? = some nj ∧ nj.path = join pre' := by
  obtain ⟨r, hr, hr0, _⟩ := h.top
  obtain ⟨pre, suf, k, n, e1, e2, e3, e4, e5⟩ := walk_false h pieces hs 0 r hr
  refine ⟨pre, suf, k, n, e1, ?_, e3, by rw [e4, hr0]; rfl, ?_⟩
  · unfold Tree.typeByPathApprox
    cases pieces with
    | nil =>
      obtain ⟨rfl, rfl⟩ := List.append_eq_nil_iff.1 e1.symm
      exact e2
    | cons x rest =>
      rw [walk_true x rest (by simpa using hl)]
      exact e2
  · rintro pre' hp hlt ⟨j, nj, hj, hpath⟩
    cases suf with
    | nil =>
      have := hp.length_le
      rw [e1] at this
      simp at this
      omega
    | cons x rest =>
      have hpp : pre ++ [x] <+: pre' := by
        apply List.prefix_of_prefix_length_le _ hp
        · simp; omega
        · rw [e1]
          exact ⟨rest, by simp⟩
      obtain ⟨q, hq⟩ := hpp
      obtain ⟨j', m', hj', hm'⟩ := h.closed hj (a := join (pre ++ [x])) (by
        rw [hpath, ← hq]
        exact join_under _ _)
      refine e5 x rest rfl j' m' hj' ?_
      rw [hm', join_append, e4, hr0]
      rfl

theorem typeByPath_shape {t : Tree V P} (h : t.shape) (pieces : List Ident) (hs : ∀ x ∈ pieces, '/' ∉ x)
    (hl : pieces.head? ≠ some "list".toList) (i : Nat) :
    t.typeByPath pieces = some i ↔ ∃ n, t.graph[i]? = some n ∧ n.path = join pieces := by
  obtain ⟨pre, suf, k, n, e1, e2, e3, e4, e5⟩ := typeByPathApprox_shape h pieces hs hl
  unfold Tree.typeByPath
  rw [e2]
  simp only [decide_eq_true_eq]
  by_cases hsuf : suf = []
  · subst hsuf
    rw [if_pos rfl]
    rw [List.append_nil] at e1
    subst e1
    constructor
    · intro e; cases e; exact ⟨n, e3, e4⟩
    · rintro ⟨n', h1, h2⟩
      rw [h.uniq e3 h1 (by rw [e4, h2])]
  · rw [if_neg hsuf]
    constructor
    · intro e; cases e
    · rintro ⟨n', h1, h2⟩
      exfalso
      refine e5 pieces (List.prefix_refl _) ?_ ⟨i, n', h1, h2⟩
      rw [e1, List.length_append]
      have := List.length_pos_iff.2 hsuf
      omega

/-- **C33**: a path that starts with `list` finds `/list`, whatever follows (element types of lists). -/
theorem typeByPath_list {t : Tree V P} (h : t.shape) (rest : List Ident) (i : Nat) {n : Node V P}
    (hi : t.graph[i]? = some n) (hp : n.path = join ["list".toList]) :
    t.typeByPath ("list".toList :: rest) = some i := by
  obtain ⟨r, hr, hr0, _⟩ := h.top
  have hc := (child_shape h hr "list".toList (by decide +kernel) i).2 ⟨n, hi, by rw [hp, hr0]; simp [join]⟩
  unfold Tree.typeByPath Tree.typeByPathApprox Tree.walkPath
  rw [hc]
  simp

/-! ## `ispath` -/

theorem ispath_spec (a b : List Char) (hb : b.getLast? ≠ some '/') : ispath a b = true ↔ Under a b := by
  have htrim : (b.reverse.dropWhile (· = '/')).reverse = b := by
    rcases List.eq_nil_or_concat b with rfl | ⟨b', x, rfl⟩
    · rfl
    · have hx : x ≠ '/' := by
        intro e
        apply hb
        simp [e]
      simp [hx]
  unfold ispath
  simp only [htrim]
  split
  · rename_i hp
    obtain ⟨rest, rfl⟩ := List.isPrefixOf_iff_prefix.1 hp
    rw [List.drop_left]
    constructor
    · intro h
      refine ⟨rest, rfl, ?_⟩
      cases rest with
      | nil => exact .inl rfl
      | cons c r => exact .inr (by simpa using h)
    · rintro ⟨rest', he, hr⟩
      rw [List.append_cancel_left_eq] at he
      subst he
      rcases hr with rfl | hr
      · rfl
      · cases rest with
        | nil => rfl
        | cons c r => simpa using hr
  · rename_i hp
    constructor
    · intro h; cases h
    · rintro ⟨rest, rfl, _⟩
      exfalso
      apply hp
      rw [List.isPrefixOf_iff_prefix]
      exact ⟨rest, rfl⟩

/-! ## Recursive visits -/

/-- the types below a type in the tree of paths -/
def Tree.kids (t : Tree V P) (i : Nat) : List Nat :=
  match t.graph[i]? with
  | none => []
  | some n => n.children.map Prod.snd

theorem mem_kids {t : Tree V P} (h : t.shape) (i c : Nat) : c ∈ t.kids i ↔ t.parentPath c = some i := by
  unfold Tree.kids
  cases hi : t.graph[i]? with
  | none =>
    simp only [List.not_mem_nil, false_iff]
    intro hp
    cases hc : t.graph[c]? with
    | none => unfold Tree.parentPath at hp; rw [hc] at hp; cases hp
    | some n =>
      by_cases h0 : c = 0
      · subst h0
        obtain ⟨_, _, _, h1⟩ := h.top
        rw [h1] at hp; cases hp
      · obtain ⟨p, m, h1, _, h3, _⟩ := h.up hc h0
        rw [h1] at hp
        cases hp
        rw [h3] at hi
        cases hi
  | some m =>
    simp only
    constructor
    · intro hm
      obtain ⟨⟨name, c'⟩, hmem, rfl⟩ := List.mem_map.1 hm
      have hg := mget_of_mem (h.nodup i _ (skel_get hi)) hmem
      obtain ⟨s, h1, h2, h3, h4, _⟩ := h.child i _ name c' (skel_get hi) hg
      obtain ⟨n, hn, rfl⟩ := get_skel h1
      unfold Tree.parentPath
      simp only
      rw [hn]
      simp only
      have hne : n.path ≠ [] := h.path_ne (skel_get hn) h2
      rw [if_neg hne]
      exact h3
    · intro hp
      cases hc : t.graph[c]? with
      | none => unfold Tree.parentPath at hp; rw [hc] at hp; cases hp
      | some n =>
        by_cases h0 : c = 0
        · subst h0
          obtain ⟨_, _, _, h1⟩ := h.top
          rw [h1] at hp; cases hp
        · obtain ⟨p, m', h1, _, h3, _, _, _, h8⟩ := h.up hc h0
          rw [h1] at hp
          cases hp
          rw [h3] at hi
          cases hi
          exact h8

theorem kids_nodup {t : Tree V P} (h : t.shape) (i : Nat) : (t.kids i).Nodup := by
  unfold Tree.kids
  cases hi : t.graph[i]? with
  | none => simp
  | some m =>
    simp only
    have hn := h.nodup i _ (skel_get hi)
    have hn' : (m.children.map Prod.fst).Nodup := hn
    -- two names of one type are the same name
    have hinj : ∀ x ∈ m.children, ∀ y ∈ m.children, x.2 = y.2 → x = y := by
      rintro ⟨a, i1⟩ hx ⟨b, i2⟩ hy e
      simp only at e
      subst e
      obtain ⟨s, h1, _, _, h4, _⟩ := h.child i _ a i1 (skel_get hi) (mget_of_mem hn' hx)
      obtain ⟨s', h1', _, _, h4', _⟩ := h.child i _ b i1 (skel_get hi) (mget_of_mem hn' hy)
      rw [h1] at h1'
      cases h1'
      rw [h4] at h4'
      simp only [List.append_cancel_left_eq, List.cons.injEq, true_and] at h4'
      rw [h4']
    exact (List.Nodup.of_map _ hn').map_on hinj

theorem kid_valid {t : Tree V P} (h : t.shape) {i c : Nat} (hc : c ∈ t.kids i) : ∃ n, t.graph[c]? = some n := by
  have hp := (mem_kids h i c).1 hc
  cases hg : t.graph[c]? with
  | none => unfold Tree.parentPath at hp; rw [hg] at hp; cases hp
  | some n => exact ⟨n, rfl⟩

theorem recurse_eq_visit {t : Tree V P} (h : t.shape) (fuel i : Nat) (hi : ∃ n, t.graph[i]? = some n) :
    t.recurse fuel i = visit t.kids fuel i := by
  induction fuel generalizing i with
  | zero => rfl
  | succ fuel ih =>
    obtain ⟨n, hn⟩ := hi
    unfold Tree.recurse visit
    rw [hn]
    simp only
    have hk : t.kids i = n.children.map Prod.snd := by unfold Tree.kids; rw [hn]
    rw [hk]
    have : ∀ cs : List Nat, (∀ c ∈ cs, ∃ n, t.graph[c]? = some n) →
        cs.mapM (t.recurse fuel) = cs.mapM (visit t.kids fuel) := by
      intro cs
      induction cs with
      | nil => intro _; rfl
      | cons c cs ih2 =>
        intro hc
        rw [List.mapM_cons, List.mapM_cons, ih c (hc c (by simp)), ih2 fun c h => hc c (by simp [h])]
    rw [this _ fun c hc => kid_valid h (by rw [hk]; exact hc)]

/-- a chain of parent paths is no longer than the type's index plus one -/
theorem chain_length {t : Tree V P} (h : t.shape) {i : Nat} {l : List Nat} (hl : Chain t.parentPath i l) :
    l.length ≤ i + 1 := by
  induction hl with
  | last _ => simp
  | step h0 _ ih =>
    have := parentPath_lt h h0
    simp only [List.length_cons]
    omega

theorem chain_length' {t : Tree V P} (h : t.shape) {i : Nat} {l : List Nat} (hl : Chain t.parentPath i l) :
    l.length ≤ t.graph.length + 1 := by
  cases hi : t.graph[i]? with
  | none =>
    have : t.parentPath i = none := by unfold Tree.parentPath; rw [hi]
    cases hl with
    | last _ => simp
    | step h0 _ => rw [this] at h0; cases h0
  | some n =>
    have := (List.getElem?_eq_some_iff.1 hi).1
    have := chain_length h hl
    omega

theorem recurse_shape {t : Tree V P} (h : t.shape) {i : Nat} {n : Node V P} (hi : t.graph[i]? = some n) :
    ∃ vs, (∀ fuel, t.graph.length + 1 ≤ fuel → t.recurse fuel i = some vs) ∧ vs.Nodup ∧ vs.head? = some i
      ∧ ∀ j, j ∈ vs ↔ ∃ m, t.graph[j]? = some m ∧ Under m.path n.path := by
  obtain ⟨l, hl⟩ := h.chain i
  have hne := List.length_pos_iff.2 hl.ne_nil
  obtain ⟨vs, h1, h2, h3, h4⟩ := visit_exact t.kids (mem_kids h) (kids_nodup h) (t.graph.length + 1)
    (fun i l hl => chain_length' h hl) i l hl (t.graph.length + 1) (by omega)
  refine ⟨vs, ?_, h2, h3, ?_⟩
  · intro fuel hf
    rw [recurse_eq_visit h fuel i ⟨n, hi⟩]
    exact visit_mono _ _ _ _ _ h1 hf
  · intro j
    rw [h4]
    constructor
    · rintro ⟨l', hl', him⟩
      cases hj : t.graph[j]? with
      | none =>
        exfalso
        have hpn : t.parentPath j = none := by unfold Tree.parentPath; rw [hj]
        cases hl' with
        | last _ =>
          rw [List.mem_singleton] at him
          subst him
          rw [hj] at hi
          cases hi
        | step h0 _ => rw [hpn] at h0; cases h0
      | some m => exact ⟨m, rfl, (chain_under h hj hl' hi).1 him⟩
    · rintro ⟨m, hj, hu⟩
      obtain ⟨l', hl'⟩ := h.chain j
      exact ⟨l', hl', (chain_under h hj hl' hi).2 hu⟩

/-! ## Navigation -/

theorem navDot_chain {t : Tree V P} {i : Nat} {l : List Nat} (hl : Chain t.parentPath i l) (name : Ident) (fuel : Nat)
    (hf : l.length ≤ fuel) : t.navDot name fuel i = some (l.findSome? fun j => t.child j name) := by
  induction hl generalizing fuel with
  | last h0 =>
    obtain ⟨f, rfl⟩ : ∃ k, fuel = k + 1 := ⟨fuel - 1, by simp at hf; omega⟩
    unfold Tree.navDot
    cases hc : t.child _ name with
    | some c => simp [hc]
    | none => simp [h0, hc]
  | step h0 _ ih =>
    obtain ⟨f, rfl⟩ : ∃ k, fuel = k + 1 := ⟨fuel - 1, by simp at hf; omega⟩
    unfold Tree.navDot
    cases hc : t.child _ name with
    | some c => simp [hc]
    | none => simp only [h0]; rw [ih f (by simp at hf; omega)]; simp [hc]

theorem firstFound_visit {t : Tree V P} (name : Ident) (fuel : Nat)
    (ih : ∀ i vs, visit t.kids fuel i = some vs → t.navColon name fuel i = some (vs.findSome? fun j => t.child j name))
    (cs : List Nat) (ls : List (List Nat)) (h : cs.mapM (visit t.kids fuel) = some ls) :
    firstFound (t.navColon name fuel) cs = some (ls.flatten.findSome? fun j => t.child j name) := by
  induction cs generalizing ls with
  | nil =>
    rw [List.mapM_nil] at h
    cases h
    rfl
  | cons c cs ihc =>
    rw [List.mapM_cons] at h
    simp only [Option.bind_eq_bind, Option.bind_eq_some_iff, Option.pure_def, Option.some.injEq] at h
    obtain ⟨a, ha, b, hb, rfl⟩ := h
    unfold firstFound
    rw [ih c a ha, List.flatten_cons, List.findSome?_append]
    cases List.findSome? (fun j => t.child j name) a with
    | some r => rfl
    | none => simp only [Option.none_or]; exact ihc b hb

theorem navColon_visit {t : Tree V P} (name : Ident) (fuel i : Nat) (vs : List Nat)
    (h : visit t.kids fuel i = some vs) :
    t.navColon name fuel i = some (vs.findSome? fun j => t.child j name) := by
  induction fuel generalizing i vs with
  | zero => cases h
  | succ fuel ih =>
    unfold visit at h
    obtain ⟨ls, hls, rfl⟩ := Option.map_eq_some_iff.1 h
    unfold Tree.navColon
    rw [List.findSome?_cons]
    cases hc : t.child i name with
    | some c => rfl
    | none =>
      simp only
      cases hi : t.graph[i]? with
      | none =>
        have hk : t.kids i = [] := by unfold Tree.kids; rw [hi]
        rw [hk, List.mapM_nil] at hls
        cases hls
        rfl
      | some n =>
        have hk : t.kids i = n.children.map Prod.snd := by unfold Tree.kids; rw [hi]
        rw [hk] at hls
        exact firstFound_visit name fuel ih _ ls hls

end Verif.Objtree
