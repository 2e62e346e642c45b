import Verif.Objtree.Ids

/-!
# C33–C35, C50: the object tree, final forms and concrete cases
-/

namespace Verif.Objtree

section
variable {V P : Type} {b : Builder V P} {eval : List Char → TypeVar V → ParentVal} {t : Tree V P}

/-- **C33**: in a finished tree too, looking up a path finds the type with exactly that path. -/
theorem find_finished (h : Finished b eval t) (path : List Char) (i : Nat) :
    t.find path = some i ↔ ∃ n, t.graph[i]? = some n ∧ n.path = path :=
  find_shape h.shape path i

/-- finishing changes no path, parent path, variable, proc, child or symbol id -/
theorem finished_keeps (h : Finished b eval t) {i : Nat} {n : Node V P} (hi : b.inner.graph[i]? = some n) :
    ∃ n', t.graph[i]? = some n' ∧ n'.path = n.path ∧ n'.parentPath = n.parentPath ∧ n'.vars = n.vars
      ∧ n'.procs = n.procs ∧ n'.children = n.children ∧ n'.id = n.id := by
  refine ⟨_, h.node hi, ?_⟩
  split <;> exact ⟨rfl, rfl, rfl, rfl, rfl, rfl⟩

/-- **C33**: looking up by components finds the type whose path has those components (for a path that does
not start with `list`). -/
theorem typeByPath_exact (h : Finished b eval t) (pieces : List Ident) (hs : ∀ x ∈ pieces, '/' ∉ x)
    (hl : pieces.head? ≠ some "list".toList) (i : Nat) :
    t.typeByPath pieces = some i ↔ ∃ n, t.graph[i]? = some n ∧ n.path = join pieces :=
  typeByPath_shape h.shape pieces hs hl i

/-- **C33**: the approximate lookup finds the type of the longest prefix that is a type. -/
theorem typeByPathApprox_exact (h : Finished b eval t) (pieces : List Ident) (hs : ∀ x ∈ pieces, '/' ∉ x)
    (hl : pieces.head? ≠ some "list".toList) :
    ∃ pre suf k n, pieces = pre ++ suf ∧ t.typeByPathApprox pieces = (decide (suf = []), k) ∧ t.graph[k]? = some n
      ∧ n.path = join pre
      ∧ ∀ pre', pre' <+: pieces → pre.length < pre'.length →
          ¬ ∃ (j : Nat) (nj : Node V P), t.graph[j]? = some nj ∧ nj.path = join pre' :=
  typeByPathApprox_shape h.shape pieces hs hl

/-- **C33**: `ispath` of two types, the second not ending in a slash, holds iff the first is reached from the
second by going down the tree of paths. -/
theorem ispath_types (h : Finished b eval t) {i j : Nat} {n m : Node V P} (hi : t.graph[i]? = some n)
    (hj : t.graph[j]? = some m) (hm : m.path.getLast? ≠ some '/') :
    ispath n.path m.path = true ↔ ∃ l, Chain t.parentPath i l ∧ j ∈ l := by
  rw [ispath_spec _ _ hm]
  obtain ⟨l, hl⟩ := h.shape.chain i
  rw [← chain_under h.shape hi hl hj]
  constructor
  · intro h; exact ⟨l, hl, h⟩
  · rintro ⟨l', hl', h⟩; rw [hl.unique hl']; exact h

/-- **C33**: visiting a type and everything inside it visits exactly the types whose path is at or below its
path, each once, itself first. -/
theorem recurse_exact (h : Finished b eval t) {i : Nat} {n : Node V P} (hi : t.graph[i]? = some n) :
    ∃ vs, (∀ fuel, t.graph.length + 1 ≤ fuel → t.recurse fuel i = some vs) ∧ vs.Nodup ∧ vs.head? = some i
      ∧ ∀ j, j ∈ vs ↔ ∃ m, t.graph[j]? = some m ∧ Under m.path n.path :=
  recurse_shape h.shape hi

/-- **C33**: navigating with `.` finds the named child of the nearest type up the path that has one. -/
theorem navDot_exact (h : Finished b eval t) (i : Nat) (name : Ident) :
    ∃ l r, Chain t.parentPath i l ∧ (∀ fuel, l.length ≤ fuel → t.navDot name fuel i = some r)
      ∧ Nearest l (fun j => t.child j name) r := by
  obtain ⟨l, hl⟩ := h.shape.chain i
  exact ⟨l, _, hl, fun fuel hf => navDot_chain hl name fuel hf, nearest_findSome _ _⟩

/-- **C33**: navigating with `:` finds a type of that name inside the type, at any depth, iff there is one. -/
theorem navColon_exact (h : Finished b eval t) {i : Nat} {n : Node V P} (hi : t.graph[i]? = some n) (name : Ident)
    (hname : '/' ∉ name) :
    ∃ r, (∀ fuel, t.graph.length + 1 ≤ fuel → t.navColon name fuel i = some r)
      ∧ (∀ c, r = some c → ∃ (m : Node V P) (p : List Char), t.graph[c]? = some m ∧ m.path = p ++ '/' :: name ∧ Under p n.path)
      ∧ (r = none → ¬ ∃ (c : Nat) (m : Node V P) (p : List Char), t.graph[c]? = some m ∧ m.path = p ++ '/' :: name ∧ Under p n.path) := by
  obtain ⟨vs, h1, _, _, h4⟩ := recurse_exact h hi
  refine ⟨vs.findSome? fun j => t.child j name, ?_, ?_, ?_⟩
  · intro fuel hf
    apply navColon_visit
    rw [← recurse_eq_visit h.shape fuel i ⟨n, hi⟩]
    exact h1 fuel hf
  · intro c hc
    obtain ⟨j, hj, hjc⟩ := List.exists_of_findSome?_eq_some hc
    obtain ⟨mj, hmj, hu⟩ := (h4 j).1 hj
    obtain ⟨m, hm, hp⟩ := (child_shape h.shape hmj name hname c).1 hjc
    exact ⟨m, mj.path, hm, hp, hu⟩
  · rintro hnone ⟨c, m, p, hm, hp, hu⟩
    have hc0 : c ≠ 0 := by
      rintro rfl
      obtain ⟨r, hr, hr0, _⟩ := h.shape.top
      rw [hm] at hr
      cases hr
      rw [hp] at hr0
      simp at hr0
    obtain ⟨q, mq, _, _, q3, q4, q5, _⟩ := h.shape.up hm hc0
    rw [hp] at q4
    obtain ⟨e1, e2⟩ := split_last hname q5 q4
    have hq : q ∈ vs := (h4 q).2 ⟨mq, q3, e1 ▸ hu⟩
    have := List.findSome?_eq_none_iff.1 hnone q hq
    rw [(child_shape h.shape q3 name hname c).2 ⟨m, hm, by rw [hp, e1]⟩] at this
    cases this

/-- **C34**: following `..()` in a finished tree. -/
theorem supers_finished (h : Finished b eval t) {i : Nat} {l : List Nat} (hl : Chain t.parentOf i l) (name : Ident) :
    ∃ r, (∀ fuel, l.length ≤ fuel → t.getProc name fuel i = some r) ∧ Supers t name r (l.flatMap (t.callOrder name)) :=
  supers_exact (fun _ _ _ _ hi ht => h.procs hi ht) hl name

/-- **C35**: every chain of ancestors of a type ends at the root. -/
theorem chain_root (h : Finished b eval t) {i : Nat} {n : Node V P} (hi : t.graph[i]? = some n) {l : List Nat}
    (hl : Chain t.parentOf i l) : l.getLast? = some 0 := by
  induction hl generalizing n with
  | @last i h0 =>
    by_cases hz : i = 0
    · simp [hz]
    · rw [h.parent' hi hz] at h0
      cases h0
  | @step i p l h0 hc ih =>
    obtain ⟨m, hm⟩ : ∃ m, t.graph[p]? = some m := by
      have := chain_valid hi (.step h0 hc) p (List.mem_cons_of_mem _ hc.self)
      exact ⟨_, List.getElem?_eq_getElem this⟩
    rw [List.getLast?_cons, ih hm]
    rfl

end

/-! ## Concrete cases -/

namespace Demo

/-- values are strings, and a `parent_type` is the path it says -/
def demoEval (_ : List Char) (v : TypeVar (List Char)) : ParentVal := .path v.value

def ops : List (Op (List Char) Nat) :=
  [.subtype 0 "datum".toList,              -- 1
    .subtype 0 "atom".toList,              -- 2
    .subtype 2 "movable".toList,           -- 3
    .subtype 0 "obj".toList,               -- 4
    .subtype 4 "item".toList,              -- 5
    .subtype 5 "sword".toList,             -- 6
    .subtype 0 "odd".toList,               -- 7
    .overrideVar 7 "parent_type".toList "/obj/item".toList,
    .declareVar 2 "name".toList "atom".toList,
    .overrideVar 5 "name".toList "item".toList,
    .registerProc 5 "hit".toList false 100,
    .registerProc 5 "hit".toList true 200,
    .registerProc 6 "hit".toList false 300,
    .registerProc 6 "hit".toList false 400]

def builder : Builder (List Char) Nat := (Builder.init.run ops).getD Builder.init

theorem ops_ok : ∀ o ∈ ops, o.OK := by
  intro o ho
  simp only [ops, List.mem_cons, List.not_mem_nil, or_false] at ho
  rcases ho with rfl | rfl | rfl | rfl | rfl | rfl | rfl | rfl | rfl | rfl | rfl | rfl | rfl | rfl <;>
    first | trivial | (show '/' ∉ _; decide +kernel)

theorem ops_run : (Builder.init.run ops).isSome = true := by decide +kernel

theorem built : Built builder := by
  refine ⟨ops, ops_ok, ?_⟩
  unfold builder
  cases h : (Builder.init.run ops : Option (Builder (List Char) Nat)) with
  | none => have := ops_run; rw [h] at this; cases this
  | some b => rfl

def tree : Tree (List Char) Nat := builder.inner.assignParents demoEval

theorem finished : Finished builder demoEval tree := ⟨built, rfl⟩

-- the chain of `/obj/item/sword` goes through `/atom/movable`, `/atom` and `/datum`
example : tree.iterParents 10 6 = some [6, 5, 4, 3, 2, 1, 0] := by decide +kernel
example : tree.iterParents 10 7 = some [7, 5, 4, 3, 2, 1, 0] := by decide +kernel
example : tree.getValue "name".toList 10 6 = some (some "item".toList) := by decide +kernel
example : tree.getProc "hit".toList 10 6 = some (some ⟨6, [300, 400], 1⟩) := by decide +kernel
example : tree.parentProc "hit".toList 10 ⟨6, [300, 400], 0⟩ = some (some ⟨5, [200, 100], 1⟩) := by decide +kernel
example : tree.recurseTypes 10 4 = some [4, 5, 6, 7] := by decide +kernel
example : tree.recurse 10 4 = some [4, 5, 6] := by decide +kernel
example : tree.typeByPathApprox ["obj".toList, "item".toList, "axe".toList] = (false, 5) := by decide +kernel
example : tree.navDot "movable".toList 10 2 = some (some 3) := by decide +kernel
example : tree.navColon "sword".toList 10 4 = some (some 6) := by decide +kernel
example : tree.isSubtypeOf 10 7 3 = some true := by decide +kernel
example : tree.redirected = [2, 4, 7] := by decide +kernel

/-- two types that name each other as parent -/
def cycOps : List (Op (List Char) Nat) :=
  [.subtype 0 "a".toList, .subtype 0 "b".toList,
    .overrideVar 1 "parent_type".toList "/b".toList,
    .overrideVar 2 "parent_type".toList "/a".toList]

def cycBuilder : Builder (List Char) Nat := (Builder.init.run cycOps).getD Builder.init

def cycTree : Tree (List Char) Nat := cycBuilder.inner.assignParents demoEval

theorem cycBuilt : Built cycBuilder := by
  refine ⟨cycOps, ?_, ?_⟩
  · intro o ho
    simp only [cycOps, List.mem_cons, List.not_mem_nil, or_false] at ho
    rcases ho with rfl | rfl | rfl | rfl <;> first | trivial | (show '/' ∉ _; decide +kernel)
  · unfold cycBuilder
    cases h : (Builder.init.run cycOps : Option (Builder (List Char) Nat)) with
    | none =>
      have : (Builder.init.run cycOps : Option (Builder (List Char) Nat)).isSome = true := by decide +kernel
      rw [h] at this; cases this
    | some b => rfl

/-- **C34/C35** (disagreement): two types that name each other as `parent_type` are accepted, and looking up a
variable neither sets never ends. -/
theorem cycle_hangs : Finished cycBuilder demoEval cycTree
    ∧ ∀ fuel, cycTree.getValue "name".toList fuel 1 = none := by
  refine ⟨⟨cycBuilt, rfl⟩, fun fuel => ?_⟩
  have hg1 : (cycTree.graph[1]?).map (fun n => (mget "name".toList n.vars).map TypeVar.value) = some none := by decide +kernel
  have hg2 : (cycTree.graph[2]?).map (fun n => (mget "name".toList n.vars).map TypeVar.value) = some none := by decide +kernel
  refine climb_cycle _ (S := fun i => i = 1 ∨ i = 2) ?_ (.inl rfl) fuel
  rintro i (rfl | rfl)
  · obtain ⟨n, hn, he⟩ := Option.map_eq_some_iff.1 hg1
    exact ⟨n, 2, hn, he, by decide +kernel, .inr rfl⟩
  · obtain ⟨n, hn, he⟩ := Option.map_eq_some_iff.1 hg2
    exact ⟨n, 1, hn, he, by decide +kernel, .inl rfl⟩

end Demo

end Verif.Objtree
