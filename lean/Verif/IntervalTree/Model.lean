import Mathlib.Data.Prod.Lex
import Mathlib.Order.Basic

/-!
# Model of `crates/interval-tree`

`Option<Box<Node<K,V>>>` is modelled as the inductive type `Tree K V` (`nil` is `None`).
A function returning `Option (Tree K V)` in this file returns `none` exactly where the Rust code would
panic (`unreachable!()`, `expect("Avl broken")`, `expect("Interval broken")`).
-/

namespace Verif.IntervalTree

/-- `RangeInclusive<Idx>` (range.rs:1-11).  `#[derive(PartialOrd, Ord)]` on a struct with fields
`start, end` is the lexicographic order, i.e. the order of `K ×ₗ K`. -/
abbrev Range (K : Type) := K ×ₗ K

/-- field `start` of `RangeInclusive` (range.rs:8) -/
def Range.lo {K : Type} (r : Range K) : K := (ofLex r).1
/-- field `end` of `RangeInclusive` (range.rs:10) -/
def Range.hi {K : Type} (r : Range K) : K := (ofLex r).2
/-- `range(start, end)` (range.rs:14-16) -/
def mkRange {K : Type} (a b : K) : Range K := toLex (a, b)

/-- `Option<Box<Node<K,V>>>` (node.rs:5-12).  `height: u32` is an unbounded `Nat` here; theorem
`interval_tree_no_panic` bounds it logarithmically. -/
inductive Tree (K V : Type) where
  | nil : Tree K V
  | node (left : Tree K V) (key : Range K) (data : List V) (height : Nat) (max : K)
      (right : Tree K V) : Tree K V

variable {K V : Type}

namespace Tree

/-- `height(node)` (node.rs:227-229) -/
def ht : Tree K V → Nat
  | nil => 0
  | node _ _ _ h _ _ => h

/-- `Node::new` (node.rs:15-24) -/
def single (key : Range K) (v : V) : Tree K V := node nil key [v] 1 key.hi nil

variable [LinearOrder K]

/-- one of the `if succ.max > self.max` tests of `update_height` (node.rs:37-46) -/
def bumpMax (m : K) : Tree K V → K
  | nil => m
  | node _ _ _ _ m' _ => if m < m' then m' else m

/-- `update_height` (node.rs:34-47) applied to the node with these children/key/data; the old cached
values are overwritten so they are not arguments. -/
def mk (l : Tree K V) (k : Range K) (d : List V) (r : Tree K V) : Tree K V :=
  node l k d (Nat.max l.ht r.ht + 1) (bumpMax (bumpMax k.hi l) r) r

/-- `rotate_right` (node.rs:64-71) of the node with children `l`, `r` -/
def rotateRight (l : Tree K V) (k : Range K) (d : List V) (r : Tree K V) : Option (Tree K V) :=
  match l with
  | nil => none
  | node ll lk ld _ _ lr => some (mk ll lk ld (mk lr k d r))

/-- `rotate_left` (node.rs:74-81) -/
def rotateLeft (l : Tree K V) (k : Range K) (d : List V) (r : Tree K V) : Option (Tree K V) :=
  match r with
  | nil => none
  | node rl rk rd _ _ rr => some (mk (mk l k d rl) rk rd rr)

/-- `rotate_left_successor` (node.rs:84-94) -/
def rotateLeftSuccessor (l : Tree K V) (k : Range K) (d : List V) (r : Tree K V) :
    Option (Tree K V) :=
  match l with
  | nil => none
  | node ll lk ld _ _ lr =>
    if ll.ht < lr.ht then
      match rotateLeft ll lk ld lr with
      | none => none
      | some l' => rotateRight l' k d r
    else rotateRight l k d r

/-- `rotate_right_successor` (node.rs:97-107) -/
def rotateRightSuccessor (l : Tree K V) (k : Range K) (d : List V) (r : Tree K V) :
    Option (Tree K V) :=
  match r with
  | nil => none
  | node rl rk rd _ _ rr =>
    if rr.ht < rl.ht then
      match rotateRight rl rk rd rr with
      | none => none
      | some r' => rotateLeft l k d r'
    else rotateLeft l k d r

/-- `updated_node` (node.rs:120-123) = `update_height` then `rotate_if_necessary` (node.rs:110-117,
with `diff_of_successors_height` node.rs:26-30).  The `_ => unreachable!()` arm is `none`. -/
def updatedNode (l : Tree K V) (k : Range K) (d : List V) (r : Tree K V) : Option (Tree K V) :=
  let diff : Int := (l.ht : Int) - (r.ht : Int)
  if diff = 2 then rotateLeftSuccessor l k d r
  else if -1 ≤ diff ∧ diff ≤ 1 then some (mk l k d r)
  else if diff = -2 then rotateRightSuccessor l k d r
  else none

/-- `Node::insert` together with `insert_in_successor` (node.rs:200-224) and
`IntervalTree::insert` (tree.rs:75-80): all three create `Node::new` for `None`. -/
def insert (key : Range K) (v : V) : Tree K V → Option (Tree K V)
  | nil => some (single key v)
  | node l k d h m r =>
    match compare k key with
    | .eq => some (node l k (d ++ [v]) h m r)
    | .lt => (insert key v r).bind fun r' => updatedNode l k d r'
    | .gt => (insert key v l).bind fun l' => updatedNode l' k d r

/-- `drop_min`/`drop_min_from_left` (node.rs:136-149): remaining tree and the key/data of the minimal
node (its cached values are overwritten by the only caller). -/
def dropMin : Tree K V → Option (Tree K V × Range K × List V)
  | nil => none
  | node nil k d _ _ r => some (r, k, d)
  | node (node ll lk ld lh lm lr) k d _ _ r =>
    (dropMin (node ll lk ld lh lm lr)).bind fun (l', mk', md) =>
      (updatedNode l' k d r).map fun t => (t, mk', md)

/-- `combine_two_subtrees` (node.rs:152-158) -/
def combine (l r : Tree K V) : Option (Tree K V) :=
  (dropMin r).bind fun (r', k, d) => updatedNode l k d r'

/-- `delete_root` (node.rs:126-133) -/
def deleteRoot (l r : Tree K V) : Option (Tree K V) :=
  match l, r with
  | nil, nil => some nil
  | l, nil => some l
  | nil, r => some r
  | l, r => combine l r

/-- `Node::delete` (node.rs:164-181) and `IntervalTree::remove` (tree.rs:96-100). -/
def delete (key : Range K) : Tree K V → Option (Tree K V)
  | nil => some nil
  | node l k d h m r =>
    match compare k key with
    | .eq => deleteRoot l r
    | .lt =>
      match r with
      | nil => some (node l k d h m r)
      | r => (delete key r).bind fun r' => updatedNode l k d r'
    | .gt =>
      match l with
      | nil => some (node l k d h m r)
      | l => (delete key l).bind fun l' => updatedNode l' k d r

/-- `search_pair`/`search` (node.rs:184-195), `IntervalTree::get` (tree.rs:114-119) -/
def get (key : Range K) : Tree K V → Option (List V)
  | nil => none
  | node l k d _ _ r =>
    match compare k key with
    | .eq => some d
    | .lt => get key r
    | .gt => get key l

/-- `get_or` (tree.rs:133-135) -/
def getOr (key : Range K) (dflt : List V) (t : Tree K V) : List V := (get key t).getD dflt

/-- `contains` (tree.rs:148-150) -/
def contains (key : Range K) (t : Tree K V) : Bool := (get key t).isSome

omit [LinearOrder K] in
/-- `is_empty` (tree.rs:40-42) -/
def isEmpty : Tree K V → Bool
  | nil => true
  | node .. => false

/-- `min_pair` (node.rs:50-54), `min` (tree.rs:165-167) -/
def min : Tree K V → Option (Range K × List V)
  | nil => none
  | node nil k d _ _ _ => some (k, d)
  | node (node ll lk ld lh lm lr) _ _ _ _ _ => min (node ll lk ld lh lm lr)

/-- `max_pair` (node.rs:57-61), `max` (tree.rs:182-184) -/
def max : Tree K V → Option (Range K × List V)
  | nil => none
  | node _ k d _ _ nil => some (k, d)
  | node _ _ _ _ _ (node rl rk rd rh rm rr) => max (node rl rk rd rh rm rr)

end Tree

/-! ## The borrowing iterator (iterators.rs:6-119) -/

/-- `std::collections::Bound` -/
inductive Bound (K : Type) where
  | included (k : K)
  | excluded (k : K)
  | unbounded

/-- `enum Visiting` (iterators.rs:7-12) -/
inductive Visiting where
  | left
  | center
  | middle (i : Nat)
  | right

/-- `RangePairIter` (iterators.rs:16-20).  The top of the `Vec` stack is the head of the list.  Stack entries hold
`&Node`, here a `Tree`; entries with `nil` are never pushed. -/
structure RangeIter (K V : Type) where
  lo : Bound K
  hi : Bound K
  stack : List (Tree K V × Visiting)

variable [LinearOrder K]

/-- `left_subtree_relevant` (iterators.rs:35-40) -/
def leftRelevant (b : Bound K) (max : K) : Bool :=
  match b with
  | .included s => decide (s ≤ max)
  | .excluded s => decide (s < max)
  | .unbounded => true

/-- `right_subtree_relevant` (iterators.rs:49-54) -/
def rightRelevant (b : Bound K) (start : K) : Bool :=
  match b with
  | .included e => decide (start ≤ e)
  | .excluded e => decide (start < e)
  | .unbounded => true

/-- `intersect` (iterators.rs:109-119) -/
def intersect (s e : Bound K) (r : Range K) : Bool :=
  (match s with
   | .included s => decide (s ≤ r.hi)
   | .excluded s => decide (s < r.hi)
   | .unbounded => true) &&
  (match e with
   | .included e => decide (r.lo ≤ e)
   | .excluded e => decide (r.lo < e)
   | .unbounded => true)

namespace RangeIter

/-- `RangePairIter::new` (iterators.rs:23-29) -/
def new (t : Tree K V) (lo hi : Bound K) : RangeIter K V :=
  ⟨lo, hi, match t with
    | .nil => []
    | t => [(t, .left)]⟩

/-- total number of machine steps still owed to a subtree: only used to show termination -/
def weight : Tree K V → Nat
  | .nil => 0
  | .node l _ d _ _ r => weight l + weight r + d.length + 4

/-- see `weight` -/
def entryWeight : Tree K V × Visiting → Nat
  | (.nil, _) => 1
  | (.node l _ d _ _ r, .left) => weight l + weight r + d.length + 4
  | (.node _ _ d _ _ r, .center) => weight r + d.length + 3
  | (.node _ _ d _ _ r, .middle i) => weight r + (d.length - i) + 2
  | (.node _ _ _ _ _ r, .right) => weight r + 1

/-- see `weight` -/
def stackWeight : List (Tree K V × Visiting) → Nat
  | [] => 0
  | e :: s => entryWeight e + stackWeight s

/-- One iteration of the `while let` loop of `get_next_node` (iterators.rs:70-87) with `visit_left`
(31-46), `visit_right` (48-60), `visit_center` (62-68) inlined.  The first component is the pair to
return, if the loop returns in this iteration. -/
def step (lo hi : Bound K) (t : Tree K V) (v : Visiting) (rest : List (Tree K V × Visiting)) :
    Option (Range K × V) × List (Tree K V × Visiting) :=
  match t with
  | .nil => (none, rest)
  | .node l k d _ m r =>
    match v with
    | .left =>
      match l with
      | .nil => (none, (t, .center) :: rest)
      | l => if leftRelevant lo m then (none, (l, .left) :: (t, .center) :: rest)
             else (none, (t, .center) :: rest)
    | .center =>
      if intersect lo hi k then (none, (t, .middle 0) :: rest) else (none, (t, .right) :: rest)
    | .middle i =>
      match d[i]? with
      | none => (none, (t, .right) :: rest)
      | some x => (some (k, x), (t, .middle (i + 1)) :: rest)
    | .right =>
      if rightRelevant hi k.lo then
        match r with
        | .nil => (none, rest)
        | r => (none, (r, .left) :: rest)
      else (none, rest)

omit [LinearOrder K] in
theorem entryWeight_left_node (t : Tree K V) (h : t ≠ .nil) :
    entryWeight (t, .left) = weight t := by
  cases t <;> simp_all [entryWeight, weight]

theorem step_decreases (lo hi : Bound K) (t : Tree K V) (v : Visiting)
    (rest : List (Tree K V × Visiting)) :
    stackWeight (step lo hi t v rest).2 < entryWeight (t, v) + stackWeight rest := by
  cases t with
  | nil => simp [step, entryWeight]
  | node l k d h m r =>
    cases v with
    | left =>
      cases l with
      | nil => simp [step, stackWeight, entryWeight, weight]
      | node ll lk ld lh lm lr =>
        simp only [step]
        split
        · simp only [stackWeight]
          rw [entryWeight_left_node _ (by simp)]
          simp only [entryWeight]
          omega
        · simp only [stackWeight, entryWeight]; omega
    | center => simp only [step]; split <;> simp [stackWeight, entryWeight] <;> omega
    | middle i =>
      simp only [step]
      cases hd : d[i]? with
      | none => simp [stackWeight, entryWeight]; omega
      | some x =>
        have : i < d.length := by
          by_contra hc
          rw [List.getElem?_eq_none (by omega)] at hd
          cases hd
        simp [stackWeight, entryWeight]; omega
    | right =>
      simp only [step]
      split
      · cases r with
        | nil => simp [entryWeight]
        | node rl rk rd rh rm rr =>
          simp only [stackWeight]
          rw [entryWeight_left_node _ (by simp)]
          simp only [entryWeight]
          omega
      · simp [entryWeight]

/-- the loop of `get_next_node` (iterators.rs:70-87) on the stack -/
def nextLoop (lo hi : Bound K) (stack : List (Tree K V × Visiting)) :
    Option ((Range K × V) × List (Tree K V × Visiting)) :=
  match stack with
  | [] => none
  | (t, v) :: rest =>
    match _h : step lo hi t v rest with
    | (some x, s') => some (x, s')
    | (none, s') => nextLoop lo hi s'
termination_by stackWeight stack
decreasing_by
  have := step_decreases lo hi t v rest
  rw [_h] at this
  simpa [stackWeight] using this

/-- `Iterator::next` (iterators.rs:93-96) -/
def next (it : RangeIter K V) : Option (Range K × V) × RangeIter K V :=
  match nextLoop it.lo it.hi it.stack with
  | none => (none, { it with stack := [] })
  | some (x, s) => (some x, { it with stack := s })

/-- result of the `n`-th call (from 0) to `next` -/
def nth (it : RangeIter K V) : Nat → Option (Range K × V)
  | 0 => (next it).1
  | n + 1 => nth (next it).2 n

end RangeIter

/-- `IntervalTree::range` (tree.rs:217-223) -/
def range (t : Tree K V) (q : Range K) : RangeIter K V :=
  RangeIter.new t (.included q.lo) (.included q.hi)

/-- `IntervalTree::iter` (tree.rs:234-236) -/
def iter (t : Tree K V) : RangeIter K V := RangeIter.new t .unbounded .unbounded

/-! ## The consuming iterator (iterators.rs:121-163) -/

/-- `IntoIter` (iterators.rs:121-124).  A stack entry is a node whose `left` has been taken:
key, data, right. -/
structure IntoIter (K V : Type) where
  stack : List (Range K × List V × Tree K V)
  current : Option (Range K × List V)

namespace IntoIter

omit [LinearOrder K]

/-- `push_node` (iterators.rs:136-141) -/
def push : Tree K V → List (Range K × List V × Tree K V) → List (Range K × List V × Tree K V)
  | .nil, s => s
  | .node l k d _ _ r, s => push l ((k, d, r) :: s)

/-- `IntoIter::new` (iterators.rs:127-134) -/
def new (t : Tree K V) : IntoIter K V := ⟨push t [], none⟩

/-- number of nodes; termination measure only -/
def size : Tree K V → Nat
  | .nil => 0
  | .node l _ _ _ _ r => size l + size r + 1

/-- termination measure only -/
def stackSize : List (Range K × List V × Tree K V) → Nat
  | [] => 0
  | (_, _, r) :: s => size r + 1 + stackSize s

theorem stackSize_push (t : Tree K V) (s) : stackSize (push t s) = size t + stackSize s := by
  induction t generalizing s with
  | nil => simp [push, size]
  | node l k d h m r ihl ihr => simp only [push, ihl, stackSize, size]; omega

/-- the `loop` of `next` (iterators.rs:147-162) -/
def next (it : IntoIter K V) : Option (Range K × V) × IntoIter K V :=
  match it.current with
  | some (k, v :: vs) => (some (k, v), { it with current := some (k, vs) })
  | _ =>
    match _h : it.stack with
    | [] => (none, ⟨[], none⟩)
    | (k, d, r) :: s => next ⟨push r s, some (k, d)⟩
termination_by stackSize it.stack
decreasing_by
  rw [_h]; simp only [stackSize_push, stackSize]; omega

/-- result of the `n`-th call (from 0) to `next` -/
def nth (it : IntoIter K V) : Nat → Option (Range K × V)
  | 0 => (next it).1
  | n + 1 => nth (next it).2 n

/-- in-order contents of a subtree, used for the termination measure of `merge` -/
def contents : Tree K V → List (Range K × V)
  | .nil => []
  | .node l k d _ _ r => contents l ++ (d.map fun v => (k, v)) ++ contents r

/-- what is left on the stack, used for the termination measure of `merge` -/
def stackContents : List (Range K × List V × Tree K V) → List (Range K × V)
  | [] => []
  | (k, d, r) :: s => (d.map fun v => (k, v)) ++ contents r ++ stackContents s

/-- what the iterator still owes -/
def remaining (it : IntoIter K V) : List (Range K × V) :=
  (match it.current with
   | none => []
   | some (k, vs) => vs.map fun v => (k, v)) ++ stackContents it.stack

theorem stackContents_push (t : Tree K V) (s) :
    stackContents (push t s) = contents t ++ stackContents s := by
  induction t generalizing s with
  | nil => simp [push, contents]
  | node l k d h m r ihl ihr => simp [push, ihl, stackContents, contents]

theorem next_remaining (it : IntoIter K V) :
    remaining it = (next it).1.toList ++ remaining (next it).2 := by
  induction it using next.induct with
  | case1 it k v vs h =>
    rw [next.eq_def]
    simp [h, remaining]
  | case2 it hs h =>
    rw [next.eq_def]
    split
    · rename_i k v vs hc; exact absurd hc (h k v vs)
    · split
      · simp only [Option.toList, List.nil_append]
        simp only [remaining, hs, stackContents]
        split
        · rfl
        · rename_i k vs hc
          cases vs with
          | nil => rfl
          | cons a b => exact absurd hc (h _ _ _)
      · simp_all
  | case3 it k d r s hs h ih =>
    rw [next.eq_def]
    split
    · rename_i k v vs hc; exact absurd hc (h k v vs)
    · split
      · simp_all
      · rename_i hs'
        rw [hs] at hs'
        obtain ⟨⟨⟩, rfl⟩ := hs'
        rw [← ih]
        simp only [remaining, stackContents_push, hs, stackContents]
        split
        · simp
        · rename_i k vs hc
          cases vs with
          | nil => simp
          | cons a b => exact absurd hc (h _ _ _)

/-- a `for` loop over the iterator, collecting what it yields (tree.rs:188) -/
def collect (it : IntoIter K V) : List (Range K × V) :=
  match _h : next it with
  | (none, _) => []
  | (some x, it') => x :: collect it'
termination_by (remaining it).length
decreasing_by
  rw [next_remaining it, _h]; simp

end IntoIter

/-- `merge` (tree.rs:187-191): insert all pairs the consuming iterator of `other` yields. -/
def Tree.merge (t other : Tree K V) : Option (Tree K V) :=
  (IntoIter.collect (IntoIter.new other)).foldlM (fun t (k, v) => t.insert k v) t

/-! ## Histories -/

/-- The mutating part of the public API (`insert`, `remove`). -/
inductive Op (K V : Type) where
  | insert (k : Range K) (v : V)
  | remove (k : Range K)

/-- one API call; `none` = panic -/
def Tree.apply (t : Tree K V) : Op K V → Option (Tree K V)
  | .insert k v => t.insert k v
  | .remove k => t.delete k

/-- a history of calls from `IntervalTree::new()` (tree.rs:25-27) -/
def runFrom (t : Tree K V) : List (Op K V) → Option (Tree K V)
  | [] => some t
  | o :: os => (t.apply o).bind fun t' => runFrom t' os

/-- a history of calls on a fresh tree -/
def run (ops : List (Op K V)) : Option (Tree K V) := runFrom .nil ops

end Verif.IntervalTree
