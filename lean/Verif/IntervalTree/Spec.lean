import Verif.IntervalTree.Model

/-! Independent specification of the interval tree API: a multimap from ranges to value lists. -/

namespace Verif.IntervalTree

variable {K V : Type} [LinearOrder K]

/-- effect of one call on the multimap -/
def specStep (m : Range K → List V) : Op K V → (Range K → List V)
  | .insert k v => fun k' => if k' = k then m k ++ [v] else m k'
  | .remove k => fun k' => if k' = k then [] else m k'

/-- the multimap after a history of calls on a fresh tree: `spec ops k` lists the values inserted
under `k` since its last removal, in insertion order -/
def spec (ops : List (Op K V)) : Range K → List V := ops.foldl specStep fun _ => []

/-- `xs` lists the multimap `m` in ascending key order: keys ascend, and the values listed for each
key are exactly (same order, same multiplicity) those of `m`. -/
def Lists (m : Range K → List V) (xs : List (Range K × V)) : Prop :=
  xs.Pairwise (fun a b => a.1 ≤ b.1) ∧
  ∀ k, (xs.filter fun p => decide (p.1 = k)).map Prod.snd = m k

/-- real depth of a tree, ignoring the cached field -/
def depth : Tree K V → Nat
  | .nil => 0
  | .node l _ _ _ _ r => max (depth l) (depth r) + 1

end Verif.IntervalTree
