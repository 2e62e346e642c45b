import Verif.Minimap.PassModel
import Verif.Const.EqHash
import Mathlib.Algebra.Order.BigOperators.Group.List

/-!
# C78: random loot
-/

namespace Verif.Minimap

open Verif.Const

/-- the weight of an item: its number, 1 if it has none -/
def Weight (p : Cst × Option Cst) (w : Int) : Prop :=
  (∃ f, p.2 = some (.float f) ∧ w = f.toI32) ∨ ((∀ f, p.2 ≠ some (.float f)) ∧ w = 1)

theorem weight_is (p : Cst × Option Cst) (w : Int) : Weight p w ↔ weight p = w := by
  obtain ⟨k, v⟩ := p
  unfold Weight weight
  cases v with
  | none => simp [Cst.toInt, eq_comm]
  | some c => cases c <;> simp [Cst.toInt, eq_comm]

/-- the weights of a list -/
def Weights (l : List (Cst × Option Cst)) (ws : List Int) : Prop := List.Forall₂ Weight l ws

theorem weights_map {l : List (Cst × Option Cst)} {ws : List Int} (h : Weights l ws) : ws = l.map weight := by
  induction h with
  | nil => rfl
  | cons h _ ih => rw [List.map_cons, ih, (weight_is _ _).1 h]

theorem pickLoop_at (pre : List (Cst × Option Cst)) (p : Cst × Option Cst) (post : List (Cst × Option Cst)) (r : Int)
    (hpos : ∀ q ∈ pre, 0 ≤ weight q) (h1 : (pre.map weight).sum < r) (h2 : r ≤ (pre.map weight).sum + weight p) :
    pickLoop (pre ++ p :: post) r = p.1 := by
  induction pre generalizing r with
  | nil =>
    simp only [List.map_nil, List.sum_nil] at h1 h2
    rw [List.nil_append, pickLoop, if_pos (by omega)]
  | cons q pre ih =>
    simp only [List.map_cons, List.sum_cons] at h1 h2
    have hs : 0 ≤ (pre.map weight).sum := by
      apply List.sum_nonneg
      intro x hx
      obtain ⟨y, hy, rfl⟩ := List.mem_map.1 hx
      exact hpos y (by simp [hy])
    rw [List.cons_append, pickLoop, if_neg (by omega)]
    exact ih _ (fun x hx => hpos x (by simp [hx])) (by omega) (by omega)

/-- **C78.** With weights that are not negative, each item is picked for exactly as many of the equally likely numbers
from 1 to the total as its weight says: those after the weights before it. -/
theorem pick_share (l : List (Cst × Option Cst)) (ws : List Int) (hw : Weights l ws) (hpos : ∀ w ∈ ws, 0 ≤ w)
    (roll : Int → Int) (h1 : 1 ≤ roll ws.sum) (h2 : roll ws.sum ≤ ws.sum) :
    (∀ pre p post, l = pre ++ p :: post → ∀ wpre w wpost, ws = wpre ++ w :: wpost → wpre.length = pre.length →
      wpre.sum < roll ws.sum → roll ws.sum ≤ wpre.sum + w → pickweight roll l = some p.1) ∧
    ∃ pre p post wpre w wpost, l = pre ++ p :: post ∧ ws = wpre ++ w :: wpost ∧ wpre.length = pre.length ∧
      wpre.sum < roll ws.sum ∧ roll ws.sum ≤ wpre.sum + w ∧ pickweight roll l = some p.1 := by
  have e := weights_map hw
  subst e
  have ht : ¬(l.map weight).sum < 1 := by omega
  have hpos' : ∀ q ∈ l, 0 ≤ weight q := fun q hq => hpos _ (List.mem_map.2 ⟨q, hq, rfl⟩)
  have hpick : ∀ c, pickLoop l (roll (l.map weight).sum) = c → pickweight roll l = some c := by
    intro c h
    unfold pickweight
    simp only
    rw [if_neg ht, h]
  generalize hr : roll (l.map weight).sum = r at *
  constructor
  · intro pre p post hl wpre w wpost hws hlen g1 g2
    rw [hl, List.map_append, List.map_cons] at hws
    obtain ⟨e1, e2⟩ := List.append_inj hws (by simp [hlen])
    rw [List.cons.injEq] at e2
    apply hpick
    rw [hl]
    apply pickLoop_at
    · intro q hq
      exact hpos' q (by rw [hl]; simp [hq])
    · rw [e1]; exact g1
    · rw [e1, e2.1]; exact g2
  · have key : ∀ (l : List (Cst × Option Cst)) (r : Int), 1 ≤ r → r ≤ (l.map weight).sum → ∃ pre p post, l = pre ++ p :: post ∧
        (pre.map weight).sum < r ∧ r ≤ (pre.map weight).sum + weight p := by
      intro l
      induction l with
      | nil => intro r g1 g2; simp at g2; omega
      | cons q l ih =>
        intro r g1 g2
        by_cases hq : r ≤ weight q
        · exact ⟨[], q, l, rfl, by simp; omega, by simpa using hq⟩
        · simp only [List.map_cons, List.sum_cons] at g2
          obtain ⟨pre, p, post, e, g3, g4⟩ := ih (r - weight q) (by omega) (by omega)
          exact ⟨q :: pre, p, post, by rw [e]; rfl, by simp; omega, by simp; omega⟩
    obtain ⟨pre, p, post, e, g3, g4⟩ := key l r h1 h2
    refine ⟨pre, p, post, pre.map weight, weight p, post.map weight, e, by rw [e]; simp, by simp, g3, g4, ?_⟩
    apply hpick
    rw [e]
    exact pickLoop_at pre p post r (fun q hq => hpos' q (by rw [e]; simp [hq])) g3 g4

/-- **C78, disagreement.** A list whose weights sum to less than one is a panic. -/
theorem pick_weightless_panics (l : List (Cst × Option Cst)) (ws : List Int) (hw : Weights l ws) (h : ws.sum < 1)
    (roll : Int → Int) : pickweight roll l = none := by
  have e := weights_map hw
  subst e
  unfold pickweight
  simp only
  rw [if_pos h]

/-! ## Several items -/

/-- random numbers from 1 to the bound -/
def Fair (rng : Nat → Int → Int) : Prop := ∀ k t, 1 ≤ t → 1 ≤ rng k t ∧ rng k t ≤ t

/-- weights of at least one -/
def Weighty (l : List (Cst × Option Cst)) : Prop := ∀ p ∈ l, ∃ w, Weight p w ∧ 1 ≤ w

theorem weighty_pick {rng : Nat → Int → Int} (hr : Fair rng) (k : Nat) {l : List (Cst × Option Cst)} (hl : Weighty l)
    (hne : l ≠ []) : ∃ p ∈ l, pickweight (rng k) l = some p.1 := by
  have hw : ∀ p ∈ l, 1 ≤ weight p := by
    intro p hp
    obtain ⟨w, h1, h2⟩ := hl p hp
    rw [(weight_is p w).1 h1]
    exact h2
  have hsum : 1 ≤ (l.map weight).sum := by
    cases l with
    | nil => exact absurd rfl hne
    | cons p l =>
      have h1 := hw p (by simp)
      have h2 : 0 ≤ (l.map weight).sum := by
        apply List.sum_nonneg
        intro x hx
        obtain ⟨y, hy, rfl⟩ := List.mem_map.1 hx
        have := hw y (by simp [hy])
        omega
      simp only [List.map_cons, List.sum_cons]
      omega
  have hws : Weights l (l.map weight) := by
    unfold Weights
    rw [List.forall₂_map_right_iff, List.forall₂_same]
    intro p _
    exact (weight_is p _).2 rfl
  obtain ⟨_, pre, p, post, _, _, _, e, _, _, _, _, h⟩ := pick_share l _ hws (by
    intro w hw'
    obtain ⟨q, hq, rfl⟩ := List.mem_map.1 hw'
    have := hw q hq
    omega) (rng k) (hr k _ hsum).1 (hr k _ hsum).2
  exact ⟨p, by rw [e]; simp, h⟩

/-- **C78.** With doubles, as many items as asked for come from the list. -/
theorem loot_doubles (rng : Nat → Int → Int) (hr : Fair rng) (l : List (Cst × Option Cst)) (hl : Weighty l) (hne : l ≠ [])
    (n : Nat) : ∃ out, lootLoop true rng n l = some out ∧ out.length = n ∧ ∀ c ∈ out, ∃ p ∈ l, p.1 = c := by
  induction n with
  | zero => exact ⟨[], by cases l <;> rfl, rfl, nofun⟩
  | succ n ih =>
    obtain ⟨out, e, hlen, hmem⟩ := ih
    obtain ⟨p, hp, hpick⟩ := weighty_pick hr n hl hne
    cases l with
    | nil => exact absurd rfl hne
    | cons q l =>
      refine ⟨p.1 :: out, ?_, by simp [hlen], ?_⟩
      · rw [lootLoop, hpick, Option.bind_some, if_pos rfl, e]
        rfl
      · intro c hc
        rcases List.mem_cons.1 hc with rfl | hc
        · exact ⟨p, hp, rfl⟩
        · exact hmem c hc

/-- different items -/
def Distinct (l : List (Cst × Option Cst)) : Prop := l.Pairwise fun p q => p.1.beq q.1 = false ∧ q.1.beq p.1 = false

/-- **C78.** Without doubles, no item comes twice, and as many come as asked for or as there are. -/
theorem loot_single (rng : Nat → Int → Int) (hr : Fair rng) (l : List (Cst × Option Cst)) (hl : Weighty l)
    (hd : Distinct l) (hwf : ∀ p ∈ l, p.1.WF) (n : Nat) :
    ∃ out, lootLoop false rng n l = some out ∧ out.length = min n l.length ∧ (∀ c ∈ out, ∃ p ∈ l, p.1 = c) ∧
      out.Pairwise fun c d => d.beq c = false := by
  induction n generalizing l with
  | zero => exact ⟨[], by cases l <;> rfl, by simp, nofun, List.Pairwise.nil⟩
  | succ n ih =>
    by_cases hne : l = []
    · subst hne
      exact ⟨[], rfl, by simp, nofun, List.Pairwise.nil⟩
    · obtain ⟨p, hp, hpick⟩ := weighty_pick hr n hl hne
      have hrem : (l.filter fun q => !q.1.beq p.1).length + 1 = l.length := by
        clear hpick ih hne hl
        induction l with
        | nil => cases hp
        | cons q l ihl =>
          rw [Distinct, List.pairwise_cons] at hd
          rcases List.mem_cons.1 hp with rfl | hp'
          · have hself : p.1.beq p.1 = true := Cst.beq_refl _ (hwf p (by simp))
            rw [List.filter_cons, if_neg (by simp [hself])]
            have : l.filter (fun q => !q.1.beq p.1) = l := by
              rw [List.filter_eq_self]
              intro x hx
              rw [(hd.1 x hx).2]
              rfl
            rw [this]
            simp
          · have hq : q.1.beq p.1 = false := (hd.1 p hp').1
            rw [List.filter_cons, if_pos (by simp [hq])]
            simp only [List.length_cons]
            rw [ihl hd.2 (fun x hx => hwf x (by simp [hx])) hp']
      obtain ⟨out, e, hlen, hmem, hpw⟩ := ih (l.filter fun q => !q.1.beq p.1)
        (fun q hq => hl q (List.mem_filter.1 hq).1) (hd.filter _) (fun q hq => hwf q (List.mem_filter.1 hq).1)
      cases l with
      | nil => exact absurd rfl hne
      | cons q l =>
        refine ⟨p.1 :: out, ?_, ?_, ?_, ?_⟩
        · rw [lootLoop, hpick, Option.bind_some, if_neg (by simp), e]
          rfl
        · rw [List.length_cons, hlen]
          omega
        · intro c hc
          rcases List.mem_cons.1 hc with rfl | hc
          · exact ⟨p, hp, rfl⟩
          · obtain ⟨r, hr', e'⟩ := hmem c hc
            exact ⟨r, (List.mem_filter.1 hr').1, e'⟩
        · rw [List.pairwise_cons]
          refine ⟨fun c hc => ?_, hpw⟩
          obtain ⟨r, hr', rfl⟩ := hmem c hc
          have := (List.mem_filter.1 hr').2
          simpa using this

/-- **C78.** What a loot drop is replaced by: the things among the items picked whose type exists. -/
theorem loot_things (types : TreePath → Option Atom) (rng : Nat → Int → Int) (a : Atom) (l : CArgs)
    (ha : a.var "loot" = .list l) (n : Nat) (hn : n ≤ 2 ^ 24) (hc : a.var "lootcount" = .float (F32.ofInt n))
    (out : List Cst) (h : lootLoop (a.var "lootdoubles").toBool rng n l.toList = some out) :
    lootDrop types rng a = some (out.filterMap fun c => match c with
      | .prefab path _ => types path
      | _ => none) := by
  have e : ((a.var "lootcount").toInt.getD 0).toNat = n := by
    rw [hc]
    simp only [Cst.toInt, Option.getD_some]
    rw [F32.toI32_ofInt _ (by
      rw [abs_of_nonneg (by omega)]
      exact_mod_cast hn)]
    simp
  unfold lootDrop
  rw [ha]
  simp only
  rw [e, h]
  rfl

/-! ## Cases meeting the hypotheses -/

namespace Ex

/-- a with weight 3 and b -/
def table : List (Cst × Option Cst) :=
  [(.prefab ["a".toList] .nil, some (.float (F32.ofInt 3))), (.prefab ["b".toList] .nil, none)]

theorem table_weights : Weights table [3, 1] :=
  .cons (.inl ⟨_, rfl, by decide +kernel⟩) (.cons (.inr ⟨nofun, rfl⟩) .nil)

example : pickweight (fun _ => 3) table = some (.prefab ["a".toList] .nil) ∧
    pickweight (fun _ => 4) table = some (.prefab ["b".toList] .nil) :=
  ⟨(pick_share table [3, 1] table_weights (by decide) (fun _ => 3) (by decide) (by decide)).1 [] _ _ rfl [] 3 [1] rfl rfl
      (by decide) (by decide),
    (pick_share table [3, 1] table_weights (by decide) (fun _ => 4) (by decide) (by decide)).1 [_] _ [] rfl [3] 1 [] rfl rfl
      (by decide) (by decide)⟩

theorem table_weighty : Weighty table := by
  intro p hp
  simp only [table, List.mem_cons, List.not_mem_nil, or_false] at hp
  rcases hp with rfl | rfl
  · exact ⟨3, .inl ⟨_, rfl, by decide +kernel⟩, by decide⟩
  · exact ⟨1, .inr ⟨nofun, rfl⟩, by decide⟩

/-- three without doubles are only two -/
example (rng : Nat → Int → Int) (hr : Fair rng) : ∃ out, lootLoop false rng 3 table = some out ∧ out.length = 2 := by
  obtain ⟨out, h1, h2, _⟩ := loot_single rng hr table table_weighty (by
      refine List.pairwise_cons.2 ⟨?_, List.pairwise_cons.2 ⟨nofun, .nil⟩⟩
      intro q hq
      rw [List.mem_singleton] at hq
      subst hq
      decide +kernel) (by
      intro p hp
      simp only [table, List.mem_cons, List.not_mem_nil, or_false] at hp
      rcases hp with rfl | rfl <;> simp [Cst.WF, CVars.WF]) 3
  exact ⟨out, h1, h2⟩

example : Fair fun _ t => t := fun _ t h => ⟨h, Int.le_refl t⟩

/-- an item of weight 0 -/
example (roll : Int → Int) : pickweight roll [(.prefab ["a".toList] .nil, some (.float (F32.ofInt 0)))] = none :=
  pick_weightless_panics _ [0] (.cons (.inl ⟨_, rfl, by decide +kernel⟩) .nil) (by decide) roll

end Ex

end Verif.Minimap
