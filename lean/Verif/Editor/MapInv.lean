import Verif.Editor.Draws
import Mathlib.Data.List.Nodup
import Mathlib.Data.List.Perm.Basic
import Mathlib.Data.List.Sort
import Mathlib.Data.Option.Basic

/-! # Invariant of a map level, and what the operations do to it -/

set_option linter.unusedSectionVars false

namespace Verif.Editor

variable {P K V : Type} [DecidableEq P] [LinearOrder K]

/-- what `binary_search_by_key` promises on a sorted slice, as used here: elements before the returned
position are at most, those from it on at least, the key looked for -/
def SearchOk (search : List K → K → Nat) : Prop :=
  ∀ ks k, ks.Pairwise (· ≤ ·) →
    search ks k ≤ ks.length ∧ (∀ x ∈ ks.take (search ks k), x ≤ k) ∧ (∀ x ∈ ks.drop (search ks k), k ≤ x)

/-- what is in each slot -/
def Level.slots (lv : Level P V) (i : Nat) : Option (Inst P) :=
  if i ∈ lv.free then none else lv.keys[i]?

/-- the slots that will be handed out, in order -/
def Level.alloc (lv : Level P V) (n : Nat) : Nat :=
  match lv.free[n]? with
  | some i => i
  | none => lv.keys.length + (n - lv.free.length)

/-- the slots and the list of live slots agree (also while a level is being loaded, unsorted) -/
structure Level.PreInv (pops : P → Option (RPop K V)) (lv : Level P V) : Prop where
  freeNodup : lv.free.Nodup
  freeLt : ∀ i ∈ lv.free, i < lv.keys.length
  valsLen : lv.vals.length = lv.keys.length
  sortedNodup : lv.sorted.Nodup
  sortedMem : ∀ i, i ∈ lv.sorted ↔ (lv.slots i).isSome
  hasPop : ∀ i ∈ lv.sorted, (lv.rpop pops i).isSome
  ibLen : lv.ib.length = lv.sorted.length

/-- the renderer's data agree with the instances -/
structure Level.Inv (pops : P → Option (RPop K V)) (lv : Level P V) : Prop
    extends Level.PreInv pops lv where
  order : lv.sorted.Pairwise fun i j =>
    ∀ a b, lv.rpop pops i = some a → lv.rpop pops j = some b → a.key ≤ b.key
  drawsOk : DrawsOk lv.draws
  drawsEq : (expand lv.draws).map some = lv.sorted.map fun i => (lv.rpop pops i).map RPop.texture
  ibOk : lv.ibDirty = false → lv.ib = lv.sorted

/-- the vertex buffer holds, for every live instance, the vertices of its prefab's `RenderPop` there -/
def Level.Verts (pops : P → Option (RPop K V)) (lv : Level P V) : Prop :=
  ∀ i k r, lv.slots i = some k → pops k.pop = some r → lv.vals[i]? = some (r.vert k.x k.y)

theorem mapM_some {α β : Type} (f : α → Option β) (l : List α) (r : List β) :
    l.mapM f = some r ↔ l.map f = r.map some := by
  induction l generalizing r with
  | nil => cases r <;> simp
  | cons a l ih =>
    rw [List.mapM_cons]
    cases hf : f a with
    | none => cases r <;> simp [hf]
    | some b =>
      cases hl : l.mapM f with
      | none =>
        cases r with
        | nil => simp
        | cons b' r =>
          have : ¬ (l.map f = r.map some) := by
            intro h
            rw [← ih] at h
            rw [hl] at h
            cases h
          simp [hf, this]
      | some r0 =>
        have h0 := (ih r0).1 hl
        cases r with
        | nil => simp
        | cons b' r =>
          simp only [Option.bind_eq_bind, Option.bind_some, Option.pure_def, Option.some.injEq,
            List.cons.injEq, List.map_cons, hf, h0]
          constructor
          · rintro ⟨rfl, rfl⟩; exact ⟨rfl, rfl⟩
          · rintro ⟨rfl, h⟩
            exact ⟨rfl, List.map_injective_iff.2 (Option.some_injective _) h⟩

theorem exists_mapM {α β : Type} (f : α → Option β) (l : List α) (h : ∀ a ∈ l, (f a).isSome) :
    ∃ r, l.mapM f = some r := by
  induction l with
  | nil => exact ⟨[], rfl⟩
  | cons a l ih =>
    obtain ⟨b, hb⟩ := Option.isSome_iff_exists.1 (h a (by simp))
    obtain ⟨r, hr⟩ := ih (fun a ha => h a (by simp [ha]))
    exact ⟨b :: r, by rw [List.mapM_cons, hb, hr]; rfl⟩

theorem slots_some {lv : Level P V} {i : Nat} {k : Inst P} :
    lv.slots i = some k ↔ i ∉ lv.free ∧ lv.keys[i]? = some k := by
  unfold Level.slots
  split <;> simp_all

section
variable {pops : P → Option (RPop K V)} {lv : Level P V}

omit [LinearOrder K] in
theorem alloc_zero_free (h : lv.PreInv pops) : lv.slots (lv.alloc 0) = none := by
  unfold Level.alloc Level.slots
  cases hf : lv.free with
  | nil => simp
  | cons i fr => simp

/-- `DualPool::push` hands out the next slot -/
theorem push_spec (h : lv.PreInv pops) (k : Inst P) (v : V) :
    ∃ lv', lv.push k v = some (lv', lv.alloc 0) ∧
      lv'.free.Nodup ∧ (∀ i ∈ lv'.free, i < lv'.keys.length) ∧ lv'.vals.length = lv'.keys.length ∧
      (∀ i, lv'.slots i = if i = lv.alloc 0 then some k else lv.slots i) ∧
      (∀ n, lv'.alloc n = lv.alloc (n + 1)) ∧
      lv'.keys[lv.alloc 0]? = some k ∧ (∀ i, i ≠ lv.alloc 0 → lv'.keys[i]? = lv.keys[i]?) ∧
      lv'.vals[lv.alloc 0]? = some v ∧ (∀ i, i ≠ lv.alloc 0 → lv'.vals[i]? = lv.vals[i]?) ∧
      lv'.sorted = lv.sorted ∧ lv'.ib = lv.ib ∧ lv'.ibDirty = lv.ibDirty ∧ lv'.draws = lv.draws := by
  unfold Level.push
  cases hf : lv.free with
  | nil =>
    have ha : lv.alloc 0 = lv.keys.length := by simp [Level.alloc, hf]
    have hv := h.valsLen
    simp only [if_pos hv.symm, ha]
    refine ⟨_, rfl, by simp [hf], by simp [hf], by simp [hv], ?_, ?_, by simp, ?_, by simp [← hv], ?_, rfl, rfl, rfl, rfl⟩
    · intro i
      simp only [Level.slots, hf, List.not_mem_nil, if_false]
      split
      · next e => subst e; simp
      · next e =>
        rw [List.getElem?_append]
        split
        · rfl
        · rw [List.getElem?_eq_none (by simp; omega), List.getElem?_eq_none (by omega)]
    · intro n
      simp only [Level.alloc, hf, List.getElem?_nil, List.length_append, List.length_singleton, List.length_nil]
      omega
    · intro i hi
      rw [List.getElem?_append]
      split
      · rfl
      · rw [List.getElem?_eq_none (by simp; omega), List.getElem?_eq_none (by omega)]
    · intro i hi
      rw [List.getElem?_append]
      split
      · rfl
      · rw [List.getElem?_eq_none (by simp; omega), List.getElem?_eq_none (by omega)]
  | cons idx fr =>
    have ha : lv.alloc 0 = idx := by simp [Level.alloc, hf]
    have hlt := h.freeLt idx (by simp [hf])
    have hv := h.valsLen
    have hnd := h.freeNodup
    rw [hf, List.nodup_cons] at hnd
    simp only [ha]
    rw [if_pos ⟨hlt, by omega⟩]
    refine ⟨_, rfl, hnd.2, ?_, by simp [hv], ?_, ?_, ?_, ?_, ?_, ?_, rfl, rfl, rfl, rfl⟩
    · intro i hi
      simp only [List.length_set]
      exact h.freeLt i (by simp [hf, hi])
    · intro i
      simp only [Level.slots, hf]
      split
      · next hi =>
        have : i ≠ idx := by rintro rfl; exact hnd.1 hi
        rw [if_neg this, if_pos (by simp [hi])]
      · next hi =>
        by_cases e : i = idx
        · subst e; rw [if_pos rfl]; simp [hlt]
        · rw [if_neg e, if_neg (by simp [e, hi]), List.getElem?_set_ne (fun x => e x.symm)]
    · intro n
      simp only [Level.alloc, hf, List.getElem?_cons_succ, List.length_set, List.length_cons]
      cases fr[n]? with
      | some _ => rfl
      | none => simp only; omega
    · simp [hlt]
    · intro i hi; exact List.getElem?_set_ne (fun x => hi x.symm)
    · simp [hv, hlt]
    · intro i hi; exact List.getElem?_set_ne (fun x => hi x.symm)

theorem rpop_of_slots {i : Nat} {k : Inst P} (h : lv.slots i = some k) : lv.rpop pops i = pops k.pop := by
  unfold Level.rpop
  rw [(slots_some.1 h).2]
  rfl

theorem pairwise_insert {α : Type} {r : α → α → Prop} {l : List α} {a : α} {n : Nat} (h : l.Pairwise r)
    (h1 : ∀ x ∈ l.take n, r x a) (h2 : ∀ x ∈ l.drop n, r a x) :
    (l.take n ++ a :: l.drop n).Pairwise r := by
  rw [List.pairwise_append, List.pairwise_cons]
  rw [← List.take_append_drop n l, List.pairwise_append] at h
  refine ⟨h.1, ⟨h2, h.2.1⟩, ?_⟩
  intro x hx y hy
  rcases List.mem_cons.1 hy with rfl | hy
  · exact h1 x hx
  · exact h.2.2 x hx y hy

/-- the insertion half of `add_instance` -/
theorem insertNew_spec {search : List K → K → Nat} (hs : SearchOk search) (dflt : V)
    (h : lv.Inv pops) (x y : Nat) (fab : P) {r : RPop K V} (hr : pops fab = some r) :
    ∃ lv', lv.insertNew pops search dflt x y fab = some (lv', lv.alloc 0) ∧ lv'.Inv pops ∧
      (∀ i, lv'.slots i = if i = lv.alloc 0 then some ⟨x, y, fab⟩ else lv.slots i) ∧
      (∀ n, lv'.alloc n = lv.alloc (n + 1)) ∧ (lv.Verts pops → lv'.Verts pops) := by
  have hfree := alloc_zero_free h.toPreInv
  obtain ⟨lv1, e1, nd, lt, vl, sl, al, k0, k1, v0, v1, s1, i1, d1, w1⟩ := push_spec h.toPreInv ⟨x, y, fab⟩ (r.vert x y)
  generalize hidx : lv.alloc 0 = idx at *
  have hnot : idx ∉ lv.sorted := by rw [h.sortedMem, hfree]; simp
  have hold : ∀ i ∈ lv.sorted, lv1.rpop pops i = lv.rpop pops i := by
    intro i hi
    unfold Level.rpop
    rw [k1 i (by rintro rfl; exact hnot hi)]
  have hnew : lv1.rpop pops idx = some r := by
    unfold Level.rpop
    rw [k0]
    exact hr
  obtain ⟨ks, hks⟩ := exists_mapM (fun i => (lv1.rpop pops i).map RPop.key) lv1.sorted (by
    intro i hi
    rw [s1] at hi
    rw [hold i hi]
    have := h.hasPop i hi
    simpa using this)
  have hks' := (mapM_some _ _ _).1 hks
  have hlen : ks.length = lv.sorted.length := by
    have := congrArg List.length hks'
    simp [s1] at this
    omega
  have hsorted : ks.Pairwise (· ≤ ·) := by
    have hp := h.order
    rw [← s1] at hp
    have hp' : (ks.map some).Pairwise (fun (a b : Option K) => ∀ x y, a = some x → b = some y → x ≤ y) := by
      rw [← hks', List.pairwise_map]
      refine List.Pairwise.imp_of_mem ?_ hp
      intro i j hi hj hij a b ha hb
      rw [s1] at hi hj
      rw [hold i hi, Option.map_eq_some_iff] at ha
      rw [hold j hj, Option.map_eq_some_iff] at hb
      obtain ⟨ra, ha, rfl⟩ := ha
      obtain ⟨rb, hb, rfl⟩ := hb
      exact hij ra rb ha hb
    rw [List.pairwise_map] at hp'
    exact hp'.imp (fun {a b} hab => hab a b rfl rfl)
  obtain ⟨q1, q2, q3⟩ := hs ks r.key hsorted
  generalize hpos : search ks r.key = pos at q1 q2 q3
  have hposs : pos ≤ lv.sorted.length := by omega
  obtain ⟨ds', a1, a2, a3⟩ := addDraw_spec h.drawsOk (k := pos) (by
    have := congrArg List.length h.drawsEq
    simp at this
    omega) r.texture
  refine ⟨{ lv1 with
      sorted := lv.sorted.take pos ++ idx :: lv.sorted.drop pos
      ib := lv.ib.take pos ++ idx :: lv.ib.drop pos
      draws := ds' }, ?_, ?_, ?_, ?_, ?_⟩
  · unfold Level.insertNew Level.prep Level.sortKeys
    rw [s1] at hks
    simp only [hr, e1, hnew, s1, i1, w1, hks, hpos, a1, vecInsert]
    rw [if_pos hposs, if_pos (by rw [h.ibLen]; exact hposs)]
  · -- facts about the new keys
    have hrp : ∀ i, Level.rpop pops { lv1 with
      sorted := lv.sorted.take pos ++ idx :: lv.sorted.drop pos
      ib := lv.ib.take pos ++ idx :: lv.ib.drop pos
      draws := ds' } i = lv1.rpop pops i := fun i => rfl
    have hmem : ∀ i, i ∈ lv.sorted.take pos ++ idx :: lv.sorted.drop pos ↔ i = idx ∨ i ∈ lv.sorted := by
      intro i
      conv_rhs => rw [← List.take_append_drop pos lv.sorted]
      simp only [List.mem_append, List.mem_cons]
      tauto
    have hval : ∀ i ∈ lv.sorted, ∃ a, lv1.rpop pops i = some a := by
      intro i hi
      rw [hold i hi]
      exact Option.isSome_iff_exists.1 (h.hasPop i hi)
    -- keys at positions
    have hkt : ∀ i ∈ lv.sorted.take pos, ∀ a, lv1.rpop pops i = some a → a.key ≤ r.key := by
      intro i hi a ha
      apply q2
      have : (lv.sorted.take pos).map (fun i => (lv1.rpop pops i).map RPop.key) = (ks.take pos).map some := by
        rw [List.map_take, List.map_take, ← hks', s1]
      have hm : some a.key ∈ (ks.take pos).map some := by
        rw [← this]
        exact List.mem_map.2 ⟨i, hi, by rw [ha]; rfl⟩
      obtain ⟨b, hb, he⟩ := List.mem_map.1 hm
      injection he with he
      rw [← he]; exact hb
    have hkd : ∀ i ∈ lv.sorted.drop pos, ∀ a, lv1.rpop pops i = some a → r.key ≤ a.key := by
      intro i hi a ha
      apply q3
      have : (lv.sorted.drop pos).map (fun i => (lv1.rpop pops i).map RPop.key) = (ks.drop pos).map some := by
        rw [List.map_drop, List.map_drop, ← hks', s1]
      have hm : some a.key ∈ (ks.drop pos).map some := by
        rw [← this]
        exact List.mem_map.2 ⟨i, hi, by rw [ha]; rfl⟩
      obtain ⟨b, hb, he⟩ := List.mem_map.1 hm
      injection he with he
      rw [← he]; exact hb
    refine ⟨⟨?_, ?_, ?_, ?_, ?_, ?_, ?_⟩, ?_, ?_, ?_, ?_⟩
    · exact nd
    · exact lt
    · exact vl
    · rw [List.nodup_append, List.nodup_cons]
      have hn := h.sortedNodup
      rw [← List.take_append_drop pos lv.sorted, List.nodup_append] at hn
      refine ⟨hn.1, ⟨fun hm => hnot (List.mem_of_mem_drop hm), hn.2.1⟩, ?_⟩
      intro a ha b hb
      rcases List.mem_cons.1 hb with rfl | hb
      · rintro rfl; exact hnot (List.mem_of_mem_take ha)
      · exact hn.2.2 a ha b hb
    · intro i
      change i ∈ lv.sorted.take pos ++ idx :: lv.sorted.drop pos ↔ (lv1.slots i).isSome = true
      rw [hmem i, sl i]
      split
      · next e => simp [e]
      · next e => rw [h.sortedMem i]; simp [e]
    · intro i hi
      rw [hrp]
      rcases (hmem i).1 hi with rfl | hi
      · rw [hnew]; rfl
      · rw [hold i hi]; exact h.hasPop i hi
    · simp only [List.length_append, List.length_cons, List.length_take, List.length_drop]
      have := h.ibLen
      omega
    · apply pairwise_insert
      · refine List.Pairwise.imp_of_mem ?_ h.order
        intro i j hi hj hij a b ha hb
        rw [hrp, hold i hi] at ha
        rw [hrp, hold j hj] at hb
        exact hij a b ha hb
      · intro i hi a b ha hb
        rw [hrp] at ha hb
        rw [hnew] at hb
        injection hb with hb
        subst hb
        exact hkt i hi a ha
      · intro i hi a b ha hb
        rw [hrp] at ha hb
        rw [hnew] at ha
        injection ha with ha
        subst ha
        exact hkd i hi b hb
    · exact a2
    · change (expand ds').map some = _
      rw [a3, List.map_append, List.map_cons, List.map_take, List.map_drop, h.drawsEq]
      simp only [List.map_append, List.map_cons, hrp, hnew, Option.map_some]
      congr 1
      · rw [← List.map_take]
        apply List.map_congr_left
        intro i hi
        rw [hold i (List.mem_of_mem_take hi)]
      · congr 1
        rw [← List.map_drop]
        apply List.map_congr_left
        intro i hi
        rw [hold i (List.mem_of_mem_drop hi)]
    · intro hd
      rw [h.ibOk (by rw [← d1]; exact hd)]
  · exact sl
  · exact al
  · intro hv i k r' hi hr'
    change lv1.slots i = some k at hi
    rw [sl i] at hi
    split at hi
    · next e =>
      injection hi with hi
      subst e hi
      simp only at hr'
      rw [hr] at hr'
      injection hr' with hr'
      subst hr'
      exact v0
    · next e =>
      change lv1.vals[i]? = _
      rw [v1 i e]
      exact hv i k r' hi hr'

/-- `AtomZ::remove_instance` of a live slot -/
theorem remove_spec (h : lv.Inv pops) {idx : Nat} {k : Inst P} (hk : lv.slots idx = some k) :
    ∃ lv', lv.remove idx = some (lv', k) ∧ lv'.Inv pops ∧
      (∀ i, lv'.slots i = if i = idx then none else lv.slots i) ∧
      lv'.alloc 0 = idx ∧ (∀ n, lv'.alloc (n + 1) = lv.alloc n) ∧ (lv.Verts pops → lv'.Verts pops) := by
  obtain ⟨hfree, hkey⟩ := slots_some.1 hk
  have hmem : idx ∈ lv.sorted := by rw [h.sortedMem, hk]; rfl
  have hpos : lv.sorted.idxOf idx < lv.sorted.length := List.idxOf_lt_length_of_mem hmem
  generalize hp : lv.sorted.idxOf idx = pos at hpos
  have hget : lv.sorted[pos] = idx := by
    subst hp
    exact List.getElem_idxOf hpos
  have hsplit : lv.sorted = lv.sorted.take pos ++ idx :: lv.sorted.drop (pos + 1) := by
    conv_lhs => rw [← List.take_append_drop pos lv.sorted, ← List.getElem_cons_drop (h := hpos), hget]
  obtain ⟨ds', a1, a2, a3⟩ := removeDraw_spec h.drawsOk (k := pos) (by
    have := congrArg List.length h.drawsEq
    simp at this
    omega)
  have hnd := h.sortedNodup
  rw [hsplit, List.nodup_append, List.nodup_cons] at hnd
  have hlt : idx < lv.keys.length := by
    rw [List.getElem?_eq_some_iff] at hkey
    exact hkey.1
  have hmem' : ∀ i, i ∈ lv.sorted.take pos ++ lv.sorted.drop (pos + 1) ↔ i ∈ lv.sorted ∧ i ≠ idx := by
    intro i
    constructor
    · intro hi
      refine ⟨?_, ?_⟩
      · rw [hsplit]
        simp only [List.mem_append, List.mem_cons] at hi ⊢
        tauto
      · rintro rfl
        rcases List.mem_append.1 hi with hi | hi
        · exact hnd.2.2 _ hi _ (by simp) rfl
        · exact hnd.2.1.1 hi
    · rintro ⟨hi, hne⟩
      rw [hsplit] at hi
      simp only [List.mem_append, List.mem_cons] at hi ⊢
      tauto
  have hsub : (lv.sorted.take pos ++ lv.sorted.drop (pos + 1)).Sublist lv.sorted := by
    conv_rhs => rw [hsplit]
    exact (List.Sublist.refl _).append (List.sublist_cons_self _ _)
  refine ⟨{ lv with
      free := idx :: lv.free
      sorted := lv.sorted.take pos ++ lv.sorted.drop (pos + 1)
      ib := lv.ib.take pos ++ lv.ib.drop (pos + 1)
      draws := ds' }, ?_, ?_, ?_, ?_, ?_, ?_⟩
  · unfold Level.remove
    simp only [hkey]
    rw [if_neg (by simpa using hfree), if_pos (by simpa using hmem)]
    simp only [hp, a1, vecRemove]
    rw [if_pos hpos, if_pos (by rw [h.ibLen]; exact hpos)]
  · refine ⟨⟨?_, ?_, ?_, ?_, ?_, ?_, ?_⟩, ?_, ?_, ?_, ?_⟩
    · exact List.nodup_cons.2 ⟨hfree, h.freeNodup⟩
    · intro i hi
      rcases List.mem_cons.1 hi with rfl | hi
      · exact hlt
      · exact h.freeLt i hi
    · exact h.valsLen
    · exact h.sortedNodup.sublist hsub
    · intro i
      simp only [hmem', h.sortedMem, Level.slots, List.mem_cons]
      by_cases e : i = idx <;> simp [e]
    · intro i hi
      exact h.hasPop i ((hmem' i).1 hi).1
    · simp only [List.length_append, List.length_take, List.length_drop]
      have := h.ibLen
      omega
    · exact h.order.sublist hsub
    · exact a2
    · change (expand ds').map some = List.map (fun i => (lv.rpop pops i).map RPop.texture) _
      rw [a3, List.map_append, List.map_take, List.map_drop, h.drawsEq, ← List.map_take, ← List.map_drop,
        List.map_append]
    · intro hd
      rw [h.ibOk hd]
  · intro i
    simp only [Level.slots, List.mem_cons]
    by_cases e : i = idx <;> simp [e]
  · simp [Level.alloc]
  · intro n
    simp only [Level.alloc, List.getElem?_cons_succ, List.length_cons]
    cases lv.free[n]? with
    | some _ => rfl
    | none => simp only; omega
  · intro hv i k' r hi hr
    apply hv i k' r ?_ hr
    simp only [Level.slots, List.mem_cons] at hi
    unfold Level.slots
    by_cases e : i = idx
    · simp [e] at hi
    · simpa [e] using hi

/-- `add_instance_unsorted` -/
theorem addUnsorted_spec (dflt : V) (h : lv.PreInv pops) (x y : Nat) (fab : P) {r : RPop K V}
    (hr : pops fab = some r) :
    ∃ lv', lv.addUnsorted pops dflt x y fab = some (lv', lv.alloc 0) ∧ lv'.PreInv pops ∧
      (∀ i, lv'.slots i = if i = lv.alloc 0 then some ⟨x, y, fab⟩ else lv.slots i) ∧
      (∀ n, lv'.alloc n = lv.alloc (n + 1)) ∧ (lv.Verts pops → lv'.Verts pops) := by
  have hfree := alloc_zero_free h
  obtain ⟨lv1, e1, nd, lt, vl, sl, al, k0, k1, v0, v1, s1, i1, d1, w1⟩ := push_spec h ⟨x, y, fab⟩ (r.vert x y)
  generalize hidx : lv.alloc 0 = idx at *
  have hnot : idx ∉ lv.sorted := by rw [h.sortedMem, hfree]; simp
  refine ⟨{ lv1 with
      sorted := lv.sorted ++ [idx]
      ib := lv.ib ++ [idx] }, ?_, ?_, sl, al, ?_⟩
  · unfold Level.addUnsorted Level.prep
    simp only [hr, e1, Option.map_some, s1, i1]
  · refine ⟨nd, lt, vl, ?_, ?_, ?_, ?_⟩
    · rw [List.nodup_append]
      refine ⟨h.sortedNodup, by simp, ?_⟩
      intro a ha b hb
      rw [List.mem_singleton] at hb
      subst hb
      rintro rfl
      exact hnot ha
    · intro i
      change i ∈ lv.sorted ++ [idx] ↔ (lv1.slots i).isSome = true
      rw [List.mem_append, List.mem_singleton, sl i]
      split
      · next e => simp [e]
      · next e => rw [h.sortedMem i]; simp [e]
    · intro i hi
      change (Level.rpop pops lv1 i).isSome = true
      unfold Level.rpop
      rcases List.mem_append.1 hi with hi' | hi'
      · rw [k1 i (by rintro rfl; exact hnot hi')]
        exact h.hasPop i hi'
      · rw [List.mem_singleton.1 hi', k0]
        simp [hr]
    · simp [h.ibLen]
  · intro hv i k r' hi hr'
    change lv1.slots i = some k at hi
    rw [sl i] at hi
    split at hi
    · next e =>
      injection hi with hi
      subst e hi
      simp only at hr'
      rw [hr] at hr'
      injection hr' with hr'
      subst hr'
      exact v0
    · next e =>
      change lv1.vals[i]? = _
      rw [v1 i e]
      exact hv i k r' hi hr'

/-- `sort_again` -/
theorem sortAgain_spec (h : lv.PreInv pops) :
    ∃ lv', lv.sortAgain pops = some lv' ∧ lv'.Inv pops ∧ lv'.keys = lv.keys ∧ lv'.vals = lv.vals ∧
      lv'.free = lv.free := by
  obtain ⟨l, hl⟩ := exists_mapM (fun i => (lv.rpop pops i).map fun r => (r, i)) lv.sorted (by
    intro i hi; have := h.hasPop i hi; simpa using this)
  have hl' := (mapM_some _ _ _).1 hl
  have hmem : ∀ a ∈ l, lv.rpop pops a.2 = some a.1 := by
    intro a ha
    have : some a ∈ l.map some := List.mem_map.2 ⟨a, ha, rfl⟩
    rw [← hl'] at this
    obtain ⟨i, _, hi⟩ := List.mem_map.1 this
    rw [Option.map_eq_some_iff] at hi
    obtain ⟨r, hr, rfl⟩ := hi
    exact hr
  have hsnd : l.map Prod.snd = lv.sorted := by
    apply List.map_injective_iff.2 (Option.some_injective Nat)
    have : (l.map some).map (Option.map Prod.snd) = (lv.sorted.map fun i => (lv.rpop pops i).map fun r => (r, i)).map (Option.map Prod.snd) := by
      rw [hl']
    rw [List.map_map, List.map_map] at this
    rw [List.map_map]
    have e1 : (some ∘ Prod.snd : RPop K V × Nat → Option Nat) = Option.map Prod.snd ∘ some := rfl
    rw [e1, this]
    apply List.map_congr_left
    intro i hi
    obtain ⟨r, hr⟩ := Option.isSome_iff_exists.1 (h.hasPop i hi)
    simp [hr]
  have hperm : (l.insertionSort fun a b => a.1.key ≤ b.1.key).Perm l := List.perm_insertionSort _ _
  generalize hl2 : (l.insertionSort fun a b => a.1.key ≤ b.1.key) = l2 at hperm
  have hsort : l2.Pairwise (fun a b => a.1.key ≤ b.1.key) := by
    rw [← hl2]
    haveI : Std.Total (fun a b : RPop K V × Nat => a.1.key ≤ b.1.key) := ⟨fun a b => le_total _ _⟩
    haveI : IsTrans (RPop K V × Nat) (fun a b => a.1.key ≤ b.1.key) := ⟨fun a b c h1 h2 => le_trans h1 h2⟩
    exact List.pairwise_insertionSort _ l
  have hps : (l2.map Prod.snd).Perm lv.sorted := by rw [← hsnd]; exact hperm.map _
  obtain ⟨d1, d2⟩ := drawLoop_spec (l2.map fun a => a.1.texture) [] (by intro d hd; cases hd)
  refine ⟨{ lv with
      sorted := l2.map Prod.snd
      ibDirty := true
      draws := drawLoop [] (l2.map fun a => a.1.texture) }, ?_, ?_, rfl, rfl, rfl⟩
  · unfold Level.sortAgain
    simp only [hl, hl2]
  · refine ⟨⟨h.freeNodup, h.freeLt, h.valsLen, ?_, ?_, ?_, ?_⟩, ?_, d1, ?_, ?_⟩
    · exact hps.nodup_iff.2 h.sortedNodup
    · intro i; exact (hps.mem_iff).trans (h.sortedMem i)
    · intro i hi; exact h.hasPop i (hps.mem_iff.1 hi)
    · exact h.ibLen.trans hps.length_eq.symm
    · change (l2.map Prod.snd).Pairwise fun i j =>
        ∀ a b, lv.rpop pops i = some a → lv.rpop pops j = some b → a.key ≤ b.key
      rw [List.pairwise_map]
      refine List.Pairwise.imp_of_mem ?_ hsort
      intro a b ha hb hab ra rb hra hrb
      rw [hmem a (hperm.mem_iff.1 ha)] at hra
      rw [hmem b (hperm.mem_iff.1 hb)] at hrb
      injection hra with hra
      injection hrb with hrb
      rw [← hra, ← hrb]; exact hab
    · change (expand (drawLoop [] (l2.map fun a => a.1.texture))).map some
        = (l2.map Prod.snd).map fun i => (lv.rpop pops i).map RPop.texture
      rw [d2]
      simp only [List.reverse_nil, expand_nil, List.nil_append, List.map_map]
      apply List.map_congr_left
      intro a ha
      simp [hmem a (hperm.mem_iff.1 ha)]
    · intro hd; simp at hd

/-- `keys_iter` enumerates the live slots in order -/
theorem mem_liveSlots {i : Nat} {k : Inst P} : (i, k) ∈ lv.liveSlots ↔ lv.slots i = some k := by
  unfold Level.liveSlots Level.slots
  rw [List.mem_filter, List.mem_map]
  constructor
  · rintro ⟨⟨⟨k', j⟩, hm, he⟩, hf⟩
    simp only [Prod.mk.injEq] at he
    obtain ⟨rfl, rfl⟩ := he
    rw [List.mk_mem_zipIdx_iff_getElem?] at hm
    rw [if_neg (by simpa using hf), hm]
  · intro hs
    split at hs
    · cases hs
    · next hf =>
      exact ⟨⟨(k, i), by rw [List.mk_mem_zipIdx_iff_getElem?]; exact hs, rfl⟩, by simpa using hf⟩

end
end Verif.Editor
