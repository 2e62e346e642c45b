import Verif.Const.Model
import Mathlib.Data.List.Sort
import Mathlib.Data.List.Perm.Subperm
import Mathlib.Data.List.Nodup

/-!
# Equality and hashing of constants (C53)

`Constant` and `Prefab` have hand-written `Eq` and `Hash`; they are keys of hash maps.  The specification is the
contract of those traits: equality is an equivalence relation and equal constants feed the same data to the hasher.
-/

namespace Verif.Const

/-- what is fed to a hasher -/
inductive Tok where
  | disc (n : Nat)
  | len (n : Nat)
  | str (s : List Char)
  | flt (f : F32)
deriving DecidableEq

/-- `OrderedFloat::hash`: one bit pattern for all NaN, one for both zeros -/
def F32.canon : F32 → F32
  | .nan => .nan
  | .inf s => .inf s
  | .fin s m => if m = 0 then .fin false 0 else .fin s m

/-- the order of identifiers -/
def strLe : List Char → List Char → Bool
  | [], _ => true
  | _ :: _, [] => false
  | a :: s, b :: t => if a.toNat < b.toNat then true else if b.toNat < a.toNat then false else strLe s t

/-- the entries sorted by name -/
def sortItems (l : List (Ident × List Tok)) : List (Ident × List Tok) := l.mergeSort fun a b => strLe a.1 b.1

/-- the items one after the other -/
def feedItems (l : List (Ident × List Tok)) : List Tok := l.flatMap fun p => .str p.1 :: p.2

/-- a path as it is fed to a hasher -/
def hashPath (p : TreePath) : List Tok := .len p.length :: p.map .str

def fnDisc : ConstFn → Nat
  | .icon => 0 | .matrix => 1 | .newlist => 2 | .sound => 3 | .filter => 4 | .file => 5 | .generator => 6 | .vector => 7

def CArgs.length : CArgs → Nat
  | .nil => 0
  | .pos _ r => r.length + 1
  | .kw _ _ r => r.length + 1

mutual
/-- `Constant::hash` (constants.rs:115-126) with `Pop::hash` (constants.rs:47-56) -/
def Cst.hash : Cst → List Tok
  | .null none => [.disc 0, .disc 0]
  | .null (some p) => .disc 0 :: .disc 1 :: hashPath p
  | .newImplicit h a => .disc 1 :: .disc 0 :: (if h then .disc 1 :: .len a.length :: a.hash else [.disc 0])
  | .newPrefab p v h a =>
    .disc 1 :: .disc 1 :: (hashPath p ++ (feedItems (sortItems v.items) ++
      (if h then .disc 1 :: .len a.length :: a.hash else [.disc 0])))
  | .list a => .disc 2 :: .len a.length :: a.hash
  | .call f a => .disc 3 :: .disc (fnDisc f) :: .len a.length :: a.hash
  | .prefab p v => .disc 4 :: (hashPath p ++ feedItems (sortItems v.items))
  | .string s => [.disc 5, .str s]
  | .resource s => [.disc 6, .str s]
  | .float f => [.disc 7, .flt f.canon]
def CArgs.hash : CArgs → List Tok
  | .nil => []
  | .pos c r => c.hash ++ (.disc 0 :: r.hash)
  | .kw k v r => k.hash ++ (.disc 1 :: (v.hash ++ r.hash))
/-- the entries of a map, each with what it feeds -/
def CVars.items : CVars → List (Ident × List Tok)
  | .nil => []
  | .cons k c r => (k, c.hash) :: r.items
end

mutual
/-- the maps inside have no name twice, as is the case for every `IndexMap` -/
def Cst.WF : Cst → Prop
  | .newImplicit _ a => a.WF
  | .newPrefab _ v _ a => v.WF ∧ a.WF
  | .list a => a.WF
  | .call _ a => a.WF
  | .prefab _ v => v.WF
  | _ => True
def CArgs.WF : CArgs → Prop
  | .nil => True
  | .pos c r => c.WF ∧ r.WF
  | .kw k v r => k.WF ∧ v.WF ∧ r.WF
def CVars.WF : CVars → Prop
  | .nil => True
  | .cons k c r => r.get k = none ∧ c.WF ∧ r.WF
end

/-! ## Induction -/

def CVars.entries : CVars → List (Ident × Cst)
  | .nil => []
  | .cons k c r => (k, c) :: r.entries

/-- the constants among arguments -/
def CArgs.all : CArgs → List Cst
  | .nil => []
  | .pos c r => c :: r.all
  | .kw k v r => k :: v :: r.all

section
variable {P : Cst → Prop}
  (null : ∀ h, P (.null h))
  (newImplicit : ∀ h a, (∀ c ∈ a.all, P c) → P (.newImplicit h a))
  (newPrefab : ∀ p v h a, (∀ q ∈ v.entries, P q.2) → (∀ c ∈ a.all, P c) → P (.newPrefab p v h a))
  (list : ∀ a, (∀ c ∈ a.all, P c) → P (.list a))
  (call : ∀ f a, (∀ c ∈ a.all, P c) → P (.call f a))
  (prefab : ∀ p v, (∀ q ∈ v.entries, P q.2) → P (.prefab p v))
  (string : ∀ s, P (.string s))
  (resource : ∀ s, P (.resource s))
  (float : ∀ f, P (.float f))

include null newImplicit newPrefab list call prefab string resource float

theorem Cst.ind (c : Cst) : P c := by
  refine Cst.rec (motive_1 := P) (motive_2 := fun a => ∀ c ∈ a.all, P c)
    (motive_3 := fun v => ∀ q ∈ v.entries, P q.2) null ?_ ?_ ?_ ?_ ?_ string resource float ?_ ?_ ?_ ?_ ?_ c
  · intro h a ih; exact newImplicit h a ih
  · intro p v h a ih1 ih2; exact newPrefab p v h a ih1 ih2
  · intro a ih; exact list a ih
  · intro f a ih; exact call f a ih
  · intro p v ih; exact prefab p v ih
  · intro c hc; cases hc
  · intro c r h1 h2 c' hc'
    rcases List.mem_cons.1 hc' with rfl | hc'
    · exact h1
    · exact h2 c' hc'
  · intro k v r h1 h2 h3 c' hc'
    rcases List.mem_cons.1 hc' with rfl | hc'
    · exact h1
    · rcases List.mem_cons.1 hc' with rfl | hc'
      · exact h2
      · exact h3 c' hc'
  · intro q hq; cases hq
  · intro k c r h1 h2 q hq
    rcases List.mem_cons.1 hq with rfl | hq
    · exact h1
    · exact h2 q hq
end

/-! ## Maps -/

def CVars.keys (v : CVars) : List Ident := v.entries.map (·.1)

theorem CVars.length_keys : ∀ v : CVars, v.keys.length = v.length
  | .nil => rfl
  | .cons k c r => by
    have := CVars.length_keys r
    simp only [CVars.keys, CVars.entries, List.map_cons, List.length_cons, CVars.length] at this ⊢
    omega

theorem CVars.get_none_iff (k : Ident) : ∀ v : CVars, v.get k = none ↔ k ∉ v.keys
  | .nil => by simp [CVars.get, CVars.keys, CVars.entries]
  | .cons k' c r => by
    have := CVars.get_none_iff k r
    simp only [CVars.get, CVars.keys, CVars.entries, List.map_cons, List.mem_cons, not_or]
    by_cases h : k = k'
    · simp [h]
    · simp only [h, if_false, not_false_eq_true, true_and]; exact this

theorem CVars.WF.nodup : ∀ {v : CVars}, v.WF → v.keys.Nodup
  | .nil, _ => by simp [CVars.keys, CVars.entries]
  | .cons k c r, h => by
    simp only [CVars.WF] at h
    simp only [CVars.keys, CVars.entries, List.map_cons, List.nodup_cons]
    exact ⟨(CVars.get_none_iff k r).1 h.1, CVars.WF.nodup h.2.2⟩

theorem CVars.WF.entry : ∀ {v : CVars}, v.WF → ∀ q ∈ v.entries, q.2.WF
  | .nil, _, _, hq => by cases hq
  | .cons k c r, h, q, hq => by
    simp only [CVars.WF] at h
    rcases List.mem_cons.1 hq with rfl | hq
    · exact h.2.1
    · exact CVars.WF.entry h.2.2 q hq

theorem CVars.mem_of_get (k : Ident) (c : Cst) : ∀ v : CVars, v.get k = some c → (k, c) ∈ v.entries
  | .nil, h => by cases h
  | .cons k' c' r, h => by
    simp only [CVars.get] at h
    by_cases hk : k = k'
    · rw [if_pos hk] at h
      cases h
      simp [CVars.entries, hk]
    · rw [if_neg hk] at h
      exact List.mem_cons_of_mem _ (CVars.mem_of_get k c r h)

theorem CVars.get_of_mem (k : Ident) (c : Cst) : ∀ v : CVars, v.WF → (k, c) ∈ v.entries → v.get k = some c
  | .nil, _, h => by cases h
  | .cons k' c' r, hw, h => by
    simp only [CVars.WF] at hw
    simp only [CVars.get]
    rcases List.mem_cons.1 h with h1 | h1
    · cases h1; simp
    · have hk : k ≠ k' := by
        rintro rfl
        exact (CVars.get_none_iff k r).1 hw.1 (List.mem_map.2 ⟨(k, c), h1, rfl⟩)
      rw [if_neg hk]
      exact CVars.get_of_mem k c r hw.2.2 h1

theorem CVars.sub_iff (m : CVars) : ∀ v : CVars, v.sub m = true ↔
    ∀ q ∈ v.entries, ∃ c', m.get q.1 = some c' ∧ q.2.beq c' = true
  | .nil => by simp [CVars.sub, CVars.entries]
  | .cons k c r => by
    have ih := CVars.sub_iff m r
    simp only [CVars.sub, CVars.entries, Bool.and_eq_true, List.forall_mem_cons, ih]
    constructor
    · rintro ⟨h1, h2⟩
      refine ⟨?_, h2⟩
      cases hm : m.get k with
      | none => rw [hm] at h1; cases h1
      | some c' => rw [hm] at h1; exact ⟨c', rfl, h1⟩
    · rintro ⟨⟨c', hc', hb⟩, h2⟩
      refine ⟨?_, h2⟩
      rw [hc']
      exact hb

theorem CVars.sub_keys {v m : CVars} (h : v.sub m = true) : v.keys ⊆ m.keys := by
  intro k hk
  obtain ⟨q, hq, rfl⟩ := List.mem_map.1 hk
  obtain ⟨c', hc', _⟩ := (CVars.sub_iff m v).1 h q hq
  by_contra hn
  rw [(CVars.get_none_iff _ m).2 hn] at hc'
  cases hc'

theorem CVars.keys_perm {v m : CVars} (hv : v.WF) (hl : v.length = m.length) (h : v.sub m = true) :
    v.keys.Perm m.keys := by
  refine List.Subperm.perm_of_length_le (hv.nodup.subperm (CVars.sub_keys h)) ?_
  rw [CVars.length_keys, CVars.length_keys]
  omega

theorem CArgs.WF.mem : ∀ {a : CArgs}, a.WF → ∀ c ∈ a.all, c.WF
  | .nil, _, _, hc => by cases hc
  | .pos c r, h, x, hx => by
    simp only [CArgs.WF] at h
    rcases List.mem_cons.1 hx with rfl | hx
    · exact h.1
    · exact CArgs.WF.mem h.2 x hx
  | .kw k v r, h, x, hx => by
    simp only [CArgs.WF] at h
    rcases List.mem_cons.1 hx with rfl | hx
    · exact h.1
    · rcases List.mem_cons.1 hx with rfl | hx
      · exact h.2.1
      · exact CArgs.WF.mem h.2.2 x hx

/-! ## Reflexivity -/

theorem F32.oeq_refl (f : F32) : f.oeq f = true := by
  cases f <;> simp [F32.oeq]

theorem CArgs.beq_refl : ∀ a : CArgs, (∀ c ∈ a.all, c.beq c = true) → a.beq a = true
  | .nil, _ => rfl
  | .pos c r, h => by
    simp only [CArgs.all, List.forall_mem_cons] at h
    simp only [CArgs.beq, h.1, CArgs.beq_refl r h.2, Bool.and_self]
  | .kw k v r, h => by
    simp only [CArgs.all, List.forall_mem_cons] at h
    simp only [CArgs.beq, h.1, h.2.1, CArgs.beq_refl r h.2.2, Bool.and_self]

theorem CVars.sub_refl {v : CVars} (hv : v.WF) (h : ∀ q ∈ v.entries, q.2.beq q.2 = true) : v.sub v = true :=
  (CVars.sub_iff v v).2 fun q hq => ⟨q.2, CVars.get_of_mem q.1 q.2 v hv hq, h q hq⟩

theorem Cst.beq_refl (c : Cst) (hc : c.WF) : c.beq c = true := by
  revert hc
  refine Cst.ind (P := fun c => c.WF → c.beq c = true) ?_ ?_ ?_ ?_ ?_ ?_ ?_ ?_ ?_ c
  · intro h _; simp [Cst.beq]
  · intro h a ih hw
    simp only [Cst.WF] at hw
    simp [Cst.beq, CArgs.beq_refl a fun c hc => ih c hc (hw.mem c hc)]
  · intro p v h a ih1 ih2 hw
    simp only [Cst.WF] at hw
    simp [Cst.beq, CArgs.beq_refl a fun c hc => ih2 c hc (hw.2.mem c hc),
      CVars.sub_refl hw.1 fun q hq => ih1 q hq (hw.1.entry q hq)]
  · intro a ih hw
    simp only [Cst.WF] at hw
    simp [Cst.beq, CArgs.beq_refl a fun c hc => ih c hc (hw.mem c hc)]
  · intro f a ih hw
    simp only [Cst.WF] at hw
    simp [Cst.beq, CArgs.beq_refl a fun c hc => ih c hc (hw.mem c hc)]
  · intro p v ih hw
    simp only [Cst.WF] at hw
    simp [Cst.beq, CVars.sub_refl hw fun q hq => ih q hq (hw.entry q hq)]
  · intro s _; simp [Cst.beq]
  · intro s _; simp [Cst.beq]
  · intro f _; simp [Cst.beq, F32.oeq_refl]

/-! ## Symmetry -/

theorem F32.oeq_symm {f g : F32} (h : f.oeq g = true) : g.oeq f = true := by
  cases f <;> cases g <;> simp_all [F32.oeq]

theorem CArgs.beq_symm : ∀ a b : CArgs, a.WF → b.WF →
    (∀ c ∈ a.all, ∀ d : Cst, c.WF → d.WF → c.beq d = true → d.beq c = true) → a.beq b = true → b.beq a = true
  | .nil, .nil, _, _, _, _ => rfl
  | .nil, .pos _ _, _, _, _, h => by cases h
  | .nil, .kw _ _ _, _, _, _, h => by cases h
  | .pos _ _, .nil, _, _, _, h => by cases h
  | .pos _ _, .kw _ _ _, _, _, _, h => by cases h
  | .kw _ _ _, .nil, _, _, _, h => by cases h
  | .kw _ _ _, .pos _ _, _, _, _, h => by cases h
  | .pos c r, .pos c' r', hw, hw', ih, h => by
    simp only [CArgs.all, List.forall_mem_cons] at ih
    simp only [CArgs.WF] at hw hw'
    simp only [CArgs.beq, Bool.and_eq_true] at h ⊢
    exact ⟨ih.1 c' hw.1 hw'.1 h.1, CArgs.beq_symm r r' hw.2 hw'.2 ih.2 h.2⟩
  | .kw k v r, .kw k' v' r', hw, hw', ih, h => by
    simp only [CArgs.all, List.forall_mem_cons] at ih
    simp only [CArgs.WF] at hw hw'
    simp only [CArgs.beq, Bool.and_eq_true] at h ⊢
    exact ⟨⟨ih.1 k' hw.1 hw'.1 h.1.1, ih.2.1 v' hw.2.1 hw'.2.1 h.1.2⟩, CArgs.beq_symm r r' hw.2.2 hw'.2.2 ih.2.2 h.2⟩

theorem CVars.sub_symm {v m : CVars} (hv : v.WF) (hm : m.WF)
    (ih : ∀ q ∈ v.entries, ∀ d : Cst, q.2.WF → d.WF → q.2.beq d = true → d.beq q.2 = true)
    (hl : v.length = m.length) (h : v.sub m = true) : m.sub v = true := by
  rw [CVars.sub_iff]
  rintro ⟨k, c'⟩ hq
  have hk : k ∈ v.keys := (CVars.keys_perm hv hl h).symm.subset (List.mem_map.2 ⟨_, hq, rfl⟩)
  obtain ⟨⟨k1, c⟩, hq1, hk1⟩ := List.mem_map.1 hk
  simp only at hk1
  subst hk1
  obtain ⟨c2, hc2, hb⟩ := (CVars.sub_iff m v).1 h _ hq1
  have : c2 = c' := by
    have := CVars.get_of_mem _ _ m hm hq
    rw [this] at hc2
    exact (Option.some.inj hc2).symm
  subst this
  exact ⟨c, CVars.get_of_mem _ _ v hv hq1, ih _ hq1 _ (hv.entry _ hq1) (hm.entry _ hq) hb⟩

theorem Cst.beq_symm (c d : Cst) (hc : c.WF) (hd : d.WF) (h : c.beq d = true) : d.beq c = true := by
  revert hc hd h d
  refine Cst.ind (P := fun c => ∀ d : Cst, c.WF → d.WF → c.beq d = true → d.beq c = true) ?_ ?_ ?_ ?_ ?_ ?_ ?_ ?_ ?_ c
  · intro p d _ _ h
    cases d <;> simp [Cst.beq] at h ⊢
    exact h.symm
  · intro b a ih d hw hw' h
    cases d <;> simp [Cst.beq] at h ⊢
    simp only [Cst.WF] at hw hw'
    exact ⟨h.1.symm, CArgs.beq_symm _ _ hw hw' ih h.2⟩
  · intro p v b a ih1 ih2 d hw hw' h
    cases d <;> simp [Cst.beq] at h ⊢
    simp only [Cst.WF] at hw hw'
    exact ⟨⟨⟨h.1.1.1.symm, h.1.1.2.1.symm, CVars.sub_symm hw.1 hw'.1 ih1 h.1.1.2.1 h.1.1.2.2⟩, h.1.2.symm⟩,
      CArgs.beq_symm _ _ hw.2 hw'.2 ih2 h.2⟩
  · intro a ih d hw hw' h
    cases d <;> simp [Cst.beq] at h ⊢
    simp only [Cst.WF] at hw hw'
    exact CArgs.beq_symm _ _ hw hw' ih h
  · intro f a ih d hw hw' h
    cases d <;> simp [Cst.beq] at h ⊢
    simp only [Cst.WF] at hw hw'
    exact ⟨h.1.symm, CArgs.beq_symm _ _ hw hw' ih h.2⟩
  · intro p v ih d hw hw' h
    cases d <;> simp [Cst.beq] at h ⊢
    simp only [Cst.WF] at hw hw'
    exact ⟨h.1.symm, h.2.1.symm, CVars.sub_symm hw hw' ih h.2.1 h.2.2⟩
  · intro s d _ _ h
    cases d <;> simp [Cst.beq] at h ⊢
    exact h.symm
  · intro s d _ _ h
    cases d <;> simp [Cst.beq] at h ⊢
    exact h.symm
  · intro f d _ _ h
    cases d <;> simp only [Cst.beq, Bool.false_eq_true] at h ⊢
    exact F32.oeq_symm h

/-! ## Transitivity -/

theorem F32.oeq_trans {f g k : F32} (h : f.oeq g = true) (h' : g.oeq k = true) : f.oeq k = true := by
  cases f <;> cases g <;> cases k <;> simp_all [F32.oeq]

theorem CArgs.beq_trans : ∀ a b d : CArgs,
    (∀ c ∈ a.all, ∀ x y : Cst, c.beq x = true → x.beq y = true → c.beq y = true) → a.beq b = true → b.beq d = true →
      a.beq d = true
  | .nil, b, d, _, h, h' => by
    cases b <;> simp only [CArgs.beq, Bool.false_eq_true] at h
    exact h'
  | .pos c r, b, d, ih, h, h' => by
    cases b <;> simp only [CArgs.beq, Bool.false_eq_true, Bool.and_eq_true] at h
    cases d <;> simp only [CArgs.beq, Bool.false_eq_true, Bool.and_eq_true] at h' ⊢
    simp only [CArgs.all, List.forall_mem_cons] at ih
    exact ⟨ih.1 _ _ h.1 h'.1, CArgs.beq_trans r _ _ ih.2 h.2 h'.2⟩
  | .kw k v r, b, d, ih, h, h' => by
    cases b <;> simp only [CArgs.beq, Bool.false_eq_true, Bool.and_eq_true] at h
    cases d <;> simp only [CArgs.beq, Bool.false_eq_true, Bool.and_eq_true] at h' ⊢
    simp only [CArgs.all, List.forall_mem_cons] at ih
    exact ⟨⟨ih.1 _ _ h.1.1 h'.1.1, ih.2.1 _ _ h.1.2 h'.1.2⟩, CArgs.beq_trans r _ _ ih.2.2 h.2 h'.2⟩

theorem CVars.sub_trans {v m w : CVars}
    (ih : ∀ q ∈ v.entries, ∀ x y : Cst, q.2.beq x = true → x.beq y = true → q.2.beq y = true)
    (h : v.sub m = true) (h' : m.sub w = true) : v.sub w = true := by
  rw [CVars.sub_iff] at h h' ⊢
  intro q hq
  obtain ⟨c1, hc1, hb1⟩ := h q hq
  obtain ⟨c2, hc2, hb2⟩ := h' (q.1, c1) (CVars.mem_of_get _ _ _ hc1)
  exact ⟨c2, hc2, ih q hq _ _ hb1 hb2⟩

theorem Cst.beq_trans (c d e : Cst) (h : c.beq d = true) (h' : d.beq e = true) : c.beq e = true := by
  revert h h' d e
  refine Cst.ind (P := fun c => ∀ d e : Cst, c.beq d = true → d.beq e = true → c.beq e = true) ?_ ?_ ?_ ?_ ?_ ?_ ?_ ?_ ?_ c
  · intro p d e h h'
    cases d <;> simp [Cst.beq] at h
    cases e <;> simp [Cst.beq] at h' ⊢
    exact h.trans h'
  · intro b a ih d e h h'
    cases d <;> simp [Cst.beq] at h
    cases e <;> simp [Cst.beq] at h' ⊢
    exact ⟨h.1.trans h'.1, CArgs.beq_trans _ _ _ ih h.2 h'.2⟩
  · intro p v b a ih1 ih2 d e h h'
    cases d <;> simp [Cst.beq] at h
    cases e <;> simp [Cst.beq] at h' ⊢
    exact ⟨⟨⟨h.1.1.1.trans h'.1.1.1, h.1.1.2.1.trans h'.1.1.2.1, CVars.sub_trans ih1 h.1.1.2.2 h'.1.1.2.2⟩,
      h.1.2.trans h'.1.2⟩, CArgs.beq_trans _ _ _ ih2 h.2 h'.2⟩
  · intro a ih d e h h'
    cases d <;> simp [Cst.beq] at h
    cases e <;> simp [Cst.beq] at h' ⊢
    exact CArgs.beq_trans _ _ _ ih h h'
  · intro f a ih d e h h'
    cases d <;> simp [Cst.beq] at h
    cases e <;> simp [Cst.beq] at h' ⊢
    exact ⟨h.1.trans h'.1, CArgs.beq_trans _ _ _ ih h.2 h'.2⟩
  · intro p v ih d e h h'
    cases d <;> simp [Cst.beq] at h
    cases e <;> simp [Cst.beq] at h' ⊢
    exact ⟨h.1.trans h'.1, h.2.1.trans h'.2.1, CVars.sub_trans ih h.2.2 h'.2.2⟩
  · intro s d e h h'
    cases d <;> simp [Cst.beq] at h
    cases e <;> simp [Cst.beq] at h' ⊢
    exact h.trans h'
  · intro s d e h h'
    cases d <;> simp [Cst.beq] at h
    cases e <;> simp [Cst.beq] at h' ⊢
    exact h.trans h'
  · intro f d e h h'
    cases d <;> simp only [Cst.beq, Bool.false_eq_true] at h
    cases e <;> simp only [Cst.beq, Bool.false_eq_true] at h' ⊢
    exact F32.oeq_trans h h'

/-! ## Hashing -/

theorem F32.canon_eq {f g : F32} (hf : ∀ s m, f = .fin s m → 0 ≤ m) (hg : ∀ s m, g = .fin s m → 0 ≤ m)
    (h : f.oeq g = true) : f.canon = g.canon := by
  cases f with
  | nan => cases g <;> simp [F32.oeq] at h ⊢
  | inf s => cases g <;> simp [F32.oeq] at h ⊢; rw [h]
  | fin s m =>
    cases g with
    | nan => simp [F32.oeq] at h
    | inf t => simp [F32.oeq] at h
    | fin t n =>
      have hm := hf s m rfl
      have hn := hg t n rfl
      simp only [F32.oeq] at h
      replace h := of_decide_eq_true h
      unfold F32.sgn at h
      simp only [F32.canon]
      cases s <;> cases t <;> simp only [Bool.false_eq_true, if_false, if_true] at h
      · rw [h]
      · have h1 : m = 0 := by linarith
        have h2 : n = 0 := by linarith
        rw [if_pos h1, if_pos h2]
      · have h1 : m = 0 := by linarith
        have h2 : n = 0 := by linarith
        rw [if_pos h1, if_pos h2]
      · have : m = n := by linarith
        rw [this]

theorem strLe_total : ∀ a b : List Char, (strLe a b || strLe b a) = true
  | [], _ => rfl
  | _ :: _, [] => rfl
  | x :: s, y :: t => by
    have := strLe_total s t
    simp only [strLe]
    by_cases h1 : x.toNat < y.toNat
    · simp [h1]
    · by_cases h2 : y.toNat < x.toNat
      · simp [h2]
      · simp [h1, h2, this]

theorem strLe_trans : ∀ a b c : List Char, strLe a b = true → strLe b c = true → strLe a c = true
  | [], _, _, _, _ => by simp [strLe]
  | _ :: _, [], _, h, _ => by simp [strLe] at h
  | _ :: _, _ :: _, [], _, h => by simp [strLe] at h
  | x :: s, y :: t, z :: u, h, h' => by
    simp only [strLe] at h h' ⊢
    split_ifs at h h' ⊢ <;> first | rfl | omega | exact strLe_trans s t u h h'

theorem strLe_antisymm : ∀ a b : List Char, strLe a b = true → strLe b a = true → a = b
  | [], [], _, _ => rfl
  | [], _ :: _, _, h => by simp [strLe] at h
  | _ :: _, [], h, _ => by simp [strLe] at h
  | x :: s, y :: t, h, h' => by
    simp only [strLe] at h h'
    by_cases h1 : x.toNat < y.toNat
    · simp [h1, Nat.lt_asymm h1] at h'
    · by_cases h2 : y.toNat < x.toNat
      · simp [h1, h2] at h
      · simp only [h1, h2, if_false] at h h'
        have hxy : x = y := Char.toNat_inj.1 (by omega)
        rw [hxy, strLe_antisymm s t h h']

/-- sorted by distinct names, a list is determined by its elements -/
theorem sortItems_eq {l l' : List (Ident × List Tok)} (hl : (l.map (·.1)).Nodup) (h : l.Perm l') :
    sortItems l = sortItems l' := by
  have htr : ∀ a b c : Ident × List Tok, strLe a.1 b.1 = true → strLe b.1 c.1 = true → strLe a.1 c.1 = true :=
    fun a b c => strLe_trans _ _ _
  have htot : ∀ a b : Ident × List Tok, (strLe a.1 b.1 || strLe b.1 a.1) = true := fun a b => strLe_total _ _
  have s1 := List.pairwise_mergeSort htr htot l
  have s2 := List.pairwise_mergeSort htr htot l'
  have p1 : (sortItems l).Perm l := List.mergeSort_perm l _
  have p2 : (sortItems l').Perm l' := List.mergeSort_perm l' _
  refine List.Perm.eq_of_pairwise ?_ s1 s2 (p1.trans (h.trans p2.symm))
  intro a b ha hb hab hba
  have hk : a.1 = b.1 := strLe_antisymm _ _ hab hba
  have ha' : a ∈ l := p1.subset ha
  have hb' : b ∈ l := h.symm.subset (p2.subset hb)
  exact List.inj_on_of_nodup_map hl ha' hb' hk

theorem CVars.items_eq : ∀ v : CVars, v.items = v.entries.map fun q => (q.1, q.2.hash)
  | .nil => rfl
  | .cons k c r => by simp only [CVars.items, CVars.entries, List.map_cons, CVars.items_eq r]

theorem CVars.items_keys (v : CVars) : v.items.map (·.1) = v.keys := by
  rw [CVars.items_eq, List.map_map]
  rfl

theorem CArgs.beq_length : ∀ a b : CArgs, a.beq b = true → a.length = b.length
  | .nil, b, h => by cases b <;> simp only [CArgs.beq, Bool.false_eq_true] at h; rfl
  | .pos c r, b, h => by
    cases b <;> simp only [CArgs.beq, Bool.false_eq_true, Bool.and_eq_true] at h
    simp only [CArgs.length, CArgs.beq_length r _ h.2]
  | .kw k v r, b, h => by
    cases b <;> simp only [CArgs.beq, Bool.false_eq_true, Bool.and_eq_true] at h
    simp only [CArgs.length, CArgs.beq_length r _ h.2]

mutual
/-- the magnitudes of the numbers inside are not negative, as is the case for every `f32` -/
def Cst.Proper : Cst → Prop
  | .newImplicit _ a => a.Proper
  | .newPrefab _ v _ a => v.Proper ∧ a.Proper
  | .list a => a.Proper
  | .call _ a => a.Proper
  | .prefab _ v => v.Proper
  | .float f => ∀ s m, f = .fin s m → 0 ≤ m
  | _ => True
def CArgs.Proper : CArgs → Prop
  | .nil => True
  | .pos c r => c.Proper ∧ r.Proper
  | .kw k v r => k.Proper ∧ v.Proper ∧ r.Proper
def CVars.Proper : CVars → Prop
  | .nil => True
  | .cons _ c r => c.Proper ∧ r.Proper
end

theorem CVars.Proper.entry : ∀ {v : CVars}, v.Proper → ∀ q ∈ v.entries, q.2.Proper
  | .nil, _, _, hq => by cases hq
  | .cons k c r, h, q, hq => by
    simp only [CVars.Proper] at h
    rcases List.mem_cons.1 hq with rfl | hq
    · exact h.1
    · exact CVars.Proper.entry h.2 q hq

/-- what is asked of a constant -/
def Cst.Good (c : Cst) : Prop := c.WF ∧ c.Proper

theorem CArgs.hash_eq : ∀ a b : CArgs, (a.WF ∧ a.Proper) → (b.WF ∧ b.Proper) →
    (∀ c ∈ a.all, ∀ d : Cst, c.Good → d.Good → c.beq d = true → c.hash = d.hash) → a.beq b = true → a.hash = b.hash
  | .nil, b, _, _, _, h => by cases b <;> simp only [CArgs.beq, Bool.false_eq_true] at h; rfl
  | .pos c r, b, hw, hw', ih, h => by
    cases b <;> simp only [CArgs.beq, Bool.false_eq_true, Bool.and_eq_true] at h
    simp only [CArgs.all, List.forall_mem_cons] at ih
    simp only [CArgs.WF, CArgs.Proper] at hw hw'
    simp only [CArgs.hash, ih.1 _ ⟨hw.1.1, hw.2.1⟩ ⟨hw'.1.1, hw'.2.1⟩ h.1,
      CArgs.hash_eq r _ ⟨hw.1.2, hw.2.2⟩ ⟨hw'.1.2, hw'.2.2⟩ ih.2 h.2]
  | .kw k v r, b, hw, hw', ih, h => by
    cases b <;> simp only [CArgs.beq, Bool.false_eq_true, Bool.and_eq_true] at h
    simp only [CArgs.all, List.forall_mem_cons] at ih
    simp only [CArgs.WF, CArgs.Proper] at hw hw'
    simp only [CArgs.hash, ih.1 _ ⟨hw.1.1, hw.2.1⟩ ⟨hw'.1.1, hw'.2.1⟩ h.1.1,
      ih.2.1 _ ⟨hw.1.2.1, hw.2.2.1⟩ ⟨hw'.1.2.1, hw'.2.2.1⟩ h.1.2,
      CArgs.hash_eq r _ ⟨hw.1.2.2, hw.2.2.2⟩ ⟨hw'.1.2.2, hw'.2.2.2⟩ ih.2.2 h.2]

theorem CVars.hash_eq {v m : CVars} (hv : v.WF ∧ v.Proper) (hm : m.WF ∧ m.Proper)
    (ih : ∀ q ∈ v.entries, ∀ d : Cst, q.2.Good → d.Good → q.2.beq d = true → q.2.hash = d.hash)
    (hl : v.length = m.length) (h : v.sub m = true) : sortItems v.items = sortItems m.items := by
  have hnd : (v.items.map (·.1)).Nodup := by rw [CVars.items_keys]; exact hv.1.nodup
  refine sortItems_eq hnd ?_
  refine List.Subperm.perm_of_length_le ((List.Nodup.of_map _ hnd).subperm ?_) ?_
  · intro x hx
    rw [CVars.items_eq, List.mem_map] at hx
    obtain ⟨q, hq, rfl⟩ := hx
    obtain ⟨c', hc', hb⟩ := (CVars.sub_iff m v).1 h q hq
    have hmem := CVars.mem_of_get _ _ _ hc'
    rw [CVars.items_eq, List.mem_map]
    refine ⟨(q.1, c'), hmem, ?_⟩
    rw [ih q hq c' ⟨hv.1.entry q hq, hv.2.entry q hq⟩ ⟨hm.1.entry _ hmem, hm.2.entry _ hmem⟩ hb]
  · have e1 := congrArg List.length (CVars.items_keys v)
    have e2 := congrArg List.length (CVars.items_keys m)
    rw [List.length_map, CVars.length_keys] at e1 e2
    omega

theorem Cst.hash_eq (c d : Cst) (hc : c.Good) (hd : d.Good) (h : c.beq d = true) : c.hash = d.hash := by
  revert hc hd h d
  unfold Cst.Good
  refine Cst.ind (P := fun c => ∀ d : Cst, c.WF ∧ c.Proper → d.WF ∧ d.Proper → c.beq d = true → c.hash = d.hash)
    ?_ ?_ ?_ ?_ ?_ ?_ ?_ ?_ ?_ c
  · intro p d _ _ h
    cases d <;> simp only [Cst.beq, Bool.false_eq_true, decide_eq_true_eq] at h
    rw [h]
  · intro b a ih d hw hw' h
    cases d <;> simp only [Cst.beq, Bool.false_eq_true, Bool.and_eq_true, beq_iff_eq] at h
    simp only [Cst.WF, Cst.Proper] at hw hw'
    simp only [Cst.hash, h.1, CArgs.beq_length _ _ h.2, CArgs.hash_eq _ _ hw hw' ih h.2]
  · intro p v b a ih1 ih2 d hw hw' h
    cases d <;> simp only [Cst.beq, Bool.false_eq_true, Bool.and_eq_true, beq_iff_eq, decide_eq_true_eq] at h
    simp only [Cst.WF, Cst.Proper] at hw hw'
    simp only [Cst.hash, h.1.1.1, h.1.2, CArgs.beq_length _ _ h.2,
      CArgs.hash_eq _ _ ⟨hw.1.2, hw.2.2⟩ ⟨hw'.1.2, hw'.2.2⟩ ih2 h.2,
      CVars.hash_eq ⟨hw.1.1, hw.2.1⟩ ⟨hw'.1.1, hw'.2.1⟩ ih1 h.1.1.2.1 h.1.1.2.2]
  · intro a ih d hw hw' h
    cases d <;> simp only [Cst.beq, Bool.false_eq_true] at h
    simp only [Cst.WF, Cst.Proper] at hw hw'
    simp only [Cst.hash, CArgs.beq_length _ _ h, CArgs.hash_eq _ _ hw hw' ih h]
  · intro f a ih d hw hw' h
    cases d <;> simp only [Cst.beq, Bool.false_eq_true, Bool.and_eq_true, decide_eq_true_eq] at h
    simp only [Cst.WF, Cst.Proper] at hw hw'
    simp only [Cst.hash, h.1, CArgs.beq_length _ _ h.2, CArgs.hash_eq _ _ hw hw' ih h.2]
  · intro p v ih d hw hw' h
    cases d <;> simp only [Cst.beq, Bool.false_eq_true, Bool.and_eq_true, beq_iff_eq, decide_eq_true_eq] at h
    simp only [Cst.WF, Cst.Proper] at hw hw'
    simp only [Cst.hash, h.1, CVars.hash_eq hw hw' ih h.2.1 h.2.2]
  · intro s d _ _ h
    cases d <;> simp only [Cst.beq, Bool.false_eq_true, decide_eq_true_eq] at h
    rw [h]
  · intro s d _ _ h
    cases d <;> simp only [Cst.beq, Bool.false_eq_true, decide_eq_true_eq] at h
    rw [h]
  · intro f d hw hw' h
    cases d <;> simp only [Cst.beq, Bool.false_eq_true] at h
    simp only [Cst.Proper] at hw hw'
    simp only [Cst.hash, F32.canon_eq hw.2 hw'.2 h]

/-! ## The property -/

/-- **C53** equality of constants is an equivalence relation, NaN included -/
theorem constant_eq_equivalence :
    (∀ c : Cst, c.Good → c.beq c = true) ∧
      (∀ c d : Cst, c.Good → d.Good → c.beq d = true → d.beq c = true) ∧
      (∀ c d e : Cst, c.beq d = true → d.beq e = true → c.beq e = true) :=
  ⟨fun c h => Cst.beq_refl c h.1, fun c d h h' => Cst.beq_symm c d h.1 h'.1, Cst.beq_trans⟩

/-- **C53** equal constants feed the same data to the hasher, whatever the order of their variables -/
theorem constant_eq_hash (c d : Cst) (hc : c.Good) (hd : d.Good) (h : c.beq d = true) : c.hash = d.hash :=
  Cst.hash_eq c d hc hd h

/-- **C53** two prefabs are equal exactly when they have the same path and the same values for the same names -/
theorem prefab_eq_iff (p q : TreePath) (v w : CVars) (hv : v.WF) (hw : w.WF) :
    (Cst.prefab p v).beq (.prefab q w) = true ↔
      p = q ∧ ∀ k, match v.get k, w.get k with
        | none, none => True
        | some a, some b => a.beq b = true
        | _, _ => False := by
  simp only [Cst.beq, Bool.and_eq_true, decide_eq_true_eq, beq_iff_eq]
  constructor
  · rintro ⟨rfl, hl, hs⟩
    refine ⟨rfl, fun k => ?_⟩
    have hp := CVars.keys_perm hv hl hs
    cases hk : v.get k with
    | none =>
      have : w.get k = none := by
        rw [CVars.get_none_iff] at hk ⊢
        exact fun hm => hk (hp.symm.subset hm)
      rw [this]
      trivial
    | some a =>
      obtain ⟨c', hc', hb⟩ := (CVars.sub_iff w v).1 hs _ (CVars.mem_of_get k a v hk)
      simp only at hc' hb
      rw [hc']
      exact hb
  · rintro ⟨rfl, h⟩
    have sub : v.sub w = true := by
      rw [CVars.sub_iff]
      intro q hq
      have h1 := CVars.get_of_mem q.1 q.2 v hv hq
      have := h q.1
      rw [h1] at this
      cases hw : w.get q.1 with
      | none => rw [hw] at this; exact this.elim
      | some b => rw [hw] at this; exact ⟨b, rfl, this⟩
    have sub2 : w.keys ⊆ v.keys := by
      intro k hk
      by_contra hn
      have h1 := (CVars.get_none_iff k v).2 hn
      have := h k
      rw [h1] at this
      cases hw : w.get k with
      | none => exact (CVars.get_none_iff k w).1 hw hk
      | some b => rw [hw] at this; exact this.elim
    refine ⟨rfl, ?_, sub⟩
    have l1 := (hv.nodup.subperm (CVars.sub_keys sub)).length_le
    have l2 := (hw.nodup.subperm sub2).length_le
    rw [CVars.length_keys, CVars.length_keys] at l1 l2
    omega

-- the order of the variables does not matter, nor does the sign of zero
def ex1 : Cst :=
  .prefab ["obj".toList] (.cons "b".toList (.float (.fin true 0)) (.cons "a".toList (.string "x".toList) .nil))
def ex2 : Cst :=
  .prefab ["obj".toList] (.cons "a".toList (.string "x".toList) (.cons "b".toList (.float (.fin false 0)) .nil))
example : ex1.beq ex2 = true := by decide +kernel
theorem ex_good : ex1.Good ∧ ex2.Good := by
  have h : "b".toList ≠ "a".toList := by decide +kernel
  constructor <;> constructor
  · simp [ex1, Cst.WF, CVars.WF, CVars.get]
  · simp [ex1, Cst.Proper, CVars.Proper]
  · simp [ex2, Cst.WF, CVars.WF, CVars.get]
  · simp [ex2, Cst.Proper, CVars.Proper]
example : ex1.hash = ex2.hash := constant_eq_hash _ _ ex_good.1 ex_good.2 (by decide +kernel)
example : (Cst.float .nan).beq (.float .nan) = true := rfl

end Verif.Const
