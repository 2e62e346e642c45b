import Verif.Decl.Parts
import Verif.Objtree.Shape
import Mathlib.Data.List.TakeWhile

/-!
# Where a path leads in the tree
-/

namespace Verif.Decl

open Verif.Objtree (Ident Builder mget)

variable {E C : Type}

abbrev Nd (E C : Type) := Objtree.Node (VarVal E) (ProcVal E C)

/-- nothing of a tree is lost in another -/
def Ext (v v' : Env E C) : Prop :=
  ∀ (i : Nat) (n : Nd E C), v.tree.inner.graph[i]? = some n →
    ∃ n' : Nd E C, v'.tree.inner.graph[i]? = some n' ∧ ∀ c j, mget c n.children = some j → mget c n'.children = some j

theorem Ext.refl (v : Env E C) : Ext v v := fun _ n h => ⟨n, h, fun _ _ h => h⟩

theorem Ext.trans {a b c : Env E C} (h : Ext a b) (h' : Ext b c) : Ext a c := by
  intro i n hn
  obtain ⟨n1, h1, k1⟩ := h i n hn
  obtain ⟨n2, h2, k2⟩ := h' i n1 h1
  exact ⟨n2, h2, fun c j hj => k2 c j (k1 c j hj)⟩

theorem lookup_ext {v v' : Env E C} (h : Ext v v') : ∀ (p : List Ident) (i j : Nat), lookup v i p = some j →
    lookup v' i p = some j := by
  intro p
  induction p with
  | nil => exact fun i j hj => hj
  | cons c cs ih =>
    intro i j hj
    unfold lookup at hj
    split at hj
    · cases hj
    · rename_i n hn
      split at hj
      · cases hj
      · rename_i k hk
        obtain ⟨n', h1, h2⟩ := h i n hn
        unfold lookup
        simp only [h1, h2 c k hk]
        exact ih k j hj

theorem lookup_append (v : Env E C) : ∀ (p q : List Ident) (i : Nat),
    lookup v i (p ++ q) = (lookup v i p).bind fun j => lookup v j q := by
  intro p
  induction p with
  | nil => intro q i; rfl
  | cons c cs ih =>
    intro q i
    simp only [List.cons_append, lookup]
    split
    · rfl
    · split
      · rfl
      · exact ih q _

theorem place_append (v : Env E C) : ∀ (p q : List Ident) (i : Nat),
    place v i (p ++ q) = (place v i p).bind fun r => place r.1 r.2 q := by
  intro p
  induction p generalizing v with
  | nil => intro q i; rfl
  | cons c cs ih =>
    intro q i
    simp only [List.cons_append, place]
    split
    · rfl
    · exact ih _ q _

theorem lookup_valid {v : Env E C} (hv : v.Sound) : ∀ (p : List Ident) (i j : Nat),
    i < v.tree.inner.graph.length → lookup v i p = some j →
    j < v.tree.inner.graph.length ∧ (p ≠ [] → j ≠ 0) := by
  intro p
  induction p with
  | nil => intro i j hi h; cases h; exact ⟨hi, fun h => absurd rfl h⟩
  | cons c cs ih =>
    intro i j hi h
    unfold lookup at h
    split at h
    · cases h
    · rename_i n hn
      split at h
      · cases h
      · rename_i k hk
        obtain ⟨h0, hl⟩ := hv.2 i n hn c k hk
        obtain ⟨h1, h2⟩ := ih k j hl h
        refine ⟨h1, fun _ => ?_⟩
        by_cases hc : cs = []
        · subst hc; cases h; omega
        · exact h2 hc

theorem subtype_ok {v : Env E C} (hv : v.Sound) {i : Nat} (hi : i < v.tree.inner.graph.length) (c : Ident) :
    ∃ v' j, v.subtype i c = some (v', j) ∧ v'.Sound ∧ Ext v v' ∧ lookup v' i [c] = some j := by
  obtain ⟨b, j, hb⟩ : ∃ b j, v.tree.subtypeOrAdd i c = some (b, j) := by
    unfold Builder.subtypeOrAdd
    rw [List.getElem?_eq_getElem hi]
    simp only
    split
    · exact ⟨_, _, rfl⟩
    · exact ⟨_, _, rfl⟩
  refine ⟨{ v with tree := b }, j, by simp only [Env.subtype, hb], ?_⟩
  obtain ⟨p, hp, ⟨hm, rfl⟩ | ⟨hm, rfl, _, _, hg, _⟩⟩ := Objtree.subtype_cases hb
  · refine ⟨hv, Ext.refl _, ?_⟩
    unfold lookup
    simp only [hp, hm]
    rfl
  · have hlen : b.inner.graph.length = v.tree.inner.graph.length + 1 := by rw [hg]; simp
    have hne : v.tree.inner.graph.length ≠ i := by omega
    have hold : ∀ (k : Nat) (n : Nd E C), v.tree.inner.graph[k]? = some n →
        b.inner.graph[k]? = some (if k = i then
          { n with children := Objtree.bset c v.tree.inner.graph.length n.children } else n) := by
      intro k n hn
      have hk := (List.getElem?_eq_some_iff.1 hn).1
      rw [hg, List.getElem?_modify, List.getElem?_append_left hk, hn]
      by_cases h : k = i
      · subst h; simp
      · have h' : ¬ i = k := fun e => h e.symm
        simp [h, h']
    have hnew : b.inner.graph[v.tree.inner.graph.length]? = some
        (Objtree.Node.mk (p.path ++ '/' :: c) p.path.length [] [] (some i) none v.tree.next []) := by
      rw [hg, List.getElem?_modify]
      simp [hne.symm]
    refine ⟨⟨?_, ?_⟩, ?_, ?_⟩
    · show 0 < b.inner.graph.length
      omega
    · intro k n hn c' j' hj
      change b.inner.graph[k]? = some n at hn
      show 0 < j' ∧ j' < b.inner.graph.length
      have hk : k < b.inner.graph.length := (List.getElem?_eq_some_iff.1 hn).1
      by_cases hk' : k = v.tree.inner.graph.length
      · subst hk'
        rw [hnew] at hn
        cases hn
        cases hj
      · have hkl : k < v.tree.inner.graph.length := by omega
        have hko := List.getElem?_eq_getElem hkl
        have := hold k _ hko
        rw [hn] at this
        cases this
        split at hj
        · rw [Objtree.mget_bset] at hj
          split at hj
          · cases hj
            have := hv.1
            omega
          · obtain ⟨h1, h2⟩ := hv.2 k _ hko c' j' hj
            omega
        · obtain ⟨h1, h2⟩ := hv.2 k _ hko c' j' hj
          omega
    · intro k n hn
      refine ⟨_, hold k n hn, ?_⟩
      intro c' j' hj
      split
      · rename_i hki
        subst hki
        have : n = p := by rw [hp] at hn; exact (Option.some.inj hn).symm
        subst this
        rw [Objtree.mget_bset, if_neg]
        · exact hj
        · rintro rfl
          rw [hm] at hj
          cases hj
      · exact hj
    · unfold lookup
      have := hold i p hp
      simp only [this, if_true]
      rw [Objtree.mget_bset, if_pos rfl]
      rfl

theorem lookup_place {v : Env E C} : ∀ (p : List Ident) (i j : Nat), lookup v i p = some j →
    place v i p = some (v, j) := by
  intro p
  induction p with
  | nil => intro i j h; cases h; rfl
  | cons c cs ih =>
    intro i j h
    unfold lookup at h
    split at h
    · cases h
    · rename_i n hn
      split at h
      · cases h
      · rename_i k hk
        have : v.subtype i c = some (v, k) := by
          simp only [Env.subtype, Builder.subtypeOrAdd, hn, hk]
        simp only [place, this]
        exact ih k j h

theorem place_ok {v : Env E C} (hv : v.Sound) (p : List Ident) : ∀ {i : Nat}, i < v.tree.inner.graph.length →
    ∃ v' j, place v i p = some (v', j) ∧ v'.Sound ∧ Ext v v' ∧ lookup v' i p = some j := by
  induction p generalizing v with
  | nil => exact fun {i} _ => ⟨v, i, rfl, hv, Ext.refl _, rfl⟩
  | cons c cs ih =>
    intro i hi
    obtain ⟨v1, j1, h1, s1, e1, l1⟩ := subtype_ok hv hi c
    have hi1 : i < v1.tree.inner.graph.length := by
      obtain ⟨n', h', _⟩ := e1 i _ (List.getElem?_eq_getElem hi)
      exact (List.getElem?_eq_some_iff.1 h').1
    obtain ⟨v2, j2, h2, s2, e2, l2⟩ := ih s1 (lookup_valid s1 _ _ _ hi1 l1).1
    refine ⟨v2, j2, ?_, s2, e1.trans e2, ?_⟩
    · simp only [place, h1]
      exact h2
    · have := lookup_append v2 [c] cs i
      rw [lookup_ext e2 _ _ _ l1] at this
      exact this.trans l2

/-- a change of one node that leaves its children alone -/
theorem modify_ok {v v' : Env E C} (hv : v.Sound) {i : Nat} {f : Nd E C → Nd E C} (hf : ∀ n, (f n).children = n.children)
    (h : v'.tree.inner.graph = v.tree.inner.graph.modify i f) : v'.Sound ∧ Ext v v' := by
  have hget : ∀ (k : Nat) (n : Nd E C), v.tree.inner.graph[k]? = some n →
      v'.tree.inner.graph[k]? = some (if k = i then f n else n) := by
    intro k n hn
    rw [h, List.getElem?_modify, hn]
    by_cases hk : k = i
    · subst hk; simp
    · have : ¬ i = k := fun e => hk e.symm
      simp [hk, this]
  have hlen : v'.tree.inner.graph.length = v.tree.inner.graph.length := by rw [h]; simp
  refine ⟨⟨by rw [hlen]; exact hv.1, ?_⟩, ?_⟩
  · intro k n hn c j hj
    have hk : k < v.tree.inner.graph.length := by
      rw [← hlen]; exact (List.getElem?_eq_some_iff.1 hn).1
    have hko := List.getElem?_eq_getElem hk
    have := hget k _ hko
    rw [hn] at this
    cases this
    rw [hlen]
    refine hv.2 k _ hko c j ?_
    split at hj
    · rw [hf] at hj; exact hj
    · exact hj
  · intro k n hn
    refine ⟨_, hget k n hn, ?_⟩
    intro c j hj
    split
    · rw [hf]; exact hj
    · exact hj

theorem insertVar_children (name : Ident) (x : VarVal E) (d : Option Nat) (n : Nd E C) :
    (Objtree.insertVar name x d n).children = n.children := by
  unfold Objtree.insertVar
  split <;> rfl

theorem declare_ok {v : Env E C} (hv : v.Sound) {i : Nat} (hi : i < v.tree.inner.graph.length) (name : Ident)
    (ty : VarTy) (init : Option (Init E)) : ∃ v', v.declare i name ty init = some v' ∧ v'.Sound ∧ Ext v v' := by
  unfold Env.declare Builder.declareVar
  rw [if_pos hi]
  simp only
  refine ⟨_, rfl, ?_⟩
  exact modify_ok hv (insertVar_children _ _ _) rfl

theorem override_ok {v : Env E C} (hv : v.Sound) {i : Nat} (hi : i < v.tree.inner.graph.length) (name : Ident)
    (e : E) : ∃ v', v.override i name e = some v' ∧ v'.Sound ∧ Ext v v' := by
  unfold Env.override Builder.overrideVar
  rw [if_pos hi]
  simp only
  refine ⟨_, rfl, ?_⟩
  exact modify_ok hv (insertVar_children _ _ _) rfl

theorem proc_ok {v : Env E C} (hv : v.Sound) {i : Nat} (hi : i < v.tree.inner.graph.length) (name : Ident)
    (decl : Option ProcB) (ret : Option Ret) (p : ProcVal E C) :
    ∃ v', v.proc i name decl ret p = some v' ∧ v'.Sound ∧ Ext v v' := by
  unfold Env.proc Builder.registerProc
  rw [List.getElem?_eq_getElem hi]
  simp only
  refine ⟨_, rfl, ?_⟩
  exact modify_ok hv (i := i) (f := fun n => { n with procs := (Objtree.iset name (Objtree.addProcValue
    ((mget name v.tree.inner.graph[i].procs).getD ⟨[], none⟩) decl.isSome v.tree.next p) n.procs) }) (fun _ => rfl) rfl

/-! ## Reading full names -/

theorem kw_ne : kw "var" ≠ kw "proc" ∧ kw "var" ≠ kw "verb" ∧ kw "proc" ≠ kw "verb" := by decide +kernel

theorem mem_keywords (w : Ident) : w ∈ keywords ↔ w = kw "var" ∨ w = kw "proc" ∨ w = kw "verb" := by
  simp only [keywords, List.map_cons, List.map_nil, List.mem_cons, List.not_mem_nil, or_false]

/-- what a keyword begins -/
def modeOf (k : Ident) (ws : List Ident) : Mode :=
  if k = kw "var" then .vars ws else if k = kw "proc" then .procs .proc ws else .procs .verb ws

theorem read_type {full : List Ident} (h : ∀ w ∈ full, w ∉ keywords) : read full = (full, .type) := by
  have : full.takeWhile (fun w => decide (w ∉ keywords)) = full := by
    rw [List.takeWhile_eq_self_iff]
    intro w hw
    exact decide_eq_true (h w hw)
  unfold read
  simp only [this, List.drop_length]

theorem read_keyword {tp ws : List Ident} {k : Ident} (h : ∀ w ∈ tp, w ∉ keywords) (hk : k ∈ keywords) :
    read (tp ++ k :: ws) = (tp, modeOf k ws) := by
  have : (tp ++ k :: ws).takeWhile (fun w => decide (w ∉ keywords)) = tp := by
    rw [List.takeWhile_append_of_pos (fun w hw => decide_eq_true (h w hw)), List.takeWhile_cons]
    simp [hk]
  unfold read
  simp only [this, List.drop_left]
  rfl

theorem read_cases (full : List Ident) : (∀ w ∈ full, w ∉ keywords) ∨
    ∃ tp k ws, full = tp ++ k :: ws ∧ (∀ w ∈ tp, w ∉ keywords) ∧ k ∈ keywords := by
  induction full with
  | nil => exact .inl (by simp)
  | cons w full ih =>
    by_cases hw : w ∈ keywords
    · exact .inr ⟨[], w, full, rfl, by simp, hw⟩
    · rcases ih with h | ⟨tp, k, ws, rfl, h1, h2⟩
      · left
        intro x hx
        rcases List.mem_cons.1 hx with rfl | hx
        · exact hw
        · exact h x hx
      · right
        refine ⟨w :: tp, k, ws, rfl, ?_, h2⟩
        intro x hx
        rcases List.mem_cons.1 hx with rfl | hx
        · exact hw
        · exact h1 x hx

/-- one more name -/
def Mode.snoc : Mode → Ident → Mode
  | .type, n => if n ∈ keywords then modeOf n [] else .type
  | .vars ws, n => .vars (ws ++ [n])
  | .procs k ws, n => .procs k (ws ++ [n])

theorem modeOf_snoc {k : Ident} (ws : List Ident) (n : Ident) : (modeOf k ws).snoc n = modeOf k (ws ++ [n]) := by
  unfold modeOf
  split
  · rfl
  · split <;> rfl

theorem modeOf_ne (k : Ident) (ws : List Ident) : modeOf k ws ≠ .type := by
  unfold modeOf
  split
  · simp
  · split <;> simp

theorem read_snoc (ctx : List Ident) (n : Ident) : read (ctx ++ [n]) =
    (if (read ctx).2 = .type ∧ n ∉ keywords then (read ctx).1 ++ [n] else (read ctx).1, (read ctx).2.snoc n) := by
  rcases read_cases ctx with h | ⟨tp, k, ws, rfl, h1, h2⟩
  · rw [read_type h]
    by_cases hn : n ∈ keywords
    · rw [read_keyword h hn]
      simp [Mode.snoc, hn]
    · rw [read_type]
      · simp [Mode.snoc, hn]
      · intro w hw
        rcases List.mem_append.1 hw with hw | hw
        · exact h w hw
        · rw [List.mem_singleton.1 hw]; exact hn
  · rw [List.append_assoc, List.cons_append, read_keyword h1 h2, read_keyword h1 h2, modeOf_snoc]
    simp [modeOf_ne]

theorem read_full {full : List Ident} (h : (read full).2 = .type) : (read full).1 = full ∧ ∀ w ∈ full, w ∉ keywords := by
  rcases read_cases full with h' | ⟨tp, k, ws, rfl, h1, h2⟩
  · rw [read_type h']
    exact ⟨rfl, h'⟩
  · rw [read_keyword h1 h2] at h
    exact absurd h (modeOf_ne _ _)

theorem plain_snoc {m : Mode} {n : Ident} (h : (m.snoc n).plain) : m.plain := by
  cases m with
  | type => trivial
  | vars ws =>
    intro hv
    exact h (List.mem_append_left _ hv)
  | procs k ws =>
    intro w hw
    exact h w (List.mem_append_left _ hw)

theorem plain_prefix (a : List Ident) : ∀ (b : List Ident), (read (a ++ b)).2.plain → (read a).2.plain := by
  intro b
  induction b generalizing a with
  | nil => intro h; rwa [List.append_nil] at h
  | cons n b ih =>
    intro h
    have := ih (a ++ [n]) (by rwa [List.append_assoc])
    rw [read_snoc] at this
    exact plain_snoc this

/-! ## Following a path -/

/-- the position of the parser inside the blocks with a full name -/
def PosOk (v : Env E C) (ctx : List Ident) (pos : Pos) : Prop :=
  lookup v 0 (read ctx).1 = some pos.cur ∧ pos.pb = (read ctx).2.decl ∧
  pos.vt = (match (read ctx).2 with
    | .vars ws => some (varType ws)
    | _ => none)

theorem PosOk.ext {v v' : Env E C} {ctx : List Ident} {pos : Pos} (h : PosOk v ctx pos) (he : Ext v v') :
    PosOk v' ctx pos := ⟨lookup_ext he _ _ _ h.1, h.2⟩

theorem PosOk.lt {v : Env E C} {ctx : List Ident} {pos : Pos} (h : PosOk v ctx pos) (hv : v.Sound) :
    pos.cur < v.tree.inner.graph.length := (lookup_valid hv _ _ _ hv.1 h.1).1

theorem PosOk.root (v : Env E C) : PosOk v [] .root := ⟨rfl, rfl, rfl⟩

theorem varType_snoc (ws : List Ident) (n : Ident) : varType (ws ++ [n]) =
    if n ∈ flagWords then { varType ws with flags := (varType ws).flags.or (flagsOf [n]) }
    else { varType ws with path := (varType ws).path ++ [n] } := by
  unfold varType
  by_cases h : n ∈ flagWords
  · rw [if_pos h, flagsOf_append, List.filter_append]
    simp [h]
  · rw [if_neg h, flagsOf_append, List.filter_append, flagsOf_other h, or_empty]
    simp [h]

theorem fromName_kind (n : Ident) : ProcKind.fromName n =
    if n = kw "proc" then some .proc else if n = kw "verb" then some .verb else none := rfl

theorem step_ok {v : Env E C} (hv : v.Sound) {ctx : List Ident} {pos : Pos} (h : PosOk v ctx pos) (n : Ident)
    (hp : (read (ctx ++ [n])).2.plain) :
    ∃ v' pos', step v pos n = some (v', pos', []) ∧ PosOk v' (ctx ++ [n]) pos' ∧ v'.Sound ∧ Ext v v' ∧
      place v 0 (read (ctx ++ [n])).1 = some (v', pos'.cur) := by
  obtain ⟨h1, h2, h3⟩ := h
  obtain ⟨hk1, hk2, hk3⟩ := kw_ne
  rw [read_snoc] at hp ⊢
  simp only at hp
  unfold step PosOk
  rw [read_snoc]
  cases hm : (read ctx).2 with
  | type =>
    rw [hm] at hp h2 h3
    simp only at h3
    simp only [Mode.decl] at h2
    simp only [true_and]
    by_cases hk : n ∈ keywords
    · simp only [hk, not_true_eq_false, if_false, Mode.snoc, if_true]
      have hpl := lookup_place _ _ _ h1
      rcases (mem_keywords n).1 hk with rfl | rfl | rfl
      · refine ⟨v, { pos with vt := some {} }, by rw [if_pos rfl], ⟨h1, ?_, ?_⟩, hv, Ext.refl _, hpl⟩
        · simpa [modeOf, Mode.decl] using h2
        · simp [modeOf, varType, flagsOf_nil]
      · refine ⟨v, { pos with pb := some ⟨.proc, false⟩ }, ?_, ⟨h1, ?_, ?_⟩, hv, Ext.refl _, hpl⟩
        · rw [if_neg hk1.symm]
          simp [h3, fromName_kind]
        · simp [modeOf, Mode.decl, hk1.symm]
        · simp [modeOf, h3, hk1.symm]
      · refine ⟨v, { pos with pb := some ⟨.verb, false⟩ }, ?_, ⟨h1, ?_, ?_⟩, hv, Ext.refl _, hpl⟩
        · rw [if_neg hk2.symm]
          simp [h3, fromName_kind, hk3.symm]
        · simp [modeOf, Mode.decl, hk2.symm, hk3.symm]
        · simp [modeOf, h3, hk2.symm, hk3.symm]
    · have hnk := hk
      rw [mem_keywords, not_or, not_or] at hnk
      obtain ⟨v', j, hs, sv, ev, lv⟩ := subtype_ok hv (lookup_valid hv _ _ _ hv.1 h1).1 n
      simp only [hk, not_false_eq_true, if_true, Mode.snoc, if_false]
      refine ⟨v', { pos with cur := j }, ?_, ⟨?_, ?_, ?_⟩, sv, ev, ?_⟩
      · rw [if_neg hnk.1]
        simp [h3, h2, fromName_kind, hnk.2.1, hnk.2.2, hs]
      · rw [lookup_append, lookup_ext ev _ _ _ h1]
        exact lv
      · exact h2
      · exact h3
      · rw [place_append, lookup_place _ _ _ h1]
        simp only [Option.bind_some, place, hs]
  | vars ws =>
    rw [hm] at hp h2 h3
    simp only at h3
    have hnv : n ≠ kw "var" := by
      rintro rfl
      exact hp (by simp)
    simp only [reduceCtorEq, false_and, if_false, Mode.snoc]
    rw [if_neg hnv, h3]
    simp only
    rw [fromName_eq, varType_snoc]
    have hpl := lookup_place _ _ _ h1
    by_cases hf : n ∈ flagWords
    · rw [if_pos hf, if_pos hf]
      exact ⟨v, _, rfl, ⟨h1, h2, rfl⟩, hv, Ext.refl _, hpl⟩
    · rw [if_neg hf, if_neg hf]
      exact ⟨v, _, rfl, ⟨h1, h2, rfl⟩, hv, Ext.refl _, hpl⟩
  | procs k ws =>
    rw [hm] at hp h2 h3
    simp only at h3
    have hnf : n = kw "final" := hp n (by simp)
    have hf : kw "final" ≠ kw "var" ∧ kw "final" ≠ kw "proc" ∧ kw "final" ≠ kw "verb" := by decide +kernel
    simp only [reduceCtorEq, false_and, if_false, Mode.snoc]
    have hpl := lookup_place _ _ _ h1
    subst hnf
    rw [if_neg hf.1, h3]
    simp only
    rw [fromName_kind, if_neg hf.2.1, if_neg hf.2.2, h2]
    simp only [Mode.decl]
    rw [if_pos (by simp [procFlag])]
    refine ⟨v, _, rfl, ⟨h1, ?_, rfl⟩, hv, Ext.refl _, hpl⟩
    simp

theorem steps_ok {v : Env E C} (hv : v.Sound) (ns : List Ident) : ∀ {ctx : List Ident} {pos : Pos}, PosOk v ctx pos →
    (read (ctx ++ ns)).2.plain →
    ∃ v' pos', steps v pos ns = some (v', pos', []) ∧ PosOk v' (ctx ++ ns) pos' ∧ v'.Sound ∧ Ext v v' ∧
      place v 0 (read (ctx ++ ns)).1 = some (v', pos'.cur) := by
  induction ns generalizing v with
  | nil =>
    intro ctx pos h hp
    rw [List.append_nil]
    exact ⟨v, pos, rfl, h, hv, Ext.refl _, lookup_place _ _ _ h.1⟩
  | cons n ns ih =>
    intro ctx pos h hp
    have e : ctx ++ n :: ns = (ctx ++ [n]) ++ ns := by simp
    rw [e] at hp ⊢
    obtain ⟨v1, pos1, s1, p1, so1, e1, pl1⟩ := step_ok hv h n (plain_prefix _ _ hp)
    obtain ⟨v2, pos2, s2, p2, so2, e2, pl2⟩ := ih so1 p1 hp
    refine ⟨v2, pos2, ?_, p2, so2, e1.trans e2, ?_⟩
    · simp only [steps, s1, s2, List.append_nil]
    · -- placing the longer path passes through the shorter one
      obtain ⟨q, hq⟩ : ∃ q, (read ((ctx ++ [n]) ++ ns)).1 = (read (ctx ++ [n])).1 ++ q := by
        clear ih h hp s1 p1 so1 e1 pl1 s2 p2 so2 e2 pl2
        generalize ctx ++ [n] = a
        induction ns generalizing a with
        | nil => exact ⟨[], by simp⟩
        | cons m ms ih =>
          have em : a ++ m :: ms = (a ++ [m]) ++ ms := by simp
          obtain ⟨q, hq⟩ := ih (a := a ++ [m]) (by simp)
          rw [em, hq, read_snoc]
          simp only
          split
          · exact ⟨m :: q, by simp⟩
          · exact ⟨q, rfl⟩
      rw [hq] at pl2 ⊢
      rw [place_append] at pl2 ⊢
      rw [pl1]
      rw [lookup_place _ _ _ p1.1] at pl2
      exact pl2

end Verif.Decl
